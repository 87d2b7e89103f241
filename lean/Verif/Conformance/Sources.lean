import Verif.Sources.Rollback
import Verif.Sources.Time
import Verif.Json.Types
import Verif.Conformance.Multiverse

/-!
# The tests of the sources, run on the model

The tests of `/repo/blockchain-source/src/`, and those of `/repo/multiverse/tests/`. Sets are iterated in two orders. They
are tests of the model, not theorems about it.
-/

namespace Verif.Conformance.Sources

open Verif.Multiverse Verif.Sources Verif.Conformance.Multiverse

/-- `next_from` of the tests, multiverse/mod.rs:270-276: a block's own id. -/
def after (v : Block) : Option Key := some v.id

/-- The two orders of sets. -/
def orders : List Orders := [⟨id, id, id⟩, ⟨List.reverse, List.reverse, List.reverse⟩]

def name (n : Nat) : Key := k s!"s{n}"

/-- `linear_chain`, multiverse/mod.rs:307-318. -/
def linear (n : Nat) : List Block := (List.range n).map (fun i => ⟨name (i + 1), name i, i + 1, 0⟩)

/-- The test source, multiverse/mod.rs:278-305: the block that follows the first position. -/
def follows (c : List Block) (ps : List Key) : Except Unit (Option Ev) :=
  .ok ((match ps with
    | [] => c.head?
    | p :: _ => c.find? (fun b => b.parent = p)).map Ev.block)

/-- The number of the block in an answer. -/
def number : Except SrcErr (Option Ev) → Option Nat
  | .ok (some (.block v)) => some v.number
  | _ => none

/-- `multiverse_source_filters_unstable_blocks_linear_blockchain`, multiverse/mod.rs:320-348: `n` pulls, each from the block
last received. -/
def pulls (o : Orders) (c : List Block) : Nat → MSrc → Option Key → List (Option Nat)
  | 0, _, _ => []
  | n + 1, s, from' =>
    let r := s.pull after o from' (follows c)
    number r.res :: pulls o c n r.src (advance after from' (released r.res))

example : ∀ o ∈ orders, pulls o (linear 6) 7 ⟨temporary, 3, none⟩ none =
    [none, none, none, some 1, some 2, some 3, none] := by decide +kernel

/-- `multiverse_source_repeat_pull`, multiverse/mod.rs:350-377: from the third block on each pull is repeated. -/
def repeated (o : Orders) (c : List Block) : Nat → MSrc → Option Key → List (Bool × Option Nat)
  | 0, _, _ => []
  | n + 1, s, from' =>
    let r := s.pull after o from' (follows c)
    let r2 := r.src.pull after o from' (follows c)
    (decide (number r.res = number r2.res), number r2.res) :: repeated o c n r2.src (advance after from' (released r2.res))

example : ∀ o ∈ orders, repeated o (linear 6) 3
    ((List.range 3).foldl (fun (s : MSrc) _ => (s.pull after o none (follows (linear 6))).src) ⟨temporary, 3, none⟩) none =
    [(true, some 1), (true, some 2), (true, some 3)] := by decide +kernel

/-- `add_fork`, multiverse/rollback.rs:262-286. -/
def fork (l : List Block) (length point : Nat) : List Block :=
  l ++ (List.range (length - point + 1)).map (fun i =>
    ⟨name (l.length + i), name (if i = 0 then point else l.length + i - 1), l.length + i - point, 0⟩)

/-- `forking_chain`, multiverse/rollback.rs:294-302. -/
def forking (n : Nat) : List Block := fork (fork (fork [] n 0) n 3) n 4

/-- The events of `generates_rollback_event`, multiverse/rollback.rs:304-329: pulls from `s0` until there is nothing, of an
inner source that delivers the blocks in turn. -/
def drain (o : Orders) : Nat → FSrc Key → List Block → Except FErr (List (FEv Key))
  | 0, _, _ => .error .hang
  | n + 1, s, bs =>
    let r := s.pull after o (some (name 0)) (fun _ => .ok (bs.head?.map Ev.block))
    match r.res with
    | .error e => .error e
    | .ok none => .ok []
    | .ok (some e) => (drain o n r.src (if r.asked.isSome then bs.tail else bs)).map (e :: ·)

/-- What the test checks of the events: each block has the parent expected, which is the block before it or the one of
the rollback before it. -/
def fits : Key → List (FEv Key) → Bool
  | _, [] => true
  | p, .inner (.block v) :: es => decide (v.parent = p) && fits v.id es
  | p, .inner (.tip _) :: es => fits p es
  | _, .rollback p :: es => fits p es

/-- `generates_rollback_event`, multiverse/rollback.rs:304-329. All three branches are delivered in full, with a rollback before
each; the first block is its own parent. -/
example : ∀ o ∈ orders, (match drain o 40 ⟨temporary, 3, none, none, []⟩ (forking 6) with
    | .ok es => fits (name 0) es && decide (es.length = 18)
    | .error _ => false) = true := by decide +kernel

/-! ## cardano/time.rs -/

/-- `absolute_slot_to_epoch_mainnet`, time.rs:84-121. -/
example : ∀ e ∈ [(4492800 - 1, none), (4492800, some 208), (4492840, some 208), (4492800 + 432000 - 1, some 208),
    (4492800 + 432000, some 209), (97507251, some 423), (99406785, some 427), (99100793, some 426), (99100852, some 427)],
    (absoluteSlotToEpoch shelleyMainnet e.1).toOption = some e.2 := by decide +kernel

example : (byronAbsolute 4 6195).toOption = some 92595 ∧
    (absoluteSlotToRelative shelleyMainnet 99100852).toOption = some (some 52) := by decide +kernel

/-- `absolute_slot_to_epoch_preprod`, time.rs:123-137. -/
example : ∀ e ∈ [(33389374, 81), (33350429, 81), (33346852, 80), (33350398, 80), (518340, 4)],
    (absoluteSlotToEpoch shelleyPreprod e.1).toOption = some (some e.2) := by decide +kernel

example : (computeTimestamp shelleyPreprod 33350429).toOption = some 1689033629 := by decide +kernel

/-- `absolute_slot_to_epoch_preview`, time.rs:139-163. -/
example : ∀ e ∈ [(24317818, 281, 39418), (24278443, 281, 43), (24278356, 280, 86356), (100, 0, 100)],
    (absoluteSlotToEpoch shelleyPreview e.1).toOption = some (some e.2.1) ∧
      (absoluteSlotToRelative shelleyPreview e.1).toOption = some (some e.2.2) := by decide +kernel

example : (computeTimestamp shelleyPreview 24278356).toOption = some 1690934356 := by decide +kernel

/-! ## multiverse/tests/best_block_selection_rule.rs -/

open Verif.Json in
/-- `encode`, best_block_selection_rule.rs:4-17. -/
example : write (writeRule (.longestChain ⟨1, by decide⟩ ⟨2, by decide⟩)) =
    "{\"rule\":\"LongestChain\",\"depth\":1,\"age_gap\":2}".toList := by decide +kernel

open Verif.Json in
/-- `decode`, best_block_selection_rule.rs:19-35. -/
example : (readDoc "{\"rule\":\"LongestChain\",\"depth\":1,\"age_gap\":2}".toList).bind readRule =
    some (.longestChain ⟨1, by decide⟩ ⟨2, by decide⟩) := by decide +kernel

end Verif.Conformance.Sources
