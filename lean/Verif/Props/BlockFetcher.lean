import Verif.Sources.BlockFetcher
import Verif.Props.CoreNumbers

/-!
# The tool `oura-block-fetcher` (C90)
-/

namespace Verif.Props

open Verif Verif.Core Verif.Sources.BlockFetcher

/-! ### Specification -/

/-- A block, with its bytes. -/
structure Fetched where
  number : U64
  hash : List Char
  slot : U64
  cbor : List Char
deriving DecidableEq

/-- The line of a block: "Block #8, point: cc@140, raw cbor hex: 8202". -/
def Fetched.line (b : Fetched) : List Char :=
  "Block #".toList ++ b.number.display ++ ", point: ".toList ++ b.hash ++ "@".toList ++ b.slot.display ++ ", raw cbor hex: ".toList ++ b.cbor

def Fetched.ev (b : Fetched) : Ev := .block ⟨b.number, b.hash, b.slot, some b.cbor⟩

/-- The events of a node that is followed: the number the next block will have, the blocks since the start that are on its chain, and
what it has sent. A rollback takes blocks away, perhaps all since the start. -/
inductive Follow : Nat → List Fetched → List Ev → Prop where
  | start (next : Nat) : Follow next [] []
  | block {next : Nat} {chain : List Fetched} {es : List Ev} (b : Fetched) : Follow next chain es → b.number.val = next →
      Follow (next + 1) (chain ++ [b]) (es ++ [b.ev])
  | rollback {next : Nat} {chain : List Fetched} {es : List Ev} (next' : Nat) (slot : U64) (hash : List Char) :
      Follow next chain es → next' ≤ next →
      Follow next' (chain.filter (fun b => b.number.val < next')) (es ++ [.rollback slot hash])
  | other {next : Nat} {chain : List Fetched} {es : List Ev} : Follow next chain es → Follow next chain (es ++ [.other])

/-- How the lines can be read: a block replaces all with its number or a larger one. -/
def readLines (bs : List Fetched) : List Fetched :=
  bs.foldl (fun l b => l.filter (fun c => c.number.val < b.number.val) ++ [b]) []

/-! ### Lines -/

theorem fetched_line (b : Fetched) : b.line = Sources.BlockFetcher.line b.number b.hash b.slot b.cbor := by
  unfold Fetched.line Sources.BlockFetcher.line
  simp only [List.append_assoc]
  rfl

theorem showNat_chars (n : Nat) : ∀ c ∈ showNat n, 48 ≤ c.toNat ∧ c.toNat ≤ 57 := by
  obtain ⟨ds, h1, _⟩ := showNat_mapM n
  have : ∀ (s : List Char) (ds : List Nat), s.mapM toDigit = some ds → ∀ c ∈ s, 48 ≤ c.toNat ∧ c.toNat ≤ 57 := by
    intro s
    induction s with
    | nil => intro _ _ c hc; cases hc
    | cons a s ih =>
      intro ds h c hc
      rw [List.mapM_cons] at h
      cases ha : toDigit a with
      | none => rw [ha] at h; cases h
      | some d =>
        cases hs : s.mapM toDigit with
        | none => rw [ha, hs] at h; cases h
        | some ds' =>
          rcases List.mem_cons.mp hc with rfl | hc
          · unfold toDigit at ha
            split at ha
            · assumption
            · cases ha
          · exact ih ds' hs c hc
  exact this _ _ h1

theorem display_inj {a b : U64} (h : a.display = b.display) : a = b := by
  have h1 := C29_round_trip a
  rw [h, C29_round_trip b] at h1
  cases a
  cases b
  cases Except.ok.inj h1
  rfl

theorem cut_inj {c : Char} : ∀ {a b x y : List Char}, c ∉ a → c ∉ b → a ++ c :: x = b ++ c :: y → a = b ∧ x = y
  | [], [], _, _, _, _, h => ⟨rfl, (List.cons.inj h).2⟩
  | [], d :: b, _, _, _, hb, h => absurd (by rw [(List.cons.inj h).1]; exact List.mem_cons_self ..) hb
  | d :: a, [], _, _, ha, _, h => absurd (by rw [← (List.cons.inj h).1]; exact List.mem_cons_self ..) ha
  | d :: a, e :: b, x, y, ha, hb, h => by
    obtain ⟨h1, h2⟩ := List.cons.inj h
    obtain ⟨h3, h4⟩ := cut_inj (fun hm => ha (List.mem_cons_of_mem _ hm)) (fun hm => hb (List.mem_cons_of_mem _ hm)) h2
    exact ⟨by rw [h1, h3], h4⟩

/-! ## C90 -/

/-- A line says which block it is: number, slot, hash and bytes can be read from it, for hashes without "@". -/
theorem C90_line (a b : Fetched) (ha : '@' ∉ a.hash) (hb : '@' ∉ b.hash) (h : a.line = b.line) : a = b := by
  have hd : ∀ (n : U64) (c : Char), (c.toNat < 48 ∨ 57 < c.toNat) → c ∉ n.display := by
    intro n c hc hm
    have := showNat_chars _ c hm
    omega
  rw [fetched_line, fetched_line] at h
  unfold Sources.BlockFetcher.line at h
  have h := List.append_cancel_left h
  simp only [List.append_assoc] at h
  have h1 := cut_inj (c := ',') (x := " point: ".toList ++ (a.hash ++ '@' :: (a.slot.display ++ (", raw cbor hex: ".toList ++ a.cbor))))
    (y := " point: ".toList ++ (b.hash ++ '@' :: (b.slot.display ++ (", raw cbor hex: ".toList ++ b.cbor))))
    (hd a.number _ (by decide)) (hd b.number _ (by decide)) h
  have h2 := cut_inj ha hb (List.append_cancel_left h1.2)
  have h3 := cut_inj (c := ',') (x := " raw cbor hex: ".toList ++ a.cbor) (y := " raw cbor hex: ".toList ++ b.cbor)
    (hd a.slot _ (by decide)) (hd b.slot _ (by decide)) h2.2
  have h4 := List.append_cancel_left h3.2
  cases a
  cases b
  simp only at h1 h2 h3 h4
  rw [display_inj h1.1, h2.1, display_inj h3.1, h4]

/-- The blocks among events, those without bytes too. -/
def blocksOf (es : List Ev) : List Rec :=
  es.filterMap (fun | .block r => some r | _ => none)

theorem loop_filter : ∀ es : List Ev, tool es = loop es
  | [] => rfl
  | .block r :: es => by
    have ih := loop_filter es
    unfold tool at ih ⊢
    rw [List.filter_cons_of_pos (by rfl)]
    simp only [loop, ih]
  | .rollback _ _ :: es => by
    have ih := loop_filter es
    unfold tool at ih ⊢
    rw [List.filter_cons_of_pos (by rfl)]
    simp only [loop, ih]
  | .other :: es => by
    have ih := loop_filter es
    unfold tool at ih ⊢
    rw [List.filter_cons_of_neg (by decide)]
    simp only [loop, ih]

/-- Whatever the events: the lines are those of the blocks, in their order and without gap, up to the first block that came without its
bytes; there, and only there, the tool ends with an error. -/
theorem C90_lines (es : List Ev) :
    ∃ bs : List Fetched, (tool es).1 = bs.map Fetched.line ∧
      (((tool es).2 = false ∧ blocksOf es = bs.map (fun b => ⟨b.number, b.hash, b.slot, some b.cbor⟩)) ∨
       ((tool es).2 = true ∧ ∃ r rest, r.cbor = none ∧
         blocksOf es = bs.map (fun b => ⟨b.number, b.hash, b.slot, some b.cbor⟩) ++ r :: rest)) := by
  rw [loop_filter]
  induction es with
  | nil => exact ⟨[], rfl, Or.inl ⟨rfl, rfl⟩⟩
  | cons e es ih =>
    cases e with
    | rollback s h => exact ih
    | other => exact ih
    | block r =>
      obtain ⟨n, h, s, c⟩ := r
      cases c with
      | none => exact ⟨[], rfl, Or.inr ⟨rfl, _, blocksOf es, rfl, rfl⟩⟩
      | some c =>
        obtain ⟨bs, h1, h2⟩ := ih
        refine ⟨⟨n, h, s, c⟩ :: bs, ?_, ?_⟩
        · show _ :: (loop es).1 = _
          rw [h1, List.map_cons, fetched_line]
        · rcases h2 with ⟨k1, k2⟩ | ⟨k1, r, rest, k2, k3⟩
          · refine Or.inl ⟨k1, ?_⟩
            show _ :: blocksOf es = _
            rw [k2]
            rfl
          · refine Or.inr ⟨k1, r, rest, k2, ?_⟩
            show _ :: blocksOf es = _
            rw [k3]
            rfl

/-! ### Following a node -/

theorem loop_append_ok {es : List Ev} {ls : List (List Char)} (h : loop es = (ls, false)) (fs : List Ev) :
    loop (es ++ fs) = (ls ++ (loop fs).1, (loop fs).2) := by
  induction es generalizing ls with
  | nil => cases h; rfl
  | cons e es ih =>
    cases e with
    | rollback s h' => exact ih h
    | other => exact ih h
    | block r =>
      obtain ⟨n, h', s, c⟩ := r
      cases c with
      | none => cases h
      | some c =>
        have h1 : loop es = ((loop es).1, false) := by
          have := congrArg Prod.snd h
          exact Prod.ext rfl this
        have h2 := congrArg Prod.fst h
        have h3 := ih h1
        show (_ :: (loop (es ++ fs)).1, (loop (es ++ fs)).2) = _
        rw [h3]
        simp only [loop] at h2
        rw [← h2]
        rfl

theorem follow_lt {next : Nat} {chain : List Fetched} {es : List Ev} (h : Follow next chain es) : ∀ b ∈ chain, b.number.val < next := by
  induction h with
  | start => intro b hb; cases hb
  | block b _ hn ih =>
    intro c hc
    rcases List.mem_append.mp hc with hc | hc
    · exact Nat.lt_succ_of_lt (ih c hc)
    · rw [List.mem_singleton.mp hc, hn]
      exact Nat.lt_succ_self _
  | rollback n' s hh _ hle ih =>
    intro c hc
    exact of_decide_eq_true (List.mem_filter.mp hc).2
  | other _ ih => exact ih

/-- What is printed, read as `readLines` says, always contains the chain: all of its blocks are those with a number below the next. -/
theorem follow_read {next : Nat} {chain : List Fetched} {es : List Ev} (h : Follow next chain es) :
    ∃ bs : List Fetched, loop es = (bs.map Fetched.line, false) ∧
      (readLines bs).filter (fun b => b.number.val < next) = chain := by
  induction h with
  | start => exact ⟨[], rfl, rfl⟩
  | @block next chain es b _ hn ih =>
    obtain ⟨bs, h1, h2⟩ := ih
    refine ⟨bs ++ [b], ?_, ?_⟩
    · rw [loop_append_ok h1, List.map_append, List.map_singleton, fetched_line]
      rfl
    · unfold readLines at h2 ⊢
      rw [List.foldl_append]
      simp only [List.foldl_cons, List.foldl_nil]
      rw [hn, h2, List.filter_append]
      rw [List.filter_cons_of_pos (by simp [hn]), List.filter_nil]
      congr 1
      rw [← h2, List.filter_filter]
      congr 1
      funext c
      by_cases hc : c.number.val < next
      · simp [hc, Nat.lt_succ_of_lt hc]
      · simp [hc]
  | @rollback next chain es n' s hh _ hle ih =>
    obtain ⟨bs, h1, h2⟩ := ih
    refine ⟨bs, ?_, ?_⟩
    · rw [loop_append_ok h1]
      simp [loop]
    · rw [← h2, List.filter_filter]
      congr 1
      funext c
      by_cases hc : c.number.val < n'
      · simp [hc, Nat.lt_of_lt_of_le hc hle]
      · simp [hc]
  | @other next chain es _ ih =>
    obtain ⟨bs, h1, h2⟩ := ih
    refine ⟨bs, ?_, h2⟩
    rw [loop_append_ok h1]
    simp [loop]

/-- Following a node: the tool never ends with an error, and when the node has just sent a block, the lines, read so that a block replaces
all with its number or a larger one, are the blocks of the node's chain since the start. -/
theorem C90_chain {next : Nat} {chain : List Fetched} {es : List Ev} (h : Follow next chain es) (b : Fetched)
    (hb : b.number.val = next) :
    ∃ bs : List Fetched, tool (es ++ [b.ev]) = (bs.map Fetched.line, false) ∧ readLines bs = chain ++ [b] := by
  obtain ⟨bs, h1, h2⟩ := follow_read h
  refine ⟨bs ++ [b], ?_, ?_⟩
  · rw [loop_filter, loop_append_ok h1, List.map_append, List.map_singleton, fetched_line]
    rfl
  · unfold readLines at h2 ⊢
    rw [List.foldl_append]
    simp only [List.foldl_cons, List.foldl_nil]
    rw [hb, h2]

/-- At any moment: the blocks of the node's chain are those of the lines, so read, that have not been rolled back since. -/
theorem C90_chain_partial {next : Nat} {chain : List Fetched} {es : List Ev} (h : Follow next chain es) :
    ∃ bs : List Fetched, tool es = (bs.map Fetched.line, false) ∧
      readLines bs = chain ++ (readLines bs).filter (fun b => next ≤ b.number.val) := by
  obtain ⟨bs, h1, h2⟩ := follow_read h
  refine ⟨bs, by rw [loop_filter]; exact h1, ?_⟩
  rw [← h2]
  have hs : ∀ bs : List Fetched, (readLines bs).Pairwise (fun a b => a.number.val < b.number.val) := by
    intro bs
    unfold readLines
    have : ∀ (bs l : List Fetched), l.Pairwise (fun a b => a.number.val < b.number.val) →
        (bs.foldl (fun l b => l.filter (fun c => c.number.val < b.number.val) ++ [b]) l).Pairwise
          (fun a b => a.number.val < b.number.val) := by
      intro bs
      induction bs with
      | nil => intro l h; exact h
      | cons b bs ih =>
        intro l h
        refine ih _ (List.pairwise_append.mpr ⟨h.filter _, List.pairwise_singleton .., ?_⟩)
        intro a ha c hc
        rw [List.mem_singleton.mp hc]
        exact of_decide_eq_true (List.mem_filter.mp ha).2
    exact this bs [] List.Pairwise.nil
  have hsplit : ∀ l : List Fetched, l.Pairwise (fun a b => a.number.val < b.number.val) →
      l = l.filter (fun b => b.number.val < next) ++ l.filter (fun b => next ≤ b.number.val) := by
    intro l
    induction l with
    | nil => intro _; rfl
    | cons a l ih =>
      intro h
      obtain ⟨ha, hl⟩ := List.pairwise_cons.mp h
      by_cases hn : a.number.val < next
      · rw [List.filter_cons_of_pos (by simpa using hn), List.filter_cons_of_neg (by simpa using hn), List.cons_append, ← ih hl]
      · have hnone : l.filter (fun b => decide (b.number.val < next)) = [] := by
          rw [List.filter_eq_nil_iff]
          intro c hc
          have := ha c hc
          simp only [decide_eq_true_eq]
          omega
        have hall : l.filter (fun b => decide (next ≤ b.number.val)) = l := by
          rw [List.filter_eq_self]
          intro c hc
          have := ha c hc
          simp only [decide_eq_true_eq]
          omega
        rw [List.filter_cons_of_neg (by simpa using hn), List.filter_cons_of_pos (by simpa using Nat.le_of_not_lt hn), hnone, hall]
        rfl
  exact hsplit _ (hs bs)

/-- Two blocks, and a third that replaces the second. -/
def fetchedA : Fetched := ⟨⟨7, by decide⟩, "aa".toList, ⟨100, by decide⟩, "8200".toList⟩
def fetchedB : Fetched := ⟨⟨8, by decide⟩, "bb".toList, ⟨120, by decide⟩, "8201".toList⟩
def fetchedC : Fetched := ⟨⟨8, by decide⟩, "cc".toList, ⟨140, by decide⟩, "8202".toList⟩

theorem follow_sample : Follow 8 [fetchedA] [fetchedA.ev, fetchedB.ev, .rollback ⟨100, by decide⟩ "aa".toList] :=
  Follow.rollback 8 ⟨100, by decide⟩ "aa".toList (Follow.block fetchedB (Follow.block fetchedA (Follow.start 7) rfl) rfl) (by decide)

/-- After a rollback, until the next block, the lines show blocks that are no longer on the node's chain: rollbacks are received, and not
printed. -/
theorem C90_rollback_false : ¬ ∀ (next : Nat) (chain : List Fetched) (es : List Ev), Follow next chain es →
    ∀ bs : List Fetched, tool es = (bs.map Fetched.line, false) → readLines bs = chain := by
  intro h
  have := h 8 [fetchedA] _ follow_sample [fetchedA, fetchedB] (by decide +kernel)
  revert this
  decide +kernel

/-- `C90_chain`, on a rollback and the block that follows it; and the line. -/
example : readLines [fetchedA, fetchedB, fetchedC] = [fetchedA, fetchedC] ∧
    tool [fetchedA.ev, .other, fetchedB.ev, .rollback ⟨100, by decide⟩ "aa".toList, fetchedC.ev] =
      ([fetchedA, fetchedB, fetchedC].map Fetched.line, false) ∧
    fetchedC.line = "Block #8, point: cc@140, raw cbor hex: 8202".toList := by decide +kernel

example : ∃ bs : List Fetched, tool ([fetchedA.ev, fetchedB.ev, .rollback ⟨100, by decide⟩ "aa".toList] ++ [fetchedC.ev]) =
    (bs.map Fetched.line, false) ∧ readLines bs = [fetchedA] ++ [fetchedC] := C90_chain follow_sample fetchedC rfl

/-- `C90_lines`, on a block without bytes. -/
example : tool [fetchedA.ev, .block ⟨⟨8, by decide⟩, [], ⟨9, by decide⟩, none⟩, fetchedC.ev] = ([fetchedA.line], true) := by decide +kernel

end Verif.Props
