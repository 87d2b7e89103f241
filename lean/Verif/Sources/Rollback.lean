import Verif.Sources.Multi

/-!
# The fork handling source

Models `/repo/blockchain-source/src/multiverse/rollback.rs`. As for the multiverse source, the inner source
is a parameter of each pull. What a failing pull leaves behind is not modelled here; see
`Verif/Sources/RefusedFork.lean`.
-/

namespace Verif.Sources

open Verif.Multiverse

variable {P : Type} [DecidableEq P]

/-- `Event`, rollback.rs:11-15. -/
inductive FEv (P : Type) where
  | inner (e : Ev)
  | rollback (p : P)
deriving DecidableEq

/-- Why a pull fails: the inner source failed, a tip is not stored (an error), the multiverse failed, an
`unwrap` or `expect` panics, or a loop does not end. -/
inductive FErr where
  | inner
  | tip
  | store (e : MvErr)
  | panic
  | hang
deriving DecidableEq

/-- `ForkHandlingSource`, rollback.rs:21-28, without the inner source. The vector of events is a stack, here
with the top first. -/
structure FSrc (P : Type) where
  mv : MV
  depth : Nat
  confirmed : Option Key
  last : Option Key
  events : List (FEv P)

/-- `ForkHandlingSource::new`, rollback.rs:31-63. `it` is the order in which the iterator of the multiverse
takes references from sets. -/
def FSrc.new (m : MV) (depth : Nat) (o : Orders) (it : List Ref → List Ref) : Except MvErr (FSrc P) :=
  (m.selectBest (fun _ => false) o.best depth 0).map
    (fun x => ⟨m, depth, x.1.map Ref.key, (m.iter it).getLast?.map Block.id, []⟩)

/-- The positions of the tips, rollback.rs:103-113. -/
def tipChecks (nf : Block → Option P) (m : MV) : List Ref → Except FErr (List P)
  | [] => .ok []
  | r :: rs =>
    match m.get r.key with
    | none => .error .tip
    | some b =>
      match nf b with
      | none => .error .panic
      | some p => (tipChecks nf m rs).map (p :: ·)

/-- The position of the confirmed block, rollback.rs:115-119. -/
def FSrc.confirmedCheck (nf : Block → Option P) (s : FSrc P) : Except FErr (List P) :=
  match s.confirmed with
  | none => .ok []
  | some k =>
    match (s.mv.get k).bind nf with
    | none => .error .panic
    | some p => .ok [p]

/-- The positions to pull from, rollback.rs:100-126. They are a set. -/
def FSrc.request (nf : Block → Option P) (s : FSrc P) (o : Orders) (from' : Option P) : Except FErr (List P) :=
  match tipChecks nf s.mv (o.tips s.mv.tips) with
  | .error e => .error e
  | .ok ps =>
    match s.confirmedCheck nf with
    | .error e => .error e
    | .ok qs => .ok (ps ++ qs ++ from'.toList).dedup

/-- The first loop, rollback.rs:184-187: the stored blocks from `k` backwards. `none` if it takes more steps
than `n`. -/
def walkPrev (m : MV) : Nat → Key → Option (List Key)
  | 0, _ => none
  | n + 1, k =>
    match m.get k with
    | none => some []
    | some b => (walkPrev m n b.parent).map (b.id :: ·)

/-- The second loop, rollback.rs:191-200. -/
def walkNew (nf : Block → Option P) (m : MV) (prev : List Key) : Nat → Key → List (FEv P) →
    Except FErr (List (FEv P))
  | 0, _, _ => .error .hang
  | n + 1, k, st =>
    match m.get k with
    | none => .ok st
    | some b =>
      if b.id ∈ prev then
        match nf b with
        | none => .error .panic
        | some p => .ok (.rollback p :: st)
      else walkNew nf m prev n b.parent (.inner (.block b) :: st)

/-- The stack of events for a block that does not follow the previous one, rollback.rs:182-200. A loop that
takes more steps than there are blocks does not end. -/
def branchEvents (nf : Block → Option P) (m : MV) (previous k : Key) : Except FErr (List (FEv P)) :=
  match walkPrev m (m.all.length + 1) previous with
  | none => .error .hang
  | some prev => walkNew nf m prev (m.all.length + 1) k []

/-- The new value of `confirmed`, rollback.rs:149-156. -/
def newConfirmed (old sel : Option Key) : Option Key :=
  match sel with
  | none => old
  | some k => some k

/-- The events for a new block `v`, the first one on top, rollback.rs:160-216. -/
def newEvents (nf : Block → Option P) (m : MV) (last : Option Key) (from' : Option P) (v : Block) :
    Except FErr (List (FEv P)) :=
  match last with
  | none =>
    match from' with
    | none => .error .panic
    | some p => .ok [.rollback p, .inner (.block v)]
  | some l => if l = v.parent then .ok [.inner (.block v)] else branchEvents nf m l v.id

/-- A new block, rollback.rs:143-218. -/
def FSrc.store (nf : Block → Option P) (s : FSrc P) (o : Orders) (from' : Option P) (v : Block) :
    Except FErr (Option (FEv P)) × FSrc P :=
  match insertAndGc s.mv o s.depth v with
  | .error e => (.error (.store e), s)
  | .ok x =>
    match newEvents nf x.2 s.last from' v with
    | .error e => (.error e, s)
    | .ok [] => (.error .panic, s)
    | .ok (e :: es) => (.ok (some e), ⟨x.2, s.depth, newConfirmed s.confirmed x.1, some v.id, es⟩)

/-- The part of `pull` after the inner source has answered, rollback.rs:128-218. -/
def FSrc.answer (nf : Block → Option P) (s : FSrc P) (o : Orders) (from' : Option P) :
    Except Unit (Option Ev) → Except FErr (Option (FEv P)) × FSrc P
  | .error _ => (.error .inner, s)
  | .ok none => (.ok none, s)
  | .ok (some (.tip n)) => (.ok (some (.inner (.tip n))), s)
  | .ok (some (.block v)) => if (s.mv.get v.id).isSome then (.ok none, s) else s.store nf o from' v

/-- The result of a pull: what is returned, what was asked of the inner source, the source afterwards. -/
structure FPulled (P : Type) where
  res : Except FErr (Option (FEv P))
  asked : Option (List P)
  src : FSrc P

/-- `pull`, rollback.rs:95-219. -/
def FSrc.pull (nf : Block → Option P) (s : FSrc P) (o : Orders) (from' : Option P)
    (resp : List P → Except Unit (Option Ev)) : FPulled P :=
  match s.events with
  | e :: es => ⟨.ok (some e), none, { s with events := es }⟩
  | [] =>
    match s.request nf o from' with
    | .error e => ⟨.error e, none, s⟩
    | .ok ps => ⟨(s.answer nf o from' (resp ps)).1, some ps, (s.answer nf o from' (resp ps)).2⟩

/-! ### A consumer -/

/-- The position after a block of the consumer's chain; the chain begins with the parent of `r`, at `p0`. -/
def pointOf (B : Key → Block) (nf : Block → Option P) (r : Key) (p0 : P) (k : Key) : Option P :=
  if k = (B r).parent then some p0 else nf (B k)

/-- The effect of an event on the consumer's chain (newest first): a block must follow its head; a rollback
must be to a position on the chain. -/
def consume (pt : Key → Option P) (chain : List Key) : FEv P → Option (List Key)
  | .inner (.tip _) => some chain
  | .inner (.block v) => if chain.head? = some v.parent then some (v.id :: chain) else none
  | .rollback p =>
    if ∃ k ∈ chain, pt k = some p then some (chain.dropWhile (fun k => decide (pt k ≠ some p))) else none

/-- The effect of a list of events. -/
def consumeAll (pt : Key → Option P) : List Key → List (FEv P) → Option (List Key)
  | chain, [] => some chain
  | chain, e :: es =>
    match consume pt chain e with
    | none => none
    | some c => consumeAll pt c es

/-- A consumer: its chain, or `none` after an event that does not fit; the blocks the inner source
delivered, newest first; whether something other than the inner source has failed. -/
structure FWorld (P : Type) where
  src : FSrc P
  chain : Option (List Key)
  got : List Block
  failed : Option FErr

/-- What happens: a pull, or the source is stopped and made anew from the database. -/
inductive FAct (P : Type) where
  | pull (o : Orders) (resp : List P → Except Unit (Option Ev))
  | restart (o : Orders) (it : List Ref → List Ref)

/-- The consumer's position: that of the head of its chain. -/
def position (pt : Key → Option P) (chain : Option (List Key)) : Option P :=
  chain.bind (fun c => c.head?.bind pt)

/-- The consumer's chain after a pull. -/
def follow (pt : Key → Option P) (chain : Option (List Key)) : Except FErr (Option (FEv P)) → Option (List Key)
  | .ok (some e) => chain.bind (fun c => consume pt c e)
  | _ => chain

/-- The failure in the result of a pull, if not of the inner source. -/
def ffailure : Except FErr (Option (FEv P)) → Option FErr
  | .ok _ => none
  | .error .inner => none
  | .error e => some e

/-- The source is made anew from the database. -/
def reopenF (m : MV) (depth : Nat) (o : Orders) (it : List Ref → List Ref) : Except FErr (FSrc P) :=
  match loadFrom m.db m.storeFrom with
  | .error e => .error (.store e)
  | .ok m' =>
    match FSrc.new m' depth o it with
    | .error e => .error (.store e)
    | .ok s => .ok s

/-- One action. `pt` gives the positions of the blocks for the consumer. -/
def FWorld.step (pt : Key → Option P) (nf : Block → Option P) (w : FWorld P) : FAct P → FWorld P
  | .pull o resp =>
    let r := w.src.pull nf o (position pt w.chain) resp
    ⟨r.src, follow pt w.chain r.res, heard resp r.asked ++ w.got, (ffailure r.res).or w.failed⟩
  | .restart o it =>
    match reopenF w.src.mv w.src.depth o it with
    | .error e => { w with failed := some e }
    | .ok s => { w with src := s }

/-- A list of actions. -/
def FWorld.run (pt : Key → Option P) (nf : Block → Option P) (w : FWorld P) (as : List (FAct P)) : FWorld P :=
  as.foldl (FWorld.step pt nf) w

/-- A new source over an empty multiverse that stores all blocks, and a consumer at block `k`. -/
def FWorld.start (depth : Nat) (k : Key) : FWorld P :=
  ⟨⟨MV.empty [] 0, depth, none, none, []⟩, some [k], [], none⟩

end Verif.Sources
