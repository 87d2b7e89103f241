import Verif.Multiverse.Model
import Mathlib.Data.List.Dedup

/-!
# The multiverse source

Models `/repo/blockchain-source/src/multiverse/mod.rs`. The inner source is not modelled: what it answers
to a request is a parameter of each pull, an arbitrary function of the positions requested. Positions are
of an arbitrary type `P`, and `nf` gives the position after a block (`GetNextFrom::next_from`). Hash sets
are iterated in arbitrary orders, which are parameters too.
-/

namespace Verif.Sources

open Verif.Multiverse

variable {P : Type} [DecidableEq P]

/-- What the inner source delivers: a block, or a notification that the tip was reached
(`EventObject::is_blockchain_tip`). -/
inductive Ev where
  | block (v : Block)
  | tip (n : Nat)
deriving DecidableEq

/-- Why a pull fails: the inner source failed, a tip has no position, the position is neither the
confirmed block's nor its parent's, or the multiverse failed (`store .panic` is a panic). -/
inductive SrcErr where
  | inner
  | noPoint
  | notContinuous
  | store (e : MvErr)
deriving DecidableEq

/-- The orders in which hash sets are iterated during a pull. -/
structure Orders where
  tips : List Ref → List Ref
  best : List Ref → List Ref
  discard : List Ref → List Ref

/-- All orders list the same references. -/
def Orders.Ok (o : Orders) : Prop :=
  (∀ l, (o.tips l).Perm l) ∧ (∀ l, (o.best l).Perm l) ∧ ∀ l, (o.discard l).Perm l

/-- The loop over the blocks to discard, mod.rs:192-199. The set of discarded references is consumed: the
ones not yet removed are held, and so are those in `keep`. -/
def gc (keep : List Ref) (m : MV) : List Ref → Except MvErr MV
  | [] => .ok m
  | r :: rs =>
    match m.remove (fun a => (keep ++ r :: rs).any (fun x => x.arc == a)) r.key with
    | .error e => .error e
    | .ok x => gc keep x.2 rs

/-- The discarded references in the order of their removal; they are a set. -/
def discardList (o : Orders) (x : Option Ref × List Ref) : List Ref := o.discard x.2.dedup

/-- The first part of `multiverse_insert_and_gc`, mod.rs:178-190: the multiverse with the block, the
selected block and the blocks to discard. -/
def insertAndSelect (m : MV) (o : Orders) (depth : Nat) (v : Block) :
    Except MvErr (MV × Option Ref × List Ref) :=
  match m.insert v with
  | .error e => .error e
  | .ok m1 =>
    match m1.selectBest (fun _ => false) o.best depth 1 with
    | .error e => .error e
    | .ok x => .ok (m1, x.1, discardList o x)

/-- `multiverse_insert_and_gc`, mod.rs:167-202. -/
def insertAndGc (m : MV) (o : Orders) (depth : Nat) (v : Block) : Except MvErr (Option Key × MV) :=
  match insertAndSelect m o depth v with
  | .error e => .error e
  | .ok x =>
    match gc x.2.1.toList x.1 x.2.2 with
    | .error e => .error e
    | .ok m2 => .ok (x.2.1.map Ref.key, m2)

/-- What the database has if the process dies in `multiverse_insert_and_gc` after `n` removals. -/
def insertAndDie (m : MV) (o : Orders) (depth : Nat) (v : Block) (n : Nat) : Except MvErr MV :=
  match insertAndSelect m o depth v with
  | .error e => .error e
  | .ok x => gc (x.2.1.toList ++ x.2.2.drop n) x.1 (x.2.2.take n)

/-- `MultiverseSource`, mod.rs:11-16, without the inner source. -/
structure MSrc where
  mv : MV
  depth : Nat
  confirmed : Option Key

/-- `MultiverseSource::new`, mod.rs:19-47. -/
def MSrc.new (m : MV) (depth : Nat) (o : Orders) : Except MvErr MSrc :=
  (m.selectBest (fun _ => false) o.best depth 0).map (fun x => ⟨m, depth, x.1.map Ref.key⟩)

/-- The positions of the tips, mod.rs:95-102 (`unwrap` panics if a tip is not stored). -/
def tipPoints (nf : Block → Option P) (m : MV) : List Ref → Except SrcErr (List P)
  | [] => .ok []
  | r :: rs =>
    match m.get r.key with
    | none => .error (.store .panic)
    | some b =>
      match nf b with
      | none => .error .noPoint
      | some p => (tipPoints nf m rs).map (p :: ·)

/-- The confirmed block with its position and its parent's position, mod.rs:68-82. -/
def MSrc.confirmedWithParent (nf : Block → Option P) (s : MSrc) : Option (Option P × Block × P) :=
  (s.confirmed.bind s.mv.get).bind (fun b => (nf b).map (fun p => ((s.mv.get b.parent).bind nf, b, p)))

/-- The checks on the position pulled from, mod.rs:104-127: either the confirmed block is returned at once
or the positions to pull from are given. -/
def fromCheck (from' : Option P) (ps : List P) : Option (Option P × Block × P) →
    Except SrcErr (Block ⊕ List P)
  | some (parent, b, p) =>
    if from' = parent then .ok (.inl b)
    else
      match from' with
      | none => .ok (.inr ps)
      | some f => if f = p then .ok (.inr (ps ++ [f])) else .error .notContinuous
  | none => .ok (.inr (ps ++ from'.toList))

/-- The part of `pull` before the inner source is asked, mod.rs:68-129. -/
def MSrc.request (nf : Block → Option P) (s : MSrc) (o : Orders) (from' : Option P) :
    Except SrcErr (Block ⊕ List P) :=
  match tipPoints nf s.mv (o.tips s.mv.tips) with
  | .error e => .error e
  | .ok ps => fromCheck from' ps (s.confirmedWithParent nf)

/-- The end of `pull`, mod.rs:145-163: `sel` is the block now selected, `m` the multiverse. A block that is
not stored makes the code panic. -/
def MSrc.settle (s : MSrc) (m : MV) (sel : Option Key) : Except SrcErr (Option Ev) × MSrc :=
  match sel with
  | none => (.ok none, { s with mv := m })
  | some k =>
    if s.confirmed = some k then (.ok none, { s with mv := m })
    else
      match m.get k with
      | none => (.error (.store .panic), { s with mv := m })
      | some b => (.ok (some (.block b)), ⟨m, s.depth, some k⟩)

/-- A new block, mod.rs:145-163. What a failing multiverse leaves behind is not modelled here; see `MSrc.storeF`. -/
def MSrc.store (s : MSrc) (o : Orders) (v : Block) : Except SrcErr (Option Ev) × MSrc :=
  match insertAndGc s.mv o s.depth v with
  | .error e => (.error (.store e), s)
  | .ok x => s.settle x.2 x.1

/-- The part of `pull` after the inner source has answered, mod.rs:129-163. -/
def MSrc.answer (s : MSrc) (o : Orders) : Except Unit (Option Ev) → Except SrcErr (Option Ev) × MSrc
  | .error _ => (.error .inner, s)
  | .ok none => (.ok none, s)
  | .ok (some (.tip n)) => (.ok (some (.tip n)), s)
  | .ok (some (.block v)) => if (s.mv.get v.id).isSome then (.ok none, s) else s.store o v

/-- The result of a pull: what is returned, what was asked of the inner source, the source afterwards. -/
structure Pulled (P : Type) where
  res : Except SrcErr (Option Ev)
  asked : Option (List P)
  src : MSrc

/-- `pull`, mod.rs:67-164. -/
def MSrc.pull (nf : Block → Option P) (s : MSrc) (o : Orders) (from' : Option P)
    (resp : List P → Except Unit (Option Ev)) : Pulled P :=
  match s.request nf o from' with
  | .error e => ⟨.error e, none, s⟩
  | .ok (.inl b) => ⟨.ok (some (.block b)), none, s⟩
  | .ok (.inr ps) => ⟨(s.answer o (resp ps)).1, some ps, (s.answer o (resp ps)).2⟩

/-- The block in an answer of the inner source. -/
def blockOf : Except Unit (Option Ev) → Option Block
  | .ok (some (.block v)) => some v
  | _ => none

/-- The multiverse in the database if the process dies during a pull, after `n` removals. -/
def MSrc.die (nf : Block → Option P) (s : MSrc) (o : Orders) (from' : Option P)
    (resp : List P → Except Unit (Option Ev)) (n : Nat) : Except MvErr MV :=
  match s.request nf o from' with
  | .ok (.inr ps) =>
    match blockOf (resp ps) with
    | none => .ok s.mv
    | some v => if (s.mv.get v.id).isSome then .ok s.mv else insertAndDie s.mv o s.depth v n
  | _ => .ok s.mv

/-! ### A consumer -/

/-- A consumer of the source: the position after the last block it received (or the one it began with),
the blocks it received, the blocks the inner source delivered, newest first, and whether something other
than the inner source has failed. -/
structure World (P : Type) where
  src : MSrc
  pos : Option P
  out : List Block
  got : List Block
  failed : Option SrcErr

/-- What happens: a pull; the source is stopped and made anew from the database; the process dies during a
pull, after `n` removals from the database, and the source is made anew. -/
inductive Act (P : Type) where
  | pull (o : Orders) (resp : List P → Except Unit (Option Ev))
  | restart (o : Orders)
  | crash (o : Orders) (resp : List P → Except Unit (Option Ev)) (n : Nat) (o' : Orders)

/-- The block that a pull has released. -/
def released : Except SrcErr (Option Ev) → List Block
  | .ok (some (.block v)) => [v]
  | _ => []

/-- The consumer's position after a pull. -/
def advance (nf : Block → Option P) (pos : Option P) : List Block → Option P
  | [] => pos
  | v :: _ => nf v

/-- The block the inner source has delivered during a pull. -/
def heard (resp : List P → Except Unit (Option Ev)) : Option (List P) → List Block
  | none => []
  | some ps => (blockOf (resp ps)).toList

/-- The failure in the result of a pull, if not of the inner source. -/
def failure : Except SrcErr (Option Ev) → Option SrcErr
  | .ok _ => none
  | .error .inner => none
  | .error e => some e

/-- The source is made anew from the database. -/
def reopenSrc (m : MV) (depth : Nat) (o : Orders) : Except SrcErr MSrc :=
  match loadFrom m.db m.storeFrom with
  | .error e => .error (.store e)
  | .ok m' =>
    match MSrc.new m' depth o with
    | .error e => .error (.store e)
    | .ok s => .ok s

/-- The source is replaced by one made anew. -/
def World.renew (w : World P) (m : MV) (o : Orders) : World P :=
  match reopenSrc m w.src.depth o with
  | .error e => { w with failed := some e }
  | .ok s => { w with src := s }

/-- One action. -/
def World.step (nf : Block → Option P) (w : World P) : Act P → World P
  | .pull o resp =>
    let r := w.src.pull nf o w.pos resp
    ⟨r.src, advance nf w.pos (released r.res), w.out ++ released r.res, heard resp r.asked ++ w.got,
      (failure r.res).or w.failed⟩
  | .restart o => w.renew w.src.mv o
  | .crash o resp n o' =>
    let w1 := { w with got := heard resp (w.src.pull nf o w.pos resp).asked ++ w.got }
    match w.src.die nf o w.pos resp n with
    | .error e => { w1 with failed := some (.store e) }
    | .ok m => w1.renew m o'

/-- A list of actions. -/
def World.run (nf : Block → Option P) (w : World P) (as : List (Act P)) : World P := as.foldl (World.step nf) w

/-- A new source over an empty multiverse that stores all blocks, and a consumer at a position. -/
def World.start (depth : Nat) (pos : Option P) : World P :=
  ⟨⟨MV.empty [] 0, depth, none⟩, pos, [], [], none⟩

end Verif.Sources
