import Verif.Ilm.Model

/-!
# Histories and their specification

The map is the list of all `(key, value)` appended, and the list of the keys recorded in the index with
their positions, newest first. Iterators are positions.
-/

namespace Verif.Ilm

open Verif.Fraos

variable {K V : Type}

/-- Calls. `iterFrom` and `iter` give the next free iterator number, `next` advances an iterator. -/
inductive MOp (K V : Type) where
  | append (k : K) (v : V)
  | get (k : K)
  | contains (k : K)
  | isEmpty
  | last
  | iter
  | iterFrom (k : K)
  | next (it : Nat)
  | getNext (k : Option K)
  | reopen (indexed : Bool)

/-- Answers. -/
inductive MResp (V : Type) where
  | done (r : Except MErr Unit)
  | value (r : Except MErr (Option V))
  | flag (r : Except MErr Bool)
  | started (r : Except MErr Bool)
  | item (r : Option (Except MErr V))
  | noSuchIterator
  | opened (r : Except Err Unit)
deriving DecidableEq

/-- State of the specification. -/
structure MSpec (K V : Type) where
  log : List (K × V)
  journal : List (K × Nat)
  indexed : Bool
  its : List Nat

/-- Value at a position. -/
def MSpec.at_ (s : MSpec K V) (i : Nat) : Option V := s.log[i]?.map Prod.snd

/-- Value at a position, as an iterator answers. -/
def MSpec.item (s : MSpec K V) (i : Nat) : Option (Except MErr V) := (s.at_ i).map .ok

/-- A call that needs the index and the encoding of `k`. -/
def MSpec.keyed {α : Type} (c : Codec K V) (s : MSpec K V) (k : K) (x : α) : Except MErr α :=
  if s.indexed then (if (c.encK k).isSome then .ok x else .error .encode) else .error .noIndex

/-- An iterator is started. -/
def MSpec.start (s : MSpec K V) : Except MErr (Option Nat) → MSpec K V
  | .ok (some i) => { s with its := s.its ++ [i] }
  | _ => s

/-- The specification. -/
def mSpecStep [DecidableEq K] (c : Codec K V) (onDisk : Bool) (s : MSpec K V) : MOp K V → MResp V × MSpec K V
  | .append k v =>
    if s.indexed then
      if (c.encK k).isSome ∧ (c.encV v).isSome then
        (.done (.ok ()), { s with log := s.log ++ [(k, v)], journal := (k, s.log.length) :: s.journal })
      else (.done (.error .encode), s)
    else (.done (.error .noIndex), s)
  | .get k => (.value (s.keyed c k ((s.journal.lookup k).bind s.at_)), s)
  | .contains k => (.flag (s.keyed c k ((s.journal.lookup k).bind s.at_).isSome), s)
  | .isEmpty => (.flag (if s.indexed then .ok s.journal.isEmpty else .error .noIndex), s)
  | .last => (.value (.ok (s.log.getLast?.map Prod.snd)), s)
  | .iter => (.started (.ok true), { s with its := s.its ++ [0] })
  | .iterFrom k =>
    (.started (s.keyed c k (s.journal.lookup k).isSome), s.start (s.keyed c k (s.journal.lookup k)))
  | .next it =>
    match s.its[it]? with
    | none => (.noSuchIterator, s)
    | some i =>
      (.item (s.item i), { s with its := s.its.set it (if i < s.log.length then i + 1 else i) })
  | .getNext none => (.value (.ok (s.at_ 0)), s)
  | .getNext (some k) => (.value (s.keyed c k ((s.journal.lookup k).bind (fun i => s.at_ (i + 1)))), s)
  | .reopen indexed =>
    (.opened (.ok ()), ⟨if onDisk then s.log else [], if onDisk then s.journal else [], indexed, []⟩)

/-- One call on the model of the code. -/
def mStep (p : Params) (c : Codec K V) (onDisk : Bool) (m : ILM) (its : List Nat) : MOp K V →
    MResp V × ILM × List Nat
  | .append k v => (.done (append p c m k v).1, (append p c m k v).2, its)
  | .get k => (.value (get p c m k), m, its)
  | .contains k => (.flag (contains p c m k), m, its)
  | .isEmpty => (.flag (isEmpty m), m, its)
  | .last => (.value (last p c m), m, its)
  | .iter => (.started (.ok true), m, its ++ [0])
  | .iterFrom k =>
    match iterFrom c m k with
    | .error e => (.started (.error e), m, its)
    | .ok none => (.started (.ok false), m, its)
    | .ok (some i) => (.started (.ok true), m, its ++ [i])
  | .next it =>
    match its[it]? with
    | none => (.noSuchIterator, m, its)
    | some i => (.item (next p c m i).1, m, its.set it (next p c m i).2)
  | .getNext k => (.value (getNext p c m k), m, its)
  | .reopen indexed =>
    match reopen p m onDisk indexed with
    | .error e => (.opened (.error e), m, [])
    | .ok m1 => (.opened (.ok ()), m1, [])

/-- Answers of the specification to a history. -/
def mSpecRun [DecidableEq K] (c : Codec K V) (onDisk : Bool) : MSpec K V → List (MOp K V) → List (MResp V)
  | _, [] => []
  | s, op :: ops => (mSpecStep c onDisk s op).1 :: mSpecRun c onDisk (mSpecStep c onDisk s op).2 ops

/-- State of the specification after a history. -/
def mSpecAfter [DecidableEq K] (c : Codec K V) (onDisk : Bool) (s : MSpec K V) (ops : List (MOp K V)) :
    MSpec K V :=
  ops.foldl (fun s op => (mSpecStep c onDisk s op).2) s

/-- Answers of the model to a history. -/
def mRun (p : Params) (c : Codec K V) (onDisk : Bool) : ILM → List Nat → List (MOp K V) → List (MResp V)
  | _, _, [] => []
  | m, its, op :: ops =>
    (mStep p c onDisk m its op).1 ::
      mRun p c onDisk (mStep p c onDisk m its op).2.1 (mStep p c onDisk m its op).2.2 ops

/-- State of the model after a history. -/
def mAfter (p : Params) (c : Codec K V) (onDisk : Bool) (m : ILM) (its : List Nat) (ops : List (MOp K V)) :
    ILM × List Nat :=
  ops.foldl (fun s op => (mStep p c onDisk s.1 s.2 op).2) (m, its)

/-- Bytes a call brings to the log. -/
def MOp.bytes (c : Codec K V) : MOp K V → Nat
  | .append _ v => ((c.encV v).getD []).length
  | _ => 0

/-- Bytes of a history. -/
def mBytes (c : Codec K V) (ops : List (MOp K V)) : Nat := (ops.map (MOp.bytes c)).sum

/-- What is assumed of the encoding: values come back, no value is encoded by nothing, and different keys
have different encodings. -/
structure Codec.Lawful (c : Codec K V) : Prop where
  back : ∀ v bs, c.encV v = some bs → c.decV bs = some v
  some_ : ∀ v, c.encV v ≠ some []
  inj : ∀ k k' bs, c.encK k = some bs → c.encK k' = some bs → k = k'

/-- States of histories of calls and crashes of the process, on disk. At a crash at most one append is in
flight (`inFlight`); the log keeps what `Crash` says; the key index comes back as it was at some earlier
time (`lost` of its insertions were not yet on disk). -/
inductive MReached [DecidableEq K] (p : Params) (c : Codec K V) : ILM → MSpec K V → Nat → Prop
  | fresh {m : ILM} {indexed : Bool} : fresh p true indexed = .ok m → MReached p c m ⟨[], [], indexed, []⟩ 0
  | call {m : ILM} {s : MSpec K V} {used : Nat} (op : MOp K V) : MReached p c m s used →
      MReached p c (mStep p c true m s.its op).2.1 (mSpecStep c true s op).2 (used + op.bytes c)
  | crash {m : ILM} {s : MSpec K V} {used j lost : Nat} {indexed : Bool} {fd fi : Blob} {db : DB}
      (inFlight : List (K × V)) : MReached p c m s used → inFlight.length ≤ 1 →
      (∀ x ∈ inFlight, m.indexed = true ∧ (c.encK x.1).isSome ∧ (c.encV x.2).isSome) →
      Crash p m.db (inFlight.map (fun x => (c.encV x.2).getD [])) fd fi j →
      DB.openDB p (some fd) (some fi) true = .ok db →
      MReached p c ⟨db, m.journal.drop lost, indexed⟩
        ⟨s.log ++ inFlight.take j, s.journal.drop lost, indexed, []⟩
        (used + (inFlight.map (fun x => ((c.encV x.2).getD []).length)).sum)

end Verif.Ilm
