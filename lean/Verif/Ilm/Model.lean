import Verif.Fraos.Crash

/-!
# The log with a key index

Models `/repo/indexed-log-map/src/storage.rs`. The CBOR encoding of keys and values (`ciborium`) is a
parameter. The key index (`sled`) is the list of its insertions, newest first: reading a key finds the
newest one. Positions are stored in the index as JSON, that is in decimal.
-/

namespace Verif.Ilm

open Verif.Fraos

/-- Errors of the calls. -/
inductive MErr where
  | noIndex
  | encode
  | decode
  | notInserted
  | index
  | panic
  | storage (e : Err)
deriving DecidableEq

/-- `ciborium::ser::into_writer` and `ciborium::de::from_reader` at the types of keys and values. -/
structure Codec (K V : Type) where
  encK : K → Option (List UInt8)
  encV : V → Option (List UInt8)
  decV : List UInt8 → Option V

/-- Decimal digits, least significant first. -/
def digits (n : Nat) : List UInt8 :=
  if h : n < 10 then [UInt8.ofNat (48 + n)] else UInt8.ofNat (48 + n % 10) :: digits (n / 10)
termination_by n
decreasing_by omega

/-- Value of digits, least significant first. -/
def undigits : List UInt8 → Option Nat
  | [] => some 0
  | d :: ds =>
    if 48 ≤ d.toNat ∧ d.toNat ≤ 57 then (undigits ds).map (fun n => d.toNat - 48 + 10 * n) else none

/-- `serde_json::to_vec` of a `usize`, storage.rs:85-86. -/
def posEnc (n : Nat) : List UInt8 := (digits n).reverse

/-- `serde_json::from_slice` of a `usize`, storage.rs:108-109. Accepts leading zeros, unlike JSON. -/
def posDec (bs : List UInt8) : Option Nat := if bs = [] then none else undigits bs.reverse

/-- `IndexedLogMap`, storage.rs:9-14. `indexed` says whether the key index is open; `journal` are the
insertions into it. -/
structure ILM where
  db : DB
  journal : List (List UInt8 × List UInt8)
  indexed : Bool

variable {K V : Type}

/-- `append`, storage.rs:62-92, where the system may refuse to extend or map the files of the log (`fd`, `fi`) and
to write the key index (`fk`). -/
def appendWith (p : Params) (c : Codec K V) (m : ILM) (fd fi : Faults) (fk : Bool) (k : K) (v : V) :
    Except MErr Unit × ILM :=
  if m.indexed then
    match c.encK k with
    | none => (.error .encode, m)
    | some kb =>
      match c.encV v with
      | none => (.error .encode, m)
      | some vb =>
        match m.db.append p fd fi [vb] with
        | (.error e, db) => (.error (.storage e), { m with db := db })
        | (.ok none, db) => (.error .notInserted, { m with db := db })
        | (.ok (some pos), db) =>
          if fk then (.error .index, { m with db := db })
          else (.ok (), { m with db := db, journal := (kb, posEnc pos) :: m.journal })
  else (.error .noIndex, m)

/-- `append`, storage.rs:62-92, on a system that refuses nothing. -/
def append (p : Params) (c : Codec K V) (m : ILM) (k : K) (v : V) : Except MErr Unit × ILM :=
  appendWith p c m Faults.none Faults.none false k v

/-- `iter_from`, storage.rs:94-119: where the iterator starts. -/
def iterFrom (c : Codec K V) (m : ILM) (k : K) : Except MErr (Option Nat) :=
  if m.indexed then
    match c.encK k with
    | none => .error .encode
    | some kb =>
      match m.journal.lookup kb with
      | none => .ok none
      | some bs =>
        match posDec bs with
        | none => .error .panic
        | some pos => .ok (some pos)
  else .error .noIndex

/-- The closure mapped over the records, storage.rs:116-118 and 156-158. `none` ends the iteration. -/
def item (c : Codec K V) : Except Err (Option (List UInt8)) → Option (Except MErr V)
  | .error e => some (.error (.storage e))
  | .ok none => none
  | .ok (some bs) =>
    match c.decV bs with
    | none => some (.error .decode)
    | some v => some (.ok v)

/-- `next()` of an iterator at `pos`: the item and the new position. -/
def next (p : Params) (c : Codec K V) (m : ILM) (pos : Nat) : Option (Except MErr V) × Nat :=
  (item c (m.db.next p pos).1, (m.db.next p pos).2)

/-- An item as a result, storage.rs:127-133 and 185-205. -/
def itemResult : Option (Except MErr V) → Except MErr (Option V)
  | none => .ok none
  | some (.ok v) => .ok (some v)
  | some (.error e) => .error e

/-- `get`, storage.rs:121-134. -/
def get (p : Params) (c : Codec K V) (m : ILM) (k : K) : Except MErr (Option V) :=
  match iterFrom c m k with
  | .error e => .error e
  | .ok none => .ok none
  | .ok (some pos) => itemResult (next p c m pos).1

/-- `contains`, storage.rs:136-141. -/
def contains (p : Params) (c : Codec K V) (m : ILM) (k : K) : Except MErr Bool :=
  match get p c m k with
  | .error e => .error e
  | .ok v => .ok v.isSome

/-- `is_empty`, storage.rs:143-148. -/
def isEmpty (m : ILM) : Except MErr Bool :=
  if m.indexed then .ok m.journal.isEmpty else .error .noIndex

/-- `last`, storage.rs:161-175. -/
def last (p : Params) (c : Codec K V) (m : ILM) : Except MErr (Option V) :=
  match m.db.last p with
  | .error e => .error (.storage e)
  | .ok none => .ok none
  | .ok (some bs) =>
    match c.decV bs with
    | none => .error .decode
    | some v => .ok (some v)

/-- `get_next`, storage.rs:178-205. -/
def getNext (p : Params) (c : Codec K V) (m : ILM) : Option K → Except MErr (Option V)
  | none => itemResult (next p c m 0).1
  | some k =>
    match iterFrom c m k with
    | .error e => .error e
    | .ok none => .ok none
    | .ok (some pos) =>
      match next p c m pos with
      | (none, _) => .ok none
      | (some _, pos1) => itemResult (next p c m pos1).1

/-- `new` on an empty directory or in memory, storage.rs:28-60. -/
def fresh (p : Params) (onDisk indexed : Bool) : Except Err ILM :=
  match Fraos.fresh p onDisk with
  | .error e => .error e
  | .ok db => .ok ⟨db, [], indexed⟩

/-- Dropping the map and opening the directory again, with or without the key index; in memory a new map
is made. -/
def reopen (p : Params) (m : ILM) (onDisk indexed : Bool) : Except Err ILM :=
  match m.db.reopen p true with
  | .error e => .error e
  | .ok db => .ok ⟨db, if onDisk then m.journal else [], indexed⟩

/-- `new` with `readonly` on the directory of a map that was dropped, storage.rs:28-60: the log is opened read-only,
the key index as always. -/
def reopenReadonly (p : Params) (m : ILM) (indexed : Bool) : Except Err ILM :=
  match m.db.reopen p false with
  | .error e => .error e
  | .ok db => .ok ⟨db, m.journal, indexed⟩

end Verif.Ilm
