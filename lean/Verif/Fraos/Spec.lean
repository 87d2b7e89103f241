import Verif.Fraos.Database

/-!
# Histories and their specification

`specStep` is the intended meaning of every call on a database that is just a list of records. `step`
runs the model of the code.
-/

namespace Verif.Fraos

/-- Calls on a database handle. `reopen` drops the only handle and opens the same directory again
(in memory mode: starts a new database). -/
inductive Op where
  | append (batch : List (List UInt8))
  | putSeqno (record : List UInt8)
  | get (seqno : Nat)
  | len
  | isEmpty
  | last
  | reopen

/-- What a call answers. -/
inductive Resp where
  | seqno (r : Except Err (Option Nat))
  | record (r : Except Err (Option (List UInt8)))
  | number (n : Nat)
  | flag (b : Bool)
  | opened (r : Except Err Unit)
deriving DecidableEq

/-- Number of bytes a call brings. -/
def Op.bytes : Op → Nat
  | .append batch => (batch.map List.length).sum
  | .putSeqno r => r.length
  | _ => 0

/-- Sequence numbers asked for are below `2^60`. -/
def Op.small : Op → Prop
  | .get i => i < 2 ^ 60
  | _ => True

/-- The specification: the database is the list of its records. -/
def specStep (onDisk : Bool) (log : List (List UInt8)) : Op → Resp × List (List UInt8)
  | .append batch =>
    if batch = [] then (.seqno (.ok none), log)
    else if [] ∈ batch then (.seqno (.error .emptyRecord), log)
    else (.seqno (.ok (some log.length)), log ++ batch)
  | .putSeqno r =>
    if r = [] then (.seqno (.error .emptyRecord), log)
    else (.seqno (.ok (some log.length)), log ++ [r])
  | .get i => (.record (.ok log[i]?), log)
  | .len => (.number log.length, log)
  | .isEmpty => (.flag (log == []), log)
  | .last => (.record (.ok log.getLast?), log)
  | .reopen => (.opened (.ok ()), if onDisk then log else [])

/-- Answers of the specification to a history. -/
def specRun (onDisk : Bool) : List (List UInt8) → List Op → List Resp
  | _, [] => []
  | log, op :: ops => (specStep onDisk log op).1 :: specRun onDisk (specStep onDisk log op).2 ops

/-- Records after a history. -/
def specAfter (onDisk : Bool) (log : List (List UInt8)) (ops : List Op) : List (List UInt8) :=
  ops.foldl (fun l op => (specStep onDisk l op).2) log

/-- One call on the model of the code, no system failures. -/
def step (p : Params) (db : DB) : Op → Resp × DB
  | .append batch =>
    let (r, db1) := db.append p Faults.none Faults.none batch
    (.seqno r, db1)
  | .putSeqno r =>
    let (r, db1) := db.putSeqno p Faults.none Faults.none r
    (.seqno (r.map some), db1)
  | .get i => (.record (db.get p i), db)
  | .len => (.number db.len, db)
  | .isEmpty => (.flag db.isEmpty, db)
  | .last => (.record (db.last p), db)
  | .reopen =>
    match db.reopen p true with
    | .error e => (.opened (.error e), db)
    | .ok db1 => (.opened (.ok ()), db1)

/-- Answers of the model to a history. -/
def run (p : Params) : DB → List Op → List Resp
  | _, [] => []
  | db, op :: ops => (step p db op).1 :: run p (step p db op).2 ops

/-- State of the model after a history. -/
def after (p : Params) (db : DB) (ops : List Op) : DB := ops.foldl (fun d op => (step p d op).2) db

/-- A fresh database, in a new directory or in memory. -/
def fresh (p : Params) (onDisk : Bool) : Except Err DB :=
  if onDisk then DB.openDB p (some Blob.empty) (some Blob.empty) true else DB.memory p

/-- Bytes of a history. -/
def bytesOf (ops : List Op) : Nat := (ops.map Op.bytes).sum

end Verif.Fraos
