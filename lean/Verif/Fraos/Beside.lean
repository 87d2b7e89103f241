import Verif.Fraos.Crash
import Mathlib.Logic.Relation

/-!
# A reader beside a writer

`Database::file_readonly` (database.rs:22-24) may be called on a directory that another process has open
for writing: there is no lock on the files, and `find_actual_end` (seqno.rs:149-183) says that the storage
may still be open. The reader loads from the files while the writer changes them. Here every load of the
reader sees the files of some moment of the writer, later loads later moments.

An index entry is loaded as two words, the offset first (seqno.rs:96-99); each word is loaded and stored
in one piece (see `Crash.lean`). The length of a file is asked for when it is opened
(growable_mmap.rs:48-51); after that it only matters in that a load from a page past the end of the file
is a bus error.
-/

namespace Verif.Fraos

/-! ### The writer -/

/-- The records a call brings. -/
def Op.batch : Op → List (List UInt8)
  | .append batch => batch
  | .putSeqno r => [r]
  | _ => []

/-- A moment in the life of the writer: the handle and its records before the call that is running,
that call, the two files, and how many records of the call are complete in the index. -/
structure Moment where
  db : DB
  log : List (List UInt8)
  used : Nat
  op : Op
  fd : Blob
  fi : Blob
  j : Nat

/-- The records whose index entries are complete. -/
def Moment.recs (m : Moment) : List (List UInt8) := m.log ++ m.op.batch.take m.j

/-- Bytes brought so far. -/
def Moment.bytes (m : Moment) : Nat := m.used + (m.op.batch.map List.length).sum

/-- One step of the writer. -/
inductive Next (p : Params) : Moment → Moment → Prop
  /-- the call goes on: stores happen in order -/
  | on {db : DB} {log : List (List UInt8)} {used : Nat} {op : Op} {fd fi fd' fi' : Blob} {j j' : Nat} :
      Crash p db op.batch fd' fi' j' → j ≤ j' →
      Next p ⟨db, log, used, op, fd, fi, j⟩ ⟨db, log, used, op, fd', fi', j'⟩
  /-- the call ends and another begins; `reopen` closes the database and opens it again -/
  | ends {db : DB} {log : List (List UInt8)} {used : Nat} {op op' : Op} {fd fi fd' fi' : Blob} {j : Nat} :
      op.small → (step p db op).2.data.g.file = some fd' → (step p db op).2.idx.g.file = some fi' →
      Next p ⟨db, log, used, op, fd, fi, j⟩
        ⟨(step p db op).2, (specStep true log op).2, used + op.bytes, op', fd', fi', 0⟩
  /-- the process dies and another one opens the directory -/
  | dies {db db' : DB} {log : List (List UInt8)} {used : Nat} {op op' : Op} {fd fi : Blob} {j : Nat} :
      DB.openDB p (some fd) (some fi) true = .ok db' →
      Next p ⟨db, log, used, op, fd, fi, j⟩
        ⟨db', log ++ op.batch.take j, used + (op.batch.map List.length).sum, op', fd, fi, 0⟩

/-- Moments of a writer at which a reader looks at the files, in order. The writer brings less than
`2^59` bytes. -/
structure Watched (p : Params) (m : Nat → Moment) : Prop where
  begins : Reached p (m 0).db (m 0).log (m 0).used
  now : Crash p (m 0).db (m 0).op.batch (m 0).fd (m 0).fi (m 0).j
  goes : ∀ t, Relation.ReflTransGen (fun a b => Next p a b ∧ b.bytes < 2 ^ 59) (m t) (m (t + 1))
  fits : (m 0).bytes < 2 ^ 59

/-! ### The reader -/

/-- The mapping over the file as it is now. -/
def Appender.over (a : Appender) (f : Blob) : Appender := { a with g := { a.g with file := some f } }

/-- The handle over the files as they are now. -/
def DB.over (db : DB) (fd fi : Blob) : DB := ⟨db.data.over fd, db.idx.over fi⟩

/-- `SeqNoIndex::get_offset_and_length`, seqno.rs:87-109: the offset is loaded from `f`, the length then
from `f'`. -/
def getEntryB (p : Params) (a : Appender) (f f' : Blob) (i : Nat) : Except Err (Option (Nat × Nat)) :=
  match getEntry p (a.over f) i with
  | .error e => .error e
  | .ok none => .ok none
  | .ok (some e) =>
    match getEntry p (a.over f') i with
    | .error e => .error e
    | .ok none => .ok none
    | .ok (some e') => .ok (some (e.1, e'.2))

/-- `SeqNoIndex::get_length_at`, seqno.rs:71-76, from moment `k` on; takes two moments. -/
def lengthB (p : Params) (a : Appender) (w : Nat → Blob) (k i : Nat) : Except Err Nat :=
  match getEntryB p a (w k) (w (k + 1)) i with
  | .error e => .error e
  | .ok none => .error .indexDamaged
  | .ok (some (_, l)) => .ok l

/-- The loop of `find_actual_end`, seqno.rs:168-180, from moment `k` on; the answer and the moment. The
loop of the code has no bound: `Err.stuck` says that it has not ended after `fuel` rounds. -/
def huntLoop (at_ : Nat → Nat → Except Err Nat) (len : Nat) : Nat → Nat → Nat → Nat → Except Err (Nat × Nat)
  | 0, _, _, _ => .error .stuck
  | fuel + 1, k, start, stop =>
    if start < len - 1 then
      match at_ k (start + 1) with
      | .error e => .error e
      | .ok 0 => .ok (start + 1, k + 2)
      | .ok (_ + 1) =>
        match at_ (k + 2) ((start + stop) / 2) with
        | .error e => .error e
        | .ok 0 => huntLoop at_ len fuel (k + 4) start ((start + stop) / 2)
        | .ok (_ + 1) => huntLoop at_ len fuel (k + 4) ((start + stop) / 2) stop
    else .error .indexDamaged

/-- `find_actual_end`, seqno.rs:153-183, from moment `k` on. -/
def hunt (at_ : Nat → Nat → Except Err Nat) (len fuel k : Nat) : Except Err (Nat × Nat) :=
  match at_ k 0 with
  | .error e => .error e
  | .ok l0 =>
    if l0 = 0 ∨ len = 0 then .ok (0, k + 2)
    else
      match at_ (k + 2) (len - 1) with
      | .error e => .error e
      | .ok l1 => if l1 ≠ 0 then .ok (len, k + 4) else huntLoop at_ len fuel (k + 4) 0 len

/-- `SeqNoIndex::new` read-only, seqno.rs:19-35, from moment `0` on. -/
def idxOpenB (p : Params) (w : Nat → Blob) (fuel : Nat) : Except Err (Appender × Nat) :=
  match Appender.new (some (w 0)) false none with
  | .error e => .error e
  | .ok a =>
    if idxLen a = 0 then .ok (a, 1)
    else
      match getEntryB p a (w 1) (w 2) (idxLen a - 1) with
      | .error e => .error e
      | .ok none => .ok (a, 3)
      | .ok (some (_, l)) =>
        if l = 0 then
          match hunt (lengthB p a w) (idxLen a) fuel 3 with
          | .error e => .error e
          | .ok (n, k) =>
            match Appender.new (some (w k)) false (some (16 * n)) with
            | .error e => .error e
            | .ok a => .ok (a, k + 1)
        else .ok (a, 3)

/-- `Database::file_readonly`, database.rs:22-24 and 50-71, while the index file is `w t` and the data
file `d t` at moment `t`; the handle and the moment. -/
def openB (p : Params) (w d : Nat → Blob) (fuel : Nat) : Except Err (DB × Nat) :=
  match idxOpenB p w fuel with
  | .error e => .error e
  | .ok (i, k) =>
    if i.size % 16 ≠ 0 then .error .indexDamaged
    else
      match (if idxLen i = 0 then .ok none else getEntryB p i (w k) (w (k + 1)) (idxLen i - 1)) with
      | .error e => .error e
      | .ok last =>
        match usize p ((last.map (fun e => e.1 + e.2)).getD 0) with
        | .error e => .error e
        | .ok existing =>
          match Appender.new (some (d (k + 2))) false (some existing) with
          | .error e => .error e
          | .ok a => .ok (⟨a, i⟩, k + 3)

/-- `get_by_seqno`, database.rs:118-125: the index file is `f` and then `f'`, the data file then `d`. -/
def getB (p : Params) (db : DB) (f f' d : Blob) (seqno : Nat) : Except Err (Option (List UInt8)) :=
  match getEntryB p db.idx f f' seqno with
  | .error e => .error e
  | .ok none => .ok none
  | .ok (some (o, l)) => getRecord (db.data.over d) o l

end Verif.Fraos
