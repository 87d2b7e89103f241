import Verif.Fraos.Growable

/-!
# The database

Models `/repo/fraos/src/{appender,flatfile,seqno,seqno_iter,database}.rs`. `usize` is 64 bits.
-/

namespace Verif.Fraos

/-! ### Appender -/

/-- `Appender`, appender.rs:13-21. -/
structure Appender where
  g : GM
  size : Nat

namespace Appender

/-- `new`, appender.rs:30-58. The file is the one at the path, `none` in memory. -/
def new (file : Option Blob) (writable : Bool) (existing : Option Nat) : Except Err Appender :=
  match GM.new file writable existing with
  | .error e => .error e
  | .ok g => .ok ⟨g, g.len⟩

/-- `append`, appender.rs:63-81. -/
def append (p : Params) (a : Appender) (ft : Faults) (inc : Nat)
    (f : Nat → List UInt8 × Option Err) : Except Err Unit × Appender :=
  if inc = 0 then (.ok (), a)
  else
    match a.g.grow p ft inc f with
    | (.error e, g) => (.error e, { a with g := g })
    | (.ok _, g) => (.ok (), ⟨g, a.size + inc⟩)

end Appender

/-! ### Data file -/

/-- The writer of `FlatFile::append`, flatfile.rs:44-51: `write_all` of one record after the other. -/
def writeRecords (records : List (List UInt8)) (avail : Nat) : List UInt8 × Option Err :=
  if records.flatten.length ≤ avail then (records.flatten, none)
  else (records.flatten.take avail, some .mmapWrite)

/-- `FlatFile::append`, flatfile.rs:33-52. -/
def flatAppend (p : Params) (a : Appender) (ft : Faults) (records : List (List UInt8)) :
    Except Err Unit × Appender :=
  if records.isEmpty then (.ok (), a)
  else if records.any List.isEmpty then (.error .emptyRecord, a)
  else a.append p ft (records.map List.length).sum (writeRecords records)

/-- `FlatFile::get_record_at_offset`, flatfile.rs:59-74. -/
def getRecord (a : Appender) (offset length : Nat) : Except Err (Option (List UInt8)) :=
  match a.g.getRef offset with
  | .error e => .error e
  | .ok none => .ok none
  | .ok (some v) =>
    if v.len < length then .error .dataLength
    else
      match a.g.readView v length with
      | .error e => .error e
      | .ok bs => .ok (some bs)

/-! ### Index -/

/-- `SeqNoIndex::get_offset_and_length`, seqno.rs:87-109. -/
def getEntry (p : Params) (a : Appender) (seqno : Nat) : Except Err (Option (Nat × Nat)) :=
  match usize p (16 * seqno) with
  | .error e => .error e
  | .ok address =>
    match a.g.getRef address with
    | .error e => .error e
    | .ok none => .ok none
    | .ok (some v) =>
      if v.len < 16 then .error .panic
      else
        match a.g.readView v 16 with
        | .error e => .error e
        | .ok bs => .ok (some (fromLe (bs.take 8), fromLe (bs.drop 8)))

/-- `SeqNoIndex::len`, seqno.rs:111-113. -/
def idxLen (a : Appender) : Nat := a.size / 16

/-- `SeqNoIndex::last`, seqno.rs:132-138. -/
def idxLast (p : Params) (a : Appender) : Except Err (Option (Nat × Nat)) :=
  if idxLen a = 0 then .ok none else getEntry p a (idxLen a - 1)

/-- `SeqNoIndex::get_length_at`, seqno.rs:71-76. -/
def lengthAt (p : Params) (a : Appender) (i : Nat) : Except Err Nat :=
  match getEntry p a i with
  | .error e => .error e
  | .ok none => .error .indexDamaged
  | .ok (some (_, l)) => .ok l

/-- The loop of `find_actual_end`, seqno.rs:168-180. `at_` reads a length. -/
def findEndLoop (at_ : Nat → Except Err Nat) (len : Nat) : Nat → Nat → Nat → Except Err Nat
  | 0, _, _ => .error .stuck
  | fuel + 1, start, stop =>
    if start < len - 1 then
      match at_ (start + 1) with
      | .error e => .error e
      | .ok 0 => .ok (start + 1)
      | .ok (_ + 1) =>
        match at_ ((start + stop) / 2) with
        | .error e => .error e
        | .ok 0 => findEndLoop at_ len fuel start ((start + stop) / 2)
        | .ok (_ + 1) => findEndLoop at_ len fuel ((start + stop) / 2) stop
    else .error .indexDamaged

/-- `find_actual_end`, seqno.rs:153-183, on an index of `len` entries. -/
def findEnd (at_ : Nat → Except Err Nat) (len : Nat) : Except Err Nat :=
  match at_ 0 with
  | .error e => .error e
  | .ok l0 =>
    if l0 = 0 ∨ len = 0 then .ok 0
    else
      match at_ (len - 1) with
      | .error e => .error e
      | .ok l1 => if l1 ≠ 0 then .ok len else findEndLoop at_ len (len + 1) 0 len

/-- `SeqNoIndex::new`, seqno.rs:19-35. -/
def idxOpen (p : Params) (file : Option Blob) (writable : Bool) : Except Err Appender :=
  match Appender.new file writable none with
  | .error e => .error e
  | .ok a =>
    match idxLast p a with
    | .error e => .error e
    | .ok none => .ok a
    | .ok (some (_, l)) =>
      if l = 0 then
        match findEnd (lengthAt p a) (idxLen a) with
        | .error e => .error e
        | .ok n => Appender.new file writable (some (16 * n))
      else .ok a

/-- The writer of `SeqNoIndex::append`, seqno.rs:52-66. -/
def writeEntries (es : List (Nat × Nat)) (avail : Nat) : List UInt8 × Option Err :=
  if avail < 16 * es.length then ([], some .dataLength) else (entriesBytes es, none)

/-- `SeqNoIndex::append`, seqno.rs:40-69. -/
def idxAppend (p : Params) (a : Appender) (ft : Faults) (es : List (Nat × Nat)) :
    Except Err (Option Nat) × Appender :=
  if es.isEmpty then (.ok none, a)
  else if es.any (fun e => e.2 == 0) then (.error .emptyRecord, a)
  else
    match a.append p ft (16 * es.length) (writeEntries es) with
    | (.error e, a1) => (.error e, a1)
    | (.ok _, a1) => (.ok (some (idxLen a)), a1)

/-! ### Database -/

/-- `Database`, database.rs:9-14. Clones share both parts. -/
structure DB where
  data : Appender
  idx : Appender

/-- Offsets and lengths of the records of a batch written from `off` on, database.rs:91-94. -/
def entriesFrom (off : Nat) : List (List UInt8) → List (Nat × Nat)
  | [] => []
  | r :: rs => (off, r.length) :: entriesFrom (off + r.length) rs

namespace DB

/-- `Database::new`, database.rs:50-71; the arguments are the contents of the two files. -/
def openDB (p : Params) (data idx : Option Blob) (writable : Bool) : Except Err DB :=
  match idxOpen p idx writable with
  | .error e => .error e
  | .ok i =>
    if i.size % 16 ≠ 0 then .error .indexDamaged
    else
      match idxLast p i with
      | .error e => .error e
      | .ok last =>
        match usize p ((last.map (fun e => e.1 + e.2)).getD 0) with
        | .error e => .error e
        | .ok existing =>
          match Appender.new data writable (some existing) with
          | .error e => .error e
          | .ok d => .ok ⟨d, i⟩

/-- `Database::memory`, database.rs:46-48. -/
def memory (p : Params) : Except Err DB := openDB p none none true

/-- `append_get_seqno`, database.rs:81-102. -/
def append (p : Params) (db : DB) (fd fi : Faults) (records : List (List UInt8)) :
    Except Err (Option Nat) × DB :=
  if records.isEmpty then (.ok none, db)
  else
    match flatAppend p db.data fd records with
    | (.error e, d) => (.error e, { db with data := d })
    | (.ok _, d) =>
      match idxAppend p db.idx fi (entriesFrom db.data.size records) with
      | (r, i) => (r, ⟨d, i⟩)

/-- `put_seqno`, database.rs:110-115. -/
def putSeqno (p : Params) (db : DB) (fd fi : Faults) (record : List UInt8) : Except Err Nat × DB :=
  match db.append p fd fi [record] with
  | (.error e, db) => (.error e, db)
  | (.ok none, db) => (.error .indexDamaged, db)
  | (.ok (some n), db) => (.ok n, db)

/-- `get_by_seqno`, database.rs:118-125. -/
def get (p : Params) (db : DB) (seqno : Nat) : Except Err (Option (List UInt8)) :=
  match getEntry p db.idx seqno with
  | .error e => .error e
  | .ok none => .ok none
  | .ok (some (o, l)) => getRecord db.data o l

/-- `len`, database.rs:145-147. -/
def len (db : DB) : Nat := idxLen db.idx

/-- `is_empty`, database.rs:149-151. -/
def isEmpty (db : DB) : Bool := db.len == 0

/-- `last`, database.rs:137-143. -/
def last (p : Params) (db : DB) : Except Err (Option (List UInt8)) :=
  if db.isEmpty then .ok none else db.get p (db.len - 1)

/-- `Drop`, database.rs:164-169: the index is cut first. -/
def drop (db : DB) : DB :=
  ⟨{ db.data with g := db.data.g.shrink }, { db.idx with g := db.idx.g.shrink }⟩

/-- `SeqNoIter::next_impl`, seqno_iter.rs:18-27: the item and the next position. -/
def next (p : Params) (db : DB) (seqno : Nat) : Except Err (Option (List UInt8)) × Nat :=
  match getEntry p db.idx seqno with
  | .error e => (.error e, seqno)
  | .ok none => (.ok none, seqno)
  | .ok (some (o, l)) =>
    match getRecord db.data o l with
    | .error e => (.error e, seqno)
    | .ok item => (.ok item, seqno + 1)

/-- Closing the only handle and opening the directory again. Open mappings die with the handle; the
file contents are what the next handle gets. -/
def reopen (p : Params) (db : DB) (writable : Bool) : Except Err DB :=
  openDB p db.drop.data.g.file db.drop.idx.g.file writable

end DB

end Verif.Fraos
