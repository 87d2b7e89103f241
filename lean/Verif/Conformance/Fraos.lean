import Verif.Fraos.Database

/-!
# The tests of fraos, run on the model

The tests of `/repo/fraos/src/` that use fixed data. They are tests of the model, not theorems about it. The tests that draw
random records check what C01 to C10 prove for all of them.
-/

namespace Verif.Conformance.Fraos

open Verif.Fraos

/-! ## index_on_mmaps.rs -/

/-- A chunk from `start` with the relative ends in turn. -/
def chunk (start : Nat) (ends : List Nat) : Except Err Chunk := ends.foldlM Chunk.appendRelative ⟨start, []⟩

/-- An index with the chunks in turn. -/
def index (l : List (Nat × List Nat)) : Except Err Index := l.foldlM (fun ix e => (chunk e.1 e.2).bind (Index.append ix)) []

/-- The number, offset and length found in an index; `none` for an error. -/
def found (ix : Except Err Index) (a : Nat) : Option (Option (Nat × Nat × Nat)) := (ix.bind (·.find a)).toOption

/-- The index of `base_index`, index_on_mmaps.rs:262-273. -/
def base : Except Err Index := index [(0, [34]), (34, [8, 33]), (67, [29, 36, 353])]

/-- `base_index`, index_on_mmaps.rs:274-317. -/
example : base.toOption.map Index.total = some 420 ∧
    ∀ e ∈ [(0, some (0, 0, 34)), (34, some (1, 0, 8)), (42, some (1, 8, 25)), (67, some (2, 0, 29)), (96, some (2, 29, 7)),
      (420, none), (1000, none)], found base e.1 = some e.2 := by decide +kernel

/-- `single_chunk_index_from`, index_on_mmaps.rs:320-354, for both starts. -/
example : ∀ s ∈ [0, 123441], ((⟨s, []⟩ : Chunk).stop = s ∧ (⟨s, []⟩ : Chunk).isEmpty = true) ∧
    (chunk s [0] = .error .appendZero ∧ (chunk s [1]).toOption.map Chunk.stop = some (s + 1)) ∧
    (chunk s [1, 1] = .error .invalidOrder ∧ (chunk s [1, 100]).toOption.map Chunk.stop = some (s + 100)) := by decide +kernel

/-- `multiple_chunks`, index_on_mmaps.rs:367-412: an empty chunk and a first one. -/
example : (index [(0, [])]).toOption.map Index.total = some 0 ∧
    (index [(0, []), (0, [2, 4, 8])]).toOption.map Index.total = some 8 ∧
    ∀ e ∈ [(8, none), (0, some (0, 0, 2)), (1, some (0, 1, 1)), (5, some (0, 5, 3))],
      found (index [(0, []), (0, [2, 4, 8])]) e.1 = some e.2 := by decide +kernel

/-- `multiple_chunks`, index_on_mmaps.rs:414-470: an empty chunk, a gap and a second one. -/
example : (index [(0, [2, 4, 8]), (0, [])]).toOption.map Index.total = some 8 ∧
    index [(0, [2, 4, 8]), (9, [2])] = .error .globalOrder ∧
    (index [(0, [2, 4, 8]), (8, [2, 4, 8])]).toOption.map Index.total = some 16 ∧
    ∀ e ∈ [(16, none), (8, some (1, 0, 2)), (9, some (1, 1, 1)), (13, some (1, 5, 3))],
      found (index [(0, [2, 4, 8]), (8, [2, 4, 8])]) e.1 = some e.2 := by decide +kernel

/-! ## seqno.rs -/

/-- `check_empty_cases`, seqno.rs:247-260. -/
example : (match idxOpen .code (some Blob.empty) true with
    | .ok a => (match (idxAppend .code a .none [(0, 5), (5, 0), (5, 10)]).1 with
      | .error e => some e
      | .ok _ => none)
    | .error _ => none) = some .emptyRecord := by decide +kernel

/-- A file of `n` numbers of 8 bytes counting from zero, and `z` zeros, seqno.rs:325-330. -/
def counted (n z : Nat) : Blob := (Blob.empty.setLen (8 * (n + z))).write 0 ((List.range n).flatMap toLe)

/-- The length of the index of a file, and the length after two entries have been appended and the file opened again. -/
def recovered (f : Blob) : Option (Nat × Nat) :=
  match idxOpen .code (some f) true with
  | .error _ => none
  | .ok a =>
    match idxAppend .code a .none [(5000, 5), (5005, 6)] with
    | (.error _, _) => none
    | (.ok _, b) =>
      match idxOpen .code b.g.file true with
      | .error _ => none
      | .ok c => some (idxLen a, idxLen c)

/-- `check_index_recovery_zero_length`, seqno.rs:282-316. -/
example : ∀ i ∈ List.range 20, recovered (counted 0 i) = some (0, 2) := by decide +kernel

/-- `check_index_recovery_non_zero_length`, seqno.rs:318-363. -/
example : ∀ e ∈ [(2, 0), (100, 0), (2, 1), (2, 5), (2, 10), (258, 400)],
    recovered (counted e.1 e.2) = some (e.1 / 2, e.1 / 2 + 2) := by decide +kernel

/-! ## growable_mmap.rs -/

/-- Smaller constants: `MIN_MMAP_BYTES` is 8 and `MAX_MMAPS_COUNT` is 5. -/
def small : Params := ⟨8, 5, true⟩

/-- The loop of `verify_it_works`, growable_mmap.rs:361-376, `n` times: each step writes the step's number. -/
def filled (file : Option Blob) (n : Nat) : Except Err GM :=
  (List.range n).foldlM (fun g i =>
    match g.grow small .none 8 (fun _ => (toLe i, none)) with
    | (.error e, _) => .error e
    | (.ok _, g) => .ok g) ⟨file, true, [], [], none⟩

/-- What is read at an address, as a number. -/
def numberAt (g : GM) (a : Nat) : Option Nat :=
  match g.getRef a with
  | .ok (some v) => (g.readView v 8).toOption.map fromLe
  | _ => none

/-- What `verify_it_works` checks, growable_mmap.rs:378-400: inactive mappings, bytes in them, the numbers read back. -/
def checked (file : Option Blob) (maps : Nat) : Bool :=
  match filled file (small.maxMaps * 2 + 2) with
  | .error _ => false
  | .ok g => decide (g.maps.length = maps) && decide (g.index.total = (small.maxMaps * 2 + 1) * small.minMmap) &&
      (List.range (small.maxMaps * 2 + 2)).all (fun i => decide (numberAt g (small.minMmap * i) = some i))

/-- `verify_it_works_mem`, growable_mmap.rs:411-414. -/
example : checked none (small.maxMaps * 2 + 1) = true := by decide +kernel

/-- `verify_it_works_file`, growable_mmap.rs:424-428. -/
example : checked (some Blob.empty) 1 = true := by decide +kernel

/-! ## database.rs -/

/-- `reopen_test`, database.rs:304-321, `n` times with `k` records each: the lengths seen and the records read. -/
def reopened (record : List UInt8) (k : Nat) : Nat → Except Err DB → Option (List Nat)
  | 0, _ => some []
  | n + 1, db =>
    match db with
    | .error _ => none
    | .ok db =>
      match (List.range k).foldlM (fun db _ => match DB.append .code db .none .none [record] with
        | (.error e, _) => Except.error e
        | (.ok _, db) => .ok db) db with
      | .error _ => none
      | .ok db1 =>
        if (List.range db1.len).all (fun i => match db1.get .code i with
          | .ok r => decide (r = some record)
          | .error _ => false)
        then (reopened record k n (db1.reopen .code true)).map ([db.len, db1.len] ++ ·)
        else none

/-- `backup_test_storage`, database.rs:331-341, with fewer and shorter records. -/
example : reopened ((List.range 20).map UInt8.ofNat) 3 5 (DB.openDB .code (some Blob.empty) (some Blob.empty) true) =
    some [0, 3, 3, 6, 6, 9, 9, 12, 12, 15] := by decide +kernel

end Verif.Conformance.Fraos
