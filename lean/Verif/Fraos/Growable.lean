import Verif.Fraos.Blob
import Verif.Fraos.Mapper

/-!
# Growable mappings

Models `/repo/fraos/src/growable_mmap.rs` and `/repo/fraos/src/shared_mmap.rs`.

A file is a `Blob`. Every file mapping is shared (`MAP_SHARED`), so loads and stores through a mapping
are loads and stores on the file; an access to a page that starts at or after the end of the file is
a bus error (`Err.fault`). Anonymous mappings own their bytes.
The functions run under the storage lock. It is never poisoned: only a panic of `grow_and_apply` or
`shrink_to_size` would do that, and there is none (`C106_reason`).
-/

namespace Verif.Fraos

/-- Constants and build options: `MIN_MMAP_BYTES`, `MAX_MMAPS_COUNT` (growable_mmap.rs:11-12), and
whether the crate is built with overflow checks. -/
structure Params where
  minMmap : Nat := 4096 * 128
  maxMaps : Nat := 2048
  checked : Bool := false
deriving DecidableEq

/-- The constants of the code, in a release build. -/
def Params.code : Params := {}

/-- `usize` arithmetic: panics when overflow checks are on, wraps otherwise. -/
def usize (p : Params) (n : Nat) : Except Err Nat :=
  if n < 2 ^ 64 then .ok n else if p.checked then .error .panic else .ok (n % 2 ^ 64)

theorem usize_ok {p : Params} {n : Nat} (h : n < 2 ^ 64) : usize p n = .ok n := by
  unfold usize; rw [if_pos h]

/-- Memory behind a mapping: a file from some offset on, or anonymous memory. -/
inductive Mem where
  | file (off : Nat)
  | anon (b : Blob)

/-- `SharedMmap`, shared_mmap.rs:10-14: a window of a mapping. -/
structure View where
  mem : Mem
  start : Nat
  len : Nat

/-- `SharedMmap::slice(from..to)`, shared_mmap.rs:37-78. -/
def View.slice (v : View) (a b : Nat) : View :=
  if v.len = 0 then { v with len := 0 }
  else if a ≥ v.len then { v with len := 0 }
  else if b = 0 then { v with len := 0 }
  else
    let e := min (b - 1) (v.len - 1)
    { v with start := v.start + a, len := if a ≤ e then e - a + 1 else 0 }

/-- `ActiveMmap`, growable_mmap.rs:21-25. -/
structure Active where
  len : Nat
  mem : Mem
  bounds : Chunk

/-- `GrowableMmap` with its `Storage`, growable_mmap.rs:15-40. `writable` is the mode the file was
opened with (appender.rs:35-46). -/
structure GM where
  file : Option Blob
  writable : Bool
  index : Index
  maps : List View
  active : Option Active

/-- Failures of the operating system during one `grow_and_apply`. -/
structure Faults where
  setLen : Bool := false
  map : Bool := false
  protect : Bool := false
  flush : Bool := false
  remap : Bool := false
deriving DecidableEq

/-- Nothing fails. -/
def Faults.none : Faults := {}

/-- End of the last page of a file, pages of 4096 bytes. -/
def pageEnd (n : Nat) : Nat := (n + 4095) / 4096 * 4096

theorem le_pageEnd (n : Nat) : n ≤ pageEnd n := by unfold pageEnd; omega

namespace GM

/-- The bytes of the file, if any. -/
def fileBlob (g : GM) : Blob := g.file.getD Blob.empty

/-- Loads `n` bytes at `off` of some memory. -/
def load (g : GM) (m : Mem) (off n : Nat) : Except Err (List UInt8) :=
  match m with
  | .anon b => .ok (b.read off n)
  | .file o =>
    if n = 0 ∨ o + off + n ≤ pageEnd g.fileBlob.len then .ok (g.fileBlob.read (o + off) n)
    else .error .fault

/-- `GrowableMmap::new`, growable_mmap.rs:43-87. -/
def new (file : Option Blob) (writable : Bool) (existing : Option Nat) : Except Err GM :=
  match file with
  | none => .ok ⟨none, writable, [], [], none⟩
  | some f =>
    if existing.getD 0 > f.len then .error .dataDamaged
    else
      let cap := existing.getD f.len
      if cap > 0 then .ok ⟨some f, writable, [⟨0, [cap]⟩], [⟨.file 0, 0, cap⟩], none⟩
      else .ok ⟨some f, writable, [], [], none⟩

/-- `len`, growable_mmap.rs:89-99. -/
def len (g : GM) : Nat :=
  match g.active with
  | none => g.index.total
  | some a => a.bounds.stop

/-- `get_new_mmap_size`, growable_mmap.rs:321-326. -/
def newSize (p : Params) (g : GM) (add : Nat) : Nat :=
  match g.file with
  | none => add
  | some _ => max add p.minMmap

/-- `create_mmap`, growable_mmap.rs:328-346. `set_len` fails on a file opened read-only. -/
def createMmap (g : GM) (ft : Faults) (size offset : Nat) : Except Err Mem × GM :=
  match g.file with
  | none => if ft.map then (.error .mmap, g) else (.ok (.anon ⟨size, fun _ => 0⟩), g)
  | some f =>
    if ft.setLen || !g.writable then (.error .extend, g)
    else if ft.map then (.error .mmap, { g with file := some (f.setLen (offset + size)) })
    else (.ok (.file offset), { g with file := some (f.setLen (offset + size)) })

/-- The part of `grow_and_apply` that finds or makes room, growable_mmap.rs:117-178. On success the
offset in the active mapping to write at. -/
def makeRoom (p : Params) (g : GM) (ft : Faults) (ext : Nat) : Except Err Nat × GM :=
  match g.active with
  | none =>
    let size := g.newSize p ext
    let base := g.index.total
    match g.createMmap ft size base with
    | (.error e, g) => (.error e, g)
    | (.ok m, g) =>
      match (Chunk.mk base []).appendRelative ext with
      | .error e => (.error e, g)
      | .ok c => (.ok 0, { g with active := some ⟨size, m, c⟩ })
  | some a =>
    let cur := a.bounds.size
    if cur + ext < a.len then
      match a.bounds.appendRelative (cur + ext) with
      | .error e => (.error e, g)
      | .ok c => (.ok cur, { g with active := some { a with bounds := c } })
    else
      let size := g.newSize p ext
      let base := a.bounds.stop
      match g.createMmap ft size base with
      | (.error e, g) => (.error e, g)
      | (.ok m, g) =>
        match (Chunk.mk base []).appendRelative ext with
        | .error e => (.error e, { g with active := some { a with len := size, mem := m } })
        | .ok c =>
          match g.index.append a.bounds with
          | .error e => (.error e, { g with active := some ⟨size, m, c⟩ })
          | .ok ix =>
            if ft.protect then
              (.error .protect, { g with index := ix, active := some ⟨size, m, c⟩ })
            else
              (.ok 0, { g with
                index := ix
                maps := g.maps ++ [(View.mk a.mem 0 a.len).slice 0 cur]
                active := some ⟨size, m, c⟩ })

/-- Stores through the active mapping. -/
def store (g : GM) (a : Active) (off : Nat) (bs : List UInt8) : Except Err Unit × GM :=
  match a.mem with
  | .anon b => (.ok (), { g with active := some { a with mem := .anon (b.write off bs) } })
  | .file o =>
    if bs.length = 0 ∨ o + off + bs.length ≤ pageEnd g.fileBlob.len then
      (.ok (), { g with file := g.file.map (·.write (o + off) bs) })
    else (.error .fault, g)

/-- `rearrange_mmaps`, growable_mmap.rs:272-309. -/
def rearrange (p : Params) (g : GM) (ft : Faults) : Except Err Unit × GM :=
  if g.maps.length ≤ p.maxMaps then (.ok (), g)
  else
    match g.file with
    | none => (.ok (), g)
    | some _ =>
      if ft.remap then (.error .mmap, g)
      else
        match (Chunk.mk 0 []).appendRelative g.index.total with
        | .error e => (.error e, g)
        | .ok c =>
          match Index.append [] c with
          | .error e => (.error e, g)
          | .ok ix => (.ok (), { g with index := ix, maps := [⟨.file 0, 0, g.index.total⟩] })

/-- The part of `grow_and_apply` that writes, growable_mmap.rs:180-198. The writer is given the number
of bytes it may write and says what it writes from the start on, and how it ends. -/
def writeOut (p : Params) (g : GM) (ft : Faults) (at_ : Nat)
    (f : Nat → List UInt8 × Option Err) : Except Err Unit × GM :=
  match g.active with
  | none => (.error .dataDamaged, g)
  | some a =>
    if at_ > a.len then (.error .panic, g)
    else
      match g.store a at_ (f (a.len - at_)).1 with
      | (.error e, g) => (.error e, g)
      | (.ok _, g) =>
        match (f (a.len - at_)).2 with
        | some e => (.error e, g)
        | none => if ft.flush then (.error .flush, g) else g.rearrange p ft

/-- `grow_and_apply`, growable_mmap.rs:101-198. -/
def grow (p : Params) (g : GM) (ft : Faults) (ext : Nat)
    (f : Nat → List UInt8 × Option Err) : Except Err Unit × GM :=
  if ext = 0 then (.error .emptyRecord, g)
  else
    match g.makeRoom p ft ext with
    | (.error e, g) => (.error e, g)
    | (.ok at_, g) => g.writeOut p ft at_ f

/-- `get_ref_and_apply`, growable_mmap.rs:200-247: the slice the closure is applied to. -/
def getRef (g : GM) (address : Nat) : Except Err (Option View) :=
  if address < g.index.total then
    match g.index.find address with
    | .error e => .error e
    | .ok none => .ok none
    | .ok (some (n, o, l)) =>
      match g.maps[n]? with
      | none => .error .panic
      | some v => .ok (some (v.slice o (o + l)))
  else
    match g.active with
    | none => .ok none
    | some a =>
      match a.bounds.find address with
      | .error e => .error e
      | .ok none => .ok none
      | .ok (some (o, l)) =>
        if o + l ≤ a.len then .ok (some ⟨a.mem, o, l⟩) else .error .panic

/-- `shrink_to_size`, growable_mmap.rs:249-270. Fails on a file opened read-only. -/
def shrink (g : GM) : GM :=
  match g.file with
  | none => g
  | some f => if g.writable then { g with file := some (f.setLen g.len) } else g

/-- `mmaps_count`, growable_mmap.rs:311-319. -/
def count (g : GM) : Nat := g.maps.length + if g.active.isSome then 1 else 0

/-- Reads the first `n` bytes of a slice. -/
def readView (g : GM) (v : View) (n : Nat) : Except Err (List UInt8) := g.load v.mem v.start n

end GM

end Verif.Fraos
