import Mathlib.Data.List.Basic
import Mathlib.Tactic.Ring

/-!
# Bytes

Files and anonymous mappings are a length and a byte function. Machine words are eight
bytes, least significant first (`usize::to_le_bytes`, `usize::from_le_bytes` on a 64-bit machine).
-/

namespace Verif.Fraos

/-- The contents of a file or of an anonymous mapping. Bytes at or after `len` do not exist. -/
structure Blob where
  len : Nat
  get : Nat → UInt8

namespace Blob

/-- A new file. -/
def empty : Blob := ⟨0, fun _ => 0⟩

/-- `File::set_len` (contract): cuts, or extends with zeros. -/
def setLen (b : Blob) (n : Nat) : Blob :=
  ⟨n, fun i => if i < b.len ∧ i < n then b.get i else 0⟩

/-- Stores through a mapping; bytes beyond the end are not kept. -/
def write (b : Blob) (off : Nat) (bs : List UInt8) : Blob :=
  { b with get := fun i => if off ≤ i ∧ i < b.len then (bs[i - off]?).getD (b.get i) else b.get i }

/-- Loads through a mapping; bytes beyond the end (in the last page) are zero. -/
def read (b : Blob) (off n : Nat) : List UInt8 :=
  (List.range n).map (fun i => if off + i < b.len then b.get (off + i) else 0)

@[simp] theorem setLen_len (b : Blob) (n : Nat) : (b.setLen n).len = n := rfl
@[simp] theorem write_len (b : Blob) (o : Nat) (bs : List UInt8) : (b.write o bs).len = b.len := rfl

theorem write_get_of_mem {b : Blob} {o : Nat} {bs : List UInt8} {i : Nat} {x : UInt8}
    (h : bs[i]? = some x) (hl : o + i < b.len) : (b.write o bs).get (o + i) = x := by
  simp [write, hl, h]

theorem write_get_lt {b : Blob} {o : Nat} {bs : List UInt8} {i : Nat} (h : i < o) :
    (b.write o bs).get i = b.get i := by
  have : ¬ o ≤ i := by omega
  simp [write, this]

theorem write_get_ge {b : Blob} {o : Nat} {bs : List UInt8} {i : Nat} (h : o + bs.length ≤ i) :
    (b.write o bs).get i = b.get i := by
  have : bs[i - o]? = none := by rw [List.getElem?_eq_none_iff]; omega
  simp [write, this]

theorem setLen_get_lt {b : Blob} {n i : Nat} (h1 : i < b.len) (h2 : i < n) :
    (b.setLen n).get i = b.get i := by simp [setLen, h1, h2]

@[simp] theorem read_length (b : Blob) (o n : Nat) : (b.read o n).length = n := by simp [read]

theorem read_getElem? (b : Blob) (o n i : Nat) (h : i < n) :
    (b.read o n)[i]? = some (if o + i < b.len then b.get (o + i) else 0) := by
  simp [read, h]

/-- Reading bytes that agree with a list gives that part of the list. -/
theorem read_eq {b : Blob} {o n : Nat} {content : List UInt8} {a : Nat}
    (_hn : a + n ≤ content.length) (hl : o + n ≤ b.len)
    (h : ∀ i, i < n → content[a + i]? = some (b.get (o + i))) :
    b.read o n = (content.drop a).take n := by
  apply List.ext_getElem?
  intro i
  by_cases hi : i < n
  · rw [read_getElem? _ _ _ _ hi, List.getElem?_take_of_lt hi, List.getElem?_drop, h i hi,
      if_pos (by omega)]
  · rw [List.getElem?_eq_none (by simp; omega), List.getElem?_eq_none (by simp; omega)]

end Blob

/-- `usize::to_le_bytes`. -/
def toLe (n : Nat) : List UInt8 := (List.range 8).map (fun i => UInt8.ofNat (n / 256 ^ i))

/-- `usize::from_le_bytes`. -/
def fromLe (bs : List UInt8) : Nat := bs.foldr (fun b acc => b.toNat + 256 * acc) 0

@[simp] theorem toLe_length (n : Nat) : (toLe n).length = 8 := by simp [toLe]

theorem fromLe_toLe {n : Nat} (h : n < 2 ^ 64) : fromLe (toLe n) = n := by
  have e : toLe n = [UInt8.ofNat (n / 256^0), UInt8.ofNat (n / 256^1), UInt8.ofNat (n / 256^2),
    UInt8.ofNat (n / 256^3), UInt8.ofNat (n / 256^4), UInt8.ofNat (n / 256^5),
    UInt8.ofNat (n / 256^6), UInt8.ofNat (n / 256^7)] := rfl
  rw [e]
  simp only [fromLe, List.foldr_cons, List.foldr_nil, UInt8.toNat_ofNat']
  norm_num
  omega

/-- One index entry: offset and length, seqno.rs:59-64. -/
def entryBytes (e : Nat × Nat) : List UInt8 := toLe e.1 ++ toLe e.2

@[simp] theorem entryBytes_length (e : Nat × Nat) : (entryBytes e).length = 16 := by
  simp [entryBytes]

/-- The bytes of several index entries. -/
def entriesBytes (es : List (Nat × Nat)) : List UInt8 := es.flatMap entryBytes

@[simp] theorem entriesBytes_length (es : List (Nat × Nat)) :
    (entriesBytes es).length = 16 * es.length := by
  induction es with
  | nil => rfl
  | cons e es ih =>
    have : entriesBytes (e :: es) = entryBytes e ++ entriesBytes es := rfl
    rw [this, List.length_append, ih, entryBytes_length, List.length_cons]; ring

theorem entriesBytes_append (a b : List (Nat × Nat)) :
    entriesBytes (a ++ b) = entriesBytes a ++ entriesBytes b := by simp [entriesBytes]

/-- The words of entry `i`. -/
theorem entriesBytes_at {es : List (Nat × Nat)} {i : Nat} {e : Nat × Nat} (h : es[i]? = some e) :
    ((entriesBytes es).drop (16 * i)).take 16 = entryBytes e := by
  induction es generalizing i with
  | nil => simp at h
  | cons x es ih =>
    have hx : entriesBytes (x :: es) = entryBytes x ++ entriesBytes es := rfl
    cases i with
    | zero =>
      simp at h; subst h
      rw [hx, Nat.mul_zero, List.drop_zero, List.take_append_of_le_length (by simp)]
      rw [List.take_of_length_le (by simp)]
    | succ i =>
      simp at h
      rw [hx, show 16 * (i + 1) = (entryBytes x).length + 16 * i by simp; ring, List.drop_append,
        Nat.add_sub_cancel_left, List.drop_eq_nil_of_le (by omega), List.nil_append, ih h]

end Verif.Fraos
