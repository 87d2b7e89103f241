import Verif.Ilm.Spec

/-!
# CBOR of unsigned integers

What `ciborium` writes for `u64` (RFC 8949, major type 0, shortest form): a codec that meets the
assumptions on encodings. Keys and values are natural numbers; those from `2^64` on are not encodable.
-/

namespace Verif.Ilm

/-- `n` in `k` bytes, most significant first. -/
def be : Nat → Nat → List UInt8
  | 0, _ => []
  | k + 1, n => UInt8.ofNat (n / 256 ^ k) :: be k n

/-- Number of bytes most significant first. -/
def unbe (bs : List UInt8) : Nat := bs.foldl (fun a b => 256 * a + b.toNat) 0

/-- Head byte and following bytes. -/
def cborEnc (n : Nat) : Option (List UInt8) :=
  if n < 24 then some [UInt8.ofNat n]
  else if n < 2 ^ 8 then some (24 :: be 1 n)
  else if n < 2 ^ 16 then some (25 :: be 2 n)
  else if n < 2 ^ 32 then some (26 :: be 4 n)
  else if n < 2 ^ 64 then some (27 :: be 8 n)
  else none

/-- Reads an unsigned integer; bytes after it are ignored. -/
def cborDec : List UInt8 → Option Nat
  | [] => none
  | b :: bs =>
    if b.toNat < 24 then some b.toNat
    else if b = 24 ∧ 1 ≤ bs.length then some (unbe (bs.take 1))
    else if b = 25 ∧ 2 ≤ bs.length then some (unbe (bs.take 2))
    else if b = 26 ∧ 4 ≤ bs.length then some (unbe (bs.take 4))
    else if b = 27 ∧ 8 ≤ bs.length then some (unbe (bs.take 8))
    else none

/-- Keys and values are `u64`. -/
def cborCodec : Codec Nat Nat := ⟨cborEnc, cborEnc, cborDec⟩

theorem be_length (k n : Nat) : (be k n).length = k := by
  induction k with
  | zero => rfl
  | succ k ih => simp [be, ih]

theorem foldl_be (k n a : Nat) :
    (be k n).foldl (fun a b => 256 * a + b.toNat) a = 256 ^ k * a + n % 256 ^ k := by
  induction k generalizing a with
  | zero => simp [be, Nat.mod_one]
  | succ k ih =>
    simp only [be, List.foldl_cons, ih, UInt8.toNat_ofNat']
    have h1 : n % 256 ^ (k + 1) = 256 ^ k * (n / 256 ^ k % 256) + n % 256 ^ k := by
      rw [pow_succ, Nat.mod_mul]
      omega
    rw [h1, Nat.mul_add, ← Nat.mul_assoc, ← Nat.pow_succ, Nat.add_assoc]

theorem unbe_be {k n : Nat} (h : n < 256 ^ k) : unbe (be k n) = n := by
  unfold unbe
  rw [foldl_be, Nat.mod_eq_of_lt h]
  omega

theorem cborDec_enc {n : Nat} {bs : List UInt8} (h : cborEnc n = some bs) : cborDec bs = some n := by
  unfold cborEnc at h
  split at h
  · rename_i hn
    cases h
    have : (UInt8.ofNat n).toNat = n := by rw [UInt8.toNat_ofNat']; omega
    simp [cborDec, this, hn]
  · split at h
    · rename_i hn
      cases h
      have h1 : (be 1 n).take 1 = be 1 n := List.take_of_length_le (by rw [be_length])
      have e : cborDec (24 :: be 1 n) = some (unbe ((be 1 n).take 1)) := by
        simp [cborDec, be_length]
      rw [e, h1, unbe_be (by omega)]
    · split at h
      · rename_i hn
        cases h
        have h1 : (be 2 n).take 2 = be 2 n := List.take_of_length_le (by rw [be_length])
        have e : cborDec (25 :: be 2 n) = some (unbe ((be 2 n).take 2)) := by
          simp [cborDec, be_length]
        rw [e, h1, unbe_be (by omega)]
      · split at h
        · rename_i hn
          cases h
          have h1 : (be 4 n).take 4 = be 4 n := List.take_of_length_le (by rw [be_length])
          have e : cborDec (26 :: be 4 n) = some (unbe ((be 4 n).take 4)) := by
            simp [cborDec, be_length]
          rw [e, h1, unbe_be (by omega)]
        · split at h
          · rename_i hn
            cases h
            have h1 : (be 8 n).take 8 = be 8 n := List.take_of_length_le (by rw [be_length])
            have e : cborDec (27 :: be 8 n) = some (unbe ((be 8 n).take 8)) := by
              simp [cborDec, be_length]
            rw [e, h1, unbe_be (by omega)]
          · cases h

/-- The assumptions on encodings hold for `u64`. -/
theorem cborCodec_lawful : cborCodec.Lawful := by
  refine ⟨fun v bs h => cborDec_enc h, ?_, ?_⟩
  · intro v h
    have := cborDec_enc h
    simp [cborDec] at this
  · intro k k' bs h h'
    have h1 := cborDec_enc h
    rw [cborDec_enc h'] at h1
    exact (Option.some.inj h1).symm

end Verif.Ilm
