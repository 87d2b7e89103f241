import Verif.Cardano.Fingerprint
import Verif.Ilm.Cbor

/-!
# CBOR items

The part of CBOR (RFC 8949) the ledger library writes: definite lengths, shortest heads. Numbers are below
`2^64`. Encoders work on encoded parts.
-/

namespace Verif.Cardano
open Verif.Ilm (be be_length unbe unbe_be)

/-- Head of an item: major type and number. -/
def head (major n : Nat) : Bytes :=
  if n < 24 then [UInt8.ofNat (32 * major + n)]
  else if n < 2 ^ 8 then UInt8.ofNat (32 * major + 24) :: be 1 n
  else if n < 2 ^ 16 then UInt8.ofNat (32 * major + 25) :: be 2 n
  else if n < 2 ^ 32 then UInt8.ofNat (32 * major + 26) :: be 4 n
  else UInt8.ofNat (32 * major + 27) :: be 8 n

def encUInt (n : Nat) : Bytes := head 0 n

def encBytes (b : Bytes) : Bytes := head 2 b.length ++ b

/-- Text, given by its UTF-8 bytes. -/
def encText (b : Bytes) : Bytes := head 3 b.length ++ b

def encArray (items : List Bytes) : Bytes := head 4 items.length ++ items.flatten

def encMap (entries : List (Bytes × Bytes)) : Bytes :=
  head 5 entries.length ++ (entries.map fun e => e.1 ++ e.2).flatten

def encTrue : Bytes := [0xf5]

def encNull : Bytes := [0xf6]

/-! ### Sizes -/

/-- Bytes of a head. -/
def headSize (n : Nat) : Nat :=
  if n < 24 then 1 else if n < 2 ^ 8 then 2 else if n < 2 ^ 16 then 3 else if n < 2 ^ 32 then 5 else 9

theorem head_length (m n : Nat) : (head m n).length = headSize n := by
  unfold head headSize
  split
  · rfl
  · split
    · simp [be_length]
    · split
      · simp [be_length]
      · split <;> simp [be_length]

theorem headSize_le (n : Nat) : headSize n ≤ 9 := by
  unfold headSize; split <;> (try split) <;> (try split) <;> (try split) <;> omega

theorem headSize_pos (n : Nat) : 1 ≤ headSize n := by
  unfold headSize; split <;> (try split) <;> (try split) <;> (try split) <;> omega

theorem headSize_mono {n m : Nat} (h : n ≤ m) : headSize n ≤ headSize m := by
  unfold headSize
  repeat' split
  all_goals omega

theorem headSize_small {n : Nat} (h : n < 24) : headSize n = 1 := by
  unfold headSize; rw [if_pos h]

theorem headSize_byte {n : Nat} (h : n < 2 ^ 8) : headSize n ≤ 2 := by
  unfold headSize
  repeat' split
  all_goals omega

theorem headSize_short {n : Nat} (h : n < 2 ^ 16) : headSize n ≤ 3 := by
  unfold headSize
  repeat' split
  all_goals omega

/-- Long heads are rare enough for four spare bytes in every item of a list. -/
theorem headSize_slack (n : Nat) : headSize n ≤ 1 + 4 * n := by
  unfold headSize; repeat' split
  all_goals omega

theorem encUInt_length (n : Nat) : (encUInt n).length = headSize n := head_length 0 n

theorem encBytes_length (b : Bytes) : (encBytes b).length = headSize b.length + b.length := by
  simp [encBytes, head_length]

theorem encText_length (b : Bytes) : (encText b).length = headSize b.length + b.length := by
  simp [encText, head_length]

theorem encArray_length (l : List Bytes) :
    (encArray l).length = headSize l.length + (l.map List.length).sum := by
  simp [encArray, head_length, List.length_flatten]

theorem encMap_length (l : List (Bytes × Bytes)) :
    (encMap l).length = headSize l.length + (l.map fun e => e.1.length + e.2.length).sum := by
  simp [encMap, head_length, List.length_flatten, Function.comp_def]

/-! ### Reading heads back -/

/-- Reads a head. -/
def unhead : Bytes → Option (Nat × Nat × Bytes)
  | [] => none
  | b :: r =>
    let m := b.toNat / 32
    let a := b.toNat % 32
    if a < 24 then some (m, a, r)
    else if a = 24 then some (m, unbe (r.take 1), r.drop 1)
    else if a = 25 then some (m, unbe (r.take 2), r.drop 2)
    else if a = 26 then some (m, unbe (r.take 4), r.drop 4)
    else if a = 27 then some (m, unbe (r.take 8), r.drop 8)
    else none

theorem unhead_long (m k a n : Nat) (hm : m < 8) (ha : a < 32) (h24 : 24 ≤ a)
    (hk : (a = 24 ∧ k = 1) ∨ (a = 25 ∧ k = 2) ∨ (a = 26 ∧ k = 4) ∨ (a = 27 ∧ k = 8)) (hn : n < 256 ^ k)
    (r : Bytes) : unhead (UInt8.ofNat (32 * m + a) :: be k n ++ r) = some (m, n, r) := by
  have hb : (UInt8.ofNat (32 * m + a)).toNat = 32 * m + a := by rw [UInt8.toNat_ofNat']; omega
  have h1 : (32 * m + a) / 32 = m := by omega
  have h2 : (32 * m + a) % 32 = a := by omega
  have ht : (be k n ++ r).take k = be k n := by
    rw [List.take_append_of_le_length (by rw [be_length]), List.take_of_length_le (by rw [be_length])]
  have hd : (be k n ++ r).drop k = r := by
    rw [List.drop_append_of_le_length (by rw [be_length]), List.drop_of_length_le (by rw [be_length])]
    rfl
  simp only [List.cons_append, unhead, hb, h1, h2]
  rw [if_neg (by omega)]
  rcases hk with ⟨rfl, rfl⟩ | ⟨rfl, rfl⟩ | ⟨rfl, rfl⟩ | ⟨rfl, rfl⟩
  all_goals simp [ht, hd, unbe_be hn]

theorem unhead_head (m n : Nat) (hm : m < 8) (hn : n < 2 ^ 64) (r : Bytes) :
    unhead (head m n ++ r) = some (m, n, r) := by
  unfold head
  split
  · rename_i h
    have hb : (UInt8.ofNat (32 * m + n)).toNat = 32 * m + n := by rw [UInt8.toNat_ofNat']; omega
    have h1 : (32 * m + n) / 32 = m := by omega
    have h2 : (32 * m + n) % 32 = n := by omega
    simp only [List.cons_append, List.nil_append, unhead, hb, h1, h2, if_pos h]
  · split
    · exact unhead_long m 1 24 n hm (by omega) (by omega) (by simp) (by omega) r
    · split
      · exact unhead_long m 2 25 n hm (by omega) (by omega) (by simp) (by omega) r
      · split
        · exact unhead_long m 4 26 n hm (by omega) (by omega) (by simp) (by omega) r
        · exact unhead_long m 8 27 n hm (by omega) (by omega) (by simp) (by omega) r

theorem head_inj {m m' n n' : Nat} {r r' : Bytes} (hm : m < 8) (hm' : m' < 8) (hn : n < 2 ^ 64)
    (hn' : n' < 2 ^ 64) (h : head m n ++ r = head m' n' ++ r') : m = m' ∧ n = n' ∧ r = r' := by
  have h1 := unhead_head m n hm hn r
  rw [h, unhead_head m' n' hm' hn' r'] at h1
  simp only [Option.some.injEq, Prod.mk.injEq] at h1
  exact ⟨h1.1.symm, h1.2.1.symm, h1.2.2.symm⟩

theorem encBytes_inj {b b' r r' : Bytes} (hb : b.length < 2 ^ 64) (hb' : b'.length < 2 ^ 64)
    (h : encBytes b ++ r = encBytes b' ++ r') : b = b' ∧ r = r' := by
  unfold encBytes at h
  rw [List.append_assoc, List.append_assoc] at h
  obtain ⟨_, h1, h2⟩ := head_inj (by omega) (by omega) hb hb' h
  exact List.append_inj h2 h1

end Verif.Cardano
