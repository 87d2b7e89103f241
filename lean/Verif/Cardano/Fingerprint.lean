import Verif.Core.Num

/-!
# Hexadecimal text and token fingerprints

Models `/repo/cardano-utils/src/cip14.rs`. Strings are lists of characters; the `hex` crate (0.4)
and Blake2b are not part of `/repo`. The first is written out here, the second is a parameter (`Blake2b.hash 20`).
-/

namespace Verif.Cardano

/-- Bytes. -/
abbrev Bytes := List UInt8

/-- The value of a hexadecimal digit, `val` of the `hex` crate: upper and lower case. -/
def hexVal (c : Char) : Option Nat :=
  if 65 ≤ c.toNat ∧ c.toNat ≤ 70 then some (c.toNat - 65 + 10)
  else if 97 ≤ c.toNat ∧ c.toNat ≤ 102 then some (c.toNat - 97 + 10)
  else if 48 ≤ c.toNat ∧ c.toNat ≤ 57 then some (c.toNat - 48)
  else none

/-- The digit pairs of a hexadecimal text; nothing for odd length or another character. -/
def hexDecode : List Char → Option Bytes
  | [] => some []
  | [_] => none
  | a :: b :: t =>
    match hexVal a, hexVal b, hexDecode t with
    | some x, some y, some r => some (UInt8.ofNat (x * 16 + y) :: r)
    | _, _, _ => none

/-- `hex::decode_to_slice` into a slice of `n` bytes: the text must have exactly `2 * n` digits. -/
def decodeToSlice (s : List Char) (n : Nat) : Option Bytes :=
  if s.length % 2 ≠ 0 then none
  else if s.length / 2 ≠ n then none
  else hexDecode s

/-- A digit of `hex::encode`: lower case. -/
def hexDigit (n : Nat) : Char := if n < 10 then Char.ofNat (48 + n) else Char.ofNat (87 + n)

/-- `hex::encode`. -/
def hexEncode (b : Bytes) : List Char :=
  b.flatMap fun x => [hexDigit (x.toNat / 16), hexDigit (x.toNat % 16)]

/-- `format!("{:0<64}", _)`: zeros on the right up to 64 characters. -/
def padRight (s : List Char) : List Char := s ++ List.replicate (64 - s.length) '0'

/-- `fingerprint_hash`, cip14.rs:6-19. The buffer has 28 bytes for the policy and half the
length of the name for the name; both texts are decoded into their part. `hash` is
Blake2b with 20 bytes of output. A text whose byte length differs from its number
of characters is not hexadecimal, so counting characters gives the same answer. -/
def fingerprintHash (hash : Bytes → Bytes) (policy name : List Char) : Option Bytes :=
  match decodeToSlice policy 28 with
  | none => none
  | some p =>
    match decodeToSlice name (name.length / 2) with
    | none => none
    | some n => some (hash (p ++ n))

/-- `fingerprint`, cip14.rs:21-23. -/
def fingerprint (hash : Bytes → Bytes) (policy name : List Char) : Option (List Char) :=
  (fingerprintHash hash policy name).map fun h => padRight (hexEncode h)

/-! ### Lemmas -/

theorem hexVal_lt {c : Char} {n : Nat} (h : hexVal c = some n) : n < 16 := by
  unfold hexVal at h
  split at h
  · cases h; omega
  · split at h
    · cases h; omega
    · split at h
      · cases h; omega
      · cases h

theorem hexVal_hexDigit {n : Nat} (h : n < 16) : hexVal (hexDigit n) = some n := by
  revert h; revert n; decide

theorem hexDecode_hexEncode (b : Bytes) : hexDecode (hexEncode b) = some b := by
  induction b with
  | nil => rfl
  | cons x b ih =>
    have hx : x.toNat < 256 := x.toNat_lt
    have e : hexEncode (x :: b) = hexDigit (x.toNat / 16) :: hexDigit (x.toNat % 16) :: hexEncode b := rfl
    rw [e]
    simp only [hexDecode, hexVal_hexDigit (show x.toNat / 16 < 16 by omega),
      hexVal_hexDigit (show x.toNat % 16 < 16 by omega), ih]
    have : x.toNat / 16 * 16 + x.toNat % 16 = x.toNat := by omega
    rw [this, UInt8.ofNat_toNat]

theorem hexEncode_length (b : Bytes) : (hexEncode b).length = 2 * b.length := by
  induction b with
  | nil => rfl
  | cons x b ih =>
    have e : hexEncode (x :: b) = hexDigit (x.toNat / 16) :: hexDigit (x.toNat % 16) :: hexEncode b := rfl
    rw [e, List.length_cons, List.length_cons, ih, List.length_cons]; omega

theorem hexDecode_length : ∀ {s : List Char} {b : Bytes}, hexDecode s = some b → s.length = 2 * b.length
  | [], b, h => by simp [hexDecode] at h; subst h; rfl
  | [_], b, h => by simp [hexDecode] at h
  | a :: c :: t, b, h => by
    simp only [hexDecode] at h
    split at h
    · rename_i r _ _ hr
      cases h
      have := hexDecode_length hr
      simp only [List.length_cons]; omega
    · cases h

theorem hexDecode_isSome_iff : ∀ (s : List Char),
    (hexDecode s).isSome = true ↔ s.length % 2 = 0 ∧ ∀ c ∈ s, (hexVal c).isSome = true
  | [] => by simp [hexDecode]
  | [_] => by simp [hexDecode]
  | a :: c :: t => by
    have ih := hexDecode_isSome_iff t
    have hl : (a :: c :: t).length % 2 = t.length % 2 := by simp only [List.length_cons]; omega
    rw [hl]
    simp only [hexDecode, List.forall_mem_cons]
    cases ha : hexVal a with
    | none => simp
    | some x =>
      cases hc : hexVal c with
      | none => simp
      | some y =>
        cases ht : hexDecode t with
        | none =>
          rw [ht] at ih
          simp only [Option.isSome_none, Bool.false_eq_true, false_iff, Option.isSome_some, true_and] at ih ⊢
          exact ih
        | some r =>
          rw [ht] at ih
          simp only [Option.isSome_some, true_iff, true_and] at ih ⊢
          exact ih

theorem decodeToSlice_eq_some {s : List Char} {n : Nat} {b : Bytes} :
    decodeToSlice s n = some b ↔ hexDecode s = some b ∧ b.length = n := by
  unfold decodeToSlice
  constructor
  · intro h
    split at h
    · cases h
    · split at h
      · cases h
      · have := hexDecode_length h
        exact ⟨h, by omega⟩
  · rintro ⟨h, hn⟩
    have := hexDecode_length h
    rw [if_neg (by omega), if_neg (by omega)]
    exact h

theorem decodeToSlice_half (s : List Char) : decodeToSlice s (s.length / 2) = hexDecode s := by
  cases h : hexDecode s with
  | some b =>
    have := hexDecode_length h
    exact decodeToSlice_eq_some.mpr ⟨h, by omega⟩
  | none =>
    cases h2 : decodeToSlice s (s.length / 2) with
    | none => rfl
    | some b => rw [(decodeToSlice_eq_some.mp h2).1] at h; cases h

theorem fingerprintHash_eq_some {hash : Bytes → Bytes} {p n : List Char} {h : Bytes} :
    fingerprintHash hash p n = some h ↔
      ∃ P N, hexDecode p = some P ∧ P.length = 28 ∧ hexDecode n = some N ∧ h = hash (P ++ N) := by
  unfold fingerprintHash
  rw [decodeToSlice_half]
  constructor
  · intro hh
    cases hp : decodeToSlice p 28 with
    | none => rw [hp] at hh; cases hh
    | some P =>
      rw [hp] at hh
      cases hn : hexDecode n with
      | none => rw [hn] at hh; cases hh
      | some N =>
        rw [hn] at hh; cases hh
        have := decodeToSlice_eq_some.mp hp
        exact ⟨P, N, this.1, this.2, rfl, rfl⟩
  · rintro ⟨P, N, hp, hl, hn, rfl⟩
    rw [decodeToSlice_eq_some.mpr ⟨hp, hl⟩, hn]

theorem hexEncode_injective : Function.Injective hexEncode := by
  intro a b h
  have := congrArg hexDecode h
  rw [hexDecode_hexEncode, hexDecode_hexEncode] at this
  exact Option.some.inj this

end Verif.Cardano
