import Verif.Core.Num

/-!
# C28, C29: numbers and their text
-/

namespace Verif.Props
open Verif.Core

/-! ## C28 -/

/-- Checked addition returns the exact sum when it fits in 64 bits and nothing otherwise. -/
theorem C28_checked_add (a b : U64) :
    (∀ c, U64.checkedAdd a b = some c ↔ c.val = a.val + b.val) ∧
    (U64.checkedAdd a b = none ↔ 2 ^ 64 ≤ a.val + b.val) := by
  unfold U64.checkedAdd u64Bound
  split
  · rename_i h
    refine ⟨fun c => ?_, by simp; omega⟩
    constructor
    · intro hc; cases hc; rfl
    · intro hc; congr 1; cases c; simp_all
  · rename_i h
    refine ⟨fun c => ?_, by simp; omega⟩
    have := c.lt
    unfold u64Bound at this
    simp; omega

/-- The successor is checked addition of one. -/
theorem C28_checked_next (a : U64) :
    (∀ c, U64.checkedNext a = some c ↔ c.val = a.val + 1) ∧
    (U64.checkedNext a = none ↔ a.val = 2 ^ 64 - 1) := by
  have h := C28_checked_add a U64.one
  have h1 : U64.one.val = 1 := rfl
  have := a.lt
  unfold u64Bound at this
  rw [h1] at h
  exact ⟨h.1, h.2.trans (by omega)⟩

/-- Saturating addition, successor and subtraction are the exact result clamped to
`[0, 2^64 - 1]`. -/
theorem C28_saturating (a b : U64) :
    (U64.saturatingAdd a b).val = min (a.val + b.val) (2 ^ 64 - 1) ∧
    (U64.saturatingNext a).val = min (a.val + 1) (2 ^ 64 - 1) ∧
    ((U64.saturatingSub a b).val : Int) = max (a.val - b.val) 0 := by
  have key : ∀ x y : U64, (U64.saturatingAdd x y).val = min (x.val + y.val) (2 ^ 64 - 1) := by
    intro x y
    have h := C28_checked_add x y
    unfold U64.saturatingAdd
    cases hc : U64.checkedAdd x y with
    | none =>
      have := h.2.mp hc
      show (2 ^ 64 - 1 : Nat) = _
      omega
    | some c =>
      have h2 := (h.1 c).mp hc
      have := c.lt
      unfold u64Bound at this
      show c.val = _
      omega
  refine ⟨key a b, key a U64.one, ?_⟩
  unfold U64.saturatingSub
  split
  · rename_i h
    show ((a.val - b.val : Nat) : Int) = _
    omega
  · show (0 : Int) = _
    omega

/-- Ordering is numeric. -/
theorem C28_order (a b : U64) :
    (U64.cmp a b = .lt ↔ a.val < b.val) ∧ (U64.cmp a b = .eq ↔ a = b) ∧
    (U64.cmp a b = .gt ↔ b.val < a.val) := by
  unfold U64.cmp
  refine ⟨Nat.compare_eq_lt, ?_, Nat.compare_eq_gt⟩
  rw [Nat.compare_eq_eq]
  constructor
  · intro h; cases a; cases b; simp_all
  · rintro rfl; rfl

/-- Non-vacuity: both outcomes of checked addition occur, and saturation occurs. -/
example : U64.checkedAdd ⟨5, by decide⟩ ⟨7, by decide⟩ = some ⟨12, by decide⟩ ∧
    U64.checkedNext U64.MAX = none ∧ U64.saturatingNext U64.MAX = U64.MAX ∧
    U64.saturatingSub ⟨3, by decide⟩ ⟨7, by decide⟩ = U64.MIN := by decide

/-! ## C29 -/

/-- A decimal text: digits, most significant first, with at least one digit (specification). -/
def IsDecimal (s : List Char) (n : Nat) : Prop :=
  ∃ ds : List Nat, s ≠ [] ∧ s.mapM toDigit = some ds ∧
    n = ds.foldl (fun acc d => acc * 10 + d) 0

/-- Parsing accepts exactly the decimal texts, with one optional leading plus, of numbers
below `2^64`, and returns the number written. -/
theorem C29_parse_exact (s : List Char) (n : Nat) :
    parseU64 s = .ok n ↔
      n < 2 ^ 64 ∧ ∃ body, (s = body ∨ s = '+' :: body) ∧ IsDecimal body n := by
  have plus : toDigit '+' = none := by decide
  have h0 : (0 : Nat) < u64Bound := by decide
  have loop : ∀ body, body ≠ [] → (parseLoop 0 body = .ok n ↔ n < 2 ^ 64 ∧ IsDecimal body n) := by
    intro body hne
    rw [parseLoop_ok_iff body 0 n h0]
    unfold IsDecimal u64Bound
    constructor
    · rintro ⟨ds, h1, h2, h3⟩; exact ⟨h3, ds, hne, h1, h2⟩
    · rintro ⟨h3, ds, _, h1, h2⟩; exact ⟨ds, h1, h2, h3⟩
  have notplus : ∀ body, IsDecimal ('+' :: body) n → False := by
    rintro body ⟨ds, _, h, _⟩
    simp [List.mapM_cons, plus] at h
  unfold parseU64
  split
  · constructor
    · simp
    · rintro ⟨_, body, h | h, ds, hne, _⟩
      · exact absurd h.symm hne
      · cases h
  · constructor
    · simp
    · rintro ⟨_, body, h | h, hd⟩
      · subst h; exact (notplus [] hd).elim
      · obtain ⟨ds, hne, _⟩ := hd
        simp at h; exact absurd h hne
  · constructor
    · simp
    · rintro ⟨_, body, h | h, hd⟩
      · subst h
        obtain ⟨ds, _, h, _⟩ := hd
        simp [List.mapM_cons, show toDigit '-' = none by decide] at h
      · simp at h
  · rename_i rest hrest
    have hne : rest ≠ [] := by rintro rfl; exact hrest rfl
    rw [loop rest hne]
    constructor
    · rintro ⟨h1, h2⟩; exact ⟨h1, rest, Or.inr rfl, h2⟩
    · rintro ⟨h1, body, h | h, hd⟩
      · subst h; exact (notplus _ hd).elim
      · simp at h; subst h; exact ⟨h1, hd⟩
  · rename_i hnil hp hm hplus
    rw [loop s hnil]
    constructor
    · rintro ⟨h1, h2⟩; exact ⟨h1, s, Or.inl rfl, h2⟩
    · rintro ⟨h1, body, h | h, hd⟩
      · subst h; exact ⟨h1, hd⟩
      · exact absurd h (hplus body)

/-- Printing a number and parsing it back gives the same number. -/
theorem C29_round_trip (a : U64) : parseU64 a.display = .ok a.val := by
  rw [C29_parse_exact]
  obtain ⟨ds, h1, h2, h3⟩ := showNat_mapM a.val
  refine ⟨a.lt, a.display, Or.inl rfl, ds, ?_, h1, h2.symm⟩
  intro h
  unfold U64.display at h
  rw [h] at h1
  simp at h1; exact h3 h1

/-- The JSON readers of block numbers, slot numbers and timestamps accept a number and its
decimal string alike, and what is written reads back. -/
theorem C29_json (a : U64) :
    readNumber (.num a) = .ok a.val ∧ readNumber (.str a.display) = .ok a.val ∧
    readNumber (writeNumber a) = .ok a.val ∧ readOutputIndex (writeNumber a) = .ok a.val := by
  refine ⟨rfl, ?_, rfl, rfl⟩
  simp [readNumber, C29_round_trip]

/-- A JSON string is accepted by these readers only if it is a decimal text of a 64-bit number. -/
theorem C29_json_str (s : List Char) (n : Nat) :
    readNumber (.str s) = .ok n ↔
      n < 2 ^ 64 ∧ ∃ body, (s = body ∨ s = '+' :: body) ∧ IsDecimal body n := by
  rw [← C29_parse_exact]
  simp only [readNumber]
  cases parseU64 s <;> simp

/-- The reader of output indices differs: it rejects every string. -/
theorem C29_output_index_rejects_strings (s : List Char) (n : Nat) :
    readOutputIndex (.str s) ≠ .ok n := by simp [readOutputIndex]

example : parseU64 "+0042".toList = .ok 42 ∧ parseU64 "18446744073709551615".toList = .ok (2 ^ 64 - 1) ∧
    parseU64 "18446744073709551616".toList = .error .posOverflow ∧
    parseU64 "-1".toList = .error .invalidDigit ∧ parseU64 "1_0".toList = .error .invalidDigit ∧
    (⟨1234, by decide⟩ : U64).display = "1234".toList := by
  refine ⟨by decide, by decide, by decide, by decide, by decide, by decide +kernel⟩

end Verif.Props
