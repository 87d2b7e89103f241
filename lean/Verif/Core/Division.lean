import Verif.Core.Value
import Mathlib.Data.Nat.Digits.Lemmas
import Mathlib.Tactic.NormNum

/-!
# Division of a decimal by a machine number

`Value / usize`, `/repo/core/src/value.rs:671-687`. The division is that of `BigDecimal` (0.4.2), which is not part of
`/repo`: long division in base ten to 100 digits, the last one rounded by the next. It is written out here and is part of
the trusted base.
-/

namespace Verif.Core

namespace Dec

/-- `DEFAULT_PRECISION` of the crate. -/
def precision : Nat := 100

/-- The numerator is multiplied by ten until it is not below the denominator; `fuel` as in `posDiv` is enough. -/
def shiftUp (den : Nat) : Nat → Nat → Int → Nat × Int
  | 0, num, s => (num, s)
  | fuel + 1, num, s => if num < den then shiftUp den fuel (num * 10) (s + 1) else (num, s)

/-- The digits after the first quotient: quotient, ten times the remainder, scale. -/
def divLoop (den : Nat) : Nat → Nat → Nat → Int → Nat × Nat × Int
  | 0, q, r, s => (q, r, s)
  | k + 1, q, r, s => if r = 0 then (q, r, s) else divLoop den k (q * 10 + r / den) (r % den * 10) (s + 1)

/-- The rounding term of the next digit: half is rounded up. -/
def roundTerm (d : Nat) : Nat := if d < 5 then 0 else 1

/-- `impl_division` for positive numbers. -/
def posDiv (num den : Nat) (s : Int) : Nat × Int :=
  let (n, s1) := shiftUp den den num s
  let q := n / den
  let (q2, r2, s2) := divLoop den (precision - (Nat.digits 10 q).length) q (n % den * 10) s1
  (if r2 = 0 then q2 else q2 + roundTerm (r2 / den), s2)

/-- Division by a machine number; a panic if that is zero. Zero, division by one and by an equal number are special. -/
def divNat (a : Dec) (n : Nat) : Option Dec :=
  if n = 0 then none
  else if a.digits = 0 ∨ n = 1 then some a
  else if a.digits = n then some ⟨1, a.scale⟩
  else
    let (q, s) := posDiv a.digits.natAbs n a.scale
    some ⟨if a.digits < 0 then -(q : Int) else q, s⟩

theorem shiftUp_spec (den : Nat) : ∀ (fuel num : Nat) (s : Int), 0 < num → den ≤ num * 10 ^ fuel →
    ∃ k : Nat, (shiftUp den fuel num s) = (num * 10 ^ k, s + k) ∧ den ≤ num * 10 ^ k ∧ (k = 0 ∨ num * 10 ^ (k - 1) < den) := by
  intro fuel
  induction fuel with
  | zero => intro num s _ h; exact ⟨0, by simp [shiftUp], by simpa using h, .inl rfl⟩
  | succ f ih =>
    intro num s hp h
    unfold shiftUp
    split
    · rename_i hlt
      obtain ⟨k, e, hk, hm⟩ := ih (num * 10) (s + 1) (by omega) (by rw [mul_assoc, ← pow_succ']; exact h)
      refine ⟨k + 1, ?_, ?_, ?_⟩
      · rw [e, pow_succ']
        push_cast
        refine Prod.ext (mul_assoc _ _ _) ?_
        show s + 1 + (k : Int) = s + (k + 1)
        omega
      · rw [pow_succ', ← mul_assoc]; exact hk
      · right
        rw [Nat.add_sub_cancel]
        cases k with
        | zero => simpa using hlt
        | succ k' =>
          rcases hm with hm | hm
          · omega
          · rw [pow_succ', ← mul_assoc]; exact hm
    · exact ⟨0, by simp, by simp; omega, .inl rfl⟩

theorem divLoop_spec (den : Nat) (hd : 0 < den) : ∀ (k q rem : Nat) (s : Int), rem < den →
    ∃ j q2 rem2 : Nat, divLoop den k q (rem * 10) s = (q2, rem2 * 10, s + j) ∧ rem2 < den ∧
      q2 * den + rem2 = (q * den + rem) * 10 ^ j ∧ q * 10 ^ j ≤ q2 ∧ (rem2 = 0 ∨ j = k) ∧ j ≤ k := by
  intro k
  induction k with
  | zero => intro q rem s h; exact ⟨0, q, rem, by simp [divLoop], h, by simp, by simp, .inr rfl, le_rfl⟩
  | succ k ih =>
    intro q rem s h
    unfold divLoop
    split
    · rename_i h0; exact ⟨0, q, rem, by simp, h, by simp, by simp, .inl (by omega), by omega⟩
    · obtain ⟨j, q2, rem2, e, h1, h2, h3, h4, h5⟩ := ih (q * 10 + rem * 10 / den) (rem * 10 % den) (s + 1) (Nat.mod_lt _ hd)
      refine ⟨j + 1, q2, rem2, ?_, h1, ?_, ?_, ?_, by omega⟩
      · rw [e]; push_cast
        rw [show s + 1 + (j : Int) = s + (j + 1) by omega]
      · rw [h2, pow_succ']
        have := Nat.div_add_mod (rem * 10) den
        have e2 : (q * 10 + rem * 10 / den) * den + rem * 10 % den = (q * den + rem) * 10 := by
          calc _ = q * den * 10 + (den * (rem * 10 / den) + rem * 10 % den) := by ring
            _ = _ := by rw [this]; ring
        rw [e2]; ring
      · refine le_trans ?_ h3
        rw [pow_succ', ← mul_assoc]
        exact Nat.mul_le_mul_right _ (Nat.le_add_right _ _)
      · rcases h4 with h4 | h4
        · exact .inl h4
        · exact .inr (by omega)

/-- What long division gives: the quotient and the remainder of the shifted numerator, and a hundred digits unless it
is exact. -/
theorem posDiv_spec (num den : Nat) (s : Int) (hn : 0 < num) (hd : 0 < den) :
    ∃ j q rem : Nat, q * den + rem = num * 10 ^ j ∧ rem < den ∧ 0 < q ∧ (100 ≤ j → 10 ^ (j - 100) ≤ den) ∧
      (rem = 0 ∧ posDiv num den s = (q, s + j) ∨
       rem ≠ 0 ∧ 10 ^ 99 ≤ q ∧ posDiv num den s = (q + roundTerm (rem * 10 / den), s + j)) := by
  have hf : den ≤ num * 10 ^ den := by
    have : den < 10 ^ den := Nat.lt_pow_self (by omega)
    nlinarith
  obtain ⟨k, e1, hk, hmin⟩ := shiftUp_spec den den num s hn hf
  obtain ⟨j, q2, rem2, e2, h1, h2, h3, h4, h5⟩ := divLoop_spec den hd
    (precision - (Nat.digits 10 (num * 10 ^ k / den)).length) (num * 10 ^ k / den) (num * 10 ^ k % den) (s + k)
    (Nat.mod_lt _ hd)
  have hq0 : 0 < num * 10 ^ k / den := Nat.div_pos hk hd
  have hq2 : 0 < q2 := lt_of_lt_of_le (Nat.mul_pos hq0 (Nat.pow_pos (by omega))) h3
  refine ⟨k + j, q2, rem2, ?_, h1, hq2, ?_, ?_⟩
  · rw [h2]
    have := Nat.div_add_mod (num * 10 ^ k) den
    rw [pow_add, ← mul_assoc]
    congr 1
    rw [mul_comm]; exact this
  · intro hj
    have hl : 0 < (Nat.digits 10 (num * 10 ^ k / den)).length := by
      rw [List.length_pos_iff]; exact Nat.digits_ne_nil_iff_ne_zero.2 (by omega)
    unfold precision at h5
    rcases hmin with hmin | hmin
    · omega
    · calc 10 ^ (k + j - 100) ≤ 10 ^ (k - 1) := Nat.pow_le_pow_right (by omega) (by omega)
        _ ≤ num * 10 ^ (k - 1) := Nat.le_mul_of_pos_left _ hn
        _ ≤ den := hmin.le
  · unfold posDiv
    simp only [e1, e2]
    by_cases h0 : rem2 = 0
    · left
      refine ⟨h0, ?_⟩
      simp [h0]; omega
    · right
      refine ⟨h0, ?_, ?_⟩
      · have hj : j = precision - (Nat.digits 10 (num * 10 ^ k / den)).length := by
          rcases h4 with h4 | h4
          · exact absurd h4 h0
          · exact h4
        refine le_trans ?_ h3
        generalize num * 10 ^ k / den = q at hq0 hj
        have hb := Nat.base_pow_length_digits_le 10 q (by omega) (by omega)
        have hl : 0 < (Nat.digits 10 q).length := by
          rw [List.length_pos_iff]; exact Nat.digits_ne_nil_iff_ne_zero.2 (by omega)
        unfold precision at hj
        have hb' : 10 ^ ((Nat.digits 10 q).length - 1) ≤ q := by
          obtain ⟨m, hm⟩ : ∃ m, (Nat.digits 10 q).length = m + 1 := ⟨_, (Nat.succ_pred_eq_of_pos hl).symm⟩
          rw [hm] at hb ⊢
          rw [pow_succ] at hb
          simp; omega
        calc 10 ^ 99 ≤ 10 ^ ((Nat.digits 10 q).length - 1 + j) := Nat.pow_le_pow_right (by omega) (by omega)
          _ = 10 ^ ((Nat.digits 10 q).length - 1) * 10 ^ j := pow_add _ _ _
          _ ≤ q * 10 ^ j := Nat.mul_le_mul_right _ hb'
      · have : ¬ (rem2 * 10 = 0) := by omega
        rw [if_neg this]
        push_cast
        simp [add_assoc]

/-- The quotient of positive numbers is right to a hundred digits. -/
theorem posDiv_close (num den : Nat) (s : Int) (hn : 0 < num) (hd : 0 < den) :
    ∃ q s', posDiv num den s = (q, s') ∧ 0 < q ∧
      |((q : Nat) : ℚ) * (10 : ℚ) ^ (-s') - (num : ℚ) * (10 : ℚ) ^ (-s) / den| ≤
        (num : ℚ) * (10 : ℚ) ^ (-s) / den / (2 * 10 ^ 99) := by
  obtain ⟨j, q, rem, h1, h2, h3, _, h4⟩ := posDiv_spec num den s hn hd
  have hdq : (0 : ℚ) < den := by exact_mod_cast hd
  have h1q : (q : ℚ) * den + rem = num * 10 ^ j := by exact_mod_cast h1
  have hp : (0 : ℚ) < (10 : ℚ) ^ (-(s + j)) := pow_pos' _
  have hx : (num : ℚ) * (10 : ℚ) ^ (-s) / den = (q + rem / den) * (10 : ℚ) ^ (-(s + j)) := by
    have e : (10 : ℚ) ^ (-s) = 10 ^ j * (10 : ℚ) ^ (-(s + j)) := by
      rw [← zpow_natCast, ← zpow_add₀ (by norm_num)]; congr 1; omega
    rw [e, ← mul_assoc, ← h1q]
    field_simp
  rcases h4 with ⟨h0, e⟩ | ⟨h0, hb, e⟩
  · refine ⟨q, _, e, h3, ?_⟩
    rw [hx, h0]
    simp
    positivity
  · refine ⟨_, _, e, by omega, ?_⟩
    rw [hx]
    have hbq : (10 : ℚ) ^ 99 ≤ q := by exact_mod_cast hb
    have hr0 : (0 : ℚ) ≤ rem / den := by positivity
    have hr1 : |((roundTerm (rem * 10 / den) : Nat) : ℚ) - rem / den| ≤ 1 / 2 := by
      unfold roundTerm
      split
      · rename_i h
        have : rem * 10 < 5 * den := (Nat.div_lt_iff_lt_mul hd).1 h
        have hq : (rem : ℚ) * 10 < 5 * den := by exact_mod_cast this
        rw [abs_le]
        constructor
        · have : (rem : ℚ) / den ≤ 1 / 2 := by rw [div_le_iff₀ hdq]; linarith
          push_cast; linarith
        · push_cast; linarith
      · rename_i h
        have : 5 * den ≤ rem * 10 := by
          have := (Nat.le_div_iff_mul_le hd).1 (Nat.le_of_not_lt h)
          exact this
        have hq : (5 : ℚ) * den ≤ rem * 10 := by exact_mod_cast this
        have hlt : (rem : ℚ) < den := by exact_mod_cast h2
        have ha : (rem : ℚ) / den ≤ 1 := by rw [div_le_iff₀ hdq]; linarith
        have hb : 1 / 2 ≤ (rem : ℚ) / den := by rw [le_div_iff₀ hdq]; linarith
        rw [abs_le]
        constructor <;> push_cast <;> linarith
    rw [← sub_mul, abs_mul, abs_of_pos hp]
    have e3 : (q + rem / den : ℚ) * (10 : ℚ) ^ (-(s + j)) / (2 * 10 ^ 99) =
        (q + rem / den) / (2 * 10 ^ 99) * (10 : ℚ) ^ (-(s + j)) := by ring
    rw [e3]
    refine mul_le_mul_of_nonneg_right ?_ hp.le
    have : (1 : ℚ) / 2 ≤ (q + rem / den) / (2 * 10 ^ 99) := by
      rw [div_le_div_iff₀ (by norm_num) (by positivity)]
      nlinarith
    refine le_trans (le_of_eq ?_) (le_trans hr1 this)
    congr 1
    push_cast
    ring

/-- A quotient of fewer than a hundred digits is exact. -/
theorem posDiv_exact (num den : Nat) (s : Int) (hn : 0 < num) (hd : 0 < den) (m : Nat) (t : Int) (hm : m < 10 ^ 99)
    (hx : (num : ℚ) * (10 : ℚ) ^ (-s) / den = m * (10 : ℚ) ^ (-t)) :
    ∃ q s', posDiv num den s = (q, s') ∧ ((q : Nat) : ℚ) * (10 : ℚ) ^ (-s') = m * (10 : ℚ) ^ (-t) := by
  obtain ⟨j, q, rem, h1, h2, h3, _, h4⟩ := posDiv_spec num den s hn hd
  have hdq : (0 : ℚ) < den := by exact_mod_cast hd
  have h1q : (q : ℚ) * den + rem = num * 10 ^ j := by exact_mod_cast h1
  have hp : (0 : ℚ) < (10 : ℚ) ^ (-(s + j)) := pow_pos' _
  have hx2 : (num : ℚ) * (10 : ℚ) ^ (-s) / den = (q + rem / den) * (10 : ℚ) ^ (-(s + j)) := by
    have e : (10 : ℚ) ^ (-s) = 10 ^ j * (10 : ℚ) ^ (-(s + j)) := by
      rw [← zpow_natCast, ← zpow_add₀ (by norm_num)]; congr 1; omega
    rw [e, ← mul_assoc, ← h1q]
    field_simp
  rcases h4 with ⟨h0, e⟩ | ⟨h0, hb, e⟩
  · exact ⟨q, _, e, by rw [← hx, hx2, h0]; simp⟩
  · exfalso
    have hbq : (10 : ℚ) ^ 99 ≤ q := by exact_mod_cast hb
    have hmq : (m : ℚ) < 10 ^ 99 := by exact_mod_cast hm
    have hr0 : (0 : ℚ) ≤ rem / den := by positivity
    rw [hx2] at hx
    have hst : t < s + j := by
      by_contra hge
      have : (10 : ℚ) ^ (-t) ≤ (10 : ℚ) ^ (-(s + j)) := zpow_le_zpow_right₀ (by norm_num) (by omega)
      have h5 : (m : ℚ) * (10 : ℚ) ^ (-t) < 10 ^ 99 * (10 : ℚ) ^ (-(s + j)) := by
        have : (m : ℚ) * (10 : ℚ) ^ (-t) ≤ m * (10 : ℚ) ^ (-(s + j)) :=
          mul_le_mul_of_nonneg_left this (by positivity)
        exact lt_of_le_of_lt this (mul_lt_mul_of_pos_right hmq hp)
      have h6 : (10 : ℚ) ^ 99 * (10 : ℚ) ^ (-(s + j)) ≤ (q + rem / den) * (10 : ℚ) ^ (-(s + j)) :=
        mul_le_mul_of_nonneg_right (by linarith) hp.le
      linarith
    obtain ⟨k, hk⟩ : ∃ k : Nat, s + j = t + k := ⟨(s + j - t).toNat, by omega⟩
    have e7 : (10 : ℚ) ^ (-t) = 10 ^ k * (10 : ℚ) ^ (-(s + j)) := by
      rw [← zpow_natCast, ← zpow_add₀ (by norm_num)]; congr 1; omega
    rw [e7, ← mul_assoc] at hx
    have h8 := mul_right_cancel₀ (ne_of_gt hp) hx
    have h9 : (q * den + rem : ℚ) = m * 10 ^ k * den := by
      rw [← h8]; field_simp
    have h10 : q * den + rem = m * 10 ^ k * den := by exact_mod_cast h9
    have h11 : (q * den + rem) % den = 0 := by rw [h10]; exact Nat.mul_mod_left _ _
    rw [Nat.add_comm, Nat.add_mul_mod_self_right, Nat.mod_eq_of_lt h2] at h11
    exact h0 h11

/-- Division keeps the sign and works on the absolute values. -/
theorem divNat_pos (a : Dec) (n : Nat) (hn : n ≠ 0) (h0 : a.digits ≠ 0) (h1 : n ≠ 1) (h2 : a.digits ≠ n) :
    divNat a n = some ⟨if a.digits < 0 then -((posDiv a.digits.natAbs n a.scale).1 : Int)
      else (posDiv a.digits.natAbs n a.scale).1, (posDiv a.digits.natAbs n a.scale).2⟩ := by
  unfold divNat
  rw [if_neg hn, if_neg (by simp [h0, h1]), if_neg h2]

theorem toRat_sign (a : Dec) : a.toRat = (if a.digits < 0 then (-1 : ℚ) else 1) *
    ((a.digits.natAbs : Nat) * (10 : ℚ) ^ (-a.scale)) := by
  unfold toRat
  have : ((a.digits : Int) : ℚ) = (if a.digits < 0 then (-1 : ℚ) else 1) * (a.digits.natAbs : Nat) := by
    split
    · rename_i h
      have : (a.digits : Int) = -(a.digits.natAbs : Int) := by omega
      rw [this]; push_cast; simp
    · rename_i h
      have : (a.digits : Int) = (a.digits.natAbs : Int) := by omega
      rw [this]; push_cast; simp
  rw [this]; ring

theorem divNat_some (a : Dec) (n : Nat) (hn : n ≠ 0) :
    ∃ d, divNat a n = some d ∧ |d.toRat - a.toRat / n| ≤ |a.toRat / n| / (2 * 10 ^ 99) := by
  have hnq : (0 : ℚ) < n := by exact_mod_cast Nat.pos_of_ne_zero hn
  have triv : ∀ x : ℚ, |x - x| ≤ |x| / (2 * 10 ^ 99) := by intro x; simp; positivity
  by_cases h0 : a.digits = 0
  · refine ⟨a, by simp [divNat, hn, h0], ?_⟩
    have : a.toRat = 0 := by simp [toRat, h0]
    simp [this]
  by_cases h1 : n = 1
  · refine ⟨a, by simp [divNat, h1], ?_⟩
    rw [h1]; simpa using triv a.toRat
  by_cases h2 : a.digits = n
  · refine ⟨⟨1, a.scale⟩, by simp [divNat, hn, h1, h2], ?_⟩
    have : a.toRat / n = (⟨1, a.scale⟩ : Dec).toRat := by
      simp only [toRat, h2]; push_cast; field_simp
    rw [this]; exact triv _
  · refine ⟨_, divNat_pos a n hn h0 h1 h2, ?_⟩
    obtain ⟨q, s', e, hq, hc⟩ := posDiv_close a.digits.natAbs n a.scale (by omega) (by omega)
    rw [e]
    have hs := toRat_sign a
    have hd : (⟨if a.digits < 0 then -(q : Int) else q, s'⟩ : Dec).toRat =
        (if a.digits < 0 then (-1 : ℚ) else 1) * ((q : Nat) * (10 : ℚ) ^ (-s')) := by
      simp only [toRat]; split <;> push_cast <;> ring
    simp only [hd, hs]
    have hpos : (0 : ℚ) ≤ (a.digits.natAbs : Nat) * (10 : ℚ) ^ (-a.scale) / n := by
      have := pow_pos' (-a.scale); positivity
    rw [mul_div_assoc, ← mul_sub, abs_mul, abs_mul]
    have : |(if a.digits < 0 then (-1 : ℚ) else 1)| = 1 := by split <;> simp
    rw [this, one_mul, one_mul, abs_of_nonneg hpos]
    exact hc

theorem divNat_exact (a : Dec) (n : Nat) (hn : n ≠ 0) (m t : Int) (hm : |m| < 10 ^ 99)
    (hx : a.toRat / n = m * (10 : ℚ) ^ (-t)) : ∃ d, divNat a n = some d ∧ d.toRat = a.toRat / n := by
  have hnq : (0 : ℚ) < n := by exact_mod_cast Nat.pos_of_ne_zero hn
  by_cases h0 : a.digits = 0
  · refine ⟨a, by simp [divNat, hn, h0], ?_⟩
    have : a.toRat = 0 := by simp [toRat, h0]
    simp [this]
  by_cases h1 : n = 1
  · exact ⟨a, by simp [divNat, h1], by rw [h1]; simp⟩
  by_cases h2 : a.digits = n
  · refine ⟨⟨1, a.scale⟩, by simp [divNat, hn, h1, h2], ?_⟩
    simp only [toRat, h2]; push_cast; field_simp
  · refine ⟨_, divNat_pos a n hn h0 h1 h2, ?_⟩
    have hs := toRat_sign a
    have hσ : (if a.digits < 0 then (-1 : ℚ) else 1) * (if a.digits < 0 then (-1 : ℚ) else 1) = 1 := by split <;> simp
    have hpos : (0 : ℚ) < (a.digits.natAbs : Nat) * (10 : ℚ) ^ (-a.scale) / n := by
      have := pow_pos' (-a.scale)
      have : (0 : ℚ) < (a.digits.natAbs : Nat) := by exact_mod_cast (by omega : 0 < a.digits.natAbs)
      positivity
    have habs : (a.digits.natAbs : Nat) * (10 : ℚ) ^ (-a.scale) / n = (m.natAbs : Nat) * (10 : ℚ) ^ (-t) := by
      have h3 : |a.toRat / n| = (a.digits.natAbs : Nat) * (10 : ℚ) ^ (-a.scale) / n := by
        rw [hs, mul_div_assoc, abs_mul, abs_of_pos hpos]
        have : |(if a.digits < 0 then (-1 : ℚ) else 1)| = 1 := by split <;> simp
        rw [this, one_mul]
      rw [← h3, hx, abs_mul, abs_of_pos (pow_pos' _), Nat.cast_natAbs]
      push_cast; rfl
    obtain ⟨q, s', e, hq⟩ := posDiv_exact a.digits.natAbs n a.scale (by omega) (by omega) m.natAbs t
      (by have : ((m.natAbs : Nat) : Int) < 10 ^ 99 := by rw [Int.natCast_natAbs]; exact hm
          exact_mod_cast this) habs
    rw [e]
    have hd : (⟨if a.digits < 0 then -(q : Int) else q, s'⟩ : Dec).toRat =
        (if a.digits < 0 then (-1 : ℚ) else 1) * ((q : Nat) * (10 : ℚ) ^ (-s')) := by
      simp only [toRat]; split <;> push_cast <;> ring
    simp only [hd]
    rw [hs, hq, mul_div_assoc, habs]

/-- Whole numbers below `10^99`: the quotient is on the right side of every whole number. -/
theorem divNat_whole (a : Dec) (n : Nat) (hn : n ≠ 0) (v : Int) (hv : a.toRat = v) (hb : |v| < 10 ^ 99) :
    ∃ d, divNat a n = some d ∧ ∀ c : Int, ((c : ℚ) ≤ d.toRat ↔ (c : ℚ) ≤ v / n) ∧ (d.toRat ≤ c ↔ (v : ℚ) / n ≤ c) := by
  have hnq : (0 : ℚ) < n := by exact_mod_cast Nat.pos_of_ne_zero hn
  by_cases hdvd : ((n : Int) ∣ v)
  · obtain ⟨m, rfl⟩ := hdvd
    have hx : a.toRat / n = m * (10 : ℚ) ^ (-(0 : Int)) := by
      rw [hv]; push_cast; simp; field_simp
    have hm : |m| < 10 ^ 99 := by
      rw [abs_mul] at hb
      have : (1 : Int) ≤ |(n : Int)| := by
        have : (0 : Int) < n := by omega
        rw [abs_of_pos this]; omega
      nlinarith [abs_nonneg m]
    obtain ⟨d, e, h⟩ := divNat_exact a n hn m 0 hm hx
    exact ⟨d, e, fun c => by rw [h, hv]; exact ⟨Iff.rfl, Iff.rfl⟩⟩
  · obtain ⟨d, e, h⟩ := divNat_some a n hn
    refine ⟨d, e, fun c => ?_⟩
    have hbq : |(v : ℚ)| < 10 ^ 99 := by exact_mod_cast hb
    have hdist : 1 ≤ |(c : ℚ) * n - v| := by
      have : c * n - v ≠ 0 := by
        intro h0; apply hdvd; exact ⟨c, by linarith [mul_comm c (n : Int)]⟩
      have : 1 ≤ |c * n - v| := Int.one_le_abs this
      exact_mod_cast this
    have hclose : |d.toRat * n - v| < 1 := by
      have h2 : |d.toRat * n - v| = |d.toRat - a.toRat / n| * n := by
        have e2 : d.toRat * n - v = (d.toRat - a.toRat / n) * n := by rw [hv]; field_simp
        rw [e2, abs_mul, abs_of_pos hnq]
      rw [h2]
      have h3 : |a.toRat / n| / (2 * 10 ^ 99) * n = |(v : ℚ)| / (2 * 10 ^ 99) := by
        rw [hv, abs_div, abs_of_pos hnq]; field_simp
      refine lt_of_le_of_lt (mul_le_mul_of_nonneg_right h hnq.le) ?_
      rw [h3, div_lt_one (by positivity)]
      linarith
    have key1 : (c : ℚ) ≤ v / n ↔ (c : ℚ) * n ≤ v := by rw [le_div_iff₀ hnq]
    have key2 : (v : ℚ) / n ≤ c ↔ (v : ℚ) ≤ c * n := by rw [div_le_iff₀ hnq]
    have key3 : (c : ℚ) ≤ d.toRat ↔ (c : ℚ) * n ≤ d.toRat * n := (mul_le_mul_iff_left₀ hnq).symm
    have key4 : d.toRat ≤ (c : ℚ) ↔ d.toRat * n ≤ (c : ℚ) * n := (mul_le_mul_iff_left₀ hnq).symm
    rw [key1, key2, key3, key4]
    rw [abs_lt] at hclose
    rcases le_abs'.1 hdist with hd | hd
    · exact ⟨⟨fun _ => by linarith, fun _ => by linarith⟩, ⟨fun _ => by linarith, fun _ => by linarith⟩⟩
    · exact ⟨⟨fun _ => by linarith, fun _ => by linarith⟩, ⟨fun _ => by linarith, fun _ => by linarith⟩⟩

/-- The scale grows by at most 120 digits for a 64-bit divisor. -/
theorem divNat_scale (a d : Dec) (n : Nat) (hn : n < 2 ^ 64) (h : divNat a n = some d) :
    a.scale ≤ d.scale ∧ d.scale ≤ a.scale + 120 := by
  unfold divNat at h
  split at h
  · cases h
  · split at h
    · cases h; omega
    · split at h
      · cases h; dsimp; omega
      · rename_i h1 h2 h3
        simp only [Option.some.injEq] at h
        subst h
        obtain ⟨j, q, rem, _, _, _, hj, h4⟩ := posDiv_spec a.digits.natAbs n a.scale (by omega) (by omega)
        have hj' : j ≤ 120 := by
          by_contra hc
          have h5 := hj (by omega)
          have : 10 ^ 20 ≤ 10 ^ (j - 100) := Nat.pow_le_pow_right (by omega) (by omega)
          norm_num at this hn
          omega
        rcases h4 with ⟨_, e⟩ | ⟨_, _, e⟩ <;> rw [e] <;> dsimp <;> omega

end Dec

namespace Value

variable {r : Rep}

/-- `Value / usize`, value.rs:671-687; `none` is the panic of a division by zero. -/
def div (v : Value r) (n : Nat) : Option (Value r) := (v.value.divNat n).map (⟨·⟩)

end Value

end Verif.Core
