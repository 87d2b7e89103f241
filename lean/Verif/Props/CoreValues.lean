import Verif.Core.Balance
import Verif.Core.BalanceValue

/-!
# C30–C33, C55: values and balances
-/

namespace Verif.Props
open Verif.Core

/-! ## C30: arithmetic is exact -/

/-- Adding, subtracting, multiplying and summing values is exact rational arithmetic,
whatever scales the operands carry. -/
theorem C30_arithmetic {r : Rep} (a b : Value r) (n : Nat) (l : List (Value r)) :
    (a.add b).toRat = a.toRat + b.toRat ∧
    (a.sub b).toRat = a.toRat - b.toRat ∧
    (a.mulNat n).toRat = a.toRat * n ∧
    (Value.sum l).toRat = (l.map Value.toRat).sum ∧
    (Value.zero : Value r).toRat = 0 ∧ (Value.one : Value r).toRat = 1 ∧
    (Value.ofNat n : Value r).toRat = n := by
  refine ⟨Dec.toRat_add _ _, Dec.toRat_sub _ _, ?_, ?_, ?_, ?_, ?_⟩
  · have := Dec.toRat_mulInt a.value n
    simpa [Value.toRat, Value.mulNat] using this
  · simp only [Value.sum, Value.toRat, Dec.toRat_sum, List.map_map]; rfl
  · simp [Value.zero, Value.toRat, Dec.toRat_ofInt]
  · simp [Value.one, Value.toRat, Dec.toRat_ofInt]
  · simp [Value.ofNat, Value.toRat, Dec.toRat_ofInt]

/-- Equality and ordering are numeric. -/
theorem C30_order {r : Rep} (a b : Value r) :
    (Value.eq a b = true ↔ a.toRat = b.toRat) ∧
    (Value.cmp a b = .lt ↔ a.toRat < b.toRat) ∧
    (Value.cmp a b = .eq ↔ a.toRat = b.toRat) ∧
    (Value.cmp a b = .gt ↔ b.toRat < a.toRat) := by
  refine ⟨Dec.beq_iff _ _, ?_⟩
  unfold Value.cmp
  rw [Dec.cmp_eq]
  show (Dec.ratCmp a.toRat b.toRat = _ ↔ _) ∧ (Dec.ratCmp a.toRat b.toRat = _ ↔ _) ∧
    (Dec.ratCmp a.toRat b.toRat = _ ↔ _)
  unfold Dec.ratCmp
  rcases lt_trichotomy a.toRat b.toRat with h | h | h
  · simp [h, ne_of_lt h, le_of_lt h]
  · simp [h]
  · simp [h, ne_of_gt h, not_lt.mpr (le_of_lt h)]

/-- `1.50` plus `0.5` is `2` though the scales differ; `1.50` equals `1.5`. -/
example : Value.eq ((⟨⟨150, 2⟩⟩ : Value .ada).add ⟨⟨5, 1⟩⟩) (Value.ofNat 2) = true ∧
    Value.eq (⟨⟨150, 2⟩⟩ : Value .ada) ⟨⟨15, 1⟩⟩ = true ∧
    Value.cmp (⟨⟨2, -3⟩⟩ : Value .ada) ⟨⟨1999, 0⟩⟩ = .gt := by decide

/-! ## C31: unit conversions -/

/-- Each conversion multiplies by the exact power of ten. -/
theorem C31_exact (ada : Value .ada) (lov : Value .lovelace) (wei : Value .wei)
    (eth : Value .ether) (ma : Value .microAlgo) (al : Value .algo) (n : Value .normalized)
    (reg : Value .regulated) (ru : Value.Rule) :
    ada.toLovelace.toRat = ada.toRat * 10 ^ 6 ∧
    lov.toAda.toRat = lov.toRat / 10 ^ 6 ∧
    lov.lovelaceNormalize.toRat = lov.toRat / 10 ^ 6 ∧
    n.lovelaceFromNormalized.toRat = n.toRat * 10 ^ 6 ∧
    wei.toEther.toRat = wei.toRat / 10 ^ 18 ∧
    eth.toWei.toRat = eth.toRat * 10 ^ 18 ∧
    wei.weiNormalize.toRat = wei.toRat / 10 ^ 18 ∧
    n.weiFromNormalized.toRat = n.toRat * 10 ^ 18 ∧
    ma.toAlgo.toRat = ma.toRat / 10 ^ 6 ∧
    al.toMicroAlgo.toRat = al.toRat * 10 ^ 6 ∧
    ma.microAlgoNormalize.toRat = ma.toRat / 10 ^ 6 ∧
    n.microAlgoFromNormalized.toRat = n.toRat * 10 ^ 6 ∧
    (reg.normalizeFromMainchain ru).toRat = reg.toRat * (10 : ℚ) ^ (-ru.mainchain) ∧
    (reg.normalizeFromSidechain ru).toRat = reg.toRat * (10 : ℚ) ^ (-ru.sidechain) ∧
    (n.fromNormalizedToMainchain ru).toRat = n.toRat * (10 : ℚ) ^ ru.mainchain ∧
    (n.fromNormalizedToSidechain ru).toRat = n.toRat * (10 : ℚ) ^ ru.sidechain := by
  have dn6 : ∀ x : ℚ, x * (10 : ℚ) ^ (-(6 : Int)) = x / 10 ^ 6 := fun x => by
    rw [div_eq_mul_inv, zpow_neg]; norm_num
  have dn18 : ∀ x : ℚ, x * (10 : ℚ) ^ (-(18 : Int)) = x / 10 ^ 18 := fun x => by
    rw [div_eq_mul_inv, zpow_neg]; norm_num
  refine ⟨?_, ?_, ?_, ?_, ?_, ?_, ?_, ?_, ?_, ?_, ?_, ?_, ?_, ?_, ?_, ?_⟩ <;>
    simp only [Value.toRat, Value.toLovelace, Value.toAda, Value.lovelaceNormalize,
      Value.lovelaceFromNormalized, Value.toEther, Value.toWei, Value.weiNormalize,
      Value.weiFromNormalized, Value.toAlgo, Value.toMicroAlgo, Value.microAlgoNormalize,
      Value.microAlgoFromNormalized, Value.normalizeFromMainchain, Value.normalizeFromSidechain,
      Value.fromNormalizedToMainchain, Value.fromNormalizedToSidechain, Value.scaleDec_toRat,
      Value.adaScale, Value.ethScale, Value.algoScale, neg_neg, dn6, dn18] <;>
    rfl

/-- Converting and converting back gives an equal value, for every pair of inverse
conversions the types allow. -/
theorem C31_inverse (ada : Value .ada) (lov : Value .lovelace) (wei : Value .wei)
    (eth : Value .ether) (ma : Value .microAlgo) (al : Value .algo) (n : Value .normalized)
    (reg : Value .regulated) (ru : Value.Rule) :
    (lov.toAda.toLovelace).toRat = lov.toRat ∧ (ada.toLovelace.toAda).toRat = ada.toRat ∧
    (wei.toEther.toWei).toRat = wei.toRat ∧ (eth.toWei.toEther).toRat = eth.toRat ∧
    (lov.lovelaceNormalize.lovelaceFromNormalized).toRat = lov.toRat ∧
    (n.lovelaceFromNormalized.lovelaceNormalize).toRat = n.toRat ∧
    (wei.weiNormalize.weiFromNormalized).toRat = wei.toRat ∧
    (n.weiFromNormalized.weiNormalize).toRat = n.toRat ∧
    (ma.microAlgoNormalize.microAlgoFromNormalized).toRat = ma.toRat ∧
    (n.microAlgoFromNormalized.microAlgoNormalize).toRat = n.toRat ∧
    (al.toMicroAlgo.microAlgoNormalize.algoFromNormalized).toRat = al.toRat ∧
    (lov.toRegulated.fromRegulated).toRat = lov.toRat ∧
    (ada.adaNormalize.adaFromNormalized).toRat = ada.toRat ∧
    (eth.etherNormalize.etherFromNormalized).toRat = eth.toRat ∧
    ((reg.normalizeFromMainchain ru).fromNormalizedToMainchain ru).toRat = reg.toRat ∧
    ((reg.normalizeFromSidechain ru).fromNormalizedToSidechain ru).toRat = reg.toRat ∧
    ((n.fromNormalizedToMainchain ru).normalizeFromMainchain ru).toRat = n.toRat ∧
    ((n.fromNormalizedToSidechain ru).normalizeFromSidechain ru).toRat = n.toRat := by
  have h10 : (10 : ℚ) ≠ 0 := by norm_num
  have hp : ∀ (x : ℚ) (s : Int), x * (10 : ℚ) ^ (-s) * (10 : ℚ) ^ s = x := by
    intro x s; rw [mul_assoc, ← zpow_add₀ h10]; simp
  have hq : ∀ (x : ℚ) (s : Int), x * (10 : ℚ) ^ s * (10 : ℚ) ^ (-s) = x := by
    intro x s; rw [mul_assoc, ← zpow_add₀ h10]; simp
  refine ⟨?_, ?_, ?_, ?_, ?_, ?_, ?_, ?_, ?_, ?_, ?_, ?_, ?_, ?_, ?_, ?_, ?_, ?_⟩ <;>
    simp only [Value.toRat, Value.toLovelace, Value.toAda, Value.lovelaceNormalize,
      Value.lovelaceFromNormalized, Value.toEther, Value.toWei, Value.weiNormalize,
      Value.weiFromNormalized, Value.toMicroAlgo, Value.microAlgoNormalize,
      Value.microAlgoFromNormalized, Value.normalizeFromMainchain, Value.normalizeFromSidechain,
      Value.fromNormalizedToMainchain, Value.fromNormalizedToSidechain, Value.scaleDec_toRat,
      Value.toRegulated, Value.fromRegulated, Value.adaNormalize, Value.adaFromNormalized,
      Value.etherNormalize, Value.etherFromNormalized, Value.algoFromNormalized,
      neg_neg, hp, hq]

/-- A normalised value does not depend on the unit in which the amount was given, and can be taken back in both units. -/
theorem C31_units (ada : Value .ada) (eth : Value .ether) (al : Value .algo) :
    ada.adaNormalize.toRat = ada.toRat ∧ ada.toLovelace.lovelaceNormalize.toRat = ada.toRat ∧
    eth.etherNormalize.toRat = eth.toRat ∧ eth.toWei.weiNormalize.toRat = eth.toRat ∧
    al.algoNormalize.toRat = al.toRat ∧ al.toMicroAlgo.microAlgoNormalize.toRat = al.toRat ∧
    al.algoNormalize.algoFromNormalized.toRat = al.toRat ∧
    al.algoNormalize.microAlgoFromNormalized.toRat = al.toMicroAlgo.toRat ∧
    ada.adaNormalize.lovelaceFromNormalized.toRat = ada.toLovelace.toRat ∧
    eth.etherNormalize.weiFromNormalized.toRat = eth.toWei.toRat := by
  have h10 : (10 : ℚ) ≠ 0 := by norm_num
  have hp : ∀ (x : ℚ) (s : Int), x * (10 : ℚ) ^ (-s) * (10 : ℚ) ^ s = x := by
    intro x s; rw [mul_assoc, ← zpow_add₀ h10]; simp
  have hq : ∀ (x : ℚ) (s : Int), x * (10 : ℚ) ^ s * (10 : ℚ) ^ (-s) = x := by
    intro x s; rw [mul_assoc, ← zpow_add₀ h10]; simp
  refine ⟨?_, ?_, ?_, ?_, ?_, ?_, ?_, ?_, ?_, ?_⟩ <;>
    simp only [Value.toRat, Value.toLovelace, Value.lovelaceNormalize, Value.lovelaceFromNormalized, Value.toWei,
      Value.weiNormalize, Value.weiFromNormalized, Value.toMicroAlgo, Value.microAlgoNormalize,
      Value.microAlgoFromNormalized, Value.scaleDec_toRat, Value.adaNormalize, Value.etherNormalize,
      Value.algoNormalize, Value.algoFromNormalized, neg_neg, hp, hq]

/-- Crossing from mainchain to sidechain precision and back returns the amount, and the amount
on the other side is scaled by the difference of the precisions. -/
theorem C31_bridge (reg : Value .regulated) (ru : Value.Rule) :
    (((reg.normalizeFromMainchain ru).fromNormalizedToSidechain ru).toRat =
      reg.toRat * (10 : ℚ) ^ (ru.sidechain - ru.mainchain)) ∧
    ((((reg.normalizeFromMainchain ru).fromNormalizedToSidechain ru).normalizeFromSidechain
      ru).fromNormalizedToMainchain ru).toRat = reg.toRat := by
  have h10 : (10 : ℚ) ≠ 0 := by norm_num
  simp only [Value.toRat, Value.normalizeFromMainchain, Value.normalizeFromSidechain,
      Value.fromNormalizedToMainchain, Value.fromNormalizedToSidechain, Value.scaleDec_toRat, neg_neg,
      mul_assoc, ← zpow_add₀ h10]
  constructor
  · congr 2; ring
  · have : (-ru.mainchain + ru.sidechain + -ru.sidechain + ru.mainchain) = 0 := by ring
    rw [this]; simp

/-- Conversions preserve order and sums: every one is multiplication by a positive constant. -/
theorem C31_monotone (d e : Dec) (s : Int) :
    ((Value.scaleDec d s).toRat < (Value.scaleDec e s).toRat ↔ d.toRat < e.toRat) ∧
    (Value.scaleDec (d.add e) s).toRat = (Value.scaleDec d s).toRat + (Value.scaleDec e s).toRat := by
  simp only [Value.scaleDec_toRat, Dec.toRat_add]
  exact ⟨mul_lt_mul_iff_left₀ (Dec.pow_pos' _), by ring⟩

/-- `to_algo` gives the right number but with the type of an ether amount, so the direct way
back that the types offer is `to_wei`, and that does not return the original amount. -/
theorem C31_algo_false :
    ¬ ∀ ma : Value .microAlgo, (ma.toAlgo.toWei).toRat = ma.toRat := by
  intro h
  have h1 := h ⟨⟨1, 0⟩⟩
  have : Value.eq (⟨(Value.toWei (Value.toAlgo ⟨⟨1, 0⟩⟩)).value⟩ : Value .microAlgo) ⟨⟨1, 0⟩⟩ = true :=
    (Dec.beq_iff _ _).mpr h1
  revert this; decide

example : Value.eq (Value.toLovelace ⟨⟨15, 1⟩⟩) (Value.ofNat 1500000) = true := by decide

/-! ## C32: parsing and truncation -/

/-- Decimals of a unit (specification): none for the smallest units, six for ADA and Algo, eighteen for Ether and for
the two units of account. -/
def unitDecimals : Rep → Nat
  | .lovelace | .wei | .microAlgo => 0
  | .ada | .algo => 6
  | .ether | .normalized | .regulated => 18

theorem maxDecimals_eq (r : Rep) : Value.maxDecimals r = unitDecimals r := by cases r <;> rfl

/-- Whatever text is accepted as a unit denotes a non-negative number with at most that unit's
number of decimals: multiplied by `10^max` it is a natural number. -/
theorem C32_parse_sound (r : Rep) (s : List Char) (v : Value r) (h : Value.fromStr r s = .ok v) :
    0 ≤ v.toRat ∧ ∃ n : Nat, v.toRat * 10 ^ unitDecimals r = n := by
  rw [show (10 : ℚ) ^ unitDecimals r = (10 : ℚ) ^ (Value.maxDecimals r) by
    rw [maxDecimals_eq, zpow_natCast]]
  unfold Value.fromStr at h
  split at h
  · cases h
  · rename_i d hd
    split at h
    · cases h
    · rename_i hs
      split at h
      · cases h
      · rename_i hn
        cases h
        have hd0 : 0 ≤ d.digits := by omega
        refine ⟨mul_nonneg (by exact_mod_cast hd0) (le_of_lt (Dec.pow_pos' _)), ?_⟩
        obtain ⟨k, hk⟩ : ∃ k : Nat, Value.maxDecimals r - d.scale = k :=
          ⟨(Value.maxDecimals r - d.scale).toNat, by omega⟩
        refine ⟨d.digits.toNat * 10 ^ k, ?_⟩
        simp only [Value.toRat, Dec.toRat, mul_assoc]
        rw [← zpow_add₀ (by norm_num : (10 : ℚ) ≠ 0),
          show -d.scale + Value.maxDecimals r = (k : Int) by omega, zpow_natCast]
        push_cast
        congr 1
        have : ((d.digits.toNat : Int) : ℚ) = (d.digits : ℚ) := by
          congr 1; omega
        exact_mod_cast this.symm

/-- A decimal text (specification): digits, optionally a point and more digits. -/
structure Written where
  intDigits : List Nat
  fracDigits : Option (List Nat)

/-- The characters of a written decimal. -/
def Written.text (w : Written) : List Char :=
  w.intDigits.map digitChar ++
    match w.fracDigits with
    | none => []
    | some f => '.' :: f.map digitChar

/-- Its digits are digits and there is at least one before the point. -/
def Written.Valid (w : Written) : Prop :=
  w.intDigits ≠ [] ∧ (∀ d ∈ w.intDigits, d < 10) ∧ ∀ f, w.fracDigits = some f → ∀ d ∈ f, d < 10

/-- Digits in base ten with the usual place values. -/
def placeValue : List Nat → ℚ
  | [] => 0
  | d :: ds => d * 10 ^ ds.length + placeValue ds

/-- The number written: each digit times its place value. -/
def Written.number (w : Written) : ℚ :=
  placeValue w.intDigits +
    match w.fracDigits with
    | none => 0
    | some f => placeValue f / 10 ^ f.length

/-- Number of decimals written. -/
def Written.decimals (w : Written) : Nat :=
  match w.fracDigits with
  | none => 0
  | some f => f.length

theorem placeValue_eq (ds : List Nat) : placeValue ds = decValue ds := by
  induction ds with
  | nil => simp [placeValue, decValue]
  | cons d ds ih =>
    have : d :: ds = [d] ++ ds := rfl
    rw [placeValue, ih, this, Dec.decValue_append]
    have h1 : decValue [d] = d := by simp [decValue]
    rw [h1]; push_cast; ring

/-- Parsing a written non-negative decimal succeeds exactly when it has at most the unit's number
of decimals, and yields the number written. -/
theorem C32_parse_complete (r : Rep) (w : Written) (hw : w.Valid) :
    (w.decimals ≤ unitDecimals r →
      ∃ v, Value.fromStr r w.text = .ok v ∧ v.toRat = w.number) ∧
    (unitDecimals r < w.decimals →
      Value.fromStr r w.text = .error (.invalidDecimalPoint (unitDecimals r) w.decimals)) := by
  have hmax := maxDecimals_eq r
  rw [← hmax]
  obtain ⟨hne, hi, hf⟩ := hw
  have hI := mapM_map_digitChar w.intDigits hi
  have hne' : w.intDigits.map digitChar ≠ [] := by simpa using hne
  have hnil : Dec.ExpText [] 0 := Or.inl ⟨rfl, rfl⟩
  have key : ∃ d : Dec, Dec.parse w.text = some d ∧ d.scale = w.decimals ∧ 0 ≤ d.digits ∧
      d.toRat = w.number := by
    unfold Written.text Written.number Written.decimals
    cases hw : w.fracDigits with
    | none =>
      have := Dec.parse_int_text false hI hne' hnil
      simp only [Dec.signText, Bool.false_eq_true, if_false, List.nil_append, Dec.signFactor,
        one_mul, sub_self] at this
      refine ⟨_, this, rfl, Int.natCast_nonneg _, ?_⟩
      simp [Dec.toRat, placeValue_eq]
    | some f =>
      have hF := mapM_map_digitChar f (hf f hw)
      have := Dec.parse_point_text false hI hF (by simp [hne]) hnil
      simp only [Dec.signText, Bool.false_eq_true, if_false, List.nil_append, Dec.signFactor,
        one_mul, sub_zero, List.length_map, List.append_nil] at this
      refine ⟨_, this, rfl, Int.natCast_nonneg _, ?_⟩
      simp only [Dec.toRat, placeValue_eq, Dec.decValue_append]
      have h10 : (10 : ℚ) ^ f.length ≠ 0 := by positivity
      rw [zpow_neg, zpow_natCast]
      push_cast
      field_simp
  obtain ⟨d, hp, hsc, hd0, hr⟩ := key
  unfold Value.fromStr
  rw [hp]
  constructor
  · intro hle
    refine ⟨⟨d⟩, ?_, hr⟩
    have h1 : ¬ d.scale > Value.maxDecimals r := by omega
    have h2 : ¬ (¬ d.digits > 0 ∧ ¬ d.digits = 0) := by omega
    simp only [h1, h2, if_false]
  · intro hgt
    have h1 : d.scale > Value.maxDecimals r := by omega
    simp only [hsc]
    rw [if_pos (by omega)]

/-- Underscores may be written anywhere after the first digit, but not in an exponent: they change nothing, neither the number nor
the count of decimals. A text that begins with one is refused. -/
theorem C32_underscores (r : Rep) :
    (∀ (d : Nat) (t e : List Char), d < 10 → 'e' ∉ t → 'E' ∉ t → (e = [] ∨ e.head? = some 'e' ∨ e.head? = some 'E') →
      Value.fromStr r (digitChar d :: (t ++ e)) = Value.fromStr r (digitChar d :: (t.filter (· ≠ '_') ++ e))) ∧
    ∀ t, Value.fromStr r ('_' :: t) = .error .invalidDecimal := by
  refine ⟨fun d t e hd h1 h2 he => ?_, fun t => ?_⟩
  · have hc : (toDigit (digitChar d)).isSome := by
      have := mapM_map_digitChar [d] (by simpa using hd)
      exact Dec.mapM_mem this _ (by simp)
    have := Dec.parse_underscores hc (t := t) (e := e) (fun x hx => by
      simp only [Dec.notE, ne_eq, decide_eq_true_eq, Bool.decide_and, Bool.and_eq_true]
      exact ⟨fun h => h1 (h ▸ hx), fun h => h2 (h ▸ hx)⟩) (by
      rcases he with rfl | he | he
      · exact .inl rfl
      all_goals
        cases e with
        | nil => cases he
        | cons x y =>
          simp only [List.head?_cons, Option.some.injEq] at he
          subst he
          exact .inr ⟨_, _, rfl, by decide⟩)
    unfold Value.fromStr
    rw [this]
    rfl
  · unfold Value.fromStr
    rw [Dec.parse_leading_underscore]

/-- Amounts as the tests of the thermostat write them. -/
example : Value.fromStr .regulated "9_475_783636258".toList = .ok ⟨⟨9475783636258, 0⟩⟩ ∧
    Value.fromStr .ada "1_0.5_0".toList = .ok ⟨⟨1050, 2⟩⟩ ∧ Value.fromStr .ada "_1".toList = .error .invalidDecimal :=
  ⟨rfl, rfl, rfl⟩

/-- A written negative number is never accepted. -/
theorem C32_negative (r : Rep) (w : Written) (hw : w.Valid) (hpos : 0 < w.number) (v : Value r) :
    Value.fromStr r ('-' :: w.text) ≠ .ok v := by
  intro h
  obtain ⟨hne, hi, hf⟩ := hw
  have hI := mapM_map_digitChar w.intDigits hi
  have hne' : w.intDigits.map digitChar ≠ [] := by simpa using hne
  have hnil : Dec.ExpText [] 0 := Or.inl ⟨rfl, rfl⟩
  have key : ∃ d : Dec, Dec.parse ('-' :: w.text) = some d ∧ d.digits < 0 := by
    unfold Written.text
    unfold Written.number at hpos
    cases hw : w.fracDigits with
    | none =>
      have := Dec.parse_int_text true hI hne' hnil
      refine ⟨_, this, ?_⟩
      simp only [hw, placeValue_eq, add_zero] at hpos
      have : 0 < decValue w.intDigits := by exact_mod_cast hpos
      simp [Dec.signFactor]; omega
    | some f =>
      have hF := mapM_map_digitChar f (hf f hw)
      have := Dec.parse_point_text true hI hF (by simp [hne]) hnil
      simp only [Dec.signText, if_true, List.append_nil] at this
      refine ⟨_, this, ?_⟩
      simp only [hw, placeValue_eq] at hpos
      have hb : 0 < decValue (w.intDigits ++ f) := by
        rw [Dec.decValue_append]
        rcases Nat.eq_zero_or_pos (decValue w.intDigits) with h0 | h0
        · rcases Nat.eq_zero_or_pos (decValue f) with h1 | h1
          · rw [h0, h1] at hpos; simp at hpos
          · omega
        · have : 0 < decValue w.intDigits * 10 ^ f.length := Nat.mul_pos h0 (by positivity)
          omega
      simp only [Dec.signFactor, if_true]; omega
  obtain ⟨d, hd, hneg⟩ := key
  unfold Value.fromStr at h
  rw [hd] at h
  simp only at h
  split at h
  · cases h
  · have : ¬ d.digits > 0 ∧ ¬ d.digits = 0 := by omega
    rw [if_pos this] at h
    cases h

/-- Truncation of a non-negative value is its integer part, whatever notation the decimal
library prints (`lead`, `trail`). -/
theorem C32_truncate {r : Rep} (lead trail : Nat) (v : Value r) (h0 : 0 ≤ v.toRat)
    (hs : v.value.SmallScale) : (v.truncate lead trail).toRat = ⌊v.toRat⌋ := by
  unfold Value.truncate
  split
  · rename_i h
    rw [Dec.blt_iff, Dec.toRat_ofInt] at h
    have : ⌊v.toRat⌋ = 0 := by
      rw [Int.floor_eq_iff]
      refine ⟨by simpa using h0, ?_⟩
      simpa [Value.toRat] using h
    rw [this]
    simp [Value.toRat, Dec.toRat_ofInt]
  · rename_i h
    have h1 : 1 ≤ v.value.toRat := by
      rw [Dec.blt_iff, Dec.toRat_ofInt] at h
      simpa using h
    obtain ⟨d', hp, hr, _⟩ := Dec.parse_cut_display lead trail v.value hs h1
    rw [hp]
    exact hr

/-- For a negative value truncation gives zero, not its integer part. -/
theorem C32_truncate_negative_false :
    ¬ ∀ (v : Value .normalized), (v.truncate 5 15).toRat = -⌊-v.toRat⌋ := by
  intro h
  have h1 := h ⟨⟨-2, 0⟩⟩
  have h2 : (Value.truncate 5 15 (⟨⟨-2, 0⟩⟩ : Value .normalized)).toRat = 0 := by
    have : (Value.truncate 5 15 (⟨⟨-2, 0⟩⟩ : Value .normalized)).value = Dec.ofInt 0 := by decide
    simp [Value.toRat, this, Dec.toRat_ofInt]
  rw [h2] at h1
  norm_num [Value.toRat, Dec.toRat] at h1

/-- Deserialising applies neither check of parsing: a negative amount of lovelace and a
fractional one are accepted. -/
theorem C32_deserialize_unchecked :
    (∃ v, Value.deserialize .lovelace (.str "-1".toList) = some v ∧ v.toRat < 0 ∧
      ∀ w, Value.fromStr .lovelace "-1".toList ≠ .ok w) ∧
    (∃ v, Value.deserialize .lovelace (.str "0.5".toList) = some v ∧ v.toRat = 1 / 2 ∧
      ∀ w, Value.fromStr .lovelace "0.5".toList ≠ .ok w) := by
  constructor
  · have hp : Dec.parse "-1".toList = some ⟨-1, 0⟩ := by decide
    refine ⟨⟨⟨-1, 0⟩⟩, by simp only [Value.deserialize, hp, Option.map_some], by norm_num [Value.toRat, Dec.toRat], ?_⟩
    intro w h
    simp only [Value.fromStr, hp, Value.maxDecimals] at h
    simp at h
  · have hp : Dec.parse "0.5".toList = some ⟨5, 1⟩ := by decide
    refine ⟨⟨⟨5, 1⟩⟩, by simp only [Value.deserialize, hp, Option.map_some], by norm_num [Value.toRat, Dec.toRat], ?_⟩
    intro w h
    simp only [Value.fromStr, hp, Value.maxDecimals] at h
    simp at h

example : (⟨[1, 2], some [5, 0]⟩ : Written).Valid ∧
    (⟨[1, 2], some [5, 0]⟩ : Written).text = "12.50".toList ∧
    (⟨[1, 2], some [5, 0]⟩ : Written).number = 25 / 2 := by
  refine ⟨⟨by simp, by simp, by simp⟩, by decide, ?_⟩
  norm_num [Written.number, placeValue]

example : Value.eq (Value.truncate 5 15 (⟨⟨12345, 2⟩⟩ : Value .normalized)) (Value.ofNat 123) = true := by
  decide +kernel

/-! ## C55: text and JSON round trip of values -/

/-- Serialising a value and reading it back gives an equal value, for any scale and any
printing thresholds of the decimal library. -/
theorem C55_serde_round_trip {r : Rep} (lead trail : Nat) (v : Value r) (hs : v.value.SmallScale) :
    ∃ w, Value.deserialize r (v.serialize lead trail) = some w ∧ w.toRat = v.toRat := by
  obtain ⟨d, h1, h2⟩ := Dec.parse_display lead trail v.value hs
  exact ⟨⟨d⟩, by simp [Value.deserialize, Value.serialize, Value.display, h1], h2⟩

example : (⟨-12345, 3⟩ : Dec).SmallScale ∧
    Dec.display 5 15 ⟨-12345, 3⟩ = "-12.345".toList ∧
    Dec.display 5 15 ⟨12, 20⟩ = "1.2E-19".toList := by
  refine ⟨by unfold Dec.SmallScale; decide, by decide +kernel, by decide +kernel⟩

/-! ## C33: balance is the net sum -/

/-- Operations on a balance. -/
inductive BalanceOp where
  | addValue (v : ℚ)
  | subValue (v : ℚ)
  | addBalance (ops : List BalanceOp)

/-- Amounts are non-negative. -/
def BalanceOp.Valid : BalanceOp → Prop
  | .addValue v => 0 ≤ v
  | .subValue v => 0 ≤ v
  | .addBalance l => ∀ o ∈ l, o.Valid

mutual
/-- Run an operation on the code's balance. -/
def BalanceOp.run : BalanceOp → Balance → Balance
  | .addValue v, b => b.addValue v
  | .subValue v, b => b.subValue v
  | .addBalance l, b => b.add (BalanceOp.runAll l Balance.zero)
/-- Run a sequence. -/
def BalanceOp.runAll : List BalanceOp → Balance → Balance
  | [], b => b
  | o :: os, b => BalanceOp.runAll os (o.run b)
end

mutual
/-- The exact net amount of an operation (specification). -/
def BalanceOp.amount : BalanceOp → ℚ
  | .addValue v => v
  | .subValue v => -v
  | .addBalance l => BalanceOp.amountAll l
/-- Net amount of a sequence. -/
def BalanceOp.amountAll : List BalanceOp → ℚ
  | [] => 0
  | o :: os => o.amount + BalanceOp.amountAll os
end

mutual
theorem BalanceOp.run_spec : (o : BalanceOp) → o.Valid → (b : Balance) → b.WF →
    (o.run b).WF ∧ (o.run b).net = b.net + o.amount
  | .addValue v, h, b, hb => by
    simp only [BalanceOp.run, BalanceOp.amount]
    exact Balance.addValue_spec hb (by simpa [BalanceOp.Valid] using h)
  | .subValue v, h, b, hb => by
    simp only [BalanceOp.run, BalanceOp.amount]
    have := Balance.subValue_spec hb (r := v) (by simpa [BalanceOp.Valid] using h)
    rw [← sub_eq_add_neg]; exact this
  | .addBalance l, h, b, hb => by
    simp only [BalanceOp.run, BalanceOp.amount]
    have h2 := BalanceOp.runAll_spec l (by simpa [BalanceOp.Valid] using h) Balance.zero trivial
    have h3 := Balance.add_spec hb h2.1
    refine ⟨h3.1, ?_⟩
    rw [h3.2, h2.2]; simp [Balance.zero, Balance.net]
theorem BalanceOp.runAll_spec : (l : List BalanceOp) → (∀ o ∈ l, o.Valid) → (b : Balance) → b.WF →
    (BalanceOp.runAll l b).WF ∧ (BalanceOp.runAll l b).net = b.net + BalanceOp.amountAll l
  | [], _, b, hb => by simp [BalanceOp.runAll, BalanceOp.amountAll, hb]
  | o :: os, h, b, hb => by
    have h1 := BalanceOp.run_spec o (h o (by simp)) b hb
    have h2 := BalanceOp.runAll_spec os (fun x hx => h x (by simp [hx])) (o.run b) h1.1
    simp only [BalanceOp.runAll, BalanceOp.amountAll]
    refine ⟨h2.1, ?_⟩
    rw [h2.2, h1.2]; ring
end

/-- After any sequence of additions and subtractions of non-negative amounts or of balances
obtained the same way, the balance is debt, balanced or excess by the sign of the exact net sum,
with its absolute value. -/
theorem C33_net_sum (l : List BalanceOp) (h : ∀ o ∈ l, o.Valid) :
    (BalanceOp.runAll l Balance.zero = .debt (-BalanceOp.amountAll l) ↔ BalanceOp.amountAll l < 0) ∧
    (BalanceOp.runAll l Balance.zero = .balanced ↔ BalanceOp.amountAll l = 0) ∧
    (BalanceOp.runAll l Balance.zero = .excess (BalanceOp.amountAll l) ↔ 0 < BalanceOp.amountAll l) ∧
    ((BalanceOp.runAll l Balance.zero).inDebt = decide (BalanceOp.amountAll l < 0)) ∧
    ((BalanceOp.runAll l Balance.zero).isBalanced = decide (BalanceOp.amountAll l = 0)) ∧
    ((BalanceOp.runAll l Balance.zero).inExcess = decide (0 < BalanceOp.amountAll l)) := by
  obtain ⟨hwf, hnet⟩ := BalanceOp.runAll_spec l h Balance.zero trivial
  have : BalanceOp.runAll l Balance.zero = Balance.ofNet (BalanceOp.amountAll l) := by
    rw [← Balance.ofNet_net hwf, hnet]; simp [Balance.zero, Balance.net]
  rw [this]
  unfold Balance.ofNet
  rcases lt_trichotomy (BalanceOp.amountAll l) 0 with h | h | h
  · simp [h, ne_of_lt h, not_lt.mpr (le_of_lt h), Balance.inDebt, Balance.isBalanced, Balance.inExcess]
  · simp [h, Balance.inDebt, Balance.isBalanced, Balance.inExcess]
  · simp [h, ne_of_gt h, not_lt.mpr (le_of_lt h), Balance.inDebt, Balance.isBalanced, Balance.inExcess]

/-- The hypothesis matters: adding a negative amount to a zero balance reports an excess. -/
theorem C33_negative_amount :
    (Balance.zero.addValue (-1)).inExcess = true := by
  simp [Balance.zero, Balance.addValue, Balance.inExcess]

example : (∀ o ∈ [BalanceOp.addValue 3, .subValue 10, .addBalance [.addValue 2]], o.Valid) ∧
    BalanceOp.runAll [BalanceOp.addValue 3, .subValue 10, .addBalance [.addValue 2]] Balance.zero =
      .debt 5 := by
  constructor
  · simp [BalanceOp.Valid]
  · norm_num [BalanceOp.runAll, BalanceOp.run, Balance.zero, Balance.addValue, Balance.subValue,
      Balance.add]

/-- An operation of the program on a balance of values: with a value, or with a balance obtained the same way. -/
inductive ValueOp (r : Rep) where
  | addValue (v : Value r)
  | subValue (v : Value r)
  | addBalance (ops : List (ValueOp r))

/-- Every value of the operation satisfies `P`. -/
def ValueOp.All {r : Rep} (P : Value r → Prop) : ValueOp r → Prop
  | .addValue v => P v
  | .subValue v => P v
  | .addBalance l => ∀ o ∈ l, o.All P

mutual
/-- Run an operation. -/
def ValueOp.run {r : Rep} : ValueOp r → BalanceV r → BalanceV r
  | .addValue v, b => b.addValue v
  | .subValue v, b => b.subValue v
  | .addBalance l, b => b.add (ValueOp.runAll l BalanceV.zero)
/-- Run a sequence. -/
def ValueOp.runAll {r : Rep} : List (ValueOp r) → BalanceV r → BalanceV r
  | [], b => b
  | o :: os, b => ValueOp.runAll os (o.run b)
end

mutual
/-- The exact net amount of an operation (specification). -/
def ValueOp.amount {r : Rep} : ValueOp r → ℚ
  | .addValue v => v.toRat
  | .subValue v => -v.toRat
  | .addBalance l => ValueOp.amountAll l
/-- Net amount of a sequence. -/
def ValueOp.amountAll {r : Rep} : List (ValueOp r) → ℚ
  | [] => 0
  | o :: os => o.amount + ValueOp.amountAll os
end

mutual
theorem ValueOp.run_spec {r : Rep} : (o : ValueOp r) → o.All (fun v => 0 ≤ v.toRat) → (b : BalanceV r) →
    b.denote.WF → (o.run b).denote.WF ∧ (o.run b).denote.net = b.denote.net + o.amount
  | .addValue v, h, b, hb => by
    simp only [ValueOp.run, ValueOp.amount, BalanceV.denote_addValue]
    exact Balance.addValue_spec hb (by simpa [ValueOp.All] using h)
  | .subValue v, h, b, hb => by
    simp only [ValueOp.run, ValueOp.amount, BalanceV.denote_subValue]
    have := Balance.subValue_spec hb (r := v.toRat) (by simpa [ValueOp.All] using h)
    rw [← sub_eq_add_neg]; exact this
  | .addBalance l, h, b, hb => by
    simp only [ValueOp.run, ValueOp.amount, BalanceV.denote_add]
    have h2 := ValueOp.runAll_spec l (by simpa [ValueOp.All] using h) BalanceV.zero trivial
    have h3 := Balance.add_spec hb h2.1
    refine ⟨h3.1, ?_⟩
    rw [h3.2, h2.2]; simp [BalanceV.zero, BalanceV.denote, Balance.net]
theorem ValueOp.runAll_spec {r : Rep} : (l : List (ValueOp r)) → (∀ o ∈ l, o.All (fun v => 0 ≤ v.toRat)) →
    (b : BalanceV r) → b.denote.WF →
    (ValueOp.runAll l b).denote.WF ∧ (ValueOp.runAll l b).denote.net = b.denote.net + ValueOp.amountAll l
  | [], _, b, hb => by simp [ValueOp.runAll, ValueOp.amountAll, hb]
  | o :: os, h, b, hb => by
    have h1 := ValueOp.run_spec o (h o (by simp)) b hb
    have h2 := ValueOp.runAll_spec os (fun x hx => h x (by simp [hx])) (o.run b) h1.1
    simp only [ValueOp.runAll, ValueOp.amountAll]
    refine ⟨h2.1, ?_⟩
    rw [h2.2, h1.2]; ring
end

mutual
theorem ValueOp.run_small {r : Rep} : (o : ValueOp r) → o.All (fun v => v.value.SmallScale) → (b : BalanceV r) →
    b.SmallScale → (o.run b).SmallScale
  | .addValue v, h, b, hb => by
    simp only [ValueOp.run]; exact BalanceV.smallScale_addValue hb (by simpa [ValueOp.All] using h)
  | .subValue v, h, b, hb => by
    simp only [ValueOp.run]; exact BalanceV.smallScale_subValue hb (by simpa [ValueOp.All] using h)
  | .addBalance l, h, b, hb => by
    simp only [ValueOp.run]
    exact BalanceV.smallScale_add hb
      (ValueOp.runAll_small l (by simpa [ValueOp.All] using h) BalanceV.zero trivial)
theorem ValueOp.runAll_small {r : Rep} : (l : List (ValueOp r)) →
    (∀ o ∈ l, o.All (fun v => v.value.SmallScale)) → (b : BalanceV r) → b.SmallScale →
    (ValueOp.runAll l b).SmallScale
  | [], _, b, hb => by simpa [ValueOp.runAll] using hb
  | o :: os, h, b, hb => by
    simp only [ValueOp.runAll]
    exact ValueOp.runAll_small os (fun x hx => h x (by simp [hx])) _ (ValueOp.run_small o (h o (by simp)) b hb)
end

theorem ValueOp.result {r : Rep} (l : List (ValueOp r)) (h : ∀ o ∈ l, o.All (fun v => 0 ≤ v.toRat)) :
    (ValueOp.runAll l BalanceV.zero).denote = Balance.ofNet (ValueOp.amountAll l) := by
  obtain ⟨hwf, hnet⟩ := ValueOp.runAll_spec l h BalanceV.zero trivial
  rw [← Balance.ofNet_net hwf, hnet]; simp [BalanceV.zero, BalanceV.denote, Balance.net]

/-- The same for the balance as the program keeps it, whatever scales the values have: the three questions tell the
sign of the exact net sum, and the amount kept is its absolute value. -/
theorem C33_values {r : Rep} (l : List (ValueOp r)) (h : ∀ o ∈ l, o.All (fun v => 0 ≤ v.toRat)) :
    ((ValueOp.runAll l BalanceV.zero).inDebt = true ↔ ValueOp.amountAll l < 0) ∧
    ((ValueOp.runAll l BalanceV.zero).isBalanced = true ↔ ValueOp.amountAll l = 0) ∧
    ((ValueOp.runAll l BalanceV.zero).inExcess = true ↔ 0 < ValueOp.amountAll l) ∧
    (∀ v, ValueOp.runAll l BalanceV.zero = .debt v → v.toRat = -ValueOp.amountAll l) ∧
    (∀ v, ValueOp.runAll l BalanceV.zero = .excess v → v.toRat = ValueOp.amountAll l) := by
  have hd := ValueOp.result l h
  unfold Balance.ofNet at hd
  rcases lt_trichotomy (ValueOp.amountAll l) 0 with hn | hn | hn
  · rw [if_pos hn] at hd
    cases hb : ValueOp.runAll l BalanceV.zero <;> simp [hb, BalanceV.denote] at hd
    simp [BalanceV.inDebt, BalanceV.isBalanced, BalanceV.inExcess, hn, hn.ne, hn.le, hd]
  · rw [if_neg (by simp [hn]), if_pos hn] at hd
    cases hb : ValueOp.runAll l BalanceV.zero <;> simp [hb, BalanceV.denote] at hd
    simp [BalanceV.inDebt, BalanceV.isBalanced, BalanceV.inExcess, hn]
  · rw [if_neg (not_lt.mpr hn.le), if_neg hn.ne'] at hd
    cases hb : ValueOp.runAll l BalanceV.zero <;> simp [hb, BalanceV.denote] at hd
    simp [BalanceV.inDebt, BalanceV.isBalanced, BalanceV.inExcess, hn, hn.ne', hn.le, hd]

/-- Two balances compare equal exactly if their exact net sums are equal. -/
theorem C33_equal {r : Rep} (l l' : List (ValueOp r)) (h : ∀ o ∈ l, o.All (fun v => 0 ≤ v.toRat))
    (h' : ∀ o ∈ l', o.All (fun v => 0 ≤ v.toRat)) :
    (ValueOp.runAll l BalanceV.zero).eq (ValueOp.runAll l' BalanceV.zero) = true ↔
      ValueOp.amountAll l = ValueOp.amountAll l' := by
  rw [BalanceV.eq_iff, ValueOp.result l h, ValueOp.result l' h']
  constructor
  · intro he
    rw [← Balance.net_ofNet (ValueOp.amountAll l), he, Balance.net_ofNet]
  · intro he; rw [he]

/-- The text printed for a balance is a decimal number, with its sign: the exact net sum. -/
theorem C33_text {r : Rep} (lead trail : Nat) (l : List (ValueOp r))
    (h : ∀ o ∈ l, o.All (fun v => 0 ≤ v.toRat)) (hs : ∀ o ∈ l, o.All (fun v => v.value.SmallScale)) :
    ∃ d, Dec.parse ((ValueOp.runAll l BalanceV.zero).display lead trail) = some d ∧
      d.toRat = ValueOp.amountAll l := by
  obtain ⟨d, h1, h2⟩ := BalanceV.parse_display lead trail _ (by rw [ValueOp.result l h]; exact Balance.wf_ofNet _)
    (ValueOp.runAll_small l hs BalanceV.zero trivial)
  exact ⟨d, h1, by rw [h2, ValueOp.result l h, Balance.net_ofNet]⟩

/-- With a negative amount the text is not a number: the balance `0 + (-1)` is printed as `+-1`. -/
theorem C33_negative_text (lead trail : Nat) :
    ((BalanceV.zero : BalanceV .ada).addValue ⟨⟨-1, 0⟩⟩).display lead trail = ['+', '-', '1'] ∧
    Dec.parse ['+', '-', '1'] = none := by
  constructor
  · rfl
  · decide

example : let l : List (ValueOp .ada) := [.addValue ⟨⟨15, 1⟩⟩, .subValue ⟨⟨200, 2⟩⟩, .addBalance [.addValue ⟨⟨25, 2⟩⟩]]
    (∀ o ∈ l, o.All (fun v => 0 ≤ v.toRat)) ∧ (∀ o ∈ l, o.All (fun v => v.value.SmallScale)) ∧
    (ValueOp.runAll l BalanceV.zero).display 5 5 = "-0.25".toList := by
  refine ⟨?_, ?_, by decide⟩
  · simp only [List.mem_cons, List.not_mem_nil, or_false, forall_eq_or_imp, forall_eq, ValueOp.All, Value.toRat,
      Dec.toRat]
    norm_num
  · simp [ValueOp.All, Dec.SmallScale]

end Verif.Props
