import Verif.Core.Decimal

/-!
# `Value`

Models `/repo/core/src/value.rs`. `Value<Rep>` is a decimal with a phantom unit; here
the unit is a type index, so a conversion can only be applied where the Rust
types allow it.
-/

namespace Verif.Core

/-- The representation markers, value.rs:21-67. -/
inductive Rep where
  | normalized | regulated | lovelace | ada | wei | ether | microAlgo | algo
deriving DecidableEq, Repr

/-- `Value<Rep>`, value.rs:90-93. -/
structure Value (r : Rep) where
  value : Dec

namespace Value

variable {r : Rep}

/-- The number of units a value stands for (specification). -/
def toRat (v : Value r) : ℚ := v.value.toRat

/-- `zero`, value.rs:141-143. -/
def zero : Value r := ⟨Dec.ofInt 0⟩
/-- `one`, value.rs:145-147. -/
def one : Value r := ⟨Dec.ofInt 1⟩
/-- `From<u64>`, value.rs:478-485. -/
def ofNat (n : Nat) : Value r := ⟨Dec.ofInt n⟩

/-- `Add`, `AddAssign` in all reference combinations, value.rs:593-635. -/
def add (a b : Value r) : Value r := ⟨a.value.add b.value⟩
/-- `Sub`, `SubAssign`, value.rs:637-669. -/
def sub (a b : Value r) : Value r := ⟨a.value.sub b.value⟩
/-- `Mul<u32>`, `Mul<usize>`, value.rs:701-726. -/
def mulNat (a : Value r) (n : Nat) : Value r := ⟨a.value.mulInt n⟩
/-- `Sum`, value.rs:689-699. -/
def sum (l : List (Value r)) : Value r := ⟨Dec.sum (l.map (·.value))⟩
/-- `PartialEq`, value.rs:544-548. -/
def eq (a b : Value r) : Bool := a.value.beq b.value
/-- `Ord`, value.rs:558-562. -/
def cmp (a b : Value r) : Ordering := a.value.cmp b.value

/-- `scale`, value.rs:374-377: multiplication by `10^(-s)`. -/
def scaleDec (d : Dec) (s : Int) : Dec := d.mul ⟨1, s⟩

/-- `ADA_LOVELACE_SCALE_FACTOR`, value.rs:26. -/
def adaScale : Int := 6
/-- `ETH_WEI_SCALE_FACTOR`, value.rs:39. -/
def ethScale : Int := 18
/-- `ALGO_MICRO_SCALE_FACTOR`, value.rs:52. -/
def algoScale : Int := 6

/-- `Rule` without its token, value.rs:71-76. -/
structure Rule where
  mainchain : Int
  sidechain : Int

/-- value.rs:96-100. -/
def normalizeFromMainchain (v : Value .regulated) (ru : Rule) : Value .normalized :=
  ⟨scaleDec v.value ru.mainchain⟩
/-- value.rs:102-106. -/
def normalizeFromSidechain (v : Value .regulated) (ru : Rule) : Value .normalized :=
  ⟨scaleDec v.value ru.sidechain⟩
/-- value.rs:108-112. -/
def fromNormalizedToMainchain (v : Value .normalized) (ru : Rule) : Value .regulated :=
  ⟨scaleDec v.value (-ru.mainchain)⟩
/-- value.rs:114-118. -/
def fromNormalizedToSidechain (v : Value .normalized) (ru : Rule) : Value .regulated :=
  ⟨scaleDec v.value (-ru.sidechain)⟩

/-- Ada `normalize`, value.rs:199-204, and `From`, 403-407. -/
def adaNormalize (v : Value .ada) : Value .normalized := ⟨v.value⟩
/-- Ada `from_normalized`, value.rs:207-212, and `From`, 409-416. -/
def adaFromNormalized (v : Value .normalized) : Value .ada := ⟨v.value⟩
/-- `to_lovelace`, value.rs:215-220, and `From`, 391-395. -/
def toLovelace (v : Value .ada) : Value .lovelace := ⟨scaleDec v.value (-adaScale)⟩
/-- Lovelace `normalize`, value.rs:226-231, and `From`, 385-389. -/
def lovelaceNormalize (v : Value .lovelace) : Value .normalized := ⟨scaleDec v.value adaScale⟩
/-- `to_regulated`, value.rs:234-239. -/
def toRegulated (v : Value .lovelace) : Value .regulated := ⟨v.value⟩
/-- `from_regulated`, value.rs:242-247. -/
def fromRegulated (v : Value .regulated) : Value .lovelace := ⟨v.value⟩
/-- Lovelace `from_normalized`, value.rs:250-255, and `From`, 397-401. -/
def lovelaceFromNormalized (v : Value .normalized) : Value .lovelace :=
  ⟨scaleDec v.value (-adaScale)⟩
/-- `to_ada`, value.rs:258-263. -/
def toAda (v : Value .lovelace) : Value .ada := ⟨scaleDec v.value adaScale⟩
/-- Ether `normalize`, value.rs:269-274, and `From`, 430-434. -/
def etherNormalize (v : Value .ether) : Value .normalized := ⟨v.value⟩
/-- Ether `from_normalized`, value.rs:277-282, and `From`, 460-467. -/
def etherFromNormalized (v : Value .normalized) : Value .ether := ⟨v.value⟩
/-- `to_wei`, value.rs:285-290. -/
def toWei (v : Value .ether) : Value .wei := ⟨scaleDec v.value (-ethScale)⟩
/-- Wei `normalize`, value.rs:296-301, and `From`, 418-422. -/
def weiNormalize (v : Value .wei) : Value .normalized := ⟨scaleDec v.value ethScale⟩
/-- Wei `from_normalized`, value.rs:304-309, and `From`, 424-428. -/
def weiFromNormalized (v : Value .normalized) : Value .wei := ⟨scaleDec v.value (-ethScale)⟩
/-- `to_ether`, value.rs:312-317. -/
def toEther (v : Value .wei) : Value .ether := ⟨scaleDec v.value ethScale⟩
/-- Algo `normalize`, value.rs:323-328, and `From`, 448-452. -/
def algoNormalize (v : Value .algo) : Value .normalized := ⟨v.value⟩
/-- Algo `from_normalized`, value.rs:331-336. -/
def algoFromNormalized (v : Value .normalized) : Value .algo := ⟨v.value⟩
/-- `to_microalgo`, value.rs:339-344. -/
def toMicroAlgo (v : Value .algo) : Value .microAlgo := ⟨scaleDec v.value (-algoScale)⟩
/-- MicroAlgo `normalize`, value.rs:350-355, and `From`, 436-440. -/
def microAlgoNormalize (v : Value .microAlgo) : Value .normalized := ⟨scaleDec v.value algoScale⟩
/-- MicroAlgo `from_normalized`, value.rs:358-363, and `From`, 442-446. -/
def microAlgoFromNormalized (v : Value .normalized) : Value .microAlgo :=
  ⟨scaleDec v.value (-algoScale)⟩
/-- `to_algo`, value.rs:366-371. Its Rust return type is `Value<evm::Ether>`. -/
def toAlgo (v : Value .microAlgo) : Value .ether := ⟨scaleDec v.value algoScale⟩

/-- Largest number of decimals accepted for a unit, value.rs:535-542. -/
def maxDecimals : Rep → Int
  | .normalized => 18
  | .regulated => 18
  | .lovelace => 0
  | .ada => adaScale
  | .wei => 0
  | .ether => ethScale
  | .microAlgo => 0
  | .algo => algoScale

/-- `ValueFromStrError`, value.rs:501-511. -/
inductive FromStrError where
  | invalidDecimal
  | invalidDecimalPoint (max current : Int)
  | negative
deriving DecidableEq, Repr

/-- `FromStr`, value.rs:513-533. -/
def fromStr (r : Rep) (s : List Char) : Except FromStrError (Value r) :=
  match Dec.parse s with
  | none => .error .invalidDecimal
  | some d =>
    if d.scale > maxDecimals r then .error (.invalidDecimalPoint (maxDecimals r) d.scale)
    else if ¬ d.digits > 0 ∧ ¬ d.digits = 0 then .error .negative
    else .ok ⟨d⟩

/-- `Display`, value.rs:495-499. -/
def display (lead trail : Nat) (v : Value r) : List Char := v.value.display lead trail

/-- `truncate`, value.rs:162-183: values below one become zero, others are printed, cut at
the point and read back. -/
def truncate (lead trail : Nat) (v : Value r) : Value r :=
  if v.value.blt (Dec.ofInt 1) then ⟨Dec.ofInt 0⟩
  else
    match Dec.parse ((v.value.display lead trail).takeWhile Dec.notDot) with
    | some d => ⟨d⟩
    | none => ⟨Dec.ofInt 0⟩

/-- What serde hands to the visitor of `Value` deserialisation. -/
inductive Input where
  | num (n : U64)
  | str (s : List Char)
  | other

/-- `Deserialize`, value.rs:571-582 with `BigDecimalVisitor`, number_visitor.rs:66-96:
the checks of `FromStr` are not applied. -/
def deserialize (r : Rep) : Input → Option (Value r)
  | .num n => some ⟨Dec.ofInt n.val⟩
  | .str s => (Dec.parse s).map (⟨·⟩)
  | .other => none

/-- `Serialize`, value.rs:584-591: a string. -/
def serialize (lead trail : Nat) (v : Value r) : Input := .str (v.display lead trail)

theorem scaleDec_toRat (d : Dec) (s : Int) : (scaleDec d s).toRat = d.toRat * (10 : ℚ) ^ (-s) := by
  rw [scaleDec, Dec.toRat_mul]; simp [Dec.toRat]

end Value

namespace Dec

theorem takeWhile_notDot_of {I R : List Char} (hI : ∀ c ∈ I, notDot c = true) :
    (I ++ '.' :: R).takeWhile notDot = I := by
  rw [List.takeWhile_append_of_pos hI]
  have : notDot '.' = false := by decide
  simp [this]

theorem takeWhile_notDot_all {I : List Char} (hI : ∀ c ∈ I, notDot c = true) :
    I.takeWhile notDot = I := by
  have := List.takeWhile_append_of_pos hI (l₂ := [])
  simpa using this

theorem floor_div (n k : Nat) : ⌊(n : ℚ) * (10 : ℚ) ^ (-(k : Int))⌋ = ((n / 10 ^ k : Nat) : Int) := by
  rw [zpow_neg, zpow_natCast, ← div_eq_mul_inv]
  rw [show ((10 : ℚ) ^ k) = ((10 ^ k : Nat) : ℚ) by push_cast; rfl]
  rw [Rat.floor_natCast_div_natCast, Int.natCast_ediv]

theorem decValue_lt {s : List Char} {a : List Nat} (h : s.mapM toDigit = some a) :
    decValue a < 10 ^ a.length := by
  rw [decValue_eq, ← List.length_reverse]
  apply Nat.ofDigits_lt_base_pow_length (by norm_num)
  intro x hx
  rw [List.mem_reverse] at hx
  induction s generalizing a with
  | nil => simp at h; subst h; simp at hx
  | cons c cs ih =>
    rw [List.mapM_cons] at h
    cases hc : toDigit c with
    | none => simp [hc] at h
    | some d =>
      cases hm : cs.mapM toDigit with
      | none => simp [hc, hm] at h
      | some ds =>
        simp [hc, hm] at h; subst h
        rcases List.mem_cons.mp hx with rfl | hx
        · exact toDigit_lt hc
        · exact ih hm hx

/-- Printing a decimal of at least one, cutting the text at the point and reading it
back gives the integer part. -/
theorem parse_cut_display (lead trail : Nat) (d : Dec) (hs : d.SmallScale) (h1 : 1 ≤ d.toRat) :
    ∃ d', parse ((display lead trail d).takeWhile notDot) = some d' ∧ d'.toRat = ⌊d.toRat⌋ ∧
      (0 ≤ d.scale → d'.scale = 0) := by
  obtain ⟨ds, hds, hv, hne⟩ := showNat_mapM d.digits.natAbs
  have hlen := mapM_length hds
  have hpos := showNat_len_pos d.digits.natAbs
  have hne' : showNat d.digits.natAbs ≠ [] := List.length_pos_iff.mp hpos
  have hdpos : 0 < d.digits := by
    by_contra hneg
    have : d.toRat ≤ 0 := by
      unfold toRat
      apply mul_nonpos_of_nonpos_of_nonneg
      · exact_mod_cast not_lt.mp hneg
      · exact le_of_lt (pow_pos' _)
    linarith
  have hnn : ((d.digits.natAbs : Nat) : Int) = d.digits := by omega
  have hdig : ∀ c ∈ showNat d.digits.natAbs, notDot c = true :=
    fun c hc => digit_notDot (mapM_mem hds c hc)
  have hnil : ExpText [] 0 := Or.inl ⟨rfl, rfl⟩
  have hint : ∀ z : Nat, ⌊(⟨d.digits, -(z : Int)⟩ : Dec).toRat⌋ = d.digits * 10 ^ z := by
    intro z
    have : (⟨d.digits, -(z : Int)⟩ : Dec).toRat = ((d.digits * 10 ^ z : Int) : ℚ) := by
      simp [toRat]
    rw [this]; exact Int.floor_intCast _
  by_cases hsc : d.scale ≤ 0
  · obtain ⟨z, hz⟩ : ∃ z : Nat, d.scale = -(z : Int) := ⟨(-d.scale).toNat, by omega⟩
    have hcut : (display lead trail d).takeWhile notDot = display lead trail d := by
      apply takeWhile_notDot_all
      intro c hc
      unfold display at hc
      simp only [if_neg (not_lt.mpr (le_of_lt hdpos)), if_pos hsc, List.nil_append] at hc
      split at hc
      · rcases List.mem_append.mp hc with h | h
        · exact hdig c h
        · rcases List.mem_cons.mp h with rfl | h
          · decide
          · rcases List.mem_cons.mp h with rfl | h
            · decide
            · obtain ⟨dz, hdz, _⟩ := showNat_mapM (-d.scale).toNat
              exact digit_notDot (mapM_mem hdz c h)
      · rcases List.mem_append.mp hc with h | h
        · exact hdig c h
        · have := (List.mem_replicate.mp h).2; subst this; decide
    rw [hcut]
    obtain ⟨d', hp, hr⟩ := parse_display lead trail d hs
    refine ⟨d', hp, ?_, ?_⟩
    case refine_2 =>
      intro h0
      have hz0 : (-d.scale).toNat = 0 := by omega
      have hshow : display lead trail d = showNat d.digits.natAbs := by
        unfold display
        simp only [if_neg (not_lt.mpr (le_of_lt hdpos)), if_pos hsc, List.nil_append, hz0]
        simp
      have hp' := parse_int_text false hds hne' hnil
      simp only [signText, Bool.false_eq_true, if_false, List.nil_append, List.append_nil] at hp'
      rw [hshow, hp'] at hp
      have := Option.some.inj hp
      rw [← this]; simp
    rw [hr]
    have hd : d = ⟨d.digits, -(z : Int)⟩ := by cases d; simp_all
    have := hint z
    rw [← hd] at this
    rw [this, hd]
    simp [toRat]
  · obtain ⟨k, hk⟩ : ∃ k : Nat, d.scale = (k : Int) := ⟨d.scale.toNat, by omega⟩
    have hk' : d.scale.toNat = k := by omega
    have hval : d.toRat = (d.digits.natAbs : ℚ) * (10 : ℚ) ^ (-(k : Int)) := by
      unfold toRat; rw [hk]
      congr 1
      rw [← hnn]; rfl
    have hbig : ¬ (showNat d.digits.natAbs).length ≤ k := by
      intro hle
      have h2 := decValue_lt hds
      rw [hv, hlen] at h2
      have h3 : d.digits.natAbs < 10 ^ k := lt_of_lt_of_le h2 (Nat.pow_le_pow_right (by norm_num) hle)
      have h4 : (d.digits.natAbs : ℚ) < (10 : ℚ) ^ k := by exact_mod_cast h3
      rw [hval, zpow_neg, zpow_natCast, ← div_eq_mul_inv] at h1
      rw [le_div_iff₀ (by positivity)] at h1
      linarith
    obtain ⟨ht, hdr⟩ := mapM_take_drop hds ((showNat d.digits.natAbs).length - k)
    have htd : ∀ c ∈ (showNat d.digits.natAbs).take ((showNat d.digits.natAbs).length - k),
        notDot c = true := fun c hc => hdig c (List.mem_of_mem_take hc)
    have hcut : (display lead trail d).takeWhile notDot =
        (showNat d.digits.natAbs).take ((showNat d.digits.natAbs).length - k) := by
      unfold display
      simp only [if_neg (not_lt.mpr (le_of_lt hdpos)), if_neg hsc, List.nil_append, hk', if_neg hbig]
      exact takeWhile_notDot_of htd
    have hne2 : (showNat d.digits.natAbs).take ((showNat d.digits.natAbs).length - k) ≠ [] := by
      intro h0
      have := congrArg List.length h0
      rw [List.length_take, List.length_nil] at this
      omega
    have hp := parse_int_text false ht hne2 hnil
    simp only [signText, signFactor, Bool.false_eq_true, if_false, List.nil_append, List.append_nil,
      one_mul, sub_self] at hp
    rw [hcut]
    refine ⟨_, hp, ?_, fun _ => rfl⟩
    rw [hval, floor_div]
    have hsplit : d.digits.natAbs = decValue (ds.take ((showNat d.digits.natAbs).length - k)) * 10 ^ k +
        decValue (ds.drop ((showNat d.digits.natAbs).length - k)) := by
      have h := decValue_append (ds.take ((showNat d.digits.natAbs).length - k))
        (ds.drop ((showNat d.digits.natAbs).length - k))
      rw [List.take_append_drop, hv, List.length_drop, hlen] at h
      have : (showNat d.digits.natAbs).length - ((showNat d.digits.natAbs).length - k) = k := by omega
      rw [this] at h; exact h
    have hlt := decValue_lt hdr
    rw [List.length_drop, hlen] at hlt
    have hkk : (showNat d.digits.natAbs).length - ((showNat d.digits.natAbs).length - k) = k := by omega
    rw [hkk] at hlt
    have hdiv : d.digits.natAbs / 10 ^ k = decValue (ds.take ((showNat d.digits.natAbs).length - k)) := by
      generalize decValue (ds.take ((showNat d.digits.natAbs).length - k)) = q at hsplit ⊢
      generalize decValue (ds.drop ((showNat d.digits.natAbs).length - k)) = rr at hsplit hlt
      rw [hsplit, mul_comm, Nat.mul_add_div (by positivity), Nat.div_eq_of_lt hlt, add_zero]
    rw [hdiv]
    simp [toRat]

end Dec
end Verif.Core
