import Verif.Core.Num
import Mathlib.Data.Rat.Defs
import Mathlib.Algebra.Order.Ring.Rat
import Mathlib.Algebra.Order.Field.Basic
import Mathlib.Algebra.Order.Field.Power
import Mathlib.Tactic.Linarith
import Mathlib.Tactic.FieldSimp
import Mathlib.Tactic.Positivity
import Mathlib.Tactic.Ring
import Mathlib.Data.Rat.Floor

/-!
# Decimals

The decimal type behind `Value` is `BigDecimal` of the `bigdecimal` crate (0.4): an
unbounded integer and a scale, the number being `digits * 10^(-scale)`. The crate is not
part of `/repo`; the definitions here are the contract assumed of it. The exponent is
unbounded here and an `i64` in the crate.
-/

namespace Verif.Core

/-- `BigDecimal`: `digits * 10^(-scale)`. -/
structure Dec where
  digits : Int
  scale : Int
deriving DecidableEq, Repr

namespace Dec

/-- The number a decimal denotes (specification). -/
def toRat (d : Dec) : ℚ := d.digits * (10 : ℚ) ^ (-d.scale)

/-- `BigDecimal::from(u64)` and `BigDecimal::from(BigInt)`. -/
def ofInt (n : Int) : Dec := ⟨n, 0⟩

/-- Digits of `d` rescaled to a scale `s ≥ d.scale` (`BigDecimal::with_scale`, upwards). -/
def rescale (d : Dec) (s : Int) : Int := d.digits * 10 ^ (s - d.scale).toNat

/-- Addition of `BigDecimal`: align to the larger scale, add. -/
def add (a b : Dec) : Dec :=
  if a.scale = b.scale then ⟨a.digits + b.digits, a.scale⟩
  else if a.scale < b.scale then ⟨a.rescale b.scale + b.digits, b.scale⟩
  else ⟨a.digits + b.rescale a.scale, a.scale⟩

/-- Subtraction of `BigDecimal`. -/
def sub (a b : Dec) : Dec :=
  if a.scale = b.scale then ⟨a.digits - b.digits, a.scale⟩
  else if a.scale < b.scale then ⟨a.rescale b.scale - b.digits, b.scale⟩
  else ⟨a.digits - b.rescale a.scale, a.scale⟩

/-- Multiplication of `BigDecimal`: digits multiply, scales add. -/
def mul (a b : Dec) : Dec := ⟨a.digits * b.digits, a.scale + b.scale⟩

/-- Multiplication of `BigDecimal` by `BigInt`. -/
def mulInt (a : Dec) (n : Int) : Dec := ⟨a.digits * n, a.scale⟩

/-- Comparison of `BigDecimal`: align, compare. -/
def cmp (a b : Dec) : Ordering :=
  if a.scale = b.scale then compare a.digits b.digits
  else if a.scale < b.scale then compare (a.rescale b.scale) b.digits
  else compare a.digits (b.rescale a.scale)

/-- `BigDecimal::eq`, numeric equality. -/
def beq (a b : Dec) : Bool := a.cmp b == .eq

/-- `BigDecimal::lt`. -/
def blt (a b : Dec) : Bool := a.cmp b == .lt

/-- `Iterator::sum` of `BigDecimal`. -/
def sum (l : List Dec) : Dec := l.foldl add (ofInt 0)

/-! ### Text -/

/-- `BigDecimal::to_string`. `lead` and `trail` are the crate's thresholds of
zeros before it switches to exponential notation; they differ between releases
of the crate and every theorem holds for all of them. -/
def display (lead trail : Nat) (d : Dec) : List Char :=
  let ds := showNat d.digits.natAbs
  let sign := if d.digits < 0 then ['-'] else []
  if d.scale ≤ 0 then
    let z := (-d.scale).toNat
    if trail < z then sign ++ ds ++ 'e' :: '+' :: showNat z
    else sign ++ ds ++ List.replicate z '0'
  else
    let k := d.scale.toNat
    if ds.length ≤ k then
      if lead < k - ds.length then
        -- d.dddE-n
        sign ++ ds.take 1 ++ (if ds.length = 1 then [] else '.' :: ds.drop 1) ++
          'E' :: '-' :: showNat (k + 1 - ds.length)
      else sign ++ '0' :: '.' :: (List.replicate (k - ds.length) '0' ++ ds)
    else sign ++ ds.take (ds.length - k) ++ '.' :: ds.drop (ds.length - k)

/-- Digits of a non-empty digit string. -/
def parseNat (s : List Char) : Option Nat :=
  match s with
  | [] => none
  | s => (s.mapM toDigit).map decValue

/-- Digits after an optional sign, as `i64::from_str` reads them. -/
def parseInt (s : List Char) : Option Int :=
  match s with
  | '-' :: t => (parseNat t).map (fun n => -(n : Int))
  | '+' :: t => (parseNat t).map (fun n => (n : Int))
  | s => (parseNat s).map (fun n => (n : Int))

/-- Not an underscore. -/
def notUnder (c : Char) : Bool := c ≠ '_'

/-- `BigUint::from_str_radix(_, 10)` after the sign: digits, with underscores anywhere after the first of them. -/
def parseBigNat (s : List Char) : Option Nat :=
  if s.head? = some '_' then none else parseNat (s.filter notUnder)

/-- `BigInt::from_str_radix(_, 10)`. -/
def parseBig (s : List Char) : Option Int :=
  match s with
  | '-' :: t => (parseBigNat t).map (fun n => -(n : Int))
  | '+' :: t => (parseBigNat t).map (fun n => (n : Int))
  | s => (parseBigNat s).map (fun n => (n : Int))

/-- `i64::from_str`. -/
def parseI64 (s : List Char) : Option Int :=
  match parseInt s with
  | some n => if -(2 ^ 63 : Int) ≤ n ∧ n < 2 ^ 63 then some n else none
  | none => none

/-- Not an exponent separator. -/
def notE (c : Char) : Bool := c ≠ 'e' ∧ c ≠ 'E'
/-- Not a decimal point. -/
def notDot (c : Char) : Bool := c ≠ '.'

/-- The exponent part of a text: absent, or an `i64` after the separator. -/
def parseExp (s : List Char) : Option Int :=
  match s with
  | [] => some 0
  | _ :: e => parseI64 e

/-- `BigDecimal::from_str`: split off the exponent, remove the point and count the
characters after it that are not underscores, read the digits as an integer. -/
def parse (s : List Char) : Option Dec :=
  let base := s.takeWhile notE
  match parseExp (s.dropWhile notE) with
  | none => none
  | some exp =>
    if base = [] then none
    else
      match base.dropWhile notDot with
      | [] => (parseBig base).map fun n => ⟨n, 0 - exp⟩
      | _ :: trail =>
        (parseBig (base.takeWhile notDot ++ trail)).map fun n => ⟨n, (trail.filter notUnder).length - exp⟩

/-! ### Denotation lemmas -/

theorem toRat_ofInt (n : Int) : (ofInt n).toRat = n := by simp [ofInt, toRat]

theorem pow_pos' (s : Int) : (0 : ℚ) < (10 : ℚ) ^ s := zpow_pos (by norm_num) _

theorem rescale_eq (d : Dec) (s : Int) (h : d.scale ≤ s) :
    ((d.rescale s : Int) : ℚ) * (10 : ℚ) ^ (-s) = d.toRat := by
  unfold rescale toRat
  push_cast
  have h1 : ((10 : ℚ) ^ (s - d.scale).toNat) = (10 : ℚ) ^ (s - d.scale) := by
    rw [← zpow_natCast]; congr 1; omega
  rw [h1, mul_assoc, ← zpow_add₀ (by norm_num : (10 : ℚ) ≠ 0)]
  congr 2; ring

theorem toRat_add (a b : Dec) : (a.add b).toRat = a.toRat + b.toRat := by
  unfold add
  split
  · rename_i h; simp [toRat, h, add_mul]
  · split
    · rename_i h
      rw [← rescale_eq a b.scale (le_of_lt h)]; simp [toRat, add_mul]
    · rename_i h1 h2
      rw [← rescale_eq b a.scale (not_lt.mp h2)]; simp [toRat, add_mul]

theorem toRat_sub (a b : Dec) : (a.sub b).toRat = a.toRat - b.toRat := by
  unfold sub
  split
  · rename_i h; simp [toRat, h, sub_mul]
  · split
    · rename_i h
      rw [← rescale_eq a b.scale (le_of_lt h)]; simp [toRat, sub_mul]
    · rename_i h1 h2
      rw [← rescale_eq b a.scale (not_lt.mp h2)]; simp [toRat, sub_mul]

theorem toRat_mul (a b : Dec) : (a.mul b).toRat = a.toRat * b.toRat := by
  unfold mul toRat
  push_cast
  rw [neg_add, zpow_add₀ (by norm_num : (10 : ℚ) ≠ 0)]
  ring

theorem toRat_mulInt (a : Dec) (n : Int) : (a.mulInt n).toRat = a.toRat * n := by
  unfold mulInt toRat
  push_cast
  ring

/-- Comparison of rationals as an `Ordering` (specification). -/
def ratCmp (x y : ℚ) : Ordering := if x < y then .lt else if x = y then .eq else .gt

theorem compare_scaled (x y : Int) (p : ℚ) (hp : 0 < p) :
    compare x y = ratCmp (x * p) (y * p) := by
  unfold ratCmp
  have h1 : ((x : ℚ) * p < y * p) ↔ x < y := by
    rw [mul_lt_mul_iff_left₀ hp]; exact_mod_cast Iff.rfl
  have h2 : ((x : ℚ) * p = y * p) ↔ x = y := by
    rw [mul_left_inj' (ne_of_gt hp)]; exact_mod_cast Iff.rfl
  simp only [h1, h2]
  rcases lt_trichotomy x y with h | h | h
  · simp [h, compare_lt_iff_lt.mpr h]
  · simp [h]
  · simp [compare_gt_iff_gt.mpr h, not_lt.mpr (le_of_lt h), ne_of_gt h]

theorem cmp_eq (a b : Dec) : a.cmp b = ratCmp a.toRat b.toRat := by
  unfold cmp
  split
  · rename_i h; rw [compare_scaled _ _ _ (pow_pos' (-b.scale))]; simp [toRat, h]
  · split
    · rename_i h
      rw [compare_scaled _ _ _ (pow_pos' (-b.scale)), rescale_eq a _ (le_of_lt h)]; rfl
    · rename_i h1 h2
      rw [compare_scaled _ _ _ (pow_pos' (-a.scale)), rescale_eq b _ (not_lt.mp h2)]; rfl

theorem beq_iff (a b : Dec) : a.beq b = true ↔ a.toRat = b.toRat := by
  unfold beq
  rw [cmp_eq]; unfold ratCmp
  by_cases h : a.toRat < b.toRat
  · simp [h, ne_of_lt h]
  · by_cases h2 : a.toRat = b.toRat <;> simp [h2]
    simp [h]

theorem blt_iff (a b : Dec) : a.blt b = true ↔ a.toRat < b.toRat := by
  unfold blt
  rw [cmp_eq]; unfold ratCmp
  by_cases h : a.toRat < b.toRat
  · simp [h]
  · by_cases h2 : a.toRat = b.toRat <;> simp [h2, h]

theorem toRat_sum (l : List Dec) : (sum l).toRat = (l.map toRat).sum := by
  have : ∀ (l : List Dec) (a : Dec), (l.foldl add a).toRat = a.toRat + (l.map toRat).sum := by
    intro l
    induction l with
    | nil => simp
    | cons x xs ih => intro a; simp [ih, toRat_add]; ring
  unfold sum
  rw [this, toRat_ofInt]; simp

/-! ### Text lemmas -/

/-- The sign character of a text. -/
def signText (neg : Bool) : List Char := if neg then ['-'] else []

/-- A sign factor. -/
def signFactor (neg : Bool) : Int := if neg then -1 else 1

theorem decValue_append (a b : List Nat) :
    decValue (a ++ b) = decValue a * 10 ^ b.length + decValue b := by
  unfold decValue
  rw [List.foldl_append, foldl_dec b (List.foldl _ 0 a), foldl_dec b 0]
  simp

theorem decValue_replicate_zero (n : Nat) : decValue (List.replicate n 0) = 0 := by
  rw [decValue_eq]; simp [Nat.ofDigits_replicate_zero]

theorem mapM_append_some {s t : List Char} {a b : List Nat}
    (hs : s.mapM toDigit = some a) (ht : t.mapM toDigit = some b) :
    (s ++ t).mapM toDigit = some (a ++ b) := by
  rw [List.mapM_append, hs, ht]; rfl

theorem mapM_length {s : List Char} {a : List Nat} (h : s.mapM toDigit = some a) :
    a.length = s.length := by
  induction s generalizing a with
  | nil => simp at h; subst h; rfl
  | cons c cs ih =>
    rw [List.mapM_cons] at h
    cases hc : toDigit c with
    | none => simp [hc] at h
    | some d =>
      cases hm : cs.mapM toDigit with
      | none => simp [hc, hm] at h
      | some ds => simp [hc, hm] at h; subst h; simp [ih hm]

theorem mapM_mem {s : List Char} {a : List Nat} (h : s.mapM toDigit = some a) :
    ∀ c ∈ s, (toDigit c).isSome := by
  induction s generalizing a with
  | nil => simp
  | cons c cs ih =>
    rw [List.mapM_cons] at h
    cases hc : toDigit c with
    | none => simp [hc] at h
    | some d =>
      cases hm : cs.mapM toDigit with
      | none => simp [hc, hm] at h
      | some ds =>
        intro x hx
        rcases List.mem_cons.mp hx with rfl | hx
        · simp [hc]
        · exact ih hm x hx

theorem digit_notE {c : Char} (h : (toDigit c).isSome) : notE c = true := by
  unfold notE
  by_cases h1 : c = 'e'
  · subst h1; revert h; decide
  · by_cases h2 : c = 'E'
    · subst h2; revert h; decide
    · simp [h1, h2]

theorem digit_notDot {c : Char} (h : (toDigit c).isSome) : notDot c = true := by
  unfold notDot
  by_cases h1 : c = '.'
  · subst h1; revert h; decide
  · simp [h1]

theorem parseNat_of {s : List Char} {a : List Nat} (h : s.mapM toDigit = some a) (hne : s ≠ []) :
    parseNat s = some (decValue a) := by
  cases s with
  | nil => exact absurd rfl hne
  | cons c cs => simp only [parseNat, h, Option.map_some]

theorem digit_notUnder {c : Char} (h : (toDigit c).isSome) : notUnder c = true := by
  unfold notUnder
  by_cases h1 : c = '_'
  · subst h1; revert h; decide
  · simp [h1]

theorem digits_notUnder {s : List Char} {a : List Nat} (h : s.mapM toDigit = some a) : s.filter notUnder = s :=
  List.filter_eq_self.2 (fun c hc => digit_notUnder (mapM_mem h c hc))

theorem parseBigNat_of {s : List Char} {a : List Nat} (h : s.mapM toDigit = some a) (hne : s ≠ []) :
    parseBigNat s = some (decValue a) := by
  unfold parseBigNat
  rw [if_neg, digits_notUnder h, parseNat_of h hne]
  intro hh
  have := digit_notUnder (mapM_mem h '_' (List.mem_of_mem_head? (by rw [hh]; rfl)))
  revert this; decide

theorem parseBig_of (neg : Bool) {s : List Char} {a : List Nat} (h : s.mapM toDigit = some a)
    (hne : s ≠ []) : parseBig (signText neg ++ s) = some (signFactor neg * decValue a) := by
  cases neg with
  | true => simp [signText, signFactor, parseBig, parseBigNat_of h hne]
  | false =>
    cases s with
    | nil => exact absurd rfl hne
    | cons c cs =>
      have hc := mapM_mem h c (by simp)
      have h1 : c ≠ '-' := by rintro rfl; revert hc; decide
      have h2 : c ≠ '+' := by rintro rfl; revert hc; decide
      simp only [signText, signFactor, Bool.false_eq_true, if_false, List.nil_append, one_mul]
      unfold parseBig
      split
      · simp_all
      · simp_all
      · rw [parseBigNat_of h hne]; rfl

/-- An exponent part: empty, or a separator followed by a 64-bit integer text. -/
def ExpText (E : List Char) (x : Int) : Prop :=
  (E = [] ∧ x = 0) ∨ ∃ c r, E = c :: r ∧ (c = 'e' ∨ c = 'E') ∧ parseI64 r = some x

theorem split_exp {B E : List Char} {x : Int} (hB : ∀ c ∈ B, notE c = true) (hE : ExpText E x) :
    (B ++ E).takeWhile notE = B ∧ (B ++ E).dropWhile notE = E := by
  rw [List.takeWhile_append_of_pos hB, List.dropWhile_append_of_pos hB]
  rcases hE with ⟨rfl, _⟩ | ⟨c, r, rfl, hc, _⟩
  · simp
  · have : notE c = false := by rcases hc with rfl | rfl <;> decide
    simp [this]

theorem exp_match {E : List Char} {x : Int} (hE : ExpText E x) :
    parseExp E = some x := by
  rcases hE with ⟨rfl, rfl⟩ | ⟨c, r, rfl, _, hr⟩
  · rfl
  · exact hr

theorem sign_notE (neg : Bool) : ∀ c ∈ signText neg, notE c = true := by
  cases neg <;> simp [signText, notE]

theorem sign_notDot (neg : Bool) : ∀ c ∈ signText neg, notDot c = true := by
  cases neg <;> simp [signText, notDot]

/-- Reading a text without point. -/
theorem parse_int_text (neg : Bool) {I E : List Char} {di : List Nat} {x : Int}
    (hI : I.mapM toDigit = some di) (hne : I ≠ []) (hE : ExpText E x) :
    parse (signText neg ++ I ++ E) = some ⟨signFactor neg * decValue di, 0 - x⟩ := by
  have hB : ∀ c ∈ signText neg ++ I, notE c = true := by
    intro c hc
    rcases List.mem_append.mp hc with h | h
    · exact sign_notE neg c h
    · exact digit_notE (mapM_mem hI c h)
  have hD : ∀ c ∈ signText neg ++ I, notDot c = true := by
    intro c hc
    rcases List.mem_append.mp hc with h | h
    · exact sign_notDot neg c h
    · exact digit_notDot (mapM_mem hI c h)
  obtain ⟨h1, h2⟩ := split_exp hB hE
  have hne' : signText neg ++ I ≠ [] := by simp [hne]
  unfold parse
  simp only [h1, h2, exp_match hE, if_neg hne']
  have hdrop : (signText neg ++ I).dropWhile notDot = [] := by
    have := List.dropWhile_append_of_pos hD (l₂ := [])
    simpa using this
  rw [hdrop]
  simp [parseBig_of neg hI hne]

/-- Reading a text with a point. -/
theorem parse_point_text (neg : Bool) {I F E : List Char} {di df : List Nat} {x : Int}
    (hI : I.mapM toDigit = some di) (hF : F.mapM toDigit = some df) (hne : I ++ F ≠ [])
    (hE : ExpText E x) :
    parse (signText neg ++ I ++ '.' :: F ++ E) =
      some ⟨signFactor neg * decValue (di ++ df), F.length - x⟩ := by
  have hB : ∀ c ∈ signText neg ++ I ++ '.' :: F, notE c = true := by
    intro c hc
    rcases List.mem_append.mp hc with h | h
    · rcases List.mem_append.mp h with h | h
      · exact sign_notE neg c h
      · exact digit_notE (mapM_mem hI c h)
    · rcases List.mem_cons.mp h with rfl | h
      · decide
      · exact digit_notE (mapM_mem hF c h)
  have hD : ∀ c ∈ signText neg ++ I, notDot c = true := by
    intro c hc
    rcases List.mem_append.mp hc with h | h
    · exact sign_notDot neg c h
    · exact digit_notDot (mapM_mem hI c h)
  obtain ⟨h1, h2⟩ := split_exp hB hE
  have hne' : signText neg ++ I ++ '.' :: F ≠ [] := by simp
  unfold parse
  simp only [h1, h2, exp_match hE, if_neg hne']
  rw [List.dropWhile_append_of_pos hD, List.takeWhile_append_of_pos hD]
  have hdot : notDot '.' = false := by decide
  simp only [List.dropWhile_cons, List.takeWhile_cons, hdot, Bool.false_eq_true, if_false,
    List.append_nil]
  rw [List.append_assoc, parseBig_of neg (mapM_append_some hI hF) hne, digits_notUnder hF]
  rfl

/-- Sign of a decimal. -/
def isNeg (d : Dec) : Bool := decide (d.digits < 0)

theorem signFactor_natAbs (d : Dec) : signFactor d.isNeg * (d.digits.natAbs : Int) = d.digits := by
  unfold signFactor isNeg
  by_cases h : d.digits < 0
  · simp only [h, decide_true, if_true]; omega
  · simp only [h, decide_false, Bool.false_eq_true, if_false]; omega

theorem parseI64_plus {z : Nat} (h : z < 2 ^ 63) : parseI64 ('+' :: showNat z) = some (z : Int) := by
  obtain ⟨ds, hds, hv, hne⟩ := showNat_mapM z
  have hs : showNat z ≠ [] := by
    intro h0; rw [h0] at hds; simp at hds; exact hne hds
  unfold parseI64
  have : parseInt ('+' :: showNat z) = some (z : Int) := by
    simp [parseInt, parseNat_of hds hs, hv]
  rw [this]
  have : -(2 ^ 63 : Int) ≤ z ∧ (z : Int) < 2 ^ 63 := by constructor <;> omega
  simp only [this, and_self, if_true]

theorem parseI64_minus {z : Nat} (h : z < 2 ^ 63) :
    parseI64 ('-' :: showNat z) = some (-(z : Int)) := by
  obtain ⟨ds, hds, hv, hne⟩ := showNat_mapM z
  have hs : showNat z ≠ [] := by
    intro h0; rw [h0] at hds; simp at hds; exact hne hds
  unfold parseI64
  have : parseInt ('-' :: showNat z) = some (-(z : Int)) := by
    simp [parseInt, parseNat_of hds hs, hv]
  rw [this]
  have : -(2 ^ 63 : Int) ≤ -(z : Int) ∧ -(z : Int) < 2 ^ 63 := by constructor <;> omega
  simp only [this, and_self, if_true]

theorem mapM_replicate (n : Nat) : (List.replicate n '0').mapM toDigit = some (List.replicate n 0) := by
  induction n with
  | zero => rfl
  | succ n ih => rw [List.replicate_succ, List.mapM_cons, ih]; rfl

theorem mapM_take_drop {s : List Char} {a : List Nat} (h : s.mapM toDigit = some a) (k : Nat) :
    (s.take k).mapM toDigit = some (a.take k) ∧ (s.drop k).mapM toDigit = some (a.drop k) := by
  induction s generalizing a k with
  | nil => simp at h; subst h; simp
  | cons c cs ih =>
    rw [List.mapM_cons] at h
    cases hc : toDigit c with
    | none => simp [hc] at h
    | some d =>
      cases hm : cs.mapM toDigit with
      | none => simp [hc, hm] at h
      | some ds =>
        simp [hc, hm] at h; subst h
        cases k with
        | zero => simp [hc, hm]
        | succ k =>
          obtain ⟨h1, h2⟩ := ih hm k
          simp [hc, h1, h2]

theorem toRat_shift (n : Int) (z : Nat) :
    (⟨n * 10 ^ z, 0⟩ : Dec).toRat = (⟨n, -(z : Int)⟩ : Dec).toRat := by
  simp [toRat]

theorem showNat_len_pos (n : Nat) : 0 < (showNat n).length := by
  obtain ⟨ds, hds, _, hne⟩ := showNat_mapM n
  rw [← mapM_length hds]
  exact List.length_pos_iff.mpr hne

/-- The scale is small enough for the exponent of its text to be an `i64`. -/
def SmallScale (d : Dec) : Prop := d.scale.natAbs + 1 < 2 ^ 63

/-- Reading back a printed decimal gives the same number. -/
theorem parse_display (lead trail : Nat) (d : Dec) (hs : d.SmallScale) :
    ∃ d', parse (display lead trail d) = some d' ∧ d'.toRat = d.toRat := by
  obtain ⟨ds, hds, hv, hne⟩ := showNat_mapM d.digits.natAbs
  have hlen := mapM_length hds
  have hpos := showNat_len_pos d.digits.natAbs
  have hne' : showNat d.digits.natAbs ≠ [] := List.length_pos_iff.mp hpos
  have hsign : (if d.digits < 0 then ['-'] else ([] : List Char)) = signText d.isNeg := by
    unfold signText isNeg; by_cases h : d.digits < 0 <;> simp [h]
  have hn := signFactor_natAbs d
  have hnil : ExpText [] 0 := Or.inl ⟨rfl, rfl⟩
  unfold SmallScale at hs
  unfold display
  simp only [hsign]
  split
  · rename_i hsc
    split
    · refine ⟨_, parse_int_text d.isNeg hds hne'
        (Or.inr ⟨'e', _, rfl, Or.inl rfl, parseI64_plus (by omega)⟩), ?_⟩
      rw [hv, hn]
      have : (0 : Int) - ((-d.scale).toNat : Int) = d.scale := by omega
      simp only [this]
    · have happ := mapM_append_some hds (mapM_replicate (-d.scale).toNat)
      have := parse_int_text d.isNeg happ (by simp [hne']) hnil
      rw [List.append_nil, ← List.append_assoc] at this
      refine ⟨_, this, ?_⟩
      rw [decValue_append, decValue_replicate_zero, hv]
      rw [List.length_replicate, add_zero, Nat.cast_mul, ← mul_assoc, hn, sub_self, Nat.cast_pow,
        Nat.cast_ofNat, toRat_shift]
      have : -((-d.scale).toNat : Int) = d.scale := by omega
      simp only [this]
  · rename_i hsc
    split
    · rename_i hle
      split
      · by_cases h1 : (showNat d.digits.natAbs).length = 1
        · have ht : (showNat d.digits.natAbs).take 1 = showNat d.digits.natAbs :=
            List.take_of_length_le (by omega)
          rw [if_pos h1, ht, List.append_nil]
          refine ⟨_, parse_int_text d.isNeg hds hne'
            (Or.inr ⟨'E', _, rfl, Or.inr rfl, parseI64_minus (by omega)⟩), ?_⟩
          rw [hv, hn]
          have : (0 : Int) - -((d.scale.toNat + 1 - (showNat d.digits.natAbs).length : Nat) : Int)
            = d.scale := by omega
          simp only [this]
        · rw [if_neg h1]
          obtain ⟨ht, hd⟩ := mapM_take_drop hds 1
          refine ⟨_, parse_point_text d.isNeg ht hd (by simp [hne'])
            (Or.inr ⟨'E', _, rfl, Or.inr rfl, parseI64_minus (by omega)⟩), ?_⟩
          rw [List.take_append_drop, hv, hn]
          have : (((showNat d.digits.natAbs).drop 1).length : Int) -
              -((d.scale.toNat + 1 - (showNat d.digits.natAbs).length : Nat) : Int) = d.scale := by
            rw [List.length_drop]; omega
          simp only [this]
      · have h0 : ['0'].mapM toDigit = some [0] := rfl
        have happ := mapM_append_some
          (mapM_replicate (d.scale.toNat - (showNat d.digits.natAbs).length)) hds
        have := parse_point_text d.isNeg h0 happ (by simp) hnil
        rw [List.append_nil] at this
        rw [List.append_assoc] at this
        refine ⟨_, this, ?_⟩
        rw [decValue_append, decValue_append, decValue_replicate_zero, hv]
        have hz : decValue [0] = 0 := rfl
        rw [hz, zero_mul, zero_mul, zero_add, zero_add, hn]
        have : ((List.replicate (d.scale.toNat - (showNat d.digits.natAbs).length) '0' ++
          showNat d.digits.natAbs).length : Int) - 0 = d.scale := by
          rw [List.length_append, List.length_replicate]; omega
        simp only [this]
    · rename_i hle
      obtain ⟨ht, hd⟩ := mapM_take_drop hds ((showNat d.digits.natAbs).length - d.scale.toNat)
      have := parse_point_text d.isNeg ht hd (by simp [hne']) hnil
      rw [List.append_nil] at this
      refine ⟨_, this, ?_⟩
      rw [List.take_append_drop, hv, hn]
      have : (((showNat d.digits.natAbs).drop
          ((showNat d.digits.natAbs).length - d.scale.toNat)).length : Int) - 0 = d.scale := by
        rw [List.length_drop]; omega
      simp only [this]

/-! ### Underscores -/

theorem filter_dropWhile_dot (t : List Char) :
    (t.filter notUnder).dropWhile notDot = (t.dropWhile notDot).filter notUnder := by
  induction t with
  | nil => rfl
  | cons c t ih =>
    by_cases hc : c = '.'
    · subst hc
      rw [List.filter_cons_of_pos (by decide), List.dropWhile_cons_of_neg (by decide),
        List.dropWhile_cons_of_neg (by decide), List.filter_cons_of_pos (by decide)]
    · have hd : notDot c = true := by simp [notDot, hc]
      rw [List.dropWhile_cons_of_pos hd]
      by_cases hu : notUnder c = true
      · rw [List.filter_cons_of_pos hu, List.dropWhile_cons_of_pos hd, ih]
      · rw [List.filter_cons_of_neg hu, ih]

theorem filter_takeWhile_dot (t : List Char) :
    (t.filter notUnder).takeWhile notDot = (t.takeWhile notDot).filter notUnder := by
  induction t with
  | nil => rfl
  | cons c t ih =>
    by_cases hc : c = '.'
    · subst hc
      rw [List.filter_cons_of_pos (by decide), List.takeWhile_cons_of_neg (by decide),
        List.takeWhile_cons_of_neg (by decide)]
      rfl
    · have hd : notDot c = true := by simp [notDot, hc]
      rw [List.takeWhile_cons_of_pos hd]
      by_cases hu : notUnder c = true
      · rw [List.filter_cons_of_pos hu, List.takeWhile_cons_of_pos hd, ih, List.filter_cons_of_pos hu]
      · rw [List.filter_cons_of_neg hu, ih, List.filter_cons_of_neg hu]

theorem parseBig_digit {c : Char} (hc : (toDigit c).isSome) (x : List Char) :
    parseBig (c :: x) = (parseNat (c :: x.filter notUnder)).map (fun n => (n : Int)) := by
  have h1 : c ≠ '-' := by rintro rfl; revert hc; decide
  have h2 : c ≠ '+' := by rintro rfl; revert hc; decide
  have h3 : c ≠ '_' := by rintro rfl; revert hc; decide
  unfold parseBig
  split
  · simp_all
  · simp_all
  · unfold parseBigNat
    rw [if_neg (by simpa using h3), List.filter_cons_of_pos (digit_notUnder hc)]

/-- Underscores after the first digit do not matter, unless they are in the exponent. -/
theorem parse_underscores {c : Char} (hc : (toDigit c).isSome) {t e : List Char} (ht : ∀ x ∈ t, notE x = true)
    (he : e = [] ∨ ∃ x r, e = x :: r ∧ notE x = false) :
    parse (c :: (t ++ e)) = parse (c :: (t.filter notUnder ++ e)) := by
  have split : ∀ b : List Char, (∀ x ∈ b, notE x = true) →
      (c :: (b ++ e)).takeWhile notE = c :: b ∧ (c :: (b ++ e)).dropWhile notE = e := by
    intro b hb
    rw [List.takeWhile_cons_of_pos (digit_notE hc), List.dropWhile_cons_of_pos (digit_notE hc),
      List.takeWhile_append_of_pos hb, List.dropWhile_append_of_pos hb]
    rcases he with rfl | ⟨x, r, rfl, hx⟩
    · simp
    · simp [hx]
  obtain ⟨h1, h2⟩ := split t ht
  obtain ⟨h3, h4⟩ := split (t.filter notUnder) (fun x hx => ht x (List.mem_filter.1 hx).1)
  unfold parse
  simp only [h1, h2, h3, h4]
  cases parseExp e with
  | none => rfl
  | some x =>
    simp only [reduceCtorEq, if_false]
    rw [List.dropWhile_cons_of_pos (digit_notDot hc), List.dropWhile_cons_of_pos (digit_notDot hc),
      List.takeWhile_cons_of_pos (digit_notDot hc), List.takeWhile_cons_of_pos (digit_notDot hc),
      filter_dropWhile_dot, filter_takeWhile_dot]
    have hff : ∀ l : List Char, (l.filter notUnder).filter notUnder = l.filter notUnder := by
      intro l
      rw [List.filter_filter]
      simp
    cases hd : t.dropWhile notDot with
    | nil =>
      simp only [List.filter_nil]
      rw [parseBig_digit hc, parseBig_digit hc, hff]
    | cons y trail =>
      have hy : y = '.' := by
        have := List.head?_dropWhile_not notDot t
        rw [hd] at this
        simp only [List.head?_cons, notDot] at this
        simpa using this
      subst hy
      rw [List.filter_cons_of_pos (by decide)]
      simp only
      rw [List.cons_append, List.cons_append, parseBig_digit hc, parseBig_digit hc, List.filter_append,
        List.filter_append, hff, hff]

theorem parse_leading_underscore (t : List Char) : parse ('_' :: t) = none := by
  have key : ∀ x, parseBig ('_' :: x) = none := by
    intro x
    unfold parseBig
    split
    · simp_all
    · simp_all
    · simp [parseBigNat]
  unfold parse
  rw [List.takeWhile_cons_of_pos (by decide), List.dropWhile_cons_of_pos (by decide)]
  cases parseExp (t.dropWhile notE) with
  | none => rfl
  | some x =>
    simp only [reduceCtorEq, if_false]
    rw [List.dropWhile_cons_of_pos (by decide), List.takeWhile_cons_of_pos (by decide)]
    cases (t.takeWhile notE).dropWhile notDot with
    | nil => simp only [key, Option.map_none]
    | cons y r => simp only [List.cons_append, key, Option.map_none]

end Dec
end Verif.Core
