import Verif.Core.Balance

/-!
# `Balance` of values

Models `/repo/core/src/balance.rs` with the amounts as the program keeps them: `Value`s, with their decimal scales.
`Balance.lean` has the same operations on the numbers they stand for.
-/

namespace Verif.Core

/-- `Balance`, balance.rs:8-12. -/
inductive BalanceV (r : Rep) where
  | debt (v : Value r)
  | balanced
  | excess (v : Value r)

namespace BalanceV

variable {r : Rep}

/-- `zero` and `default`, balance.rs:16-18 and 36-40. -/
def zero : BalanceV r := .balanced
/-- `in_debt`, balance.rs:21-23. -/
def inDebt : BalanceV r → Bool
  | .debt _ => true
  | _ => false
/-- `balanced`, balance.rs:26-28. -/
def isBalanced : BalanceV r → Bool
  | .balanced => true
  | _ => false
/-- `in_excess`, balance.rs:31-33. -/
def inExcess : BalanceV r → Bool
  | .excess _ => true
  | _ => false

/-- `PartialEq`, balance.rs:52-61. -/
def eq : BalanceV r → BalanceV r → Bool
  | .balanced, .balanced => true
  | .excess l, .excess r => l.eq r
  | .debt l, .debt r => l.eq r
  | _, _ => false

/-- `Balance + Balance`, balance.rs:63-85. -/
def add (a b : BalanceV r) : BalanceV r :=
  match a, b with
  | .balanced, b => b
  | a, .balanced => a
  | .excess l, .excess r => .excess (l.add r)
  | .debt l, .debt r => .debt (l.add r)
  | .debt l, .excess r =>
    match l.cmp r with
    | .lt => .excess (r.sub l)
    | .eq => .balanced
    | .gt => .debt (l.sub r)
  | .excess l, .debt r =>
    match l.cmp r with
    | .lt => .debt (r.sub l)
    | .eq => .balanced
    | .gt => .excess (l.sub r)

/-- `Balance + Value`, balance.rs:87-127. -/
def addValue (a : BalanceV r) (v : Value r) : BalanceV r :=
  match a with
  | .debt l =>
    match l.cmp v with
    | .lt => .excess (v.sub l)
    | .eq => .balanced
    | .gt => .debt (l.sub v)
  | .balanced => if v.eq Value.zero then .balanced else .excess v
  | .excess l => .excess (l.add v)

/-- `Balance - Value`, balance.rs:129-169. -/
def subValue (a : BalanceV r) (v : Value r) : BalanceV r :=
  match a with
  | .debt l => .debt (l.add v)
  | .balanced => if v.eq Value.zero then .balanced else .debt v
  | .excess l =>
    match l.cmp v with
    | .lt => .debt (v.sub l)
    | .eq => .balanced
    | .gt => .excess (l.sub v)

/-- `Display`, balance.rs:171-179. -/
def display (lead trail : Nat) : BalanceV r → List Char
  | .balanced => ['0']
  | .debt v => '-' :: v.display lead trail
  | .excess v => '+' :: v.display lead trail

/-- The numbers a balance stands for. -/
def denote : BalanceV r → Balance
  | .debt v => .debt v.toRat
  | .balanced => .balanced
  | .excess v => .excess v.toRat

theorem cmp_toRat (a b : Value r) : a.cmp b = Dec.ratCmp a.toRat b.toRat := Dec.cmp_eq _ _

theorem toRat_sub' (a b : Value r) : (a.sub b).toRat = a.toRat - b.toRat := Dec.toRat_sub _ _
theorem toRat_add' (a b : Value r) : (a.add b).toRat = a.toRat + b.toRat := Dec.toRat_add _ _

theorem eq_zero_iff (v : Value r) : v.eq Value.zero = true ↔ v.toRat = 0 := by
  unfold Value.eq Value.toRat
  rw [Dec.beq_iff]; simp [Value.zero, Dec.toRat_ofInt]

theorem denote_add (a b : BalanceV r) : (a.add b).denote = a.denote.add b.denote := by
  cases a <;> cases b <;> simp only [add, denote, Balance.add, toRat_add']
  all_goals
    rw [cmp_toRat]; unfold Dec.ratCmp
    split_ifs <;> simp_all [toRat_sub']

theorem denote_addValue (a : BalanceV r) (v : Value r) : (a.addValue v).denote = a.denote.addValue v.toRat := by
  cases a <;> simp only [addValue, denote, Balance.addValue, toRat_add']
  · rw [cmp_toRat]; unfold Dec.ratCmp
    split_ifs <;> simp_all [toRat_sub']
  · by_cases h : v.toRat = 0
    · simp [h, (eq_zero_iff v).mpr h]
    · simp [h, mt (eq_zero_iff v).mp h]

theorem denote_subValue (a : BalanceV r) (v : Value r) : (a.subValue v).denote = a.denote.subValue v.toRat := by
  cases a <;> simp only [subValue, denote, Balance.subValue, toRat_add']
  · by_cases h : v.toRat = 0
    · simp [h, (eq_zero_iff v).mpr h]
    · simp [h, mt (eq_zero_iff v).mp h]
  · rw [cmp_toRat]; unfold Dec.ratCmp
    split_ifs <;> simp_all [toRat_sub']

theorem eq_iff (a b : BalanceV r) : a.eq b = true ↔ a.denote = b.denote := by
  cases a <;> cases b <;> simp [eq, denote, Value.eq, Dec.beq_iff, Value.toRat]

end BalanceV

namespace Dec

/-- A text that begins with a digit reads the same with a plus before it. -/
theorem parse_plus {c : Char} {t : List Char} (hc : (toDigit c).isSome) : parse ('+' :: c :: t) = parse (c :: t) := by
  have h1 := digit_notE hc
  have h2 := digit_notDot hc
  have h3 : c ≠ '-' := by rintro rfl; simp [toDigit] at hc
  have h4 : c ≠ '+' := by rintro rfl; simp [toDigit] at hc
  have p1 : notE '+' = true := by decide
  have p2 : notDot '+' = true := by decide
  have key : ∀ s, parseBig ('+' :: c :: s) = parseBig (c :: s) := by
    intro s
    unfold parseBig
    split
    · rename_i h; simp at h
    · rename_i h; simp at h; subst h
      split
      · rename_i h; simp at h; exact absurd h.1 h3
      · rename_i h; simp at h; exact absurd h.1 h4
      · rfl
    · rename_i h h'; exact absurd rfl (h' _)
  unfold parse
  simp only [List.takeWhile_cons, List.dropWhile_cons, p1, p2, h1, h2, if_true]
  split
  · rfl
  · simp only [reduceCtorEq, if_false]
    split <;> simp [key]

/-- The text of a non-negative decimal begins with a digit. -/
theorem display_head (lead trail : Nat) {d : Dec} (h : 0 ≤ d.digits) :
    ∃ c t, display lead trail d = c :: t ∧ (toDigit c).isSome := by
  obtain ⟨ds, hds, -, -⟩ := showNat_mapM d.digits.natAbs
  have hm := mapM_mem hds
  have hlen := showNat_len_pos d.digits.natAbs
  obtain ⟨c, s, hs⟩ : ∃ c s, showNat d.digits.natAbs = c :: s := by
    cases hh : showNat d.digits.natAbs with
    | nil => simp [hh] at hlen
    | cons c s => exact ⟨c, s, rfl⟩
  have hc : (toDigit c).isSome := hm c (by simp [hs])
  unfold display
  simp only [not_lt.mpr h, if_false, List.nil_append, hs]
  split
  · split <;> exact ⟨c, _, rfl, hc⟩
  · split
    · split
      · exact ⟨c, _, rfl, hc⟩
      · exact ⟨'0', _, rfl, by decide⟩
    · rename_i h1
      obtain ⟨n, hn⟩ : ∃ n, (c :: s).length - d.scale.toNat = n + 1 := ⟨(c :: s).length - d.scale.toNat - 1, by omega⟩
      rw [hn]
      exact ⟨c, _, rfl, hc⟩

/-- The text of a positive decimal with a minus before it is that of its negation. -/
theorem display_minus (lead trail : Nat) {d : Dec} (h : 0 < d.digits) :
    '-' :: display lead trail d = display lead trail ⟨-d.digits, d.scale⟩ := by
  have h1 : ¬ d.digits < 0 := by omega
  have h2 : -d.digits < 0 := by omega
  unfold display
  simp only [h1, h2, if_false, if_true, Int.natAbs_neg, List.nil_append]
  split_ifs <;> rfl

theorem toRat_pos_iff (d : Dec) : 0 < d.toRat ↔ 0 < d.digits := by
  unfold toRat
  rw [mul_pos_iff_of_pos_right (pow_pos' _)]
  exact Int.cast_pos

end Dec

namespace BalanceV

variable {r : Rep}

/-- The scale of the amount is small. -/
def SmallScale : BalanceV r → Prop
  | .debt v => v.value.SmallScale
  | .balanced => True
  | .excess v => v.value.SmallScale

theorem small_add {a b : Value r} (ha : a.value.SmallScale) (hb : b.value.SmallScale) :
    (a.add b).value.SmallScale := by
  unfold Value.add Dec.add
  dsimp only
  split_ifs <;> assumption

theorem small_sub {a b : Value r} (ha : a.value.SmallScale) (hb : b.value.SmallScale) :
    (a.sub b).value.SmallScale := by
  unfold Value.sub Dec.sub
  dsimp only
  split_ifs <;> assumption

theorem smallScale_add {a b : BalanceV r} (ha : a.SmallScale) (hb : b.SmallScale) : (a.add b).SmallScale := by
  cases a <;> cases b <;> simp only [add] <;> try assumption
  · exact small_add ha hb
  · split
    · exact small_sub hb ha
    · trivial
    · exact small_sub ha hb
  · split
    · exact small_sub hb ha
    · trivial
    · exact small_sub ha hb
  · exact small_add ha hb

theorem smallScale_addValue {a : BalanceV r} {v : Value r} (ha : a.SmallScale) (hv : v.value.SmallScale) :
    (a.addValue v).SmallScale := by
  cases a <;> simp only [addValue]
  · split
    · exact small_sub hv ha
    · trivial
    · exact small_sub ha hv
  · split
    · trivial
    · exact hv
  · exact small_add ha hv

theorem smallScale_subValue {a : BalanceV r} {v : Value r} (ha : a.SmallScale) (hv : v.value.SmallScale) :
    (a.subValue v).SmallScale := by
  cases a <;> simp only [subValue]
  · exact small_add ha hv
  · split
    · trivial
    · exact hv
  · split
    · exact small_sub hv ha
    · trivial
    · exact small_sub ha hv

/-- The text of a balance reads as its net amount. -/
theorem parse_display (lead trail : Nat) (b : BalanceV r) (hw : b.denote.WF) (hs : b.SmallScale) :
    ∃ d, Dec.parse (b.display lead trail) = some d ∧ d.toRat = b.denote.net := by
  cases b with
  | balanced => exact ⟨⟨0, 0⟩, by simp [display]; decide, by simp [Dec.toRat, denote, Balance.net]⟩
  | debt v =>
    have hp : 0 < v.value.digits := (Dec.toRat_pos_iff _).mp hw
    obtain ⟨d, h1, h2⟩ := Dec.parse_display lead trail ⟨-v.value.digits, v.value.scale⟩ hs
    refine ⟨d, ?_, ?_⟩
    · simp only [display, Value.display]; rw [Dec.display_minus lead trail hp]; exact h1
    · rw [h2]; simp [denote, Balance.net, Dec.toRat, Value.toRat]
  | excess v =>
    have hp : 0 < v.value.digits := (Dec.toRat_pos_iff _).mp hw
    obtain ⟨d, h1, h2⟩ := Dec.parse_display lead trail v.value hs
    obtain ⟨c, t, h3, h4⟩ := Dec.display_head lead trail (le_of_lt hp)
    refine ⟨d, ?_, h2⟩
    simp only [display, Value.display]
    rw [h3, Dec.parse_plus h4, ← h3]; exact h1

end BalanceV

end Verif.Core
