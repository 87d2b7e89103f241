import Verif.Core.Value

/-!
# `Balance`

Models `/repo/core/src/balance.rs`. The amounts are rationals; `Verif.Core.Value`
shows that the operations on `Value` used here (`+`, `-`, `cmp`, `==`) are exactly those of
the rationals it denotes.
-/

namespace Verif.Core

/-- `Balance`, balance.rs:8-12. -/
inductive Balance where
  | debt (v : ℚ)
  | balanced
  | excess (v : ℚ)
deriving DecidableEq

namespace Balance

/-- `zero`, balance.rs:16-18. -/
def zero : Balance := .balanced
/-- `in_debt`, balance.rs:21-23. -/
def inDebt : Balance → Bool
  | .debt _ => true
  | _ => false
/-- `balanced`, balance.rs:26-28. -/
def isBalanced : Balance → Bool
  | .balanced => true
  | _ => false
/-- `in_excess`, balance.rs:31-33. -/
def inExcess : Balance → Bool
  | .excess _ => true
  | _ => false

/-- `Balance + Balance`, balance.rs:63-85. -/
def add (a b : Balance) : Balance :=
  match a, b with
  | .balanced, b => b
  | a, .balanced => a
  | .excess l, .excess r => .excess (l + r)
  | .debt l, .debt r => .debt (l + r)
  | .debt l, .excess r =>
    if l < r then .excess (r - l) else if l = r then .balanced else .debt (l - r)
  | .excess l, .debt r =>
    if l < r then .debt (r - l) else if l = r then .balanced else .excess (l - r)

/-- `Balance + Value`, balance.rs:87-127. -/
def addValue (a : Balance) (r : ℚ) : Balance :=
  match a with
  | .debt l => if l < r then .excess (r - l) else if l = r then .balanced else .debt (l - r)
  | .balanced => if r = 0 then .balanced else .excess r
  | .excess l => .excess (l + r)

/-- `Balance - Value`, balance.rs:129-169. -/
def subValue (a : Balance) (r : ℚ) : Balance :=
  match a with
  | .debt l => .debt (l + r)
  | .balanced => if r = 0 then .balanced else .debt r
  | .excess l => if l < r then .debt (r - l) else if l = r then .balanced else .excess (l - r)

/-- The balance of a net amount: debt below zero, excess above (specification). -/
def ofNet (x : ℚ) : Balance :=
  if x < 0 then .debt (-x) else if x = 0 then .balanced else .excess x

/-- The net amount of a balance. -/
def net : Balance → ℚ
  | .debt v => -v
  | .balanced => 0
  | .excess v => v

/-- The payload of debt and excess is positive. -/
def WF : Balance → Prop
  | .debt v => 0 < v
  | .balanced => True
  | .excess v => 0 < v

theorem ofNet_net {b : Balance} (h : b.WF) : ofNet b.net = b := by
  cases b with
  | debt v => simp [WF] at h; simp [ofNet, net, h]
  | balanced => simp [ofNet, net]
  | excess v => simp [WF] at h; simp [ofNet, net, not_lt.mpr (le_of_lt h), ne_of_gt h]

theorem net_ofNet (x : ℚ) : (ofNet x).net = x := by
  unfold ofNet
  split
  · simp [net]
  · split <;> simp_all [net]

theorem wf_ofNet (x : ℚ) : (ofNet x).WF := by
  unfold ofNet
  split
  · simpa [WF] using by assumption
  · split
    · trivial
    · rename_i h1 h2
      exact lt_of_le_of_ne (not_lt.mp h1) (Ne.symm h2)

theorem addValue_spec {b : Balance} (hb : b.WF) {r : ℚ} (hr : 0 ≤ r) :
    (b.addValue r).WF ∧ (b.addValue r).net = b.net + r := by
  cases b with
  | debt l =>
    simp only [WF] at hb
    simp only [addValue]
    split
    · exact ⟨by simp only [WF]; linarith, by simp only [net]; ring⟩
    · split
      · subst_vars; exact ⟨trivial, by simp [net]⟩
      · rename_i h1 h2
        exact ⟨by simp only [WF]; exact sub_pos.mpr (lt_of_le_of_ne (not_lt.mp h1) (Ne.symm h2)),
          by simp only [net]; ring⟩
  | balanced =>
    simp only [addValue]
    split
    · exact ⟨trivial, by simp_all [net]⟩
    · rename_i h; exact ⟨lt_of_le_of_ne hr (Ne.symm h), by simp [net]⟩
  | excess l => simp only [WF] at hb; exact ⟨by simp only [addValue, WF]; linarith, rfl⟩

theorem subValue_spec {b : Balance} (hb : b.WF) {r : ℚ} (hr : 0 ≤ r) :
    (b.subValue r).WF ∧ (b.subValue r).net = b.net - r := by
  cases b with
  | excess l =>
    simp only [WF] at hb
    simp only [subValue]
    split
    · exact ⟨by simp only [WF]; linarith, by simp only [net]; ring⟩
    · split
      · subst_vars; exact ⟨trivial, by simp [net]⟩
      · rename_i h1 h2
        exact ⟨by simp only [WF]; exact sub_pos.mpr (lt_of_le_of_ne (not_lt.mp h1) (Ne.symm h2)),
          by simp only [net]⟩
  | balanced =>
    simp only [subValue]
    split
    · exact ⟨trivial, by simp_all [net]⟩
    · rename_i h; exact ⟨lt_of_le_of_ne hr (Ne.symm h), by simp [net]⟩
  | debt l =>
    simp only [WF] at hb
    exact ⟨by simp only [subValue, WF]; linarith, by simp only [subValue, net]; ring⟩

theorem add_spec {a b : Balance} (ha : a.WF) (hb : b.WF) :
    (a.add b).WF ∧ (a.add b).net = a.net + b.net := by
  cases a with
  | balanced => simp [add, net, hb]
  | debt l =>
    simp only [WF] at ha
    cases b with
    | balanced => simp [add, net, WF, ha]
    | debt r =>
      simp only [WF] at hb
      simp only [add, net, WF]; constructor <;> linarith
    | excess r =>
      have := addValue_spec (b := .debt l) ha (r := r) (le_of_lt hb)
      exact this
  | excess l =>
    simp only [WF] at ha
    cases b with
    | balanced => simp [add, net, WF, ha]
    | excess r =>
      simp only [WF] at hb
      exact ⟨by simp only [add, WF]; linarith, rfl⟩
    | debt r =>
      have := subValue_spec (b := .excess l) ha (r := r) (le_of_lt hb)
      simp only [net] at this ⊢
      rw [← sub_eq_add_neg]
      exact this

end Balance
end Verif.Core
