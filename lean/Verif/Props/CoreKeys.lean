import Verif.Cardano.Keys
import Verif.Props.CoreNumbers

/-!
# Values and outputs as keys (C92)
-/

namespace Verif.Props
open Verif.Core Verif.Cardano

/-- C92: values of equal numbers, whatever their scales, are equal, compare as equal and hand the
same text to the hasher. -/
theorem C92_values {r : Rep} (a b : Value r) (h : a.toRat = b.toRat) :
    a.eq b = true ∧ a.cmp b = .eq ∧ a.hashText = b.hashText :=
  ⟨(valueEq_iff a b).mpr h, (valueCmp_eq a b).mpr h, hashText_eq h⟩

/-- C92: two outputs are equal exactly if the order calls them equal, and exactly if they have the
same address, numbers, assets and extra data, whatever the scales. -/
theorem C92_outputs_equal (a b : UtxoBuilder) :
    (a.eq b = true ↔ a.Same b) ∧ (a.cmp b = .eq ↔ a.Same b) :=
  ⟨builderEq_iff a b, builderCmp_eq a b⟩

/-- C92: the order of outputs is total: comparing the other way round gives the opposite answer,
and it is transitive. -/
theorem C92_outputs_ordered (a b c : UtxoBuilder) :
    (a.cmp b = .lt ↔ b.cmp a = .gt) ∧
    (a.cmp b ≠ .gt → b.cmp c ≠ .gt → a.cmp c ≠ .gt) := by
  constructor
  · have := Std.OrientedCmp.eq_swap (cmp := UtxoBuilder.cmp) (a := a) (b := b)
    rw [this]; cases b.cmp a <;> simp
  · intro h1 h2
    have := Std.TransCmp.isLE_trans (cmp := UtxoBuilder.cmp) (a := a) (b := b) (c := c)
      (by revert h1; cases a.cmp b <;> simp) (by revert h2; cases b.cmp c <;> simp)
    intro h; rw [h] at this; exact absurd this (by decide)

/-- C92: an output compares the same way as any output equal to it. -/
theorem C92_outputs_respect (a b c : UtxoBuilder) (h : a.Same b) :
    a.cmp c = b.cmp c ∧ c.cmp a = c.cmp b := by
  have he := (builderCmp_eq a b).mpr h
  exact ⟨Std.TransCmp.congr_left he, Std.TransCmp.congr_right he⟩

/-- C92: assets follow the same laws. -/
theorem C92_assets (a b c : TxAsset) :
    (a.eq b = true ↔ a.Same b) ∧ (a.cmp b = .eq ↔ a.Same b) ∧
    (a.cmp b = .lt ↔ b.cmp a = .gt) ∧
    (a.cmp b ≠ .gt → b.cmp c ≠ .gt → a.cmp c ≠ .gt) := by
  refine ⟨assetEq_iff a b, assetCmp_eq a b, ?_, ?_⟩
  · have := Std.OrientedCmp.eq_swap (cmp := TxAsset.cmp) (a := a) (b := b)
    rw [this]; cases b.cmp a <;> simp
  · intro h1 h2
    have := Std.TransCmp.isLE_trans (cmp := TxAsset.cmp) (a := a) (b := b) (c := c)
      (by revert h1; cases a.cmp b <;> simp) (by revert h2; cases b.cmp c <;> simp)
    intro h; rw [h] at this; exact absurd this (by decide)

/-- C92: different pointers have different texts, whatever characters the transaction id has. -/
theorem C92_pointers (t u : List Char) (i j : U64) (h : pointerText t i = pointerText u j) :
    t = u ∧ i = j := by
  have := split_last (display_no_at i) (display_no_at j) h
  refine ⟨this.1, ?_⟩
  have h1 := C29_round_trip i
  have h2 := C29_round_trip j
  rw [this.2, h2] at h1
  have hv : i.val = j.val := by injection h1 with h; exact h.symm
  cases i; cases j; simp_all

/-- Non-vacuity: 1.50 and 1.5, 0.0 and 0, 1e2 and 100 are equal numbers of different scales. -/
example : (⟨⟨150, 2⟩⟩ : Value .regulated).hashText = ['1', '5'] ∧
    (⟨⟨15, 1⟩⟩ : Value .regulated).hashText = ['1', '5'] ∧
    (⟨⟨1, -2⟩⟩ : Value .regulated).hashText = ['1', '0', '0'] ∧
    (⟨⟨1000, 1⟩⟩ : Value .regulated).hashText = ['1', '0', '0'] ∧
    (⟨⟨0, 5⟩⟩ : Value .regulated).hashText = ['0'] := by decide +kernel

/-- Non-vacuity: two outputs, written differently, that are the same, and a larger one. -/
example : UtxoBuilder.Same ⟨['a'], ⟨⟨150, 2⟩⟩, [⟨['p'], ['n'], ['f'], ⟨⟨1, -1⟩⟩⟩], none⟩
    ⟨['a'], ⟨⟨15, 1⟩⟩, [⟨['p'], ['n'], ['f'], ⟨⟨10, 0⟩⟩⟩], none⟩ ∧
    UtxoBuilder.cmp ⟨['a'], ⟨⟨150, 2⟩⟩, [], none⟩ ⟨['a'], ⟨⟨2, 0⟩⟩, [], none⟩ = .lt :=
  ⟨(builderEq_iff _ _).mp (by decide +kernel), by decide +kernel⟩

/-- Non-vacuity: pointer texts that look alike. -/
example : pointerText ['a', '@', '1'] ⟨2, by decide⟩ = ['a', '@', '1', '@', '2'] := by decide +kernel

end Verif.Props
