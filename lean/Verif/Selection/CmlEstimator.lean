import Verif.Selection.LargestFirstLemmas
import Verif.Selection.ThermostatCount
import Verif.Cardano.Tx

/-!
# The estimator that asks the ledger library

`/repo/utxo-selection/src/estimators/cml_fee_estimator.rs`. The transaction builder of
`cardano-multiplatform-lib` is not part of `/repo`; here it is the list of inputs and outputs added to it, with a
function for the fee of what is in it. The library prices a part by the difference it makes:
`fee_for_input` and `fee_for_output` copy the builder, add the part, and subtract the fee before from the fee after,
failing if that is negative.
-/

namespace Verif.Selection

open Verif Verif.Core

/-- What has been added to the builder, first added first. -/
structure Parts where
  ins : List Utxo
  outs : List Output

/-- The external functions: whether a UTxO or output can be converted
(`utxo_details_to_cml_input`, `utxo_builder_to_cml_output`, see C54), `TransactionBuilder::min_fee`, `full_size` and
`min_pure_ada`. A builder for which `min_fee` fails is left out. -/
structure CmlBuilder where
  okIn : Utxo → Bool
  okOut : Output → Bool
  fee : List Utxo → List Output → ℚ
  size : List Utxo → List Output → Nat
  minAda : Output → Except SelErr ℚ

/-- `checked_sub` of the library. -/
def feeDiff (after before : ℚ) : Except SelErr ℚ := if after < before then .error .other else .ok (after - before)

/-- `CmlFeeEstimator`, cml_fee_estimator.rs:43-120. The maximal size is `DEFAULT_TX_SIZE`, line 21. -/
def cmlEstimator (B : CmlBuilder) : Estimator Parts where
  minFee s := .ok (B.fee s.ins s.outs)
  feeIn s u := if B.okIn u then feeDiff (B.fee (s.ins ++ [u]) s.outs) (B.fee s.ins s.outs) else .error .other
  addIn s u := if B.okIn u then .ok { s with ins := s.ins ++ [u] } else .error .other
  feeOut s o := if B.okOut o then feeDiff (B.fee s.ins (s.outs ++ [o])) (B.fee s.ins s.outs) else .error .other
  addOut s o := if B.okOut o then .ok { s with outs := s.outs ++ [o] } else .error .other
  minValueOut s o := if B.okOut o then (B.minAda o).map (·, s) else .error .other
  currentSize s := .ok (B.size s.ins s.outs)
  maxSize _ := .ok 16384

/-- An output that differs at most by a smaller value. -/
structure Below (o o' : Output) : Prop where
  address : o.address = o'.address
  assets : o.assets = o'.assets
  value : o.value ≤ o'.value

theorem Below.refl (o : Output) : Below o o := ⟨rfl, rfl, le_refl _⟩

theorem Below.trans {a b c : Output} (h : Below a b) (k : Below b c) : Below a c :=
  ⟨h.address.trans k.address, h.assets.trans k.assets, le_trans h.value k.value⟩

/-- A builder whose fee does not depend on the order of the outputs and does not rise when the value of an output
shrinks. -/
structure CmlBuilder.Fair (B : CmlBuilder) : Prop where
  perm : ∀ ins outs outs', List.Perm outs outs' → B.fee ins outs = B.fee ins outs'
  mono : ∀ ins rest o o', Below o o' → B.fee ins (o :: rest) ≤ B.fee ins (o' :: rest)
  nonneg : ∀ ins outs, 0 ≤ B.fee ins outs

/-- The outputs `l` are those of `m`, in some order, possibly with smaller values. -/
def BelowAll (l m : List Output) : Prop := ∃ l', l'.Perm l ∧ List.Forall₂ Below l' m

variable {B : CmlBuilder}

theorem CmlBuilder.Fair.forall₂ (hB : B.Fair) (ins : List Utxo) {l m : List Output} (h : List.Forall₂ Below l m) :
    ∀ pre, B.fee ins (pre ++ l) ≤ B.fee ins (pre ++ m) := by
  induction h with
  | nil => intro pre; exact le_refl _
  | @cons a b l m hab _ ih =>
    intro pre
    have h1 : B.fee ins (pre ++ a :: l) ≤ B.fee ins (pre ++ b :: l) := by
      rw [hB.perm ins _ _ (List.perm_middle (a := a)), hB.perm ins _ _ (List.perm_middle (a := b))]
      exact hB.mono _ _ _ _ hab
    have h2 := ih (pre ++ [b])
    simp only [List.append_assoc, List.singleton_append] at h2
    exact le_trans h1 h2

theorem CmlBuilder.Fair.below (hB : B.Fair) (ins : List Utxo) (pre : List Output) {l m : List Output}
    (h : BelowAll l m) : B.fee ins (pre ++ l) ≤ B.fee ins (pre ++ m) := by
  obtain ⟨l', hp, hf⟩ := h
  rw [hB.perm ins _ _ (List.Perm.append_left pre hp.symm)]
  exact hB.forall₂ ins hf pre

theorem feeDiff_ok {a b f : ℚ} (h : feeDiff a b = .ok f) : f = a - b ∧ 0 ≤ f := by
  unfold feeDiff at h
  split at h
  · cases h
  · rename_i hn
    cases h
    exact ⟨rfl, by linarith⟩

theorem cml_feeIn {s : Parts} {u : Utxo} {f : ℚ} (h : (cmlEstimator B).feeIn s u = .ok f) :
    f = B.fee (s.ins ++ [u]) s.outs - B.fee s.ins s.outs ∧ 0 ≤ f := by
  simp only [cmlEstimator] at h
  split at h
  · exact feeDiff_ok h
  · cases h

theorem cml_addIn {s s' : Parts} {u : Utxo} (h : (cmlEstimator B).addIn s u = .ok s') :
    s' = ⟨s.ins ++ [u], s.outs⟩ := by
  simp only [cmlEstimator] at h
  split at h
  · cases h; rfl
  · cases h

theorem cml_feeOut {s : Parts} {o : Output} {f : ℚ} (h : (cmlEstimator B).feeOut s o = .ok f) :
    f = B.fee s.ins (s.outs ++ [o]) - B.fee s.ins s.outs ∧ 0 ≤ f := by
  simp only [cmlEstimator] at h
  split at h
  · exact feeDiff_ok h
  · cases h

theorem cml_addOut {s s' : Parts} {o : Output} (h : (cmlEstimator B).addOut s o = .ok s') :
    s' = ⟨s.ins, s.outs ++ [o]⟩ := by
  simp only [cmlEstimator] at h
  split at h
  · cases h; rfl
  · cases h

theorem cml_minValue {s s' : Parts} {o : Output} {v : ℚ} (h : (cmlEstimator B).minValueOut s o = .ok (v, s')) :
    s' = s := by
  simp only [cmlEstimator] at h
  split at h
  · cases hm : B.minAda o with
    | error e => rw [hm] at h; cases h
    | ok w => rw [hm] at h; cases h; rfl
  · cases h

/-- Inputs added one by one cost the difference they make together. -/
theorem cml_runFee : ∀ (us : List Utxo) {s s' : Parts} {f f' : ℚ},
    runFee (cmlEstimator B) s f us = .ok (f', s') →
    s' = ⟨s.ins ++ us, s.outs⟩ ∧ f' = f + (B.fee (s.ins ++ us) s.outs - B.fee s.ins s.outs)
  | [], s, s', f, f', h => by
    simp only [runFee] at h
    cases h
    simp
  | u :: us, s, s', f, f', h => by
    simp only [runFee] at h
    cases h1 : (cmlEstimator B).feeIn s u with
    | error e => simp [h1] at h
    | ok g =>
      cases h2 : (cmlEstimator B).addIn s u with
      | error e => simp [h1, h2] at h
      | ok s1 =>
        simp only [h1, h2] at h
        obtain ⟨h3, h4⟩ := cml_runFee us h
        have h5 := cml_addIn h2
        have h6 := (cml_feeIn h1).1
        subst h5
        simp only [List.append_assoc, List.singleton_append] at h3 h4 h6
        refine ⟨h3, ?_⟩
        rw [h4, h6]
        ring

end Verif.Selection
