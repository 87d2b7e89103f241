import Verif.Selection.LargestFirst
import Verif.Selection.RandomImprove
import Verif.Selection.LinearEstimator

/-!
# The tests of the other selection algorithms, run on the model

The tests of `/repo/utxo-selection/src/algorithms/`, for two orders of hash sets and maps. They are tests of the model, not
theorems about it.
-/

namespace Verif.Conformance.Selection

open Verif Verif.Core Verif.Selection

/-- `create_utxo`, test_utils.rs:6-24, inserted in turn: pointer, amount, assets. -/
def store (l : List (Nat × ℚ × List (Token × ℚ))) : Except StoreErr UStore :=
  l.foldlM (fun st e => st.insert ⟨e.1, e.2.1, e.2.2.map (fun a => ⟨a.1, a.2, a.1, a.1⟩), 0⟩) UStore.new

/-- A selection with largest-first and the estimator that charges nothing. -/
def largest (ord : List Utxo → List Utxo) (l : List (Nat × ℚ × List (Token × ℚ))) (io : Setup) : Option Result :=
  match store l with
  | .ok st => (largestFirst dummyEstimator ord st () io).1.toOption.map (·.1)
  | .error _ => none

def orders : List (List Utxo → List Utxo) := [id, List.reverse]

/-- `try_select_dummy_fee`, largest_first.rs:243-299. -/
example : ∀ ord ∈ orders, (largest ord [(0, 10, []), (1, 20, []), (2, 11, [])] { outputBalance := 1 }).map
    (fun r => (r.fee, r.outputBalance, r.inputBalance, r.chosen.map (·.ptr))) = some (0, 1, 20, [1]) := by
  decide +kernel

/-- The UTxOs of `try_select_dummy_fee_assets`, largest_first.rs:303-390: 1 is `kek` and 2 is `lol`. -/
def mixed : List (Nat × ℚ × List (Token × ℚ)) :=
  [(0, 1, [(1, 1)]), (1, 1, [(1, 100)]), (2, 1, [(1, 201)]), (3, 1, [(1, 200), (2, 1)]),
    (10, 1, [(2, 1)]), (11, 1, [(2, 100)]), (12, 1, [(2, 201)]), (13, 1, [(2, 200), (1, 1)]), (21, 20, []), (22, 11, [])]

/-- `try_select_dummy_fee_assets`, largest_first.rs:392-440, for both orders of the hash map of the demands. -/
example : ∀ ord ∈ orders, ∀ m ∈ [[(1, ⟨1, 402, 1, 1⟩), (2, ⟨2, 402, 2, 2⟩)], [(2, ⟨2, 402, 2, 2⟩), (1, ⟨1, 402, 1, 1⟩)]],
    (match largest ord mixed { outputBalance := 24, outputAssets := m } with
    | none => false
    | some r => decide (r.fee = 0 ∧ r.outputBalance ≤ r.inputBalance) &&
        r.inputAssets.any (fun a => a.2.quantity == 402) && r.inputAssets.any (fun a => a.2.quantity == 502)) = true := by
  decide +kernel

/-- `try_select_dummy_fee`, balance_change_fee.rs:107-168: largest-first, then the balancer. -/
example : (match largest id [(0, 10, [])] { outputBalance := 1, fixedOutputs := [⟨9, 1, []⟩] } with
    | none => none
    | some r =>
      if r.fee = 0 ∧ r.outputBalance = 1 ∧ r.inputBalance = 10 ∧ r.chosen.length = 1 then
        (feeChange dummyEstimator () ⟨r.inputBalance, r.inputAssets, r.outputBalance, r.outputAssets, r.chosen,
          r.fixedOutputs, some 5⟩).toOption.map (fun r =>
            (r.fee, r.chosen.length, r.fixedInputs.length, r.fixedOutputs.length, r.changes.length, r.isBalanced))
      else none) = some (9, 0, 1, 1, 0, true) := by
  decide +kernel

/-- The UTxOs of `try_select_dummy_fee`, balance_change_single_output.rs:163-238: assets 1 and 2 are `"0"` and `"1"`. -/
def eight : List (Nat × ℚ × List (Token × ℚ)) :=
  [(0, 10, []), (1, 20, []), (2, 11, []), (3, 1, [(1, 1)]), (4, 1, [(1, 90), (2, 90)]), (5, 1, [(1, 9)]), (6, 1, [(1, 2)]),
    (7, 1, [(1, 3)])]

/-- The selection of that test, balance_change_single_output.rs:240-264. -/
def selected (ord : List Utxo → List Utxo) : Option Result :=
  largest ord eight ⟨0, [], 24, [(1, ⟨1, 100, 1, 1⟩)], [], [⟨9, 24, [⟨1, 100, 1, 1⟩]⟩], none⟩

/-- `try_select_dummy_fee`, balance_change_single_output.rs:266-287. -/
example : ∀ ord ∈ orders, (selected ord).map (fun r => (r.fee, r.outputBalance, r.inputBalance, r.chosen.length)) =
    some (0, 24, 34, 5) := by
  decide +kernel
example : ∀ ord ∈ orders, (selected ord).map (fun r =>
      ((r.inputAssets.get 1).map (·.quantity), (r.outputAssets.get 1).map (·.quantity))) = some (some 102, some 100) := by
  decide +kernel

/-- The balancer after it, balance_change_single_output.rs:289-305. -/
def balanced (ord : List Utxo → List Utxo) : Option Result :=
  match selected ord with
  | none => none
  | some r => (singleChange dummyEstimator () ⟨r.inputBalance, r.inputAssets, r.outputBalance, r.outputAssets, r.chosen,
      r.fixedOutputs, some 5⟩).toOption.map (·.1)

/-- `try_select_dummy_fee`, balance_change_single_output.rs:307-332. -/
example : ∀ ord ∈ orders, (balanced ord).map (fun r =>
      (r.fee, r.chosen.length, r.fixedInputs.length, r.fixedOutputs.length, r.isBalanced)) = some (0, 0, 5, 1, true) := by
  decide +kernel
example : ∀ ord ∈ orders, (balanced ord).map (fun r => r.changes.map (fun c => (c.value, c.assets.find? (fun a => a.fingerprint = 1),
      c.assets.find? (fun a => a.fingerprint = 2)))) = some [(10, some ⟨1, 2, 1, 1⟩, some ⟨2, 90, 2, 2⟩)] := by
  decide +kernel

/-- `try_select_dummy_fee`, random_improve.rs:333-383, for some random numbers. -/
example : ∀ rnd ∈ [0, 1, 2, 3, 4, 5], ((Random.RI.ofList [⟨0, 10, [], 0⟩, ⟨1, 20, [], 0⟩, ⟨2, 11, [], 0⟩]).select true
      (fun k => rnd + k) (fun _ _ => 0) id dummyEstimator () { outputBalance := 1, fixedOutputs := [⟨9, 1, []⟩] }).1.toOption.map
    (fun r => (r.1.fee, decide (r.1.outputBalance ≤ r.1.inputBalance))) = some (0, true) := by
  decide +kernel

end Verif.Conformance.Selection
