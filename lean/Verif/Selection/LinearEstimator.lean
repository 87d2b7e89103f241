import Verif.Selection.Common

/-!
# The thermostat's fee estimator and the costs of a network

Models `/repo/utxo-selection/src/estimators/thermostat_estimator.rs` and
`/repo/utxo-selection/src/estimators/dummy_estimator.rs`, with the cost functions of
`/repo/cardano-utils/src/network_id.rs`.

Sizes are unbounded numbers (`usize` in the code). The length of the encoded native script, network_id.rs:152-157
and 170-174, and `min_pure_ada`, thermostat_estimator.rs:153-166, belong to the Cardano library and are parameters.
-/

namespace Verif.Selection

open Verif Verif.Core

/-- The values of `NetworkInfo` the costs are computed from, network_id.rs:50-64 and 194-211. -/
structure Network where
  coefficient : Nat
  constant : Nat
  maxTxSize : Nat

/-- `NetworkInfo::Mainnet` and `Testnet`, network_id.rs:46, 196-200. -/
def Network.public : Network := ⟨44, 155381, 16384⟩

/-- `ASSUMED_OVERHEAD`, network_id.rs:14. -/
def overhead : Nat := 50

/-- `ASSUMED_SIZE_EMPTY_TX`, network_id.rs:16. -/
def sizeEmpty : Nat := 17 + overhead

/-- `ASSUMED_SIZE_OF_ONE_INPUT`, network_id.rs:17-22. -/
def sizeOneInput : Nat := 2 + 2 + 32 + 2

/-- `ASSUMED_SIZE_OF_ONE_OUTPUT`, network_id.rs:23-37. -/
def sizeOneOutput : Nat := 5 + 1 + 2 + 57 + 1 + 9 + 2 + 2 + 28 + 1 + 2 + 32 + 9

/-- `ASSUMED_SIZE_OF_ONE_WITNESS`, network_id.rs:38-44. -/
def sizeOneWitness : Nat := 5 + 2 + 1 + 2 + 32 + 2 + 64

/-- `BigNum::checked_mul(..).unwrap()` on `u64`. -/
def mulCoin (a b : Nat) : Except SelErr Nat := if a * b < 2 ^ 64 then .ok (a * b) else .error .panic

/-- `BigNum::checked_add(..).unwrap()` on `u64`. -/
def addCoin (a b : Nat) : Except SelErr Nat := if a + b < 2 ^ 64 then .ok (a + b) else .error .panic

/-- `assumed_empty_transaction`, network_id.rs:92-100. -/
def Network.costEmpty (n : Network) : Except SelErr Nat := do
  let a ← mulCoin n.coefficient sizeEmpty
  addCoin a n.constant

/-- `assumed_cost_one_input`, `assumed_cost_one_output`, `assumed_cost_one_witness`,
`assumed_cost_native_script` and `assumed_cost_metadata_protocol_magic`, network_id.rs:106-130 and 168-192: the
coefficient times a size. -/
def Network.costOf (n : Network) (size : Nat) : Except SelErr Nat := mulCoin n.coefficient size

/-- `estimate_size_overhead`, network_id.rs:147-162. -/
def sizeOverhead (script quorum : Nat) : Nat := overhead + script + quorum * sizeOneWitness

/-- The fields of `ThermostatFeeEstimator` that never change, thermostat_estimator.rs:15-17 and 21-23. -/
structure Costs where
  costEmpty : ℚ
  costInput : ℚ
  costOutput : ℚ
  maxSize : Nat
  sizeOfOneInput : Nat
  sizeOfOneOutput : Nat

/-- The other fields, thermostat_estimator.rs:18, 20, 25-26 and 30. -/
structure LE where
  costMetadata : ℚ := 0
  currentSize : Nat
  outputs : List Output := []
  inputs : List Utxo := []
  assetBalance : AMap Token Balance := []

/-- `ThermostatFeeEstimator::new`, thermostat_estimator.rs:35-90; `script` is the length of the encoded native
script of the plan. -/
def LE.new (n : Network) (script quorum : Nat) : Except SelErr (Costs × LE) := do
  let empty ← n.costEmpty
  let costScript ← n.costOf script
  let witness ← n.costOf sizeOneWitness
  let input ← n.costOf sizeOneInput
  let output ← n.costOf sizeOneOutput
  .ok ({ costEmpty := (empty : ℚ) + (costScript + (witness : ℚ) * quorum)
         costInput := input
         costOutput := output
         maxSize := n.maxTxSize
         sizeOfOneInput := sizeOneInput
         sizeOfOneOutput := sizeOneOutput },
       { currentSize := sizeEmpty + sizeOverhead script quorum })

/-- `add_protocol_magic`, thermostat_estimator.rs:92-102; `len` is the length of the text in bytes. -/
def LE.addProtocolMagic (n : Network) (len : Nat) (s : LE) : Except SelErr LE := do
  let cost ← n.costOf (len + 5)
  .ok { s with currentSize := len + 5, costMetadata := cost }

/-- `impl TransactionFeeEstimator for ThermostatFeeEstimator`, thermostat_estimator.rs:105-178. `minAda` is
`utxo_builder_to_cml_output` followed by `min_pure_ada`. -/
def linearEstimator (c : Costs) (minAda : Output → Except SelErr ℚ) : Estimator LE where
  minFee s := .ok (c.costEmpty + s.costMetadata + c.costOutput * s.outputs.length + c.costInput * s.inputs.length)
  feeIn _ _ := .ok c.costInput
  addIn s u := .ok { s with
    assetBalance := u.assets.foldl (fun m a => adjust (·.addValue a.quantity) m a.fingerprint) s.assetBalance
    currentSize := s.currentSize + c.sizeOfOneInput
    inputs := s.inputs ++ [u] }
  feeOut _ _ := .ok c.costOutput
  addOut s o := .ok { s with
    assetBalance := o.assets.foldl (fun m a => adjust (·.subValue a.quantity) m a.fingerprint) s.assetBalance
    currentSize := s.currentSize + c.sizeOfOneOutput
    outputs := s.outputs ++ [o] }
  minValueOut s o := do
    let v ← minAda o
    .ok (v, s)
  currentSize s := .ok s.currentSize
  maxSize _ := .ok c.maxSize

/-- `DummyFeeEstimate`, dummy_estimator.rs:18-56: nothing costs anything, and `usize::MAX` bytes are allowed. -/
def dummyEstimator : Estimator Unit where
  minFee _ := .ok 0
  feeIn _ _ := .ok 0
  addIn _ _ := .ok ()
  feeOut _ _ := .ok 0
  addOut _ _ := .ok ()
  minValueOut _ _ := .ok (0, ())
  currentSize _ := .ok 0
  maxSize _ := .ok (2 ^ 64 - 1)

end Verif.Selection
