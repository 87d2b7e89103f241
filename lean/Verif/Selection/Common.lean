import Verif.Core.Utxo
import Verif.Core.Balance

/-!
# Input selection: shared types

Models `/repo/utxo-selection/src/common.rs`, `estimate.rs` and the two change balancers
`algorithms/balance_change_fee.rs` and `algorithms/balance_change_single_output.rs`.
-/

namespace Verif.Selection

open Verif Verif.Core

/-- `UTxOBuilder`, core/src/tx/utxo.rs (the opaque `extra` text is omitted, it is only carried). -/
structure Output where
  address : Nat
  value : ℚ
  assets : List Asset
deriving DecidableEq

/-- `HashMap<TokenId, TransactionAsset>`; the list order is the iteration order. -/
abbrev AssetMap := AMap Token Asset

/-- Errors. `panic` is any panic of the code; `fuel` never occurs (proved). -/
inductive SelErr where
  | estimator
  | noInput
  | store
  | unbalanced
  | debt
  | noChangeAddress
  | missingAsset
  | other
  | panic
  | fuel
deriving DecidableEq, Repr

/-- `TransactionFeeEstimator`, estimate.rs:7-25, with state `σ`. Every method may fail. -/
structure Estimator (σ : Type) where
  minFee : σ → Except SelErr ℚ
  feeIn : σ → Utxo → Except SelErr ℚ
  addIn : σ → Utxo → Except SelErr σ
  feeOut : σ → Output → Except SelErr ℚ
  addOut : σ → Output → Except SelErr σ
  minValueOut : σ → Output → Except SelErr (ℚ × σ)
  currentSize : σ → Except SelErr Nat
  maxSize : σ → Except SelErr Nat

/-- `TransactionAsset::new`, core/src/tx/transaction_asset.rs:16-28: quantity zero. -/
def newAsset (policy name : Nat) (fp : Token) : Asset :=
  { fingerprint := fp, quantity := 0, policy := policy, name := name }

/-- `entry(asset.fingerprint).or_insert(TransactionAsset::new(..)).quantity += asset.quantity`,
common.rs:44-52 and in the algorithms. -/
def addAsset (m : AssetMap) (a : Asset) : AssetMap :=
  let cur := (m.get a.fingerprint).getD (newAsset a.policy a.name a.fingerprint)
  m.insert a.fingerprint { cur with quantity := cur.quantity + a.quantity }

/-- `InputOutputSetup`, common.rs:6-18. -/
structure Setup where
  inputBalance : ℚ := 0
  inputAssets : AssetMap := []
  outputBalance : ℚ := 0
  outputAssets : AssetMap := []
  fixedInputs : List Utxo := []
  fixedOutputs : List Output := []
  changeAddress : Option Nat := none

/-- `InputSelectionResult`, common.rs:84-98. -/
structure Result where
  inputBalance : ℚ
  inputAssets : AssetMap
  outputBalance : ℚ
  outputAssets : AssetMap
  fixedInputs : List Utxo
  fixedOutputs : List Output
  chosen : List Utxo
  changes : List Output
  fee : ℚ

/-- `from_fixed_inputs_and_outputs`, common.rs:35-81. -/
def Setup.fromFixed (inputs : List Utxo) (outputs : List Output) (change : Option Nat) : Setup where
  inputBalance := inputs.foldl (fun b u => b + u.value) 0
  inputAssets := inputs.foldl (fun m u => u.assets.foldl addAsset m) []
  outputBalance := outputs.foldl (fun b o => b + o.value) 0
  outputAssets := outputs.foldl (fun m o => o.assets.foldl addAsset m) []
  fixedInputs := inputs
  fixedOutputs := outputs
  changeAddress := change

/-- `calculate_main_token_balance`, common.rs:100-110. -/
def mainBalance (input output fee : ℚ) : Balance :=
  ((Balance.zero.addValue input).subValue fee).subValue output

/-- `*map.entry(t).or_default() += / -= ..` on a map of balances, common.rs:118, 121, 158-168. -/
def adjust (f : Balance → Balance) (m : AMap Token Balance) (t : Token) : AMap Token Balance :=
  m.insert t (f ((m.get t).getD .balanced))

/-- `calculate_asset_balance`, common.rs:112-124. -/
def assetBalance (ins outs : AssetMap) : AMap Token Balance :=
  outs.foldl (fun m kv => adjust (·.subValue kv.2.quantity) m kv.1)
    (ins.foldl (fun m kv => adjust (·.addValue kv.2.quantity) m kv.1) [])

/-- `are_assets_balanced`, common.rs:126-137. -/
def assetsBalanced (ins outs : AssetMap) : Bool :=
  (assetBalance ins outs).all (fun kv => kv.2.isBalanced)

/-- `is_balanced`, common.rs:140-148. -/
def Result.isBalanced (r : Result) : Bool :=
  if !(mainBalance r.inputBalance r.outputBalance r.fee).isBalanced then false
  else assetsBalanced r.inputAssets r.outputAssets

/-- The map built by `are_utxos_balanced`, common.rs:157-170. -/
def Result.tokensMap (r : Result) : AMap Token Balance :=
  let m1 := (r.fixedInputs ++ r.chosen).foldl (fun m u =>
    u.assets.foldl (fun m a => adjust (·.addValue a.quantity) m a.fingerprint)
      (adjust (·.addValue u.value) m mainToken)) []
  let m2 := (r.fixedOutputs ++ r.changes).foldl (fun m o =>
    o.assets.foldl (fun m a => adjust (·.subValue a.quantity) m a.fingerprint)
      (adjust (·.subValue o.value) m mainToken)) m1
  adjust (·.subValue r.fee) m2 mainToken

/-- `are_utxos_balanced`, common.rs:152-177. -/
def Result.utxosBalanced (r : Result) : Bool :=
  if !r.isBalanced then false
  else r.tokensMap.all (fun kv => kv.2.isBalanced)

/-- `FeeChangeBalancer::select_inputs`, balance_change_fee.rs:41-86. The balancer's own
available inputs are not used. -/
def feeChange {σ : Type} (E : Estimator σ) (s : σ) (io : Setup) : Except SelErr Result :=
  if !assetsBalanced io.inputAssets io.outputAssets then .error .unbalanced
  else
    match E.minFee s with
    | .error e => .error e
    | .ok fee =>
      let mk := fun fee => ({
        inputBalance := io.inputBalance
        inputAssets := io.inputAssets
        outputBalance := io.outputBalance
        outputAssets := io.outputAssets
        fixedInputs := io.fixedInputs
        fixedOutputs := io.fixedOutputs
        chosen := []
        changes := []
        fee := fee } : Result)
      match mainBalance io.inputBalance io.outputBalance fee with
      | .debt _ => .error .debt
      | .balanced => .ok (mk fee)
      | .excess e => .ok (mk (fee + e))

/-- The loop over the asset balances, balance_change_single_output.rs:65-85. -/
def changeAssets (ins : AssetMap) : List (Token × Balance) → Except SelErr (List Asset)
  | [] => .ok []
  | (t, b) :: rest =>
    match b with
    | .debt _ => .error .debt
    | .balanced => changeAssets ins rest
    | .excess e =>
      match ins.get t with
      | none => .error .missingAsset
      | some a =>
        match changeAssets ins rest with
        | .error e => .error e
        | .ok as => .ok ({ a with quantity := e } :: as)

/-- The construction of the change output, balance_change_single_output.rs:105-141. -/
def finishChange {σ : Type} (E : Estimator σ) (s : σ) (io : Setup) (addr : Nat) (cas : List Asset)
    (fee value : ℚ) : Except SelErr (Result × σ) :=
  let change : Output := { address := addr, value := value, assets := cas }
  match E.feeOut s change with
  | .error e => .error e
  | .ok f =>
    let change : Output := { change with value := change.value - f }
    match E.addOut s change with
    | .error e => .error e
    | .ok s' =>
      .ok ({
        inputBalance := io.inputBalance
        inputAssets := io.inputAssets
        outputBalance := io.outputBalance + change.value
        outputAssets := change.assets.foldl addAsset io.outputAssets
        fixedInputs := io.fixedInputs
        fixedOutputs := io.fixedOutputs
        chosen := []
        changes := [change]
        fee := fee + f }, s')

/-- `SingleOutputChangeBalancer::select_inputs`, balance_change_single_output.rs:48-141. -/
def singleChange {σ : Type} (E : Estimator σ) (s : σ) (io : Setup) : Except SelErr (Result × σ) :=
  match io.changeAddress with
  | none => .error .noChangeAddress
  | some addr =>
    match changeAssets io.inputAssets (assetBalance io.inputAssets io.outputAssets) with
    | .error e => .error e
    | .ok cas =>
      match E.minFee s with
      | .error e => .error e
      | .ok fee =>
        match mainBalance io.inputBalance io.outputBalance fee with
        | .debt _ => .error .debt
        | .balanced => finishChange E s io addr cas fee 0
        | .excess e => finishChange E s io addr cas fee e

end Verif.Selection
