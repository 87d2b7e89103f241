import Verif.Selection.Common

/-!
# Largest-first selection

Models `/repo/utxo-selection/src/algorithms/largest_first.rs`. The order in which a hash map
lists the UTxOs of one bucket is the parameter `ord`.
-/

namespace Verif.Selection

open Verif Verif.Core

/-- `iter_token_ordered_by_value_rev`, core/src/utxo_store.rs:244-251 and 117-122, when the hash
maps of the buckets list their values in the order `ord`. -/
def descending (ord : List Utxo → List Utxo) (st : UStore) (t : Token) : List Utxo :=
  match st.byPolicy.get t with
  | some s => s.ordered.reverse.flatMap (fun b => ord (b.2.map (·.2)))
  | none => []

/-- `select_largest_input_for`, largest_first.rs:215-230. -/
def selectLargest (ord : List Utxo → List Utxo) (st : UStore) (t : Token) :
    Except SelErr (Utxo × UStore) :=
  match (descending ord st t).head? with
  | none => .error .noInput
  | some u =>
    match st.remove u.ptr with
    | .ok st' => .ok (u, st')
    | .error .panic => .error .panic
    | .error _ => .error .store

/-- The mutable variables of `select_inputs`. -/
structure LF (σ : Type) where
  utxos : UStore
  est : σ
  assets : AssetMap
  input : ℚ
  fee : ℚ
  selected : List Utxo

/-- `select_input_and_update_balances`, largest_first.rs:145-181; returns the new value of
`input_token_balance` too. -/
def selectFor {σ : Type} (E : Estimator σ) (ord : List Utxo → List Utxo) (t : Token)
    (tokenBal : ℚ) (s : LF σ) : Except SelErr (LF σ × ℚ) :=
  match selectLargest ord s.utxos t with
  | .error e => .error e
  | .ok (u, st') =>
    let tokenBal' := u.assets.foldl (fun b a =>
      if t ≠ mainToken ∧ a.fingerprint = t then b + a.quantity else b) tokenBal
    match E.feeIn s.est u with
    | .error e => .error e
    | .ok f =>
      match E.addIn s.est u with
      | .error e => .error e
      | .ok est' =>
        .ok ({ utxos := st', est := est', assets := u.assets.foldl addAsset s.assets,
               input := s.input + u.value, fee := s.fee + f, selected := s.selected ++ [u] },
          tokenBal')

/-- `select_input_and_update_balances_for_main`, largest_first.rs:183-213. -/
def selectForMain {σ : Type} (E : Estimator σ) (ord : List Utxo → List Utxo) (s : LF σ) :
    Except SelErr (LF σ) :=
  match selectLargest ord s.utxos mainToken with
  | .error e => .error e
  | .ok (u, st') =>
    match E.feeIn s.est u with
    | .error e => .error e
    | .ok f =>
      match E.addIn s.est u with
      | .error e => .error e
      | .ok est' =>
        .ok { utxos := st', est := est', assets := u.assets.foldl addAsset s.assets,
              input := s.input + u.value, fee := s.fee + f, selected := s.selected ++ [u] }

/-- `while token_input_balance < token_output_balance.quantity`, largest_first.rs:93-105. -/
def tokenLoop {σ : Type} (E : Estimator σ) (ord : List Utxo → List Utxo) (t : Token) (demand : ℚ) :
    Nat → ℚ → LF σ → Except SelErr (LF σ)
  | fuel, tokenBal, s =>
    if tokenBal < demand then
      match fuel with
      | 0 => .error .fuel
      | fuel + 1 =>
        match selectFor E ord t tokenBal s with
        | .error e => .error e
        | .ok (s', b') => tokenLoop E ord t demand fuel b' s'
    else .ok s

/-- `for (token, token_output_balance) in asset_output_balance.iter()`, largest_first.rs:83-106. -/
def tokensLoop {σ : Type} (E : Estimator σ) (ord : List Utxo → List Utxo) (fuel : Nat) :
    List (Token × Asset) → LF σ → Except SelErr (LF σ)
  | [], s => .ok s
  | (t, o) :: rest, s =>
    let cur := (s.assets.get t).getD (newAsset o.policy o.name o.fingerprint)
    match tokenLoop E ord t o.quantity fuel cur.quantity { s with assets := s.assets.insert t cur } with
    | .error e => .error e
    | .ok s' => tokensLoop E ord fuel rest s'

/-- `while calculate_main_token_balance(..).in_debt()`, largest_first.rs:108-118. -/
def mainLoop {σ : Type} (E : Estimator σ) (ord : List Utxo → List Utxo) (output : ℚ) :
    Nat → LF σ → Except SelErr (LF σ)
  | fuel, s =>
    if (mainBalance s.input output s.fee).inDebt then
      match fuel with
      | 0 => .error .fuel
      | fuel + 1 =>
        match selectForMain E ord s with
        | .error e => .error e
        | .ok s' => mainLoop E ord output fuel s'
    else .ok s

/-- `LargestFirst::select_inputs`, largest_first.rs:65-135: the answer, and the available inputs
left in the algorithm. -/
def largestFirst {σ : Type} (E : Estimator σ) (ord : List Utxo → List Utxo) (st : UStore) (est : σ)
    (io : Setup) : Except SelErr (Result × σ) × UStore :=
  match E.minFee est with
  | .error e => (.error e, st)
  | .ok fee =>
    let fuel := st.len + 1
    let s0 : LF σ := { utxos := st, est := est, assets := io.inputAssets, input := io.inputBalance,
                       fee := fee, selected := [] }
    match tokensLoop E ord fuel io.outputAssets s0 with
    | .error e => (.error e, st)
    | .ok s1 =>
      match mainLoop E ord io.outputBalance fuel s1 with
      | .error e => (.error e, st)
      | .ok s2 =>
        (.ok ({ inputBalance := s2.input, inputAssets := s2.assets,
                outputBalance := io.outputBalance, outputAssets := io.outputAssets,
                fixedInputs := io.fixedInputs, fixedOutputs := io.fixedOutputs,
                chosen := s2.selected, changes := [], fee := s2.fee }, s2.est), s2.utxos)

/-- `available_inputs`, largest_first.rs:137-142. -/
def availableInputs (st : UStore) : List Utxo := st.iter.map (·.2)

/-- `set_available_inputs`, largest_first.rs:53-63 (also balance_change_fee.rs and
balance_change_single_output.rs): builds a store; on an error the old one stays. -/
def setAvailable (old : UStore) (inputs : List Utxo) : Except SelErr Unit × UStore :=
  let rec go : List Utxo → UStore → Except SelErr UStore
    | [], st => .ok st
    | u :: us, st =>
      match st.insert u with
      | .ok st' => go us st'
      | .error _ => .error .store
  match go inputs UStore.new with
  | .ok st => (.ok (), st)
  | .error e => (.error e, old)

end Verif.Selection
