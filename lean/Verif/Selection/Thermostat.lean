import Verif.Selection.LargestFirst
import Verif.Selection.RandomImprove

/-!
# Thermostat selection

Models `/repo/utxo-selection/src/algorithms/thermostat.rs`. The orders in which the hash maps list
their entries are parameters, and so is the division of a decimal number by a machine integer, which
the `bigdecimal` crate rounds to 100 digits.
-/

namespace Verif.Selection.Thermostat

open Verif Verif.Core

/-- `ThermostatAlgoConfig`, thermostat.rs:13-33. -/
structure Config where
  accumulators : Nat := 20
  accumulatorsAssets : Nat := 20
  min : ℚ := 50000000
  max : ℚ := 200000000
  main : Token := mainToken

/-- What the run does not change: the configuration, the orders of the hash maps (the UTxOs of one
amount, `asset_balance.keys()`, `changes.iter_mut()`), the division `value / n` for `n ≠ 0`,
core/src/value.rs:671-687, and the build: a debug build checks `debug_assert` and overflows. -/
structure World where
  cfg : Config
  ord : List Utxo → List Utxo
  keyOrder : List Token → List Token
  changeOrder : List Token → List Token
  div : ℚ → Nat → ℚ
  debug : Bool

/-- The part of the request that does not change: `optional_change_address` and `outputs`,
thermostat.rs:36 and 40. -/
structure Request where
  address : Option Nat
  outputs : List Output

/-- `Thermostat`, thermostat.rs:35-48, without the fields of `Request`, the configuration, the
available UTxOs, and `selected_inputs_value`, which is never read. The estimator's state is kept
here too. -/
structure TS (σ : Type) where
  est : σ
  changes : AMap Token Output := []
  extra : List Output := []
  selected : List Utxo := []
  balance : Balance := .balanced
  assets : AMap Token Balance := []

/-- `Value::truncate`, core/src/value.rs:162-183, as a function on amounts (see `Verif.Core.Value`). -/
def trunc (q : ℚ) : ℚ := if q < 1 then 0 else (q.floor : ℚ)

/-- `value / n`, core/src/value.rs:671-687: a panic when `n` is zero. -/
def divBy (W : World) (q : ℚ) (n : Nat) : Except SelErr ℚ :=
  if n = 0 then .error .panic else .ok (W.div q n)

/-- `.ok_or_else(..)?`. -/
def orErr {α : Type} (x : Option α) : Except SelErr α :=
  match x with
  | some a => .ok a
  | none => .error .other

section

variable {σ : Type} (E : Estimator σ) (W : World) (req : Request)

/-- `remaining_number_inputs_allowed`, thermostat.rs:69-103. -/
def remaining (s : TS σ) : Except SelErr Nat := do
  let o ← orErr req.outputs.head?
  let i ← orErr s.selected.head?
  let fo ← E.feeOut s.est o
  let so ← orErr (Random.toU64 fo)
  let fi ← E.feeIn s.est i
  let si ← orErr (Random.toU64 fi)
  let room ← Random.mulU64 (!W.debug) so s.assets.length
  let room ← Random.mulU64 (!W.debug) room 2
  let mx ← E.maxSize s.est
  let cur ← E.currentSize s.est
  if si = 0 then .error .panic else .ok ((mx - (cur + room)) / si)

/-- `add_input`, thermostat.rs:105-121. -/
def addInput (s : TS σ) (u : Utxo) : TS σ :=
  { s with
    balance := s.balance.addValue u.value
    assets := u.assets.foldl (fun m a => adjust (·.addValue a.quantity) m a.fingerprint) s.assets
    selected := s.selected ++ [u] }

/-- `current_balance`, thermostat.rs:123-130. -/
def currentBalance (s : TS σ) : Except SelErr Balance := do
  let f ← E.minFee s.est
  .ok (s.balance.subValue f)

/-- `current_balance_of`, thermostat.rs:132-143. -/
def currentOf (s : TS σ) (t : Token) : Except SelErr Balance :=
  if W.debug ∧ t = mainToken then .error .panic
  else
    match s.assets.get t with
    | some b => .ok b
    | none => .error .panic

/-- The search of `select_input_for`, thermostat.rs:153-170. -/
def candidate (st : UStore) (t : Token) : Option Utxo :=
  (descending W.ord st t).find?
    (fun u => decide (u.assets.length ≤ 1) && u.assets.all (fun a => decide (a.fingerprint = t)))

/-- `select_input_for`, thermostat.rs:145-183: the state left behind, and the answer. -/
def selectInput (st : UStore) (t : Token) (s : TS σ) : TS σ × Except SelErr UStore :=
  match candidate W st t with
  | none => (s, .error .noInput)
  | some u =>
    match E.addIn s.est u with
    | .error e => (s, .error e)
    | .ok est' =>
      (addInput { s with est := est' } u,
        match st.remove u.ptr with
        | .ok st' => .ok st'
        | .error .panic => .error .panic
        | .error _ => .error .store)

/-- `select_input_for_asset_until_balanced`, thermostat.rs:194-209. -/
def untilAsset (t : Token) : Nat → TS σ → UStore → Except SelErr (TS σ × UStore)
  | fuel, s, st =>
    match currentOf W s t with
    | .error e => .error e
    | .ok (.debt _) =>
      match fuel with
      | 0 => .error .fuel
      | fuel + 1 =>
        match selectInput E W st t s with
        | (s', .ok st') => untilAsset t fuel s' st'
        | (_, .error e) => .error e
    | .ok _ => .ok (s, st)

/-- `select_input_for_main_until_balanced`, thermostat.rs:220-235. -/
def untilMain : Nat → TS σ → UStore → Except SelErr (TS σ × UStore)
  | fuel, s, st =>
    match currentBalance E s with
    | .error e => .error e
    | .ok (.debt _) =>
      match fuel with
      | 0 => .error .fuel
      | fuel + 1 =>
        match selectInput E W st W.cfg.main s with
        | (s', .ok st') => untilMain fuel s' st'
        | (_, .error e) => .error e
    | .ok _ => .ok (s, st)

/-- The entry of the change for an asset, thermostat.rs:255-300; `w` is `wmain_excess`. Returns the state
with the balance and the estimator updated, and the entry, not yet stored. -/
def openChange (t : Token) (address : Nat) (w : ℚ) (s : TS σ) : Except SelErr (TS σ × Output) :=
  match s.changes.get t with
  | some o => .ok ({ s with balance := s.balance.subValue w }, { o with value := o.value + w })
  | none => do
    let change : Output := { address := address, value := w, assets := [] }
    let (need, est) ← E.minValueOut s.est change
    let (balance, change) := if change.value < need
      then (s.balance.subValue (need - change.value),
        { change with value := change.value + (need - change.value) })
      else (s.balance, change)
    let fee ← E.feeOut est change
    let (balance, change) := if change.value < need + fee
      then (balance.subValue w, change)
      else (balance.subValue (w - fee), { change with value := change.value - fee })
    let est ← E.addOut est change
    .ok ({ s with balance := balance, est := est }, change)

/-- The asset of the change, thermostat.rs:305-319. -/
def addToChange (st : UStore) (t : Token) (x : ℚ) (o : Output) : Except SelErr Output :=
  match o.assets with
  | a :: rest => .ok { o with assets := { a with quantity := a.quantity + x } :: rest }
  | [] =>
    match st.getAssetIds t with
    | none => .error .panic
    | some (p, n) =>
      .ok { o with assets := [{ fingerprint := t, quantity := x, policy := p, name := n }] }

/-- The thermostat, thermostat.rs:335-343. -/
def clamp (o : Output) (b : Balance) : Output × Balance :=
  if o.value < W.cfg.min then
    ({ o with value := W.cfg.max }, b.subValue (W.cfg.max - o.value))
  else if W.cfg.max < o.value then
    ({ o with value := W.cfg.max }, b.addValue (o.value - W.cfg.max))
  else (o, b)

/-- The excess of a balance, zero if there is none, thermostat.rs:255-259. -/
def excessOr0 : Balance → ℚ
  | .excess w => w
  | _ => 0

/-- `balance_excess_of_asset`, thermostat.rs:240-347. -/
def balanceExcessOf (st : UStore) (t : Token) (s : TS σ) : Except SelErr (TS σ) :=
  match currentOf W s t with
  | .error e => .error e
  | .ok (.excess x) =>
    match req.address with
    | none => .error .noChangeAddress
    | some addr => do
      let b ← currentBalance E s
      let (s1, o) ← openChange E t addr (excessOr0 b) s
      let o ← addToChange st t x o
      let (o, b) := clamp W o s1.balance
      .ok { s1 with
        assets := adjust (·.subValue x) s1.assets t
        changes := s1.changes.insert t o
        balance := b }
  | .ok _ => .ok s

/-- `balance_excess`, thermostat.rs:352-399. -/
def balanceExcess (s : TS σ) : Except SelErr (TS σ) := do
  let b ← currentBalance E s
  match b with
  | .excess x =>
    match req.address with
    | none => .error .noChangeAddress
    | some addr =>
      match s.changes.get W.cfg.main with
      | some o => .ok { s with
          changes := s.changes.insert W.cfg.main { o with value := o.value + x }
          balance := s.balance.subValue x }
      | none => do
        let change : Output := { address := addr, value := x, assets := [] }
        let (need, est) ← E.minValueOut s.est change
        if change.value < need then .ok { s with est := est }
        else do
          let fee ← E.feeOut est change
          if change.value < need + fee then .ok { s with est := est }
          else do
            let change := { change with value := change.value - fee }
            let est ← E.addOut est change
            .ok { s with
              est := est
              balance := s.balance.subValue (x - fee)
              changes := s.changes.insert W.cfg.main change }
  | _ => .ok s

/-- The branch of an asset in `split_accumulators`, thermostat.rs:413-442. -/
def splitAsset (t : Token) (total : ℚ) (ch : Output) (a : Asset) (rest : List Asset) (s : TS σ) :
    Except SelErr (TS σ) := do
  let pivot ← divBy W (total + a.quantity) W.cfg.accumulatorsAssets
  if pivot < a.quantity then do
    let half := trunc (W.div a.quantity 2)
    let new := { ch with assets := { a with quantity := half } :: rest }
    let ch := { ch with assets := { a with quantity := a.quantity - half } :: rest }
    let fee ← E.feeOut s.est new
    let feeNew := trunc (W.div fee 2)
    let value := trunc (W.div new.value 2)
    if value ≤ feeNew ∨ value ≤ fee then .ok { s with changes := s.changes.insert t ch }
    else do
      let new := { new with value := value - feeNew }
      let ch := { ch with value := ch.value - new.value - fee }
      let est ← E.addOut s.est new
      .ok { s with
        est := est
        changes := s.changes.insert t ch
        balance := s.balance.addValue fee
        extra := s.extra ++ [new] }
  else .ok s

/-- The branch of the main token in `split_accumulators`, thermostat.rs:443-466. -/
def splitMain (t : Token) (total : ℚ) (ch : Output) (s : TS σ) : Except SelErr (TS σ) := do
  let pivot ← divBy W (total + ch.value) W.cfg.accumulators
  let fee ← E.feeOut s.est ch
  let feeNew := trunc (W.div fee 2)
  let value := trunc (W.div ch.value 2)
  if value ≤ feeNew ∨ value ≤ fee then .ok s
  else if pivot < ch.value - fee then do
    let new := { ch with value := value - feeNew }
    let ch := { ch with value := ch.value - new.value - fee }
    let est ← E.addOut s.est new
    .ok { s with
      est := est
      changes := s.changes.insert t ch
      balance := s.balance.addValue fee
      extra := s.extra ++ [new] }
  else .ok s

/-- One iteration of `split_accumulators`, thermostat.rs:409-471. -/
def splitOne (st : UStore) (t : Token) (s : TS σ) : Except SelErr (TS σ) :=
  match s.changes.get t, st.balanceOf t with
  | some ch, some total =>
    match ch.assets with
    | a :: rest => splitAsset E W t total ch a rest s
    | [] => if t = W.cfg.main then splitMain E W t total ch s else .ok s
  | _, _ => .ok s

/-- A loop over tokens that may fail. -/
def forTokens (f : Token → TS σ → Except SelErr (TS σ)) : List Token → TS σ → Except SelErr (TS σ)
  | [], s => .ok s
  | t :: ts, s =>
    match f t s with
    | .error e => .error e
    | .ok s' => forTokens f ts s'

/-- The first loop of `select`, thermostat.rs:485-500. -/
def round1 (fuel : Nat) : List Token → TS σ → UStore → Except SelErr (TS σ × UStore)
  | [], s, st => .ok (s, st)
  | t :: ts, s, st =>
    match untilAsset E W t fuel s st with
    | .error e => .error e
    | .ok (s1, st1) =>
      match balanceExcessOf E W req st1 t s1 with
      | .error e => .error e
      | .ok s2 => round1 fuel ts s2 st1

/-- The loop that adds inputs while there is room, thermostat.rs:525-545. An error of
`select_input_for` is swallowed, a panic is not. -/
def fill (toks : List Token) : Nat → List Bool → Nat → TS σ → UStore → Except SelErr (TS σ × UStore)
  | fuel, empty, ix, s, st =>
    match remaining E W req s with
    | .error e => .error e
    | .ok 0 => .ok (s, st)
    | .ok (_ + 1) =>
      match fuel with
      | 0 => .error .fuel
      | fuel + 1 =>
        match toks[ix]?, empty[ix]? with
        | some t, some flag =>
          let next := (ix + 1) % toks.length
          if flag = false then
            if st.numberUtxosForToken t ≤ W.cfg.accumulators then
              fill toks fuel (empty.set ix true) next s st
            else
              match selectInput E W st t s with
              | (s', .ok st') => fill toks fuel empty next s' st'
              | (_, .error .panic) => .error .panic
              | (s', .error _) => fill toks fuel (empty.set ix true) next s' st
          else if empty.all id then .ok (s, st)
          else fill toks fuel empty next s st
        | _, _ => .error .panic

/-- `select`, thermostat.rs:476-562: the state and what is left of the available UTxOs. -/
def select (st : UStore) (s : TS σ) : Except SelErr (TS σ × UStore) := do
  let fuel := st.len + 1
  let toks := W.keyOrder s.assets.keys
  let (s1, st1) ← round1 E W req fuel toks s st
  let (s2, st2) ← untilMain E W fuel s1 st1
  let toks := if s2.assets.isEmpty || toks.isEmpty then toks ++ [W.cfg.main] else toks
  let (s3, st3) ← fill E W req toks ((st.len + toks.length + 1) * (toks.length + 1))
    (List.replicate toks.length false) 0 s2 st2
  let toks := if s3.assets.isEmpty || (toks.length == 1 && toks.head? == some W.cfg.main)
    then toks.dropLast else toks
  let s4 ← forTokens (balanceExcessOf E W req st3) toks s3
  let s5 ← balanceExcess E W req s4
  let s6 ← forTokens (splitOne E W st3) (W.changeOrder s5.changes.keys) s5
  .ok (s6, st3)

/-- `changes.values().chain(extra_changes)`, thermostat.rs:678-683. -/
def allChanges (s : TS σ) : List Output :=
  (W.changeOrder s.changes.keys).filterMap s.changes.get ++ s.extra

/-- The state `select_inputs` starts from, thermostat.rs:599-616. -/
def initial (est : σ) (io : Setup) : TS σ :=
  { est := est
    assets := assetBalance io.inputAssets io.outputAssets
    balance := (Balance.balanced.addValue io.inputBalance).subValue io.outputBalance }

/-- The answer of `select_inputs`, thermostat.rs:620-685. -/
def answer (io : Setup) (s : TS σ) : Except SelErr Result :=
  let mk := fun fee => ({
    inputBalance := (s.selected ++ io.fixedInputs).foldl (fun b u => b + u.value) 0
    inputAssets := (s.selected ++ io.fixedInputs).foldl (fun m u => u.assets.foldl addAsset m) []
    outputBalance := (allChanges W s ++ io.fixedOutputs).foldl (fun b o => b + o.value) 0
    outputAssets := (allChanges W s ++ io.fixedOutputs).foldl (fun m o => o.assets.foldl addAsset m) []
    fixedInputs := io.fixedInputs
    fixedOutputs := io.fixedOutputs
    chosen := s.selected
    changes := allChanges W s
    fee := fee } : Result)
  match s.balance with
  | .debt _ => .error .unbalanced
  | .balanced => .ok (mk 0)
  | .excess x => .ok (mk x)

end

/-- `select_inputs`, thermostat.rs:592-686: the answer, with the estimator's state, and the UTxOs
available afterwards. -/
def thermostat {σ : Type} (E : Estimator σ) (W : World) (st : UStore) (est : σ) (io : Setup) :
    Except SelErr (Result × σ) × UStore :=
  match select E W ⟨io.changeAddress, io.fixedOutputs⟩ st (initial est io) with
  | .error e => (.error e, st)
  | .ok (s, st') =>
    match answer W io s with
    | .error e => (.error e, st')
    | .ok r => (.ok (r, s.est), st')

end Verif.Selection.Thermostat
