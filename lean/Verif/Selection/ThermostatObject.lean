import Verif.Selection.Wallet

/-!
# The thermostat as an object

Models the fields of `Thermostat`, `/repo/utxo-selection/src/algorithms/thermostat.rs:35-67`, that live from one call to
the next: besides the available UTxOs they hold the request, the selected inputs, the balances and the changes of the
last call, complete or not. `Verif.Selection.Thermostat` models one call that starts with empty fields.
-/

namespace Verif.Selection.Thermostat

open Verif Verif.Core

/-- `Thermostat`, thermostat.rs:35-48, without the configuration, which never changes. -/
structure Obj where
  address : Option Nat
  changes : AMap Token Output
  extra : List Output
  outputs : List Output
  selected : List Utxo
  selectedValue : ℚ
  balance : Balance
  assets : AMap Token Balance
  store : UStore

/-- `Thermostat::new`, thermostat.rs:50-67. -/
def Obj.new : Obj := ⟨none, [], [], [], [], 0, .balanced, [], UStore.new⟩

/-- `reset`, thermostat.rs:564-572: `outputs` and the available UTxOs stay. -/
def Obj.reset (o : Obj) : Obj :=
  { o with
    address := none
    changes := []
    extra := []
    selected := []
    selectedValue := 0
    balance := .balanced
    assets := [] }

/-- `set_available_inputs`, thermostat.rs:579-590. -/
def Obj.setInputs (o : Obj) (l : List Utxo) : Except SelErr Unit × Obj :=
  match setAvailable o.store l with
  | (.ok (), st) => (.ok (), { o with store := st }.reset)
  | (.error e, st) => (.error e, { o with store := st })

/-- `set_available_utxos`, thermostat.rs:697-701. -/
def Obj.setUtxos (o : Obj) (st : UStore) : Obj := { o with store := st }.reset

/-- `get_available_utxos`, thermostat.rs:703-705. -/
def Obj.getUtxos (o : Obj) : UStore := o.store

/-- `available_inputs`, thermostat.rs:688-693. -/
def Obj.inputs (o : Obj) : List Utxo := availableInputs o.store

/-- The beginning of `select_inputs`, thermostat.rs:599-616, on the fields the last call left. -/
def Obj.begin (o : Obj) (io : Setup) : Obj :=
  let o := o.reset
  let o := { o with outputs := io.fixedOutputs }
  let o := { o with assets :=
    io.inputAssets.foldl (fun (m : AMap Token Balance) (kv : Token × Asset) =>
      adjust (·.addValue kv.2.quantity) m kv.1) o.assets }
  let o := { o with assets :=
    io.outputAssets.foldl (fun (m : AMap Token Balance) (kv : Token × Asset) =>
      adjust (·.subValue kv.2.quantity) m kv.1) o.assets }
  let o := { o with selectedValue := o.selectedValue + io.inputBalance }
  let o := { o with balance := (o.balance.addValue io.inputBalance).subValue io.outputBalance }
  { o with address := io.changeAddress }

/-- The fields the run of one call works on. -/
def Obj.run {σ : Type} (o : Obj) (est : σ) : TS σ := ⟨est, o.changes, o.extra, o.selected, o.balance, o.assets⟩

/-- The fields after a run. -/
def Obj.after {σ : Type} (o : Obj) (s : TS σ) (v : ℚ) : Obj :=
  { o with
    changes := s.changes
    extra := s.extra
    selected := s.selected
    selectedValue := v
    balance := s.balance
    assets := s.assets }

/-- `select_inputs`, thermostat.rs:592-686. `left` is what a selection that fails half-way leaves in the fields and `v`
the sum `selected_inputs_value`, which is never read: both arbitrary. The available UTxOs are replaced at the end of
`select`, thermostat.rs:560. -/
def Obj.selectInputs {σ : Type} (E : Estimator σ) (W : World) (o : Obj) (est : σ) (io : Setup) (left : TS σ) (v : ℚ) :
    Except SelErr (Result × σ) × Obj :=
  let o := o.begin io
  match select E W ⟨o.address, o.outputs⟩ o.store (o.run est) with
  | .error e => (.error e, o.after left v)
  | .ok (s, st) =>
    let o := { o with store := st }.after s v
    match answer W io s with
    | .error e => (.error e, o)
    | .ok r => (.ok (r, s.est), o)

/-- A call of an object. -/
inductive Call (σ : Type) where
  | offer (l : List Utxo)
  | utxos (st : UStore)
  | pay (E : Estimator σ) (W : World) (est : σ) (io : Setup)

/-- What the caller gets: nothing but success or an error for UTxOs handed over, an answer for a payment. -/
abbrev Reply (σ : Type) := Except SelErr (Option (Result × σ))

/-- One call; `junk` is what a selection that fails leaves behind. -/
def Obj.call {σ : Type} (o : Obj) (junk : TS σ × ℚ) : Call σ → Reply σ × Obj
  | .offer l => ((o.setInputs l).1.map (fun _ => none), (o.setInputs l).2)
  | .utxos st => (.ok none, o.setUtxos st)
  | .pay E W est io =>
    ((o.selectInputs E W est io junk.1 junk.2).1.map some, (o.selectInputs E W est io junk.1 junk.2).2)

/-- Calls in a row: the replies, each with the UTxOs available after it. `junk n` is what is left behind by a failure
with `n` more calls to come. -/
def Obj.calls {σ : Type} (junk : Nat → TS σ × ℚ) : List (Call σ) → Obj → List (Reply σ × List Utxo)
  | [], _ => []
  | c :: cs, o => ((o.call (junk cs.length) c).1, (o.call (junk cs.length) c).2.inputs) ::
      Obj.calls junk cs (o.call (junk cs.length) c).2

end Verif.Selection.Thermostat
