import Verif.Selection.LargestFirst
import Verif.Selection.RandomImprove
import Verif.Selection.Thermostat
import Verif.Core.UtxoLemmas

/-!
# A selection algorithm used again and again

Models the use of the traits `InputSelectionAlgorithm` and `UTxOStoreSupport`,
`/repo/utxo-selection/src/algorithm.rs:5-28`: an algorithm keeps the available UTxOs between calls. The UTxOs can be
handed over at any time, and moved from one algorithm to another (`get_available_utxos`, `set_available_utxos`). Each
call may have its own estimator, configuration and map orders.
-/

namespace Verif.Selection

open Verif Verif.Core

/-- What the caller sees of a call: UTxOs handed over, UTxOs chosen, or an error. -/
inductive Event where
  | offered (l : List Utxo)
  | took (l : List Utxo)
  | failed (e : SelErr)

/-- The UTxOs handed over last; the newest call comes first. -/
def offeredLast : List Event → List Utxo
  | [] => []
  | .offered l :: _ => l
  | .took _ :: h => offeredLast h
  | .failed _ :: h => offeredLast h

/-- The UTxOs chosen since then. -/
def takenSince : List Event → List Utxo
  | [] => []
  | .offered _ :: _ => []
  | .took l :: h => takenSince h ++ l
  | .failed _ :: h => takenSince h

/-- UTxOs that name each asset once, do not name the main token as an asset, and hold no negative amount of one. -/
def SoundUtxo (u : Utxo) : Prop := DistinctAssets u ∧ ∀ a ∈ u.assets, 0 ≤ a.quantity

open Thermostat in
/-- A history of calls and the UTxOs available after it, for the algorithms that keep a store. -/
inductive Wallet : List Event → UStore → Prop where
  /-- `UTxOStore::default`: thermostat.rs:52-68, balance_change_fee.rs:9-12. -/
  | new : Wallet [] UStore.new
  /-- `set_available_inputs`, largest_first.rs:53-63 and thermostat.rs:579-590. -/
  | offer {h st st'} (l : List Utxo) : Wallet h st → (∀ u ∈ l, SoundUtxo u) → setAvailable st l = (.ok (), st') →
      Wallet (.offered l :: h) st'
  | refuse {h st st'} (l : List Utxo) (e : SelErr) : Wallet h st → setAvailable st l = (.error e, st') →
      Wallet (.failed e :: h) st'
  /-- `set_available_utxos`, largest_first.rs:38-42 and thermostat.rs:697-701, with a store that was not taken from an
  algorithm; `try_from`, largest_first.rs:14-36. A store taken from an algorithm is the same state of the history. -/
  | store {h st st'} (l : List Utxo) : Wallet h st → (∀ u ∈ l, SoundUtxo u) → StoreOK l st' →
      Wallet (.offered l :: h) st'
  /-- `LargestFirst::select_inputs` answers. -/
  | largest {h st st'} {σ : Type} (E : Estimator σ) (ord : List Utxo → List Utxo) (est est' : σ) (io : Setup)
      (r : Result) : Wallet h st → (∀ l, (ord l).Perm l) → (∀ s u f, E.feeIn s u = .ok f → 0 ≤ f) →
      (∀ f, E.minFee est = .ok f → 0 ≤ f) → 0 ≤ io.outputBalance →
      largestFirst E ord st est io = (.ok (r, est'), st') → Wallet (.took r.chosen :: h) st'
  | largestFails {h st st'} {σ : Type} (E : Estimator σ) (ord : List Utxo → List Utxo) (est : σ) (io : Setup)
      (e : SelErr) : Wallet h st → largestFirst E ord st est io = (.error e, st') → Wallet (.failed e :: h) st'
  /-- `Thermostat::select_inputs` answers. -/
  | thermostat {h st st'} {σ : Type} (E : Estimator σ) (W : World) (est est' : σ) (ins : List Utxo)
      (outs : List Output) (ch : Option Nat) (r : Result) : Wallet h st → (∀ l, (W.ord l).Perm l) →
      (∀ l, (W.keyOrder l).Perm l) → (∀ l, (W.changeOrder l).Perm l) → W.cfg.main = mainToken →
      (∀ x ∈ ins.map (·.assets) ++ outs.map (·.assets), ∀ a ∈ x, a.fingerprint ≠ mainToken) →
      Thermostat.thermostat E W st est (Setup.fromFixed ins outs ch) = (.ok (r, est'), st') →
      Wallet (.took r.chosen :: h) st'
  | thermostatFails {h st st'} {σ : Type} (E : Estimator σ) (W : World) (est : σ) (ins : List Utxo)
      (outs : List Output) (ch : Option Nat) (e : SelErr) : Wallet h st → (∀ l, (W.ord l).Perm l) →
      (∀ l, (W.keyOrder l).Perm l) → (∀ l, (W.changeOrder l).Perm l) → W.cfg.main = mainToken →
      (∀ x ∈ ins.map (·.assets) ++ outs.map (·.assets), ∀ a ∈ x, a.fingerprint ≠ mainToken) →
      Thermostat.thermostat E W st est (Setup.fromFixed ins outs ch) = (.error e, st') →
      Wallet (.failed e :: h) st'

/-- A history of calls of one `RandomImprove`, and its state. -/
inductive RandomWallet : List Event → Random.RI → Prop where
  /-- `try_from`, random_improve.rs:17-40. -/
  | new (l : List Utxo) : RandomWallet [.offered l] (Random.RI.ofList l)
  /-- `set_available_inputs`, random_improve.rs:46-53. -/
  | offer {h s} (l : List Utxo) : RandomWallet h s → RandomWallet (.offered l :: h) (s.setAvailable l)
  /-- `select_inputs`, random_improve.rs:55-177. -/
  | select {h s s'} {σ : Type} (wraps : Bool) (rnd : Nat → Nat) (fmt : Nat → Nat → Token) (ord : List Nat → List Nat)
      (E : Estimator σ) (est est' : σ) (io : Setup) (r : Result) : RandomWallet h s → (∀ l, (ord l).Perm l) →
      s.select wraps rnd fmt ord E est io = (.ok (r, est'), s') → RandomWallet (.took r.chosen :: h) s'
  | fail {h s s'} {σ : Type} (wraps : Bool) (rnd : Nat → Nat) (fmt : Nat → Nat → Token) (ord : List Nat → List Nat)
      (E : Estimator σ) (est : σ) (io : Setup) (e : SelErr) : RandomWallet h s → (∀ l, (ord l).Perm l) →
      s.select wraps rnd fmt ord E est io = (.error e, s') → RandomWallet (.failed e :: h) s'

end Verif.Selection
