import Verif.Selection.LedgerBuilder
import Verif.Cardano.Multisig
import Verif.Selection.LinearEstimator
import Verif.Selection.Thermostat

/-!
# The tests of the thermostat, run on the model

Each test of `/repo/utxo-selection/src/algorithms/thermostat.rs:708-1530` is run on the model, with what it asserts. These are
tests of the model, not theorems about it: they show that the definitions agree with the code where the project says what it
expects.
-/

namespace Verif.Conformance.Thermostat

open Verif Verif.Core Verif.Selection Verif.Selection.Thermostat Verif.Cardano

/-- The plan of `selection`, thermostat.rs:762-771. -/
def plan : MultisigPlan := ⟨2, [List.replicate 28 0, List.replicate 27 0 ++ [1], List.replicate 27 0 ++ [2]]⟩

/-- `selection` followed by `add_protocol_magic("unittest.cardano-evm.c1")`, thermostat.rs:761-782 and 896. -/
def estimator : Except SelErr (Costs × LE) := do
  let (c, s) ← LE.new Network.public plan.scriptSize plan.quorum
  let s ← s.addProtocolMagic Network.public "unittest.cardano-evm.c1".utf8ByteSize
  .ok (c, s)

/-- `thermostat_config`, thermostat.rs:749-757, and one order of the hash maps. -/
def world (ord : List Utxo → List Utxo) : World := ⟨{}, ord, id, id, fun q n => q / n, true⟩

/-- `utxo_sample` for each entry: pointer, amount, assets. -/
def store (l : List (Nat × ℚ × List (Token × ℚ))) : Except StoreErr UStore :=
  l.foldlM (fun st e => st.insert ⟨e.1, e.2.1, e.2.2.map (fun a => ⟨a.1, a.2, 0, 0⟩), 1⟩) UStore.new

/-- The common part of the tests: one output to a user's address, with the setup written out. The minimum of an output is that
of an address of 29 bytes, below one ada. -/
def run (ord : List Utxo → List Utxo) (l : List (Nat × ℚ × List (Token × ℚ))) (value : ℚ) (assets : List (Token × ℚ)) :
    Option Result :=
  match estimator, store l with
  | .ok (c, s), .ok st =>
    let E := linearEstimator c (fun _ => .ok 900000)
    let output : Output := ⟨9, value, assets.map (fun a => ⟨a.1, a.2, 0, 0⟩)⟩
    match E.addOut s output with
    | .error _ => none
    | .ok s =>
      ((thermostat E (world ord) st s
        { outputBalance := value
          outputAssets := output.assets.map (fun a => (a.fingerprint, a))
          fixedOutputs := [output]
          changeAddress := some 1 }).1.toOption).map (·.1)
  | _, _ => none

/-- `verify_balanced_result`, thermostat.rs:720-748. -/
def verifyBalanced (r : Result) : Bool :=
  decide (r.inputBalance - r.outputBalance - r.fee = 0) &&
    (mainToken :: ((r.fixedInputs ++ r.chosen).flatMap (fun u => u.assets.map (·.fingerprint)) ++
      (r.fixedOutputs ++ r.changes).flatMap (fun o => o.assets.map (·.fingerprint)))).all (fun t =>
        let ins := ((r.fixedInputs ++ r.chosen).map (fun u => (if t = mainToken then u.value else 0) +
          ((u.assets.filter (fun a => a.fingerprint = t)).map (·.quantity)).sum)).sum
        let outs := ((r.fixedOutputs ++ r.changes).map (fun o => (if t = mainToken then o.value else 0) +
          ((o.assets.filter (fun a => a.fingerprint = t)).map (·.quantity)).sum)).sum
        decide (ins - outs - (if t = mainToken then r.fee else 0) = 0))

/-- What the tests look at: the inputs chosen and, of each change, address, amount and assets. -/
def changesOf (r : Result) : List (Nat × ℚ × List (Token × ℚ)) :=
  r.changes.map (fun o => (o.address, o.value, o.assets.map (fun a => (a.fingerprint, a.quantity))))

/-- The fixed output comes back as it was given. -/
def outputsOf (r : Result) : List (Nat × ℚ × List (Token × ℚ)) :=
  r.fixedOutputs.map (fun o => (o.address, o.value, o.assets.map (fun a => (a.fingerprint, a.quantity))))

def check (r : Option Result) (f : Result → Bool) : Bool :=
  match r with
  | none => false
  | some r => verifyBalanced r && f r

/-- `test_thermostat_within_boundary`, thermostat.rs:894-977. -/
def within (ord : List Utxo → List Utxo) : Bool :=
  check (run ord [(10, 200000000, [(7, 9000000000000)]), (20, 9000000000000, [])] 3000000 [(7, 1000000)]) (fun r =>
    r.chosen.map (·.ptr) == [10] && outputsOf r == [(9, 3000000, [(7, 1000000)])] &&
    match changesOf r with
    | [(a, v, as)] => a == 1 && decide (195000000 < v ∧ v < 197000000) && as == [(7, 9000000000000 - 1000000)]
    | _ => false)

/-- `test_min_utxo_untouched`, thermostat.rs:982-1069. -/
def untouched (ord : List Utxo → List Utxo) : Bool :=
  check (run ord ((List.range 20).map (fun i => (i + 2, 9475783636258, [])) ++ [(1, 196797803, [(7, 9530179629629632)])])
    3000000 [(7, 100123456789)]) (fun r =>
    r.chosen.map (·.ptr) == [1] && outputsOf r == [(9, 3000000, [(7, 100123456789)])] &&
    match changesOf r with
    | [(a, v, as)] => a == 1 && decide (193000000 < v ∧ v < 195000000) && as == [(7, 9530179629629632 - 100123456789)]
    | _ => false)

/-- `test_thermostat_min_boundary`, thermostat.rs:1075-1188. -/
def minBoundary (ord : List Utxo → List Utxo) : Bool :=
  check (run ord [(10, 51000000, [(7, 9000000000000)]), (20, 9000000000000, [])] 3000000 [(7, 1000000)]) (fun r =>
    r.chosen.map (fun u => (u.ptr, u.assets.map (·.fingerprint))) == [(10, [7]), (20, [])] &&
    outputsOf r == [(9, 3000000, [(7, 1000000)])] && r.changes.length == 2 &&
    (match (changesOf r).find? (fun c => c.2.2.any (fun a => a.1 == 7)) with
    | some (a, v, as) => a == 1 && decide (v = 200000000) && as == [(7, 9000000000000 - 1000000)]
    | none => false) &&
    match (changesOf r).find? (fun c => c.2.2.isEmpty) with
    | some (a, v, _) => a == 1 && decide (v < 9000000000000 - 152000000 ∧ 9000000000000 - 152000000 - 2000000 < v)
    | none => false)

/-- `test_mindblower_3`, thermostat.rs:1193-1278. -/
def mindblower3 (ord : List Utxo → List Utxo) : Bool :=
  check (run ord ((100, 9100000000000, []) :: (List.range 9).map (fun i => (i, 100000000000, []))) 3000000 []) (fun r =>
    r.chosen.map (·.ptr) == [100] && r.fixedOutputs.length == 1 &&
    let ada := (changesOf r).filter (fun c => c.2.2.isEmpty)
    ada.length == 2 && ada.all (fun c => decide ((9100000 - 3 - 2) / 2 * 1000000 < c.2.1 ∧ c.2.1 < 9100000 / 2 * 1000000)))

/-- `test_mindblower_4`, thermostat.rs:1282-1366: 81 inputs. -/
def mindblower4 (ord : List Utxo → List Utxo) : Bool :=
  check (run ord ((200, 9000000000000, []) :: (List.range 100).map (fun i => (i, 10000000000, []))) 3000000 []) (fun r =>
    r.chosen.length == 81 && r.fixedOutputs.length == 1 &&
    let ada := (changesOf r).filter (fun c => c.2.2.isEmpty)
    ada.length == 2 && ada.all (fun c => decide ((9800000 - 3 - 2) / 2 * 1000000 < c.2.1 ∧ c.2.1 < 9800000 / 2 * 1000000)))

/-- `test_mindblower_5`, thermostat.rs:1371-1450. -/
def mindblower5 (ord : List Utxo → List Utxo) : Bool :=
  check (run ord ((List.range 20).map (fun i => (i, 1000000000000, []))) 2000000000000 []) (fun r =>
    r.chosen.length == 3 && r.fixedOutputs.length == 1 &&
    let ada := (changesOf r).filter (fun c => c.2.2.isEmpty)
    ada.length == 2 && ada.all (fun c => decide (499997 * 1000000 < c.2.1 ∧ c.2.1 < 500000 * 1000000)))

/-- `test_1` and `test_2`, thermostat.rs:1453-1529, with `utxos(1)`, thermostat.rs:862-882. -/
def test1 (ord : List Utxo → List Utxo) : Bool :=
  check (run ord [(0, 2500000, [(7, 1000)]), (1, 500000000, []), (2, 500000000, [(7, 1000000)]), (3, 5000000, [])]
    3000000 [(7, 100)]) (fun r => r.isBalanced)

/-- The tests, for two orders of the UTxOs of one amount. -/
example : within id = true ∧ within List.reverse = true := by decide +kernel
example : untouched id = true ∧ untouched List.reverse = true := by decide +kernel
example : minBoundary id = true ∧ minBoundary List.reverse = true := by decide +kernel
example : mindblower3 id = true ∧ mindblower3 List.reverse = true := by decide +kernel
example : mindblower4 id = true ∧ mindblower4 List.reverse = true := by decide +kernel
example : mindblower5 id = true ∧ mindblower5 List.reverse = true := by decide +kernel
example : test1 id = true ∧ test1 List.reverse = true := by decide +kernel

/-! ## estimators/cml_fee_estimator.rs -/

/-- The builder of `test_compatibility`, cml_fee_estimator.rs:144-183: addresses of 57 bytes, one signature, and the minimum the
ledger asks for an output, 4310 for each byte and 160 more. -/
def view : LedgerView :=
  { coefficient := 44, constant := 155381
    input := fun u => (List.replicate 32 0, u.ptr)
    output := fun o => ⟨List.replicate 57 0, ⟨⟨min o.value.num.toNat (2 ^ 64 - 1), by unfold u64Bound; omega⟩, none⟩, true⟩
    witnesses := fun ins => if ins.isEmpty then [] else [(List.replicate 32 0, List.replicate 64 0)]
    scripts := fun _ => [] }

/-- `test_compatibility`, cml_fee_estimator.rs:173-208. The fixed output is not added to the builder. -/
def compatible (ord : List Utxo → List Utxo) : Option Result :=
  match store [(0, 10000000, [])] with
  | .error _ => none
  | .ok st =>
    ((thermostat (cmlEstimator (view.builder (fun o => .ok (4310 * (160 + (view.output o).encode.length))))) (world ord) st ⟨[], []⟩
      { outputBalance := 1000000, fixedOutputs := [⟨9, 1000000, []⟩], changeAddress := some 1 }).1.toOption).map (·.1)

example : ∀ ord ∈ [id, List.reverse], (match compatible ord with
    | none => false
    | some r => r.isBalanced && decide (r.chosen.map (·.ptr) = [0]) && decide (0 < r.changes.length)) = true := by decide +kernel

end Verif.Conformance.Thermostat
