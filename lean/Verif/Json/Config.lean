import Verif.Json.Types
import Verif.Cardano.Multisig
import Verif.Selection.LinearEstimator
import Verif.Selection.Thermostat
import Verif.Sources.Time

/-!
# Configuration documents

Readers derived for `MultisigPlan`, `NetworkInfo`, `ThermostatAlgoConfig`, `Era` and `Rule`, and the functions of
`/repo/cardano-utils/src/network_id.rs` that read the numbers of a network from their texts.
-/

namespace Verif.Json

open Verif.Core

/-- `u32`. -/
def readU32 : Doc → Option Nat
  | .int (.ofNat n) => if n < 2 ^ 32 then some n else none
  | _ => none

/-- `i64`. -/
def readI64 : Doc → Option Int
  | .int n => if -2 ^ 63 ≤ n ∧ n < 2 ^ 63 then some n else none
  | _ => none

/-! ## Multisig plans -/

/-- Field names of `MultisigPlan`, cardano-utils/src/multisig_plan.rs:9-13. -/
def planNames : List Str := [key! "quorum", key! "keys"]

/-- `Hash`, multisig_plan.rs:59-73: the text of a key hash. -/
def readHash : Doc → Option (List UInt8)
  | .str s => Cardano.readKeyHash s
  | _ => none

/-- `MultisigPlan`, multisig_plan.rs:9-13. -/
def readPlan (d : Doc) : Option Cardano.MultisigPlan :=
  match fieldsOf false planNames d with
  | some (_, [q, k]) => do
    let q ← req readU32 q
    let k ← req (readVec readHash) k
    return ⟨q, k⟩
  | _ => none

/-- `MultisigPlan::load`, multisig_plan.rs:16-23, for the bytes of the file. -/
def loadPlan (b : ByteArray) : Option Cardano.MultisigPlan := (fromSlice b).bind readPlan

/-! ## Networks -/

/-- `NetworkInfo::Custom`, cardano-utils/src/network_id.rs:53-63. -/
structure CustomNetwork where
  protocolMagic : Nat
  networkId : UInt8
  linearFeeCoefficient : Str
  linearFeeConstant : Str
  coinsPerUtxoWord : Str
  poolDeposit : Str
  keyDeposit : Str
  maxValueSize : Nat
  maxTxSize : Nat
deriving DecidableEq

/-- `NetworkInfo`, network_id.rs:48-64. -/
inductive NetworkInfo where
  | testnet
  | mainnet
  | custom (c : CustomNetwork)
deriving DecidableEq

/-- Field names of `Custom`, network_id.rs:54-62. -/
def customNames : List Str :=
  [key! "protocol_magic", key! "network_id", key! "linear_fee_coefficient", key! "linear_fee_constant",
    key! "coins_per_utxo_word", key! "pool_deposit", key! "key_deposit", key! "max_value_size",
    key! "max_tx_size"]

/-- The content of `Custom`; unknown fields are refused (network_id.rs:49). -/
def readCustom (d : Doc) : Option CustomNetwork :=
  match fieldsOf true customNames d with
  | some (_, [m, i, a, b, w, p, k, v, x]) => do
    let m ← req readU32 m
    let i ← req readU8 i
    let a ← req readText a
    let b ← req readText b
    let w ← req readText w
    let p ← req readText p
    let k ← req readText k
    let v ← req readU32 v
    let x ← req readU32 x
    return ⟨m, i, a, b, w, p, k, v, x⟩
  | _ => none

/-- `NetworkInfo`: the name of a variant in snake case (network_id.rs:49), or an object with one member named after
the variant. -/
def readNetwork : Doc → Option NetworkInfo
  | .str s => if s = key! "testnet" then some .testnet else if s = key! "mainnet" then some .mainnet else none
  | .obj [(k, d)] =>
    if k = key! "testnet" then (match d with | .null => some .testnet | _ => none)
    else if k = key! "mainnet" then (match d with | .null => some .mainnet | _ => none)
    else if k = key! "custom" then (readCustom d).map .custom
    else none
  | _ => none

/-- `BigNum::from_str(..).unwrap()`. -/
def coinOf (s : Str) : Except Selection.SelErr Nat :=
  match parseU64 s with
  | .ok n => .ok n
  | .error _ => .error .panic

/-- `max_tx_size`, network_id.rs:80-86. -/
def NetworkInfo.maxTxSize : NetworkInfo → Nat
  | .custom c => c.maxTxSize
  | _ => 16384

/-- `linear_fee`, network_id.rs:194-211, and `max_tx_size`. -/
def NetworkInfo.network : NetworkInfo → Except Selection.SelErr Selection.Network
  | .custom c => do
    let a ← coinOf c.linearFeeCoefficient
    let b ← coinOf c.linearFeeConstant
    return ⟨a, b, c.maxTxSize⟩
  | _ => .ok Selection.Network.public

/-- What the transaction builder is given, network_id.rs:213-262. -/
structure BuilderConfig where
  coefficient : Nat
  constant : Nat
  coinsPerWord : Nat
  coinsPerByte : Option Nat
  poolDeposit : Nat
  keyDeposit : Nat
  maxValueSize : Nat
  maxTxSize : Nat
deriving DecidableEq

/-- `transaction_builder`, network_id.rs:213-262. `build` of the library is taken to succeed. -/
def NetworkInfo.builder : NetworkInfo → Except Selection.SelErr BuilderConfig
  | .custom c => do
    let a ← coinOf c.linearFeeCoefficient
    let b ← coinOf c.linearFeeConstant
    let w ← coinOf c.coinsPerUtxoWord
    let p ← coinOf c.poolDeposit
    let k ← coinOf c.keyDeposit
    return ⟨a, b, w, none, p, k, c.maxValueSize, c.maxTxSize⟩
  | _ => .ok ⟨44, 155381, 34482, some 4310, 500000000, 2000000, 5000, 16384⟩

/-! ## Thermostat, eras and rules -/

/-- `ThermostatAlgoConfig`, utxo-selection/src/algorithms/thermostat.rs:13-21. -/
structure ThermostatConfig where
  accumulators : U64
  accumulatorsAssets : U64
  min : Dec
  max : Dec
  main : Str

/-- Field names of `ThermostatAlgoConfig`. -/
def thermostatNames : List Str :=
  [key! "num_accumulators", key! "num_accumulators_assets", key! "native_utxo_thermostat_min",
    key! "native_utxo_thermostat_max", key! "main_token"]

/-- Read form; unknown fields are refused (thermostat.rs:14). -/
def readThermostat (d : Doc) : Option ThermostatConfig :=
  match fieldsOf true thermostatNames d with
  | some (_, [a, b, x, y, t]) => do
    let a ← req readU64 a
    let b ← req readU64 b
    let x ← req readAmount x
    let y ← req readAmount y
    let t ← req readText t
    return ⟨a, b, x, y, t⟩
  | _ => none

/-- The configuration as the selection model takes it; tokens are numbered by `tok`. -/
def ThermostatConfig.config (tok : Str → Token) (c : ThermostatConfig) : Selection.Thermostat.Config :=
  { accumulators := c.accumulators.val, accumulatorsAssets := c.accumulatorsAssets.val, min := c.min.toRat,
    max := c.max.toRat, main := tok c.main }

/-- Field names of `Era`, blockchain-source/src/cardano/time.rs:4-11. -/
def eraNames : List Str :=
  [key! "first_slot", key! "start_epoch", key! "known_time", key! "slot_length", key! "epoch_length_seconds"]

/-- `Era`, time.rs:4-11. -/
def readEra (d : Doc) : Option Sources.Era :=
  match fieldsOf false eraNames d with
  | some (_, [f, s, k, l, e]) => do
    let f ← req readU64 f
    let s ← req readU64 s
    let k ← req readU64 k
    let l ← req readU64 l
    let e ← req readU64 e
    return ⟨f.val, s.val, k.val, l.val, e.val⟩
  | _ => none

/-- `Rule`, core/src/value.rs:71-76. -/
structure RuleDoc where
  asset : Str
  mainchain : Int
  sidechain : Int
deriving DecidableEq

/-- Field names of `Rule`. -/
def precisionNames : List Str :=
  [key! "asset", key! "mainchain_decimal_precision", key! "sidechain_decimal_precision"]

/-- Written form. -/
def writeRuleDoc (r : RuleDoc) : Doc :=
  .obj [(key! "asset", .str r.asset), (key! "mainchain_decimal_precision", .int r.mainchain),
    (key! "sidechain_decimal_precision", .int r.sidechain)]

/-- Read form. -/
def readRuleDoc (d : Doc) : Option RuleDoc :=
  match fieldsOf false precisionNames d with
  | some (_, [a, m, s]) => do
    let a ← req readText a
    let m ← req readI64 m
    let s ← req readI64 s
    return ⟨a, m, s⟩
  | _ => none

end Verif.Json
