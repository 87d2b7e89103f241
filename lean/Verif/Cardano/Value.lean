import Verif.Cardano.Fingerprint
import Verif.Core.Value
import Verif.Util.AMap

/-!
# Ledger values and outputs

Models `/repo/cardano-utils/src/utxo.rs`. The ledger types come from `cardano-multiplatform-lib`,
which is not part of `/repo`; what is assumed of them is written out here.
-/

namespace Verif.Cardano
open Verif.Core

/-- Conversion errors (`anyhow` messages of utxo.rs). -/
inductive ConvErr where
  | coin | policyHex | policyLength | nameHex | nameLength | quantity | fingerprint | noQuantity
  | address | extra | transactionId
deriving DecidableEq, Repr

/-- What is assumed of the libraries. `hash` is Blake2b with 20 bytes of output. `nameBytes` is
`AssetName::to_bytes`. `lead` and `trail` are the thresholds of the decimal library's text
form. -/
structure Lib where
  hash : Bytes → Bytes
  nameBytes : Bytes → Bytes
  lead : Nat
  trail : Nat

/-- `TransactionAsset`, core/src/tx/transaction_asset.rs:5-13. -/
structure TxAsset where
  policy : List Char
  name : List Char
  fingerprint : List Char
  quantity : Value .regulated

/-- `MultiAsset` of the ledger: policy, name, quantity. -/
abbrev MultiAsset := AMap Bytes (AMap Bytes U64)

/-- `MultiAsset::set_asset`: replaces the quantity of a present asset. -/
def setAsset (m : MultiAsset) (p n : Bytes) (q : U64) : MultiAsset :=
  m.insert p (((m.get p).getD []).insert n q)

/-- A ledger value. -/
structure LedgerValue where
  coin : U64
  multiasset : Option MultiAsset

/-- Quantity of an asset in a ledger value (specification). -/
def LedgerValue.quantity (v : LedgerValue) (p n : Bytes) : Option U64 :=
  match v.multiasset with
  | none => none
  | some m => (m.get p).bind fun a => a.get n

/-- Values that the library's types allow: policies of 28 bytes, names of at most 32, no
policy or name twice. -/
structure LedgerValue.WF (v : LedgerValue) : Prop where
  policies : ∀ m, v.multiasset = some m → m.keys.Nodup
  names : ∀ m, v.multiasset = some m → ∀ p a, (p, a) ∈ m →
    p.length = 28 ∧ a.keys.Nodup ∧ ∀ n ∈ a.keys, n.length ≤ 32

/-- `to_u64` of a decimal: truncation; nothing for negative or too large numbers. -/
def toU64 (d : Dec) : Option U64 :=
  if d.toRat < 0 then none
  else if h : d.toRat.floor.toNat < u64Bound then some ⟨d.toRat.floor.toNat, h⟩ else none

/-- `value_to_csl_coin`, utxo.rs:106-110. -/
def valueToCoin (v : Value .regulated) : Except ConvErr U64 :=
  match toU64 v.value with
  | some c => .ok c
  | none => .error .coin

/-- `csl_coin_to_value`, utxo.rs:181-185. -/
def coinToValue (c : U64) : Value .regulated := Value.ofNat c.val

/-- `BigNum::from_str(&quantity.truncate().to_string())`, utxo.rs:132-139. -/
def quantityToNum (lib : Lib) (q : Value .regulated) : Except ConvErr U64 :=
  match parseU64 ((q.truncate lib.lead lib.trail).display lib.lead lib.trail) with
  | .ok n => if h : n < u64Bound then .ok ⟨n, h⟩ else .error .quantity
  | .error _ => .error .quantity

/-- The decoding of one asset, utxo.rs:121-139. `PolicyID::from_bytes` takes 28 bytes,
`AssetName::new` at most 32. -/
def decodeAsset (lib : Lib) (a : TxAsset) : Except ConvErr (Bytes × Bytes × U64) :=
  match hexDecode a.policy with
  | none => .error .policyHex
  | some p =>
    if p.length ≠ 28 then .error .policyLength
    else
      match hexDecode a.name with
      | none => .error .nameHex
      | some n =>
        if 32 < n.length then .error .nameLength
        else
          match quantityToNum lib a.quantity with
          | .error e => .error e
          | .ok q => .ok (p, n, q)

/-- The loop of `tokens_to_csl_value`, utxo.rs:120-142. -/
def addAssets (lib : Lib) : List TxAsset → MultiAsset → Except ConvErr MultiAsset
  | [], m => .ok m
  | a :: l, m =>
    match decodeAsset lib a with
    | .error e => .error e
    | .ok (p, n, q) => addAssets lib l (setAsset m p n q)

/-- `tokens_to_csl_value`, utxo.rs:112-148. The order of the list is the iteration order of the hash
map. -/
def tokensToValue (lib : Lib) (coin : Value .regulated) (assets : AMap (List Char) TxAsset) :
    Except ConvErr LedgerValue :=
  match valueToCoin coin with
  | .error e => .error e
  | .ok c =>
    if assets.isEmpty then .ok ⟨c, none⟩
    else
      match addAssets lib (assets.map (·.2)) [] with
      | .error e => .error e
      | .ok m => .ok ⟨c, some m⟩

/-- The calls `multiasset_iter` makes, utxo.rs:150-179: every key of every policy with its lookup. -/
def assetEntries (v : LedgerValue) : List (Bytes × Bytes × Option U64) :=
  match v.multiasset with
  | none => []
  | some m =>
    m.keys.flatMap fun p =>
      match m.get p with
      | none => []
      | some a => a.keys.map fun n => (p, n, a.get n)

/-- The closure of `csl_value_to_tokens`, utxo.rs:192-206. -/
def addToken (lib : Lib) (tokens : AMap (List Char) TxAsset) (e : Bytes × Bytes × Option U64) :
    Except ConvErr (AMap (List Char) TxAsset) :=
  let policy := hexEncode e.1
  let name := hexEncode (lib.nameBytes e.2.1)
  match Cardano.fingerprint lib.hash policy name with
  | none => .error .fingerprint
  | some f =>
    match e.2.2 with
    | none => .error .noQuantity
    | some q => .ok (tokens.insert f ⟨policy, name, f, coinToValue q⟩)

/-- The loop over the entries. -/
def addTokens (lib : Lib) : List (Bytes × Bytes × Option U64) → AMap (List Char) TxAsset →
    Except ConvErr (AMap (List Char) TxAsset)
  | [], t => .ok t
  | e :: l, t =>
    match addToken lib t e with
    | .error x => .error x
    | .ok t => addTokens lib l t

/-- `csl_value_to_tokens`, utxo.rs:187-209. -/
def valueToTokens (lib : Lib) (v : LedgerValue) :
    Except ConvErr (Value .regulated × AMap (List Char) TxAsset) :=
  match addTokens lib (assetEntries v) [] with
  | .error e => .error e
  | .ok t => .ok (coinToValue v.coin, t)

/-! ### Outputs and unspent outputs -/

/-- What is assumed of the address and JSON codecs: `to_bech32`/`from_bech32` and
`serde_json` of `CardanoUTxOExtra` (script reference and datum). -/
structure Codecs (A E : Type) where
  showAddress : A → Option (List Char)
  readAddress : List Char → Option A
  showExtra : E → Option (List Char)
  readExtra : List Char → Option E
  /-- No script reference and no datum. -/
  noExtra : E

/-- Reading gives back what was written. -/
structure Codecs.Lawful {A E : Type} (c : Codecs A E) : Prop where
  address : ∀ a t, c.showAddress a = some t → c.readAddress t = some a
  extra : ∀ e t, c.showExtra e = some t → c.readExtra t = some e

/-- A ledger output: address, amount, script reference and datum. -/
structure LedgerOutput (A E : Type) where
  address : A
  amount : LedgerValue
  extra : E

/-- `UTxOBuilder`, core/src/tx/utxo.rs:46-54. -/
structure UtxoBuilder where
  address : List Char
  value : Value .regulated
  assets : List TxAsset
  extra : Option (List Char)

/-- The map built from the assets of a builder or UTxO, utxo.rs:35-38, 216-219: a later
asset with the same fingerprint replaces an earlier one. -/
def assetsMap (l : List TxAsset) : AMap (List Char) TxAsset :=
  l.foldl (fun m a => m.insert a.fingerprint a) []

/-- The common part of `utxo_details_to_cml_input`, utxo.rs:31-52, and
`utxo_builder_to_cml_output`, utxo.rs:211-238. `order` is the iteration order of the hash map. -/
def toOutput {A E : Type} (lib : Lib) (c : Codecs A E)
    (order : AMap (List Char) TxAsset → AMap (List Char) TxAsset) (b : UtxoBuilder) :
    Except ConvErr (LedgerOutput A E) :=
  match c.readAddress b.address with
  | none => .error .address
  | some a =>
    match tokensToValue lib b.value (order (assetsMap b.assets)) with
    | .error e => .error e
    | .ok v =>
      match b.extra with
      | none => .ok ⟨a, v, c.noExtra⟩
      | some t =>
        match c.readExtra t with
        | none => .error .extra
        | some e => .ok ⟨a, v, e⟩

/-- `utxo_builder_from_output`, utxo.rs:240-259. `order` is the iteration order of the hash map. -/
def fromOutput {A E : Type} (lib : Lib) (c : Codecs A E)
    (order : AMap (List Char) TxAsset → AMap (List Char) TxAsset) (o : LedgerOutput A E) :
    Except ConvErr UtxoBuilder :=
  match valueToTokens lib o.amount with
  | .error e => .error e
  | .ok (v, tokens) =>
    match c.showAddress o.address with
    | none => .error .address
    | some a =>
      match c.showExtra o.extra with
      | none => .error .extra
      | some t => .ok ⟨a, v, (order tokens).map (·.2), some t⟩

/-- A UTxO as the selection sees it, core/src/tx/utxo.rs:31-44: the pointer and an output.
The metadata is left out. -/
structure UtxoDetails where
  transactionId : List Char
  index : U64
  output : UtxoBuilder

/-- A ledger input with the output it spends. -/
structure LedgerInput (A E : Type) where
  transactionId : Bytes
  index : U64
  output : LedgerOutput A E

/-- `utxo_details_to_cml_input`, utxo.rs:23-54, up to the witness, which the library adds:
`TransactionHash::from_hex` takes 32 bytes. -/
def toInput {A E : Type} (lib : Lib) (c : Codecs A E)
    (order : AMap (List Char) TxAsset → AMap (List Char) TxAsset) (d : UtxoDetails) :
    Except ConvErr (LedgerInput A E) :=
  match hexDecode d.transactionId with
  | none => .error .transactionId
  | some t =>
    if t.length ≠ 32 then .error .transactionId
    else
      match toOutput lib c order d.output with
      | .error e => .error e
      | .ok o => .ok ⟨t, d.index, o⟩

/-- `utxo_details_from_io`, utxo.rs:77-104. -/
def fromIo {A E : Type} (lib : Lib) (c : Codecs A E)
    (order : AMap (List Char) TxAsset → AMap (List Char) TxAsset) (i : LedgerInput A E) :
    Except ConvErr UtxoDetails :=
  match fromOutput lib c order i.output with
  | .error e => .error e
  | .ok b => .ok ⟨hexEncode i.transactionId, i.index, b⟩

end Verif.Cardano
