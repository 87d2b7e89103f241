import Verif.Json.Text
import Verif.Core.Value

/-!
# JSON forms of the data types

What `#[derive(Serialize, Deserialize)]` makes of the types of `/repo` with the attributes they carry.
The rules of the derive macros (not part of `/repo`) are assumed: a structure is written as an object
with its fields in the order of declaration; it is read from an object with the fields in any order or
from an array with the fields in the order of declaration; a field given twice is an error; a field
that is not known is an error under `deny_unknown_fields` and ignored otherwise; a missing field is an
error unless it has a default or, in an object, is optional.
-/

namespace Verif.Json

open Verif.Core

/-- The name of a member: the list of the characters of a literal. -/
macro "key! " s:str : term => do
  let cs := (s.getString.toList.map fun c => Lean.Syntax.mkCharLit c).toArray
  `(([$cs,*] : List Char))

/-! ## Scalars -/

/-- `String` and the newtypes over text: `Address`, `BlockId`, `TokenId`, `PolicyId`, `AssetName`,
`TransactionId` (core/src/address.rs:10-11, block_id.rs:10-11, token_id.rs:9-11, policy_id.rs:9-11,
asset_name.rs:8-10, tx/transaction_id.rs:10-11). -/
def readText : Doc → Option Str
  | .str s => some s
  | _ => none

/-- `Option<String>`. -/
def readOptText : Doc → Option (Option Str)
  | .null => some none
  | .str s => some (some s)
  | _ => none

/-- Writes `Option<String>`. -/
def writeOptText : Option Str → Doc
  | none => .null
  | some s => .str s

/-- `bool`. -/
def readBool : Doc → Option Bool
  | .bool b => some b
  | _ => none

/-- A number that fits in 64 bits. -/
def mkU64 (n : Nat) : Option U64 := if h : n < u64Bound then some ⟨n, h⟩ else none

/-- `u64` and `usize`. -/
def readU64 : Doc → Option U64
  | .int (.ofNat n) => mkU64 n
  | _ => none

/-- Writes `u64` and the numbers over it. -/
def writeU64 (n : U64) : Doc := .int (.ofNat n.val)

/-- What the visitors of numbers are given. -/
def toNumberInput : Doc → Core.Json
  | .int (.ofNat n) =>
    match mkU64 n with
    | some n => .num n
    | none => .other
  | .str s => .str s
  | _ => .other

/-- `BlockNumber`, `SlotNumber`, `Timestamp`: a number or its text (number_visitor.rs:37-50). -/
def readNumberDoc (d : Doc) : Option U64 :=
  match readNumber (toNumberInput d) with
  | .ok n => mkU64 n
  | .error _ => none

/-- What the visitor of values is given. -/
def toValueInput : Doc → Value.Input
  | .int (.ofNat n) =>
    match mkU64 n with
    | some n => .num n
    | none => .other
  | .str s => .str s
  | _ => .other

/-- `Value<Regulated>`, value.rs:571-582. -/
def readAmount (d : Doc) : Option Dec :=
  (Value.deserialize .regulated (toValueInput d)).map (·.value)

/-- `Value<Regulated>`, value.rs:584-591: a string. `lead` and `trail` are the thresholds of
`BigDecimal`'s printer. -/
def writeAmount (lead trail : Nat) (v : Dec) : Doc := .str (v.display lead trail)

/-- `u8`. -/
def readU8 : Doc → Option UInt8
  | .int n => if 0 ≤ n ∧ n < 256 then some (UInt8.ofNat n.toNat) else none
  | _ => none

/-- `Vec<_>`. -/
def readVec {α : Type} (f : Doc → Option α) : Doc → Option (List α)
  | .arr l => l.mapM f
  | _ => none

/-! ## Structures -/

/-- The documents given for the fields `names`: whether they come from an object, and one entry for each
field. -/
def fieldsOf (deny : Bool) (names : List Str) : Doc → Option (Bool × List (Option Doc))
  | .obj m =>
    if deny ∧ m.any (fun p => !names.contains p.1) then none
    else if names.any (fun k => 1 < (m.filter (fun p => p.1 == k)).length) then none
    else some (true, names.map fun k => (m.find? (fun p => p.1 == k)).map (·.2))
  | .arr l =>
    if names.length < l.length then none
    else some (false, l.map some ++ List.replicate (names.length - l.length) none)
  | _ => none

/-- A field that must be given. -/
def req {α : Type} (f : Doc → Option α) : Option Doc → Option α
  | some d => f d
  | none => none

/-- A field with `#[serde(default)]`. -/
def dflt {α : Type} (a : α) (f : Doc → Option α) : Option Doc → Option α
  | some d => f d
  | none => some a

/-- A field of type `Option<_>` without default. -/
def opt {α : Type} (fromObject : Bool) (f : Doc → Option (Option α)) : Option Doc → Option (Option α)
  | some d => f d
  | none => if fromObject then some none else none

/-- `UtxoPointer`, tx/utxo.rs:12-18. -/
structure Pointer where
  transactionId : Str
  outputIndex : U64
deriving DecidableEq

/-- Field names of `UtxoPointer` (`camelCase`, tx/utxo.rs:14). -/
def pointerNames : List Str := [key! "transactionId", key! "outputIndex"]

/-- Written form. -/
def writePointer (p : Pointer) : Doc :=
  .obj [(key! "transactionId", .str p.transactionId), (key! "outputIndex", writeU64 p.outputIndex)]

/-- Read form; `OutputIndex` is a plain integer (output_index.rs:7-11). -/
def readPointer (d : Doc) : Option Pointer :=
  match fieldsOf true pointerNames d with
  | some (_, [t, o]) => do
    let t ← req readText t
    let o ← req readU64 o
    return ⟨t, o⟩
  | _ => none

/-- `TransactionAsset`, tx/transaction_asset.rs:5-13. -/
structure Asset where
  policyId : Str
  assetName : Str
  fingerprint : Str
  quantity : Dec

/-- Field names of `TransactionAsset` (`camelCase`, tx/transaction_asset.rs:7). -/
def assetNames : List Str := [key! "policyId", key! "assetName", key! "fingerprint", key! "quantity"]

/-- Written form. -/
def writeAsset (lead trail : Nat) (a : Asset) : Doc :=
  .obj [(key! "policyId", .str a.policyId), (key! "assetName", .str a.assetName),
    (key! "fingerprint", .str a.fingerprint), (key! "quantity", writeAmount lead trail a.quantity)]

/-- Read form. -/
def readAsset (d : Doc) : Option Asset :=
  match fieldsOf true assetNames d with
  | some (_, [p, n, f, q]) => do
    let p ← req readText p
    let n ← req readText n
    let f ← req readText f
    let q ← req readAmount q
    return ⟨p, n, f, q⟩
  | _ => none

/-! ## Metadata

`Arc<serde_json::Value>`: any document. Objects are sorted maps, the last of several members with the
same key stays; floating point numbers are rounded to their type and printed canonically (`canon`);
nesting is limited. -/

/-- Insertion into a sorted map. -/
def insertKey (k : Str) (d : Doc) : List (Str × Doc) → List (Str × Doc)
  | [] => [(k, d)]
  | (k', d') :: m =>
    if k' < k then (k', d') :: insertKey k d m
    else if k' = k then (k, d) :: m
    else (k, d) :: (k', d') :: m

/-- The sorted map of the members of a document. -/
def toMap (m : List (Str × Doc)) : List (Str × Doc) :=
  m.foldl (fun acc p => insertKey p.1 p.2 acc) []

mutual
/-- `serde_json::Value::deserialize` where `budget` levels of nesting are left: each array or object
takes one, and none may take the last (`RecursionLimitExceeded`). -/
def readMeta (canon : Str → Option Str) (budget : Nat) : Doc → Option Doc
  | .null => some .null
  | .bool b => some (.bool b)
  | .int n => some (.int n)
  | .float lit => (canon lit).map .float
  | .str s => some (.str s)
  | .arr l => if budget ≤ 1 then none else (readMetas canon (budget - 1) l).map .arr
  | .obj m => if budget ≤ 1 then none else (readMetam canon (budget - 1) m).map fun m => .obj (toMap m)
/-- The elements of an array. -/
def readMetas (canon : Str → Option Str) (budget : Nat) : List Doc → Option (List Doc)
  | [] => some []
  | d :: l =>
    match readMeta canon budget d, readMetas canon budget l with
    | some d, some l => some (d :: l)
    | _, _ => none
/-- The members of an object. -/
def readMetam (canon : Str → Option Str) (budget : Nat) : List (Str × Doc) → Option (List (Str × Doc))
  | [] => some []
  | (k, d) :: m =>
    match readMeta canon budget d, readMetam canon budget m with
    | some d, some m => some ((k, d) :: m)
    | _, _ => none
end

/-- The nesting limit of the reader: `remaining_depth: 128`. -/
def recursionLimit : Nat := 128

/-- `UTxODetails`, tx/utxo.rs:34-46. -/
structure Details where
  pointer : Pointer
  address : Str
  value : Dec
  assets : List Asset
  metadata : Doc
  extra : Option Str

/-- Field names of `UTxODetails`. -/
def detailsNames : List Str :=
  [key! "pointer", key! "address", key! "value", key! "assets", key! "metadata", key! "extra"]

/-- Written form. -/
def writeDetails (lead trail : Nat) (u : Details) : Doc :=
  .obj [(key! "pointer", writePointer u.pointer), (key! "address", .str u.address),
    (key! "value", writeAmount lead trail u.value),
    (key! "assets", .arr (u.assets.map (writeAsset lead trail))),
    (key! "metadata", u.metadata), (key! "extra", writeOptText u.extra)]

/-- Read form, where `budget` levels of nesting are left. Unknown fields are ignored; `assets` and `extra`
have defaults (tx/utxo.rs:40,44), `metadata` has none. -/
def readDetails (canon : Str → Option Str) (budget : Nat) (d : Doc) : Option Details :=
  match fieldsOf false detailsNames d with
  | some (_, [p, a, v, l, m, e]) => do
    let p ← req readPointer p
    let a ← req readText a
    let v ← req readAmount v
    let l ← dflt [] (readVec readAsset) l
    let m ← req (readMeta canon (budget - 1)) m
    let e ← dflt none readOptText e
    return ⟨p, a, v, l, m, e⟩
  | _ => none

/-- `UTxOBuilder`, tx/utxo.rs:48-56. -/
structure Builder where
  address : Str
  value : Dec
  assets : List Asset
  extra : Option Str

/-- Field names of `UTxOBuilder`. -/
def builderNames : List Str := [key! "address", key! "value", key! "assets", key! "extra"]

/-- Written form. -/
def writeBuilder (lead trail : Nat) (u : Builder) : Doc :=
  .obj [(key! "address", .str u.address), (key! "value", writeAmount lead trail u.value),
    (key! "assets", .arr (u.assets.map (writeAsset lead trail))), (key! "extra", writeOptText u.extra)]

/-- Read form; only `extra` has a default (tx/utxo.rs:54). -/
def readBuilder (d : Doc) : Option Builder :=
  match fieldsOf false builderNames d with
  | some (_, [a, v, l, e]) => do
    let a ← req readText a
    let v ← req readAmount v
    let l ← req (readVec readAsset) l
    let e ← dflt none readOptText e
    return ⟨a, v, l, e⟩
  | _ => none

/-- `Transaction`, tx/transaction.rs:8-19. -/
structure Transaction where
  transactionId : Str
  inputs : List Pointer
  outputs : List Details
  metadata : Doc

/-- Field names of `Transaction` (`camelCase`, tx/transaction.rs:10). -/
def transactionNames : List Str :=
  [key! "transactionId", key! "inputs", key! "outputs", key! "metadata"]

/-- Written form. -/
def writeTransaction (lead trail : Nat) (t : Transaction) : Doc :=
  .obj [(key! "transactionId", .str t.transactionId), (key! "inputs", .arr (t.inputs.map writePointer)),
    (key! "outputs", .arr (t.outputs.map (writeDetails lead trail))), (key! "metadata", t.metadata)]

/-- Read form; unknown fields are refused (tx/transaction.rs:9) and `metadata` is null when missing
(tx/transaction.rs:17). -/
def readTransaction (canon : Str → Option Str) (budget : Nat) (d : Doc) : Option Transaction :=
  match fieldsOf true transactionNames d with
  | some (_, [t, i, o, m]) => do
    let t ← req readText t
    let i ← req (readVec readPointer) i
    let o ← req (readVec (readDetails canon (budget - 2))) o
    let m ← dflt .null (readMeta canon (budget - 1)) m
    return ⟨t, i, o, m⟩
  | _ => none

/-! ## Sources -/

/-- `Point`, blockchain-source/src/cardano/point.rs:4-8. -/
inductive Point where
  | origin
  | blockHeader (slotNb : U64) (hash : Str)
deriving DecidableEq

/-- Field names of `Point::BlockHeader`. -/
def headerNames : List Str := [key! "slot_nb", key! "hash"]

/-- Written form: the name of the variant, or an object from the name to the content. -/
def writePoint : Point → Doc
  | .origin => .str (key! "Origin")
  | .blockHeader s h =>
    .obj [(key! "BlockHeader", .obj [(key! "slot_nb", writeU64 s), (key! "hash", .str h)])]

/-- The content of `Point::BlockHeader`. -/
def readHeader (d : Doc) : Option Point :=
  match fieldsOf false headerNames d with
  | some (_, [s, h]) => do
    let s ← req readNumberDoc s
    let h ← req readText h
    return .blockHeader s h
  | _ => none

/-- Read form: a unit variant may be given as an object from its name to null. -/
def readPoint : Doc → Option Point
  | .str s => if s = key! "Origin" then some .origin else none
  | .obj [(k, d)] =>
    if k = key! "Origin" then
      match d with
      | .null => some .origin
      | _ => none
    else if k = key! "BlockHeader" then readHeader d
    else none
  | _ => none

/-- `BlockEvent`, blockchain-source/src/cardano/event.rs:19-28. -/
structure BlockEvent where
  id : Str
  parentId : Str
  blockNumber : U64
  rawBlock : List UInt8
  slotNumber : U64
  isBoundaryBlock : Bool
  epoch : U64
deriving DecidableEq

/-- Field names of `BlockEvent`. -/
def eventNames : List Str :=
  [key! "id", key! "parent_id", key! "block_number", key! "raw_block", key! "slot_number",
    key! "is_boundary_block", key! "epoch"]

/-- Written form. -/
def writeBlockEvent (e : BlockEvent) : Doc :=
  .obj [(key! "id", .str e.id), (key! "parent_id", .str e.parentId),
    (key! "block_number", writeU64 e.blockNumber),
    (key! "raw_block", .arr (e.rawBlock.map fun b => .int b.toNat)),
    (key! "slot_number", writeU64 e.slotNumber), (key! "is_boundary_block", .bool e.isBoundaryBlock),
    (key! "epoch", writeU64 e.epoch)]

/-- Read form. -/
def readBlockEvent (d : Doc) : Option BlockEvent :=
  match fieldsOf false eventNames d with
  | some (_, [i, p, n, r, s, b, e]) => do
    let i ← req readText i
    let p ← req readText p
    let n ← req readNumberDoc n
    let r ← req (readVec readU8) r
    let s ← req readNumberDoc s
    let b ← req readBool b
    let e ← req readU64 e
    return ⟨i, p, n, r, s, b, e⟩
  | _ => none

/-- `CardanoNetworkEvent<BlockEvent, Tip>`, event.rs:6-11. -/
inductive NetworkEvent (Tip : Type) where
  | tip (t : Tip)
  | block (e : BlockEvent)

/-- Written form: the tip variant is skipped (event.rs:8), writing it is an error. -/
def writeEvent {Tip : Type} : NetworkEvent Tip → Option Doc
  | .tip _ => none
  | .block e => some (.obj [(key! "Block", writeBlockEvent e)])

/-- Read form: the tip variant is not known to the reader. -/
def readEvent {Tip : Type} : Doc → Option (NetworkEvent Tip)
  | .obj [(k, d)] => if k = key! "Block" then (readBlockEvent d).map .block else none
  | _ => none

/-! ## Configuration -/

/-- `BestBlockSelectionRule`, multiverse/src/lib.rs:56-97. -/
inductive SelectionRule where
  | longestChain (depth ageGap : U64)
deriving DecidableEq

/-- Field names of `LongestChain`. -/
def ruleNames : List Str := [key! "depth", key! "age_gap"]

/-- Written form: the variant is the member `rule` (multiverse/src/lib.rs:58). -/
def writeRule : SelectionRule → Doc
  | .longestChain d a =>
    .obj [(key! "rule", .str (key! "LongestChain")), (key! "depth", writeU64 d), (key! "age_gap", writeU64 a)]

/-- The content of `LongestChain`. -/
def readLongestChain (d : Doc) : Option SelectionRule :=
  match fieldsOf false ruleNames d with
  | some (_, [d, a]) => do
    let d ← req readU64 d
    let a ← req readU64 a
    return .longestChain d a
  | _ => none

/-- Read form: exactly one member `rule` naming the variant, the others are its content; or an array
with the name first. -/
def readRule : Doc → Option SelectionRule
  | .obj m =>
    match m.filter (fun p => p.1 == key! "rule") with
    | [(_, .str v)] =>
      if v = key! "LongestChain" then readLongestChain (.obj (m.filter fun p => p.1 != key! "rule"))
      else none
    | _ => none
  | .arr (.str v :: l) => if v = key! "LongestChain" then readLongestChain (.arr l) else none
  | _ => none

/-- `IndexedLogMapConfig`, indexed-log-map/src/config.rs:4-13; a path is its text. -/
structure LogMapConfig where
  storagePath : Option Str
  useKeyIndexing : Bool
  readonly : Bool
deriving DecidableEq

/-- Field names of `IndexedLogMapConfig`. -/
def logMapNames : List Str := [key! "storage_path", key! "use_key_indexing", key! "readonly"]

/-- Written form. -/
def writeLogMapConfig (c : LogMapConfig) : Doc :=
  .obj [(key! "storage_path", writeOptText c.storagePath), (key! "use_key_indexing", .bool c.useKeyIndexing),
    (key! "readonly", .bool c.readonly)]

/-- Read form. -/
def readLogMapConfig (d : Doc) : Option LogMapConfig :=
  match fieldsOf true logMapNames d with
  | some (o, [p, k, r]) => do
    let p ← opt o readOptText p
    let k ← dflt false readBool k
    let r ← dflt false readBool r
    return ⟨p, k, r⟩
  | _ => none

/-! ## Bytes -/

/-- `serde_json::to_vec` and `to_string`: UTF-8. -/
def toVec (d : Doc) : ByteArray := (String.ofList (write d)).toByteArray

/-- `serde_json::from_slice`. Text that is not UTF-8 is refused (the library accepts it inside strings
it ignores). -/
def fromSlice (b : ByteArray) : Option Doc :=
  match b.utf8Decode? with
  | some cs => readDoc cs.toList
  | none => none

end Verif.Json
