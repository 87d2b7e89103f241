import Verif.Cardano.Cbor
import Verif.Cardano.Value

/-!
# Ledger transactions and their size

What `cardano-multiplatform-lib` writes for the transactions of `/repo/cardano-utils/src/network_id.rs`: the
format of the Babbage ledger. The library is not part of `/repo`; the sizes agree with the ones the tests of
network_id.rs:480-600 pin down (see the examples in `Props/NetworkFees.lean`).
-/

namespace Verif.Cardano
open Verif.Core

/-- Native scripts: those a multisig plan is made of, multisig_plan.rs:39-56. -/
inductive NativeScript where
  | pubkey (keyHash : Bytes)
  | nOfK (n : Nat) (scripts : List NativeScript)

mutual
  /-- `NativeScript::to_bytes`. -/
  def NativeScript.encode : NativeScript → Bytes
    | .pubkey h => encArray [encUInt 0, encBytes h]
    | .nOfK n l => encArray [encUInt 3, encUInt n, encArray (NativeScript.encodeAll l)]
  /-- The items of an array of scripts. -/
  def NativeScript.encodeAll : List NativeScript → List Bytes
    | [] => []
    | s :: l => s.encode :: NativeScript.encodeAll l
end

/-- `MultiAsset` and `Value`. -/
def encMultiAsset (m : MultiAsset) : Bytes :=
  encMap (m.map fun pa => (encBytes pa.1, encMap (pa.2.map fun nq => (encBytes nq.1, encUInt nq.2.val))))

def encValue (v : LedgerValue) : Bytes :=
  match v.multiasset with
  | none => encUInt v.coin.val
  | some m => encArray [encUInt v.coin.val, encMultiAsset m]

/-- An output without datum and script. `asMap` tells which of the two formats of the ledger is used. -/
structure TxOut where
  address : Bytes
  amount : LedgerValue
  asMap : Bool := false

def TxOut.encode (o : TxOut) : Bytes :=
  if o.asMap then encMap [(encUInt 0, encBytes o.address), (encUInt 1, encValue o.amount)]
  else encArray [encBytes o.address, encValue o.amount]

/-- A transaction with inputs, outputs, fee, witnesses, native scripts and, possibly, a text as metadata 87 with the
hash of the metadata in the body. -/
structure Tx where
  inputs : List (Bytes × Nat)
  outputs : List TxOut
  fee : Nat
  witnesses : List (Bytes × Bytes) := []
  scripts : List NativeScript := []
  magic : Option (Bytes × Bytes) := none

def encInput (i : Bytes × Nat) : Bytes := encArray [encBytes i.1, encUInt i.2]

def encWitness (w : Bytes × Bytes) : Bytes := encArray [encBytes w.1, encBytes w.2]

/-- `AuxiliaryData::to_bytes` with only a text as metadata 87. -/
def encMagic (text : Bytes) : Bytes := encMap [(encUInt 87, encText text)]

def Tx.encodeBody (t : Tx) : Bytes :=
  encMap ([(encUInt 0, encArray (t.inputs.map encInput)), (encUInt 1, encArray (t.outputs.map TxOut.encode)),
      (encUInt 2, encUInt t.fee)] ++
    match t.magic with
    | none => []
    | some (_, hash) => [(encUInt 7, encBytes hash)])

/-- `TransactionWitnessSet::to_bytes`: kinds of witnesses that are not there have no entry. -/
def encWitnessSet (witnesses : List (Bytes × Bytes)) (scripts : List NativeScript) : Bytes :=
  encMap ((if witnesses = [] then [] else [(encUInt 0, encArray (witnesses.map encWitness))]) ++
    (if scripts.isEmpty then [] else [(encUInt 1, encArray (NativeScript.encodeAll scripts))]))

/-- `Transaction::to_bytes`. -/
def Tx.encode (t : Tx) : Bytes :=
  encArray [t.encodeBody, encWitnessSet t.witnesses t.scripts, encTrue,
    match t.magic with
    | none => encNull
    | some (text, _) => encMagic text]

/-- `min_no_script_fee`: the linear fee of the ledger. -/
def Tx.linearFee (coefficient constant : Nat) (t : Tx) : Nat := coefficient * t.encode.length + constant

end Verif.Cardano
