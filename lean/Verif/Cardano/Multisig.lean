import Verif.Cardano.Tx

/-!
# Multisig plans

Models `/repo/cardano-utils/src/multisig_plan.rs`. The JSON reader hands over the quorum and the texts of the
keys; reading the file is left out.
-/

namespace Verif.Cardano

/-- `MultisigPlan`, multisig_plan.rs:9-13. -/
structure MultisigPlan where
  quorum : Nat
  keys : List Bytes

/-- `deserialize_key_hash`, multisig_plan.rs:62-73. `Ed25519KeyHash::from_bytes` takes 28 bytes. -/
def readKeyHash (s : List Char) : Option Bytes :=
  match hexDecode s with
  | none => none
  | some b => if b.length = 28 then some b else none

/-- `MultisigPlan::load` after the JSON syntax, multisig_plan.rs:16-23: the quorum is a `u32`. -/
def MultisigPlan.read (quorum : Nat) (keys : List (List Char)) : Option MultisigPlan :=
  if quorum < 2 ^ 32 then
    match keys.mapM readKeyHash with
    | none => none
    | some ks => some ⟨quorum, ks⟩
  else none

/-- `to_script`, multisig_plan.rs:39-56. -/
def MultisigPlan.toScript (p : MultisigPlan) : List NativeScript :=
  [.nOfK p.quorum (p.keys.map .pubkey)]

/-- `hash`, multisig_plan.rs:24-30: Blake2b with 28 bytes of output of the tag of native scripts and the first
script. -/
def MultisigPlan.hash (hash28 : Bytes → Bytes) (p : MultisigPlan) : Bytes :=
  match p.toScript with
  | [] => []
  | s :: _ => hash28 (0 :: s.encode)

/-- `address`, multisig_plan.rs:32-37: an enterprise address paying to a script. The library keeps four bits of
the network. -/
def MultisigPlan.address (hash28 : Bytes → Bytes) (p : MultisigPlan) (network : UInt8) : Bytes :=
  (0x70 ||| (network &&& 0x0f)) :: p.hash hash28

mutual
  /-- The ledger's rule: does a transaction signed by the holders of these keys satisfy the script? -/
  def NativeScript.satisfied (signed : Bytes → Bool) : NativeScript → Bool
    | .pubkey h => signed h
    | .nOfK n l => n ≤ NativeScript.countSatisfied signed l
  /-- How many of the scripts are satisfied. -/
  def NativeScript.countSatisfied (signed : Bytes → Bool) : List NativeScript → Nat
    | [] => 0
    | s :: l => (if s.satisfied signed then 1 else 0) + NativeScript.countSatisfied signed l
end

/-- `assumed_cost_native_script` and `estimate_size_overhead` measure this: the witness set with only the scripts of
the plan, network_id.rs:151-156 and 169-172. -/
def MultisigPlan.scriptSize (p : MultisigPlan) : Nat := (encWitnessSet [] p.toScript).length

end Verif.Cardano
