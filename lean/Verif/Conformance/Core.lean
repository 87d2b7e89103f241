import Verif.Core.Utxo
import Verif.Core.BalanceValue

/-!
# The tests of the basic types, run on the model

The tests of `/repo/core/src/`: the UTxO store, amounts, balances and numbers. They are tests of the model, not theorems
about it. Where a test draws random amounts the property it checks is a theorem of `Verif/Props` and is not repeated here.
-/

namespace Verif.Conformance.Core

open Verif Verif.Core

/-! ## utxo_store.rs -/

/-- The two UTxOs of `check_add_spend`, utxo_store.rs:381-446: 1 is `sushi` and 2 is `shib`. -/
def firstTx : Utxo := ⟨0, 10000000, [⟨1, 15, 1, 1⟩, ⟨2, 25, 2, 2⟩], 7⟩

def secondTx : Utxo := ⟨1, 10000000, [⟨1, 15, 1, 1⟩], 7⟩

/-- What `check_add_spend` looks at: the balances of `sushi` and `shib` and the main balance. -/
def seen (st : Except StoreErr UStore) : Option (Option ℚ × Option ℚ × ℚ) :=
  st.toOption.map (fun st => (st.balanceOf 1, st.balanceOf 2, st.balance))

/-- `check_add_spend`, utxo_store.rs:418-427. -/
example : seen (UStore.new.insert firstTx) = some (some 15, some 25, 10000000) := by decide +kernel

/-- `check_add_spend`, utxo_store.rs:447-456. -/
example : seen ((UStore.new.insert firstTx).bind (·.insert secondTx)) = some (some 30, some 25, 20000000) := by decide +kernel

/-- `check_add_spend`, utxo_store.rs:458-472; freezing and thawing keep the store. -/
example : seen (((UStore.new.insert firstTx).bind (·.insert secondTx)).bind (·.remove 0)) = some (some 15, none, 10000000) := by
  decide +kernel

/-- `generate_utxo_set_and_check_order`, utxo_store.rs:483-510: the set filled with amounts of ADA, read in order. -/
def walked (l : List ℚ) : List ℚ :=
  ((l.zipIdx.foldl (fun s e => s.addValue mainToken (e.1 * 1000000) ⟨e.2, e.1 * 1000000, [], 7⟩) ({} : USet)).orderedUtxos).map
    (·.value)

/-- `check_ordered_walk1`, utxo_store.rs:512-521. -/
example : walked [0, 1, 2, 3, 4] = [0, 1000000, 2000000, 3000000, 4000000] := by decide +kernel

example : walked [100, 99, 98, 97, 96] = [96000000, 97000000, 98000000, 99000000, 100000000] := by decide +kernel

/-! ## value.rs -/

/-- `test_parse`, value.rs:792-803: the text is read as the amount. -/
def reads (r : Rep) (s : String) (v : Value r) : Bool :=
  match Value.fromStr r s.toList with
  | .ok w => w.eq v
  | .error _ => false

/-- `parse_lovelace`, value.rs:805-814. -/
example : ∀ e ∈ [("0", 0), ("42", 42), ("1000000", 1000000), ("45000000000000000", 45000000000000000)],
    reads .lovelace e.1 (Value.ofNat e.2) = true := by decide +kernel

/-- `parse_ada`, value.rs:816-821. -/
example : ∀ e ∈ [("0", 0), ("0.000001", 1), ("1", 1000000)], reads .ada e.1 (Value.ofNat e.2 : Value .lovelace).toAda = true := by
  decide +kernel

/-- `parse_regulated_to_normalized`, value.rs:823-836. -/
example : reads .normalized "0.0001" ((Value.ofNat 100 : Value .regulated).normalizeFromMainchain ⟨6, 6⟩) = true := by decide +kernel

/-- The amount read from a text and truncated. The thresholds of the display are those of the library, 5 and 15. -/
def truncated (r : Rep) (s : String) (v : Value r) : Bool :=
  match Value.fromStr r s.toList with
  | .ok w => (w.truncate 5 15).eq v
  | .error _ => false

/-- `truncate`, value.rs:838-865. -/
example : ∀ e ∈ [("0", 0), ("0.1", 0), ("0.9", 0), ("0.01", 0), ("0.09", 0), ("1", 1), ("1.1", 1), ("1.9", 1), ("1.01", 1),
    ("1.09", 1), ("2", 2), ("2.1", 2), ("2.9", 2), ("2.01", 2), ("2.09", 2), ("3.000000", 3)],
    truncated .normalized e.1 (Value.ofNat e.2) = true := by decide +kernel

/-- `truncate`, value.rs:867-874: three ether, as lovelace. -/
example : (match Value.fromStr .wei "3000000000000000000".toList with
    | .ok w => some ((Value.lovelaceFromNormalized w.weiNormalize).truncate 5 15 |>.display 5 15)
    | .error _ => none) = some ((Value.ofNat 3000000 : Value .lovelace).display 5 15) := by decide +kernel

/-- Is the text refused for its decimals? -/
def tooLong (r : Rep) (s : String) : Bool :=
  match Value.fromStr r s.toList with
  | .error (.invalidDecimalPoint ..) => true
  | _ => false

/-- `ada_from_str_too_many_decimals` to `ether_from_str_too_many_decimals`, value.rs:877-896. -/
example : ∀ e ∈ [(Rep.ada, "0.0000001"), (.lovelace, "0.1"), (.wei, "0.1"), (.ether, "0.0000000000000000001")],
    tooLong e.1 e.2 = true := by decide +kernel

/-- `lovelace_to_normalized_manual`, value.rs:898-904. -/
example : ((Value.ofNat 1 : Value .lovelace).lovelaceNormalize.display 5 15) = "0.000001".toList := by decide +kernel

/-- `wei_to_normalized_manual`, value.rs:906-912. -/
example : ((⟨⟨1, -12⟩⟩ : Value .wei).weiNormalize.display 5 15) = "0.000001".toList := by decide +kernel

/-- The macro `value`, value.rs:958-962. -/
def value (n : Nat) : Value .lovelace := Value.ofNat n

/-- A sum or difference of amounts, from left to right. -/
def chain (n : Nat) (l : List (Bool × Nat)) : Value .lovelace :=
  l.foldl (fun a e => if e.1 then a.add (value e.2) else a.sub (value e.2)) (value n)

/-- `math`, value.rs:964-971, `add`, value.rs:973-986, and `sub`, value.rs:1003-1015. -/
example : ∀ e ∈ [(1, [(true, 1), (false, 1)], 1), (10, [(false, 1), (false, 2), (true, 1), (false, 1)], 7),
    (0, [(true, 1)], 1), (1, [(true, 1)], 2), (40, [(true, 2)], 42), (1, [(true, 1), (true, 1), (true, 1), (true, 1)], 5),
    (1, [(false, 1)], 0), (44, [(false, 2)], 42), (10, [(false, 1), (false, 2), (false, 1)], 6),
    (10, [(false, 1), (false, 1), (false, 1), (false, 1), (false, 1)], 5)],
    (chain e.1 e.2.1).eq (value e.2.2) = true := by decide +kernel

/-- `normalized`, value.rs:1042-1061. -/
example : ((Value.ofNat 10000000 : Value .regulated).normalizeFromMainchain ⟨6, 6⟩).eq (Value.ofNat 10) = true ∧
    (((Value.ofNat 10000000 : Value .regulated).normalizeFromMainchain ⟨6, 6⟩).fromNormalizedToSidechain ⟨6, 6⟩).eq
      (Value.ofNat 10000000) = true := by decide +kernel

/-! ## balance.rs -/

/-- The macro `balance`, balance.rs:211-222. -/
def balance (n : Int) : BalanceV .lovelace :=
  if n < 0 then .debt (value n.natAbs) else if n = 0 then .balanced else .excess (value n.natAbs)

/-- `assign_sub`, balance.rs:225-245, and `balance_sub`, balance.rs:326-332. -/
example : ∀ e ∈ ([(0, 10, -10), (-10, 10, -20), (5, 10, -5), (10, 10, 0), (10, 5, 5), (0, 0, 0), (0, 1, -1), (1, 1, 0), (2, 1, 1),
    (-1, 1, -2)] : List (Int × Nat × Int)), ((balance e.1).subValue (value e.2.1)).eq (balance e.2.2) = true := by decide +kernel

/-- `assign_add`, balance.rs:271-291, and `balance_add`, balance.rs:317-323. -/
example : ∀ e ∈ ([(0, 10, 10), (10, 10, 20), (-5, 10, 5), (-10, 10, 0), (-10, 5, -5), (0, 0, 0), (0, 1, 1), (1, 1, 2), (-1, 1, 0),
    (-2, 1, -1)] : List (Int × Nat × Int)), ((balance e.1).addValue (value e.2.1)).eq (balance e.2.2) = true := by decide +kernel

/-! ## block_number.rs, slot_number.rs, output_index.rs, timestamp.rs -/

/-- `checked_next_overflow` to `saturating_add_overflow`, block_number.rs:165-183, slot_number.rs:149-167,
output_index.rs:131-149. -/
example : (U64.MAX.checkedNext.isNone ∧ (U64.MAX.checkedAdd U64.one).isNone) ∧ U64.MAX.saturatingNext.val = U64.MAX.val ∧
    (U64.MAX.saturatingAdd U64.one).val = U64.MAX.val := by decide +kernel

/-- `deserialize_from_number` and `deserialize_from_string`, block_number.rs:217-252, slot_number.rs:201-236,
timestamp.rs:96-130. -/
example : (readNumber (.num ⟨1234, by decide⟩)).toOption = some 1234 ∧ (readNumber (.str "4567".toList)).toOption = some 4567 ∧
    (readNumber (.num ⟨1650484805, by decide⟩)).toOption = some 1650484805 ∧
    (readNumber (.str "1650484805".toList)).toOption = some 1650484805 := by decide +kernel

end Verif.Conformance.Core
