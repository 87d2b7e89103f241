import Verif.Util.AMap
import Mathlib.Data.Rat.Defs
import Mathlib.Algebra.Order.Ring.Rat
import Mathlib.Algebra.BigOperators.Group.List.Basic
import Mathlib.Tactic.Linarith

/-!
# UTxO store

Models `/repo/core/src/utxo_store.rs` and the types of `/repo/core/src/tx`. Amounts are
rationals (see `Verif.Core.Value` for why). Identifiers (tokens, pointers, addresses, policies,
asset names) are strings in the code that are only compared; here they are natural
numbers, with `0` for `TokenId::MAIN`.
-/

namespace Verif.Core

/-- `TokenId`, token_id.rs:11. -/
abbrev Token := Nat
/-- `TokenId::MAIN`, token_id.rs:16-18, also the default, token_id.rs:40-44. -/
def mainToken : Token := 0

/-- `UtxoPointer`, tx/utxo.rs:15-18. -/
abbrev Pointer := Nat

/-- `TransactionAsset`, tx/transaction_asset.rs:8-13. -/
structure Asset where
  fingerprint : Token
  quantity : ℚ
  policy : Nat := 0
  name : Nat := 0
deriving DecidableEq

/-- `UTxODetails`, tx/utxo.rs:35-46 (metadata and extra omitted, they are only carried). -/
structure Utxo where
  ptr : Pointer
  value : ℚ
  assets : List Asset
  address : Nat := 0
deriving DecidableEq

/-- `UTxOSet`, utxo_store.rs:24-30. `ordered` is the `BTreeMap` by value, ascending. -/
structure USet where
  tokenId : Token := mainToken
  balance : ℚ := 0
  set : AMap Pointer Utxo := []
  ordered : List (ℚ × AMap Pointer Utxo) := []

namespace USet

/-- The entry update of `ordered_by_value` in `add_value`, utxo_store.rs:75-85. -/
def bucketAdd (v : ℚ) (u : Utxo) : List (ℚ × AMap Pointer Utxo) → List (ℚ × AMap Pointer Utxo)
  | [] => [(v, [(u.ptr, u)])]
  | (w, b) :: rest =>
    if v < w then (v, [(u.ptr, u)]) :: (w, b) :: rest
    else if v = w then (w, b.insert u.ptr u) :: rest
    else (w, b) :: bucketAdd v u rest

/-- The entry update of `ordered_by_value` in `finish_remove`, utxo_store.rs:125-133. -/
def bucketRemove (v : ℚ) (p : Pointer) :
    List (ℚ × AMap Pointer Utxo) → List (ℚ × AMap Pointer Utxo)
  | [] => []
  | (w, b) :: rest =>
    if v = w then
      if b.erase p = [] then rest else (w, b.erase p) :: rest
    else (w, b) :: bucketRemove v p rest

/-- `add_value`, utxo_store.rs:71-86. -/
def addValue (s : USet) (token : Token) (value : ℚ) (u : Utxo) : USet :=
  { tokenId := token
    balance := s.balance + value
    set := s.set.insert u.ptr u
    ordered := bucketAdd value u s.ordered }

/-- `finish_remove`, utxo_store.rs:124-135. -/
def finishRemove (s : USet) (value : ℚ) (p : Pointer) : USet :=
  { s with ordered := bucketRemove value p s.ordered, balance := s.balance - value }

/-- `remove_from_main`, utxo_store.rs:60-67. -/
def removeFromMain (s : USet) (p : Pointer) : USet × Option Utxo :=
  match s.set.get p with
  | none => (s, none)
  | some u => ((({ s with set := s.set.erase p } : USet).finishRemove u.value p), some u)

/-- `remove_from_asset`, utxo_store.rs:39-56. `none` is the panic of `expect`. -/
def removeFromAsset (s : USet) (p : Pointer) : Option USet :=
  match s.set.get p with
  | none => some s
  | some u =>
    let s' : USet := { s with set := s.set.erase p }
    if s.tokenId = mainToken then some (s'.finishRemove u.value p)
    else
      match u.assets.find? (fun a => a.fingerprint = s.tokenId) with
      | some a => some (s'.finishRemove a.quantity p)
      | none => none

/-- `len`, utxo_store.rs:92-94. -/
def len (s : USet) : Nat := s.set.length

/-- `ordered_utxo_iterator`, utxo_store.rs:111-115. -/
def orderedUtxos (s : USet) : List Utxo := s.ordered.flatMap (fun b => b.2.map (·.2))

/-- `ordered_utxo_iterator_rev`, utxo_store.rs:117-122. -/
def orderedUtxosRev (s : USet) : List Utxo := s.ordered.reverse.flatMap (fun b => b.2.map (·.2))

end USet

/-- `UTxOStore` and `UTxOStoreMut`, utxo_store.rs:14-22 and 32-36. The two have the same fields;
`thaw` (185-191) and `freeze` (360-366) copy them. -/
structure UStore where
  utxos : USet := {}
  byPolicy : AMap Token USet := []
  dictionary : AMap Token (Nat × Nat) := []

/-- Outcomes of the mutating functions. -/
inductive StoreErr where
  | alreadyInserted
  | notFound
  | panic
deriving DecidableEq, Repr

namespace UStore

/-- `new`, utxo_store.rs:141-143. -/
def new : UStore := {}

/-- One iteration of the asset loop of `insert`, utxo_store.rs:325-340. -/
def insertAsset (u : Utxo) (st : UStore) (a : Asset) : UStore :=
  { st with
    byPolicy := st.byPolicy.insert a.fingerprint
      (((st.byPolicy.get a.fingerprint).getD {}).addValue a.fingerprint a.quantity u)
    dictionary :=
      if st.dictionary.contains a.fingerprint then st.dictionary
      else st.dictionary.insert a.fingerprint (a.policy, a.name) }

/-- `insert`, utxo_store.rs:305-343: the result and the state left behind. -/
def insertM (st : UStore) (u : Utxo) : Except StoreErr Unit × UStore :=
  if st.utxos.set.contains u.ptr then (.error .alreadyInserted, st)
  else
    let st1 : UStore :=
      { st with
        utxos := st.utxos.addValue mainToken u.value u
        byPolicy := st.byPolicy.insert mainToken
          (((st.byPolicy.get mainToken).getD {}).addValue mainToken u.value u) }
    (.ok (), u.assets.foldl (insertAsset u) st1)

/-- `insert` seen as a function that fails or gives the new state. -/
def insert (st : UStore) (u : Utxo) : Except StoreErr UStore :=
  match st.insertM u with
  | (.ok _, st') => .ok st'
  | (.error e, _) => .error e

theorem insert_eq (st : UStore) (u : Utxo) : st.insert u =
    if st.utxos.set.contains u.ptr then .error .alreadyInserted
    else .ok (u.assets.foldl (insertAsset u)
      { st with
        utxos := st.utxos.addValue mainToken u.value u
        byPolicy := st.byPolicy.insert mainToken
          (((st.byPolicy.get mainToken).getD {}).addValue mainToken u.value u) }) := by
  unfold insert insertM
  split <;> rename_i h <;> split at h <;> simp_all

/-- One iteration of the loop of `remove`, utxo_store.rs:271-290. -/
def removeToken (p : Pointer) (m : AMap Token USet) (t : Token) : Option (AMap Token USet) :=
  match m.get t with
  | none => some m
  | some s =>
    match s.removeFromAsset p with
    | none => none
    | some s' => if s'.set = [] then some (m.erase t) else some (m.insert t s')

/-- The loop of `remove` over the tokens of the removed UTxO. -/
def removeTokens (p : Pointer) : AMap Token USet → List Token → Option (AMap Token USet)
  | m, [] => some m
  | m, t :: ts =>
    match removeToken p m t with
    | none => none
    | some m' => removeTokens p m' ts

/-- `remove`, utxo_store.rs:269-296: the result and the state left behind. After the panic of
`removeFromAsset` the state is not observed. -/
def removeM (st : UStore) (p : Pointer) : Except StoreErr Unit × UStore :=
  match st.utxos.removeFromMain p with
  | (us, none) => (.error .notFound, { st with utxos := us })
  | (us, some u) =>
    match removeTokens p st.byPolicy (u.assets.map (·.fingerprint) ++ [mainToken]) with
    | none => (.error .panic, st)
    | some m => (.ok (), { st with utxos := us, byPolicy := m })

/-- `remove` seen as a function that fails or gives the new state. -/
def remove (st : UStore) (p : Pointer) : Except StoreErr UStore :=
  match st.removeM p with
  | (.ok _, st') => .ok st'
  | (.error e, _) => .error e

theorem remove_eq (st : UStore) (p : Pointer) : st.remove p =
    match st.utxos.removeFromMain p with
    | (_, none) => .error .notFound
    | (us, some u) =>
      match removeTokens p st.byPolicy (u.assets.map (·.fingerprint) ++ [mainToken]) with
      | none => .error .panic
      | some m => .ok { st with utxos := us, byPolicy := m } := by
  unfold remove removeM
  rcases h : st.utxos.removeFromMain p with ⟨us, _ | u⟩
  · simp
  · simp only
    cases removeTokens p st.byPolicy (u.assets.map (·.fingerprint) ++ [mainToken]) <;> simp

/-- `is_empty`, utxo_store.rs:147-149. -/
def isEmpty (st : UStore) : Bool := st.utxos.set.length == 0
/-- `len`, utxo_store.rs:153-155. -/
def len (st : UStore) : Nat := st.utxos.len
/-- `number_utxos_for_token`, utxo_store.rs:160-164. -/
def numberUtxosForToken (st : UStore) (t : Token) : Nat :=
  ((st.byPolicy.get t).map (·.len)).getD 0
/-- `contains`, utxo_store.rs:168-170. -/
def contains (st : UStore) (p : Pointer) : Bool := st.utxos.set.contains p
/-- `contains_token`, utxo_store.rs:174-176. -/
def containsToken (st : UStore) (t : Token) : Bool :=
  t == st.utxos.tokenId || st.byPolicy.contains t
/-- `get_asset_ids`, utxo_store.rs:180-182. -/
def getAssetIds (st : UStore) (t : Token) : Option (Nat × Nat) := st.dictionary.get t
/-- `get`, utxo_store.rs:197-199. -/
def get (st : UStore) (p : Pointer) : Option Utxo := st.utxos.set.get p
/-- `iter`, utxo_store.rs:202-204. -/
def iter (st : UStore) : List (Pointer × Utxo) := st.utxos.set
/-- `iter_ordered_by_wmain`, utxo_store.rs:207-209. -/
def iterOrderedByMain (st : UStore) : List Utxo := st.utxos.orderedUtxos
/-- `iter_token`, utxo_store.rs:216-223. -/
def iterToken (st : UStore) (t : Token) : List (Pointer × Utxo) :=
  match st.byPolicy.get t with
  | some s => s.set
  | none => []
/-- `iter_token_ordered_by_value`, utxo_store.rs:230-237. -/
def iterTokenOrdered (st : UStore) (t : Token) : List Utxo :=
  match st.byPolicy.get t with
  | some s => s.orderedUtxos
  | none => []
/-- `iter_token_ordered_by_value_rev`, utxo_store.rs:244-251. -/
def iterTokenOrderedRev (st : UStore) (t : Token) : List Utxo :=
  match st.byPolicy.get t with
  | some s => s.orderedUtxosRev
  | none => []
/-- `get_balance_of` and `token_balance`, utxo_store.rs:255-257, 345-349. -/
def balanceOf (st : UStore) (t : Token) : Option ℚ := (st.byPolicy.get t).map (·.balance)
/-- `balance`, utxo_store.rs:351-353. -/
def balance (st : UStore) : ℚ := st.utxos.balance

end UStore
end Verif.Core
