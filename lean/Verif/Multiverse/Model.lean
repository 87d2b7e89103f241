import Verif.Util.AMap
import Verif.Ilm.Cbor

/-!
# The multiverse

Models `/repo/multiverse/src/{lib,entry}.rs` and `visitor/depth_ordered.rs`. Identifiers are byte strings
(`K: AsRef<[u8]>`). Sets and maps are lists; where the code iterates over a hash set in its arbitrary
order, the function takes a reordering of the list as parameter. `EntryRef` is an `Arc`: it is modelled by
the identifier together with the number of the allocation. A weak reference can be upgraded as long as a
strong one to the same allocation is left, in the multiverse or with the user. The database (`sled`) is a
map from keys to blocks; the JSON encoding of blocks is left out.
-/

namespace Verif.Multiverse

open Verif.Ilm (be)

/-- Identifiers. -/
abbrev Key := List UInt8

/-- A block: what `Variant` gives, variant.rs:6-17, and the rest of its contents. -/
structure Block where
  id : Key
  parent : Key
  number : Nat
  payload : Nat
deriving DecidableEq

/-- `EntryRef`, entry.rs:23-25: an identifier in the allocation number `arc`. -/
structure Ref where
  key : Key
  arc : Nat
deriving DecidableEq

/-- `Entry`, entry.rs:11-17. The parent is a weak reference, `none` if empty. -/
structure Entry where
  parent : Option Ref
  children : List Ref
  value : Block

/-- Errors; `panic` is a failed assertion or `expect`. -/
inductive MvErr where
  | notFound
  | panic
deriving DecidableEq

/-- `Multiverse`, lib.rs:108-121. `all` has the allocation of its key with each entry; `ordered` is kept in
ascending order of block numbers. `nextArc` is the number of the next allocation. -/
structure MV where
  db : AMap (List UInt8) Block
  all : AMap Key (Nat × Entry)
  ordered : List (Nat × List Ref)
  tips : List Ref
  roots : List Ref
  storeFrom : Nat
  nextArc : Nat

/-- `mk_sled_key`, lib.rs:578-593. -/
def mkKey (number : Nat) (id : Key) : List UInt8 := be 8 number ++ 45 :: id

/-! ### Hash sets of references -/

/-- Does the set have a reference with this identifier? Equality of `EntryRef` is equality of
identifiers, entry.rs:155-159. -/
def hasKey (s : List Ref) (k : Key) : Bool := s.any (fun r => r.key = k)

/-- `HashSet::insert`: nothing changes if there is an equal reference. -/
def setInsert (s : List Ref) (r : Ref) : List Ref := if hasKey s r.key then s else r :: s

/-- `HashSet::remove`. -/
def setRemove (s : List Ref) (k : Key) : List Ref := s.filter (fun r => r.key ≠ k)

/-- `ordered.entry(n).or_default().insert(r)`, lib.rs:389-392. -/
def ordInsert (n : Nat) (r : Ref) : List (Nat × List Ref) → List (Nat × List Ref)
  | [] => [(n, [r])]
  | (m, s) :: rest =>
    if n < m then (n, [r]) :: (m, s) :: rest
    else if n = m then (m, setInsert s r) :: rest
    else (m, s) :: ordInsert n r rest

/-- Removal from `ordered`, lib.rs:449-455. -/
def ordRemove (n : Nat) (k : Key) : List (Nat × List Ref) → List (Nat × List Ref)
  | [] => []
  | (m, s) :: rest =>
    if n = m then (if setRemove s k = [] then rest else (m, setRemove s k) :: rest)
    else (m, s) :: ordRemove n k rest

/-- `roots.insert(child)` for all children, with the assertions, lib.rs:420-426. -/
def addRoots (roots : List Ref) : List Ref → Except MvErr (List Ref)
  | [] => .ok roots
  | c :: cs => if hasKey roots c.key then .error .panic else addRoots (c :: roots) cs

/-- The children of a removed root become roots, lib.rs:416-427. -/
def orphan (roots : List Ref) (wasRoot : Bool) (children : List Ref) : Except MvErr (List Ref) :=
  if wasRoot then addRoots roots children else .ok roots

/-- All strong references held by the multiverse. -/
def MV.refs (m : MV) : List Ref :=
  m.all.map (fun x => ⟨x.1, x.2.1⟩) ++ (m.all.map (fun x => x.2.2.children)).flatten ++
  (m.ordered.map Prod.snd).flatten ++ m.tips ++ m.roots

/-- Is there a strong reference to the allocation? `held` are those of the user. -/
def alive (refs : List Ref) (held : Nat → Bool) (a : Nat) : Bool := held a || refs.any (fun r => r.arc == a)

namespace MV

/-- `new_with`, lib.rs:160-177, on a tree with contents `db`. -/
def empty (db : AMap (List UInt8) Block) (storeFrom : Nat) : MV := ⟨db, [], [], [], [], storeFrom, 0⟩

/-- `db_remove`, lib.rs:192-197. -/
def dbRemove (m : MV) (number : Nat) (id : Key) : MV := { m with db := AMap.erase m.db (mkKey number id) }

/-- `db_insert`, lib.rs:202-216: whether the block is new in the database. -/
def dbInsert (m : MV) (v : Block) : Bool × MV :=
  if m.storeFrom ≤ v.number then
    ((AMap.get m.db (mkKey v.number v.id)).isNone, { m with db := AMap.insert m.db (mkKey v.number v.id) v })
  else (false, m)

/-- `clear`, lib.rs:218-227. -/
def clear (m : MV) : MV := { m with db := [], all := [], ordered := [], tips := [], roots := [] }

/-- `contains`, lib.rs:262. -/
def contains (m : MV) (k : Key) : Bool := (AMap.get m.all k).isSome

/-- `len`, lib.rs:250. -/
def len (m : MV) : Nat := m.all.length

/-- `get`, lib.rs:324. -/
def get (m : MV) (k : Key) : Option Block := (AMap.get m.all k).map (fun x => x.2.value)

/-- The last part of `insert_in_memory`, lib.rs:389-405: `all.insert` keeps the key that is there. -/
def finish (m : MV) (v : Block) (parent : Option Ref) : MV :=
  let r : Ref := ⟨v.id, m.nextArc⟩
  { m with
    ordered := ordInsert v.number r m.ordered
    all := AMap.insert m.all v.id (((AMap.get m.all v.id).map Prod.fst).getD m.nextArc, ⟨parent, [], v⟩)
    tips := setInsert m.tips r
    nextArc := m.nextArc + 1 }

/-- `insert_in_memory`, lib.rs:358-407. -/
def insertMem (m : MV) (v : Block) : Except MvErr MV :=
  match AMap.get m.all v.parent with
  | some (a, e) =>
    .ok (finish { m with
      all := AMap.insert m.all v.parent (a, { e with children := setInsert e.children ⟨v.id, m.nextArc⟩ })
      tips := setRemove m.tips v.parent } v (some ⟨v.parent, a⟩))
  | none =>
    if hasKey m.roots v.id then .error .panic
    else .ok (finish { m with roots := ⟨v.id, m.nextArc⟩ :: m.roots } v none)

/-- `insert`, lib.rs:337-347. -/
def insert (m : MV) (v : Block) : Except MvErr MV :=
  if (m.dbInsert v).1 = false ∧ (AMap.get m.all v.id).isSome then .ok (m.dbInsert v).2
  else insertMem (m.dbInsert v).2 v

/-- Unlinking a removed entry from its parent, lib.rs:431-445. `strong` are the references of the running
call. -/
def unlink (m : MV) (held : Nat → Bool) (strong : List Ref) (k : Key) (parent : Option Ref) :
    Except MvErr MV :=
  match parent with
  | none => .ok m
  | some r =>
    if alive (m.refs ++ strong) held r.arc then
      match AMap.get m.all r.key with
      | none => .ok m
      | some (a, p) =>
        if hasKey p.children k then
          let p1 := { p with children := setRemove p.children k }
          let m1 := { m with all := AMap.insert m.all r.key (a, p1) }
          if p1.children = [] then
            if hasKey m.tips r.key then .error .panic else .ok { m1 with tips := r :: m.tips }
          else .ok m1
        else .error .panic
    else .ok m

/-- `remove`, lib.rs:409-462; `held` are the allocations the user has references to, besides the key
given. -/
def remove (m : MV) (held : Nat → Bool) (k : Key) : Except MvErr (Block × MV) :=
  match AMap.get m.all k with
  | none => .error .notFound
  | some (_, e) =>
    let m1 := { m with all := AMap.erase m.all k, roots := setRemove m.roots k }
    match orphan m1.roots (hasKey m.roots k) e.children with
    | .error err => .error err
    | .ok roots2 =>
      match unlink { m1 with roots := roots2 } held (if hasKey m.roots k then [] else e.children) k e.parent with
      | .error err => .error err
      | .ok m2 =>
        .ok (e.value, dbRemove { m2 with
          ordered := ordRemove e.value.number k m2.ordered
          tips := setRemove m2.tips k } e.value.number k)

/-- `ancestor`, lib.rs:470-482. -/
def ancestor (m : MV) (held : Nat → Bool) : Nat → Ref → Except MvErr (Option Ref)
  | 0, r => .ok (some r)
  | d + 1, r =>
    match AMap.get m.all r.key with
    | none => .error .panic
    | some (_, e) =>
      match e.parent with
      | none => .ok none
      | some p => if alive m.refs held p.arc then ancestor m held d p else .ok none

/-- The first part of `select_best_block_longest_chain`, lib.rs:497-507. `order` is the order in which a
hash set is iterated. -/
def candidate (m : MV) (held : Nat → Bool) (order : List Ref → List Ref) (depth : Nat) :
    Except MvErr (Option Ref) :=
  match m.ordered.getLast? with
  | none => .ok none
  | some (_, tips) =>
    match (order tips).head? with
    | none => .ok none
    | some tip => m.ancestor held depth tip

/-- The blocks with numbers below `max`, lib.rs:516-520. -/
def below (m : MV) (max : Nat) : List Ref :=
  ((m.ordered.filter (fun x => x.1 < max)).map Prod.snd).flatten

/-- The second part of `select_best_block_longest_chain`, lib.rs:509-528. -/
def discarded (m : MV) (ageGap : Nat) (sel : Ref) : List Ref :=
  match AMap.get m.all sel.key with
  | none => []
  | some (_, e) => m.below (e.value.number - ageGap)

/-- `select_best_block_longest_chain`, lib.rs:496-528: the block selected and the blocks to discard. -/
def selectBest (m : MV) (held : Nat → Bool) (order : List Ref → List Ref) (depth ageGap : Nat) :
    Except MvErr (Option Ref × List Ref) :=
  match m.candidate held order depth with
  | .error e => .error e
  | .ok none => .ok (none, [])
  | .ok (some sel) => .ok (some sel, m.discarded ageGap sel)

/-- The loop of `prefer_longest_chain_fork_tip`, lib.rs:552-562. -/
def longestTip (m : MV) : List Ref → Nat → Ref → Except MvErr Ref
  | [], _, best => .ok best
  | r :: rs, longest, best =>
    match AMap.get m.all r.key with
    | none => .error .panic
    | some (_, e) =>
      if longest < e.value.number then longestTip m rs e.value.number r else longestTip m rs longest best

/-- `prefer_longest_chain_fork_tip`, lib.rs:541-565. -/
def preferTip (m : MV) (order : List Ref → List Ref) : Except MvErr (Option Ref) :=
  match order m.tips with
  | [] => .ok none
  | r :: rs =>
    match AMap.get m.all r.key with
    | none => .error .panic
    | some (_, e) => (longestTip m rs e.value.number r).map some

/-- `DepthOrderedIterator`, visitor/depth_ordered.rs:11-44, run to its end. `set.drain().next()` takes one
reference and empties the set. -/
def iterLoop (m : MV) (order : List Ref → List Ref) : List (Nat × List Ref) → List Block
  | [] => []
  | (_, s) :: rest =>
    match (order s).head? with
    | none => iterLoop m order rest
    | some r =>
      match AMap.get m.all r.key with
      | none => []
      | some (_, e) => e.value :: iterLoop m order rest

/-- `iter`, lib.rs:277. -/
def iter (m : MV) (order : List Ref → List Ref) : List Block := m.iterLoop order m.ordered

/-- Insertion of all blocks of a list, lib.rs:296-301. -/
def insertAll (m : MV) : List Block → Except MvErr MV
  | [] => .ok m
  | v :: vs =>
    match m.insertMem v with
    | .error e => .error e
    | .ok m1 => m1.insertAll vs

end MV

/-- Insertion of a database entry into a list in key order. -/
def insertSorted (x : List UInt8 × Block) : List (List UInt8 × Block) → List (List UInt8 × Block)
  | [] => [x]
  | y :: ys => if x.1 < y.1 then x :: y :: ys else y :: insertSorted x ys

/-- `tree.iter()`: the entries of the database in the byte order of their keys. -/
def dbSorted (db : AMap (List UInt8) Block) : List (List UInt8 × Block) := db.foldr insertSorted []

/-- `load_from`, lib.rs:289-304. -/
def loadFrom (db : AMap (List UInt8) Block) (storeFrom : Nat) : Except MvErr MV :=
  (MV.empty db storeFrom).insertAll ((dbSorted db).map Prod.snd)

end Verif.Multiverse
