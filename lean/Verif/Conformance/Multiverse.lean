import Verif.Multiverse.Model
/-! # The project's tests of the multiverse, run on the model

Tests of the model, not proofs: what `multiverse/src/lib.rs:606-1017` asserts, evaluated. Sets are iterated in
two orders; the references given to `remove` are held or not by the caller. -/
namespace Verif.Conformance.Multiverse

open Verif.Multiverse

/-- `K::new`, test_utils.rs:161-164. -/
def k (s : String) : Key := s.toUTF8.toList

/-- `V::new`, test_utils.rs:172-181. -/
def root (id : String) (counter : Nat) : Block := ⟨k id, k "N/A", counter, 0⟩

/-- `V::mk_child`, test_utils.rs:183-192. -/
def child (p : Block) (id : String) : Block := ⟨k id, p.id, min (p.number + 1) (2 ^ 64 - 1), 0⟩

/-- A run of `insert(..).unwrap()`. -/
def inserts (m : MV) (bs : List Block) : Option MV :=
  bs.foldl (fun m b => m.bind fun m => (m.insert b).toOption) (some m)

/-- `Multiverse::temporary`, lib.rs:229-239. -/
def temporary : MV := MV.empty [] 0

def bRoot := root "Root" 1
def b1 := child bRoot "1"
def b2 := child b1 "2"
def b3 := child b1 "3"

/-- `declare_blockchain! { "Root" <= "1" <= "2", "1" <= "3" }`: parents are inserted again,
test_utils.rs:142-158. -/
def chain : List Block := [bRoot, b1, b1, b2, b1, b3]

/-- `EntryRef::new(K::new(..))`, found by its identifier. -/
def anc (m : MV) (id : String) (d : Nat) : Option (Option Key) :=
  (m.ancestor (fun _ => false) d ⟨k id, 1000⟩).toOption.map (fun x => x.map (·.key))

/-- `ancestor_0_is_self`, lib.rs:613-636. -/
example : (inserts temporary chain).map (fun m => [anc m "Root" 0, anc m "1" 0, anc m "2" 0, anc m "3" 0]) =
    some [some (some (k "Root")), some (some (k "1")), some (some (k "2")), some (some (k "3"))] := by
  decide +kernel

/-- `ancestor_1_is_parent`, lib.rs:638-661. -/
example : (inserts temporary chain).map (fun m => [anc m "Root" 1, anc m "1" 1, anc m "2" 1, anc m "3" 1]) =
    some [some none, some (some (k "Root")), some (some (k "1")), some (some (k "1"))] := by
  decide +kernel

/-- `ancestor_1_is_grand_parent`, lib.rs:663-686. -/
example : (inserts temporary chain).map (fun m => [anc m "Root" 2, anc m "1" 2, anc m "2" 2, anc m "3" 2]) =
    some [some none, some none, some (some (k "Root")), some (some (k "Root"))] := by
  decide +kernel

/-- `mk_sled_key_ordered`, lib.rs:688-736. -/
example : mkKey 0 [0] = mkKey 0 [0] ∧ mkKey 0 [0] < mkKey 0 [1] ∧ mkKey 0 [0] < mkKey 0 [1] ∧
    mkKey 0x0FFF [0xFF, 0xFF] < mkKey 0x1F00 [0] := by
  decide +kernel

/-- `multiverse_basic_db_operations`, lib.rs:738-760: what the calls return. -/
example :
    let v0 : Block := ⟨[0], [], 0, 0⟩
    let v1 : Block := ⟨[1], [], 1, 0⟩
    let m1 := (temporary.dbInsert v0).2
    let m2 := (m1.dbInsert v0).2
    let m3 := (m2.dbInsert v1).2
    let m4 := m3.dbRemove 0 [0]
    let m5 := m4.dbRemove 1 [1]
    (temporary.dbInsert v0).1 = true ∧ (m1.dbInsert v0).1 = false ∧ (m2.dbInsert v1).1 = true ∧
    (AMap.get m3.db (mkKey 0 [0])).isSome ∧ (AMap.get m4.db (mkKey 1 [1])).isSome ∧
    (AMap.get m5.db (mkKey 1 [1])).isNone := by
  decide +kernel

/-- `multiverse_linked_list_of_1`, lib.rs:762-775. -/
example : (inserts temporary [bRoot]).map (fun m => (m.len, hasKey m.tips (k "Root"), hasKey m.roots (k "Root"))) =
    some (1, true, true) := by
  decide +kernel

/-- The multiverse of `multiverse_linked_list_of_2`, lib.rs:777-785. -/
def two : Option MV := inserts temporary [bRoot, child bRoot "Child"]

/-- `multiverse_linked_list_of_2`, lib.rs:787-803. -/
example : two.map (·.len) = some 2 ∧
    two.map (fun m => (AMap.get m.all (k "Root")).map (fun e => (hasKey e.2.children (k "Child"), e.2.parent.isNone))) =
      some (some (true, true)) ∧
    two.map (fun m => (AMap.get m.all (k "Child")).map (fun e => (e.2.children.isEmpty, e.2.parent.map (·.key)))) =
      some (some (true, some (k "Root"))) := by
  decide +kernel

/-- The orders in which sets are iterated. -/
def orders : List (List Ref → List Ref) := [id, List.reverse]

/-- `multiverse_linked_list_of_2`, lib.rs:805-813. -/
example : ∀ o ∈ orders, (two.bind fun m => (m.selectBest (fun _ => false) o 1 1).toOption).map
      (fun r => (r.1.map (·.key), r.2.isEmpty)) = some (some (k "Root"), true) := by
  decide +kernel

/-- `multiverse_insert_twice`, lib.rs:816-827. -/
example : (inserts temporary [bRoot, bRoot]).isSome := by decide +kernel

/-- `entries_are_loaded_in_main_when_restoring`, lib.rs:829-850. -/
example : ((inserts temporary [bRoot]).bind fun m => (loadFrom m.db 0).toOption.bind fun n => n.get (k "Root")) =
    some bRoot := by
  decide +kernel

/-- `Simulation`, lib.rs:852-856. -/
structure Sim where
  m : MV
  selected : Option Key

/-- `Simulation::purge`, lib.rs:872-889. -/
def purge (o : List Ref → List Ref) (held : Nat → Bool) (m : MV) : Option Sim :=
  match m.selectBest held o 3 1 with
  | .error _ => none
  | .ok (sel, disc) =>
    ((o disc).foldl (fun m r => m.bind fun m => ((m.remove held r.key).toOption).map (·.2)) (some m)).map
      (fun m => ⟨m, sel.map (·.key)⟩)

/-- `Simulation::push`, lib.rs:860-867. -/
def push (o : List Ref → List Ref) (held : Nat → Bool) (id : String) : Option Sim :=
  (temporary.insert (root id 0)).toOption.bind (purge o held)

/-- `Simulation::insert`, lib.rs:914-936. -/
def ins (o : List Ref → List Ref) (held : Nat → Bool) (s : Option Sim) (x : String × String) : Option Sim :=
  s.bind fun s => (s.m.get (k x.1)).bind fun p => (s.m.insert (child p x.2)).toOption.bind (purge o held)

/-- `multiverse_sim_1`, lib.rs:984-1016, up to a number of blocks. -/
def sim (o : List Ref → List Ref) (held : Nat → Bool) (n : Nat) : Option Sim :=
  (([("Root", "A"), ("A", "B"), ("B", "C"), ("Root", "A'"), ("A'", "B'"), ("B'", "C'"), ("C", "D"), ("D", "E"),
    ("E", "F")].take n).foldl (ins o held) (push o held "Root"))

/-- What the test asserts, lib.rs:998-1014. -/
def simOk (o : List Ref → List Ref) (held : Nat → Bool) : Bool :=
  (sim o held 6).map (·.selected) = some (some (k "Root")) &&
  (sim o held 7).map (·.selected) = some (some (k "A")) &&
  (sim o held 8).map (·.selected) = some (some (k "B")) &&
  (sim o held 9).map (fun s => (s.selected, s.m.contains (k "Root"))) = some (some (k "C"), false)

example : ∀ o ∈ orders, simOk o (fun _ => false) && simOk o (fun _ => true) := by
  decide +kernel

end Verif.Conformance.Multiverse
