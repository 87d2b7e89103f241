import Verif.Selection.ThermostatObject
import Verif.Props.Wallet

/-!
# C103: a thermostat object remembers nothing but its UTxOs
-/

namespace Verif.Props

open Verif Verif.Core Verif.Selection Verif.Selection.Thermostat

/-- C103: a payment with an object in any state whatever, also the state a failed payment left, is the payment of
`Verif.Selection.Thermostat` from the available UTxOs of the object: C49 to C102 hold for it. -/
theorem C103_call {σ : Type} (E : Estimator σ) (W : Thermostat.World) (o : Obj) (est : σ) (io : Setup) (left : TS σ)
    (v : ℚ) :
    (o.selectInputs E W est io left v).1 = (thermostat E W o.getUtxos est io).1 ∧
    (o.selectInputs E W est io left v).2.getUtxos = (thermostat E W o.getUtxos est io).2 := by
  have h : (o.begin io).run est = initial est io := rfl
  have h1 : (o.begin io).store = o.getUtxos := rfl
  have h2 : (o.begin io).address = io.changeAddress := rfl
  have h3 : (o.begin io).outputs = io.fixedOutputs := rfl
  unfold Obj.selectInputs thermostat
  simp only [h, h1, h2, h3]
  cases hs : select E W ⟨io.changeAddress, io.fixedOutputs⟩ o.getUtxos (initial est io) with
  | error e => exact ⟨rfl, rfl⟩
  | ok x =>
    obtain ⟨s, st⟩ := x
    dsimp only
    cases answer W io s with
    | error e => exact ⟨rfl, rfl⟩
    | ok r => exact ⟨rfl, rfl⟩

theorem call_same {σ : Type} {o1 o2 : Obj} (h : o1.getUtxos = o2.getUtxos) (j1 j2 : TS σ × ℚ) (c : Call σ) :
    (o1.call j1 c).1 = (o2.call j2 c).1 ∧ (o1.call j1 c).2.getUtxos = (o2.call j2 c).2.getUtxos := by
  cases c with
  | offer l =>
    have h' : o1.store = o2.store := h
    simp only [Obj.call, Obj.setInputs, h']
    rcases setAvailable o2.store l with ⟨_ | _, st⟩ <;> exact ⟨rfl, rfl⟩
  | utxos st => exact ⟨rfl, rfl⟩
  | pay E W est io =>
    obtain ⟨a1, a2⟩ := C103_call E W o1 est io j1.1 j1.2
    obtain ⟨b1, b2⟩ := C103_call E W o2 est io j2.1 j2.2
    rw [h] at a1 a2
    exact ⟨congrArg (Except.map some) (a1.trans b1.symm), a2.trans b2.symm⟩

/-- C103: whatever was done with an object before, from then on it answers every sequence of calls, and offers its
UTxOs, exactly as a new object that was handed the same UTxOs. -/
theorem C103_like_new {σ : Type} (j1 j2 : Nat → TS σ × ℚ) (cs : List (Call σ)) (o : Obj) :
    o.calls j1 cs = (Obj.new.setUtxos o.getUtxos).calls j2 cs := by
  have key : ∀ (cs : List (Call σ)) (o1 o2 : Obj), o1.getUtxos = o2.getUtxos → o1.calls j1 cs = o2.calls j2 cs := by
    intro cs
    induction cs with
    | nil => intro _ _ _; rfl
    | cons c cs ih =>
      intro o1 o2 h
      obtain ⟨h1, h2⟩ := call_same h (j1 cs.length) (j2 cs.length) c
      have h3 : (o1.call (j1 cs.length) c).2.inputs = (o2.call (j2 cs.length) c).2.inputs :=
        congrArg availableInputs h2
      unfold Obj.calls
      rw [h1, h3, ih _ _ h2]
  exact key cs o _ rfl

/-- C103: UTxOs handed over are the ones available afterwards; if two of them are the same output they are refused, and
the object is what it was. -/
theorem C103_offer (o : Obj) (l : List Utxo) (hd : ∀ u ∈ l, DistinctAssets u) :
    ((l.map (·.ptr)).Nodup → (o.setInputs l).1 = .ok () ∧ (o.setInputs l).2.inputs = l) ∧
    (¬ (l.map (·.ptr)).Nodup → (o.setInputs l).1 = .error .store ∧ (o.setInputs l).2 = o) := by
  constructor
  · intro hn
    obtain ⟨st, h1, _, h3⟩ := C39_set_available o.store l hd hn
    simp only [Obj.setInputs, h1]
    exact ⟨trivial, h3⟩
  · intro hn
    simp [Obj.setInputs, C39_refused o.store l hn]

example : (Obj.new.setInputs thAvail).1 = .ok () ∧ (Obj.new.setInputs thAvail).2.inputs = thAvail :=
  (C103_offer Obj.new thAvail (by unfold DistinctAssets thAvail; decide)).1 (by decide)

example : (((Obj.new.setInputs thAvail).2).setInputs (thAvail ++ thAvail)).2.inputs = thAvail := by
  rw [((C103_offer _ (thAvail ++ thAvail) (by unfold DistinctAssets thAvail; decide)).2 (by decide)).2]
  exact ((C103_offer Obj.new thAvail (by unfold DistinctAssets thAvail; decide)).1 (by decide)).2

/-- What can be seen of the replies: the fee and the pointers chosen, and the pointers of the available UTxOs. -/
def objView {σ : Type} (l : List (Reply σ × List Utxo)) : List (Option (ℚ × List Nat) × List Nat) :=
  l.map (fun x => ((x.1.toOption.bind id).map (fun y => (y.1.fee, y.1.chosen.map (·.ptr))), x.2.map (·.ptr)))

/-- Something left behind: a change and a selected input of a payment that failed. -/
def objJunk : Nat → TS LE × ℚ := fun n =>
  (⟨thEst, [(7, ⟨5, 1000000, [⟨7, 3, 1, 2⟩]⟩)], [⟨5, 17, []⟩], [⟨9, 22, [], 0⟩], .debt 5, [(7, .excess 3)]⟩, n)

/-- UTxOs are handed over, a payment of more of the asset than there is fails, and the next payments go through. -/
def objCalls : List (Call LE) :=
  [.offer thAvail, .pay thE (thW {}) thEst (Setup.fromFixed [] [⟨9, 10000000, [⟨7, 1000, 1, 2⟩]⟩] (some 5)),
    .pay thE (thW {}) thEst (Setup.fromFixed [] thOuts (some 5)),
    .pay thE (thW {}) thEst (Setup.fromFixed [] thOuts (some 5))]

example : objView (Obj.new.calls objJunk objCalls) =
    [(none, [1, 2]), (none, [1, 2]), (some (195729, [1]), [2]), (some (182441, [2]), [])] := by decide +kernel

/-- After the failed payment the fields of the object are not those of a new one, and the next payment is the one from
a new object. -/
example : ∃ o : Obj, o.selected ≠ [] ∧ o.changes ≠ [] ∧ o.extra ≠ [] ∧ o.assets ≠ [] ∧
    objView (o.calls objJunk (objCalls.drop 2)) = [(some (195729, [1]), [2]), (some (182441, [2]), [])] ∧
    o.calls objJunk (objCalls.drop 2) = (Obj.new.setUtxos o.getUtxos).calls objJunk (objCalls.drop 2) :=
  ⟨(((Obj.new.setInputs thAvail).2).selectInputs thE (thW {}) thEst
      (Setup.fromFixed [] [⟨9, 10000000, [⟨7, 1000, 1, 2⟩]⟩] (some 5)) (objJunk 0).1 0).2,
    by decide +kernel, by decide +kernel, by decide +kernel, by decide +kernel, by decide +kernel,
    C103_like_new objJunk objJunk _ _⟩

end Verif.Props
