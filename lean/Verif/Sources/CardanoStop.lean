import Verif.Sources.CardanoLemmas

/-!
# Abandoned pulls and the end of the Cardano source

Models what `Cardano.lean` leaves out of `/repo/blockchain-source/src/cardano/mod.rs`: the future of a pull may be
dropped while it waits (a timeout, or `select!`), and `stop`, mod.rs:150-155, which drops the channel of requests and
waits until the handler's loop has ended.
-/

namespace Verif.Sources.Cardano

/-- The source. `running` is false once `stop` has been called; `exited` is true once the handler's loop has ended,
mod.rs:181 and 231. -/
structure XSt where
  st : St
  running : Bool
  exited : Bool

/-- After `connect`. -/
def XSt.start : XSt := ⟨.start, true, false⟩

/-- What can happen: an action of the pulling side; one of the handler; the future of the pull in progress is dropped;
`stop` is called; the handler's loop ends. -/
inductive XAct where
  | base (a : Act)
  | abandon
  | stop
  | exit

/-- Is it an action of the handler? -/
def ofHandler : Act → Bool
  | .take _ => true
  | .emit => true
  | .finish => true
  | _ => false

/-- One action; `none` if it cannot happen now. `stop` takes the source, so there is no pull in progress, and nothing
can be called after it. The handler's loop ends when the channel of requests is closed and empty. -/
def XSt.step (cfg : Config) (x : XSt) : XAct → Option XSt
  | .base a =>
    if ofHandler a then
      if x.exited then none else (x.st.step cfg a).map (fun s => { x with st := s })
    else if x.running then (x.st.step cfg a).map (fun s => { x with st := s })
    else none
  | .abandon => if x.running then x.st.abandon.map (fun s => { x with st := s }) else none
  | .stop =>
    if x.running then (x.st.step cfg .clear).map (fun s => { x with st := s, running := false }) else none
  | .exit =>
    if x.running || x.exited then none
    else
      match x.st.handler, x.st.queue with
      | .idle, none => some { x with exited := true }
      | _, _ => none

/-- A list of actions. -/
def XSt.run (cfg : Config) : XSt → List XAct → Option XSt
  | x, [] => some x
  | x, a :: as =>
    match x.step cfg a with
    | none => none
    | some x' => x'.run cfg as

/-- Has `stop` returned? It waits for the end of the loop, mod.rs:154; if the handler is gone it is told so. -/
def XSt.returned (x : XSt) : Bool := !x.running && (x.exited || decide (x.st.handler = .gone))

variable {cfg : Config}

theorem CInv.xstep {x x' : XSt} (h : CInv cfg x.st) {a : XAct} (hs : x.step cfg a = some x') : CInv cfg x'.st := by
  cases a with
  | base a =>
    simp only [XSt.step] at hs
    split at hs
    · split at hs
      · cases hs
      · obtain ⟨s, h1, rfl⟩ := Option.map_eq_some_iff.1 hs
        exact h.step h1
    · split at hs
      · obtain ⟨s, h1, rfl⟩ := Option.map_eq_some_iff.1 hs
        exact h.step h1
      · cases hs
  | abandon =>
    simp only [XSt.step] at hs
    split at hs
    · obtain ⟨s, h1, rfl⟩ := Option.map_eq_some_iff.1 hs
      exact h.abandon h1
    · cases hs
  | stop =>
    simp only [XSt.step] at hs
    split at hs
    · obtain ⟨s, h1, rfl⟩ := Option.map_eq_some_iff.1 hs
      exact h.step h1
    · cases hs
  | exit =>
    simp only [XSt.step] at hs
    split at hs
    · cases hs
    · split at hs
      · obtain rfl := Option.some.inj hs
        exact h
      · cases hs

theorem CInv.xrun : ∀ {as : List XAct} {x x' : XSt}, CInv cfg x.st → x.run cfg as = some x' → CInv cfg x'.st
  | [], x, x', h, hr => by
    obtain rfl := Option.some.inj hr
    exact h
  | a :: as, x, x', h, hr => by
    simp only [XSt.run] at hr
    cases h1 : x.step cfg a with
    | none => simp [h1] at hr
    | some t =>
      simp only [h1] at hr
      exact CInv.xrun (h.xstep h1) hr

end Verif.Sources.Cardano
