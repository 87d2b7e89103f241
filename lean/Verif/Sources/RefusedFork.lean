import Verif.Sources.Refused
import Verif.Sources.RollbackWorld

/-!
# The fork handling source over a database that fails

`/repo/blockchain-source/src/multiverse/rollback.rs` with the faults of `Verif/Multiverse/Refused.lean`, as in
`Verif/Sources/Refused.lean`.
-/

namespace Verif.Sources

open Verif.Multiverse

variable {P : Type} [DecidableEq P]

/-- Why a pull fails: the database, or a reason of `FErr`. -/
inductive FDbErr where
  | db
  | src (e : FErr)
deriving DecidableEq

/-- A new block, rollback.rs:143-218: an error of the database (`?` in line 147) leaves all but the multiverse as it was. -/
def FSrc.storeF (nf : Block → Option P) (s : FSrc P) (o : Orders) (ft : Nat → Fault) (from' : Option P) (v : Block) :
    Except FDbErr (Option (FEv P)) × FSrc P :=
  match insertAndGcF s.mv o s.depth v ft with
  | (.error .db, m') => (.error .db, { s with mv := m' })
  | (.error (.mv e), _) => (.error (.src (.store e)), s)
  | (.ok sel, m') =>
    match newEvents nf m' s.last from' v with
    | .error e => (.error (.src e), s)
    | .ok [] => (.error (.src .panic), s)
    | .ok (e :: es) => (.ok (some e), ⟨m', s.depth, newConfirmed s.confirmed sel, some v.id, es⟩)

/-- The part of `pull` after the inner source has answered, rollback.rs:128-218. -/
def FSrc.answerF (nf : Block → Option P) (s : FSrc P) (o : Orders) (ft : Nat → Fault) (from' : Option P) :
    Except Unit (Option Ev) → Except FDbErr (Option (FEv P)) × FSrc P
  | .error _ => (.error (.src .inner), s)
  | .ok none => (.ok none, s)
  | .ok (some (.tip n)) => (.ok (some (.inner (.tip n))), s)
  | .ok (some (.block v)) => if (s.mv.get v.id).isSome then (.ok none, s) else s.storeF nf o ft from' v

/-- The result of a pull. -/
structure FPulledF (P : Type) where
  res : Except FDbErr (Option (FEv P))
  asked : Option (List P)
  src : FSrc P

/-- `pull`, rollback.rs:95-219. -/
def FSrc.pullF (nf : Block → Option P) (s : FSrc P) (o : Orders) (ft : Nat → Fault) (from' : Option P)
    (resp : List P → Except Unit (Option Ev)) : FPulledF P :=
  match s.events with
  | e :: es => ⟨.ok (some e), none, { s with events := es }⟩
  | [] =>
    match s.request nf o from' with
    | .error e => ⟨.error (.src e), none, s⟩
    | .ok ps => ⟨(s.answerF nf o ft from' (resp ps)).1, some ps, (s.answerF nf o ft from' (resp ps)).2⟩

/-- One pull of a consumer as in `FWorld.step`. On an error of the database it pulls on, or makes the source anew from the
database if `anew` says how. Only other errors count as failures. A block whose insertion failed does not count as delivered. -/
def FWorld.stepDb (pt : Key → Option P) (nf : Block → Option P) (anew : Option (Orders × (List Ref → List Ref)))
    (w : FWorld P) (a : (Nat → Fault) × Orders × (List P → Except Unit (Option Ev))) : FWorld P :=
  let r := w.src.pullF nf a.2.1 a.1 (position pt w.chain) a.2.2
  match r.res with
  | .error .db =>
    let w' : FWorld P := ⟨r.src, w.chain, (if a.1 0 = .fine then heard a.2.2 r.asked else []) ++ w.got, w.failed⟩
    match anew with
    | none => w'
    | some (o, it) => w'.step pt nf (.restart o it)
  | .error (.src e) => ⟨r.src, w.chain, heard a.2.2 r.asked ++ w.got, (ffailure (P := P) (.error e)).or w.failed⟩
  | .ok x => ⟨r.src, follow pt w.chain (.ok x), heard a.2.2 r.asked ++ w.got, w.failed⟩

/-- A list of pulls. -/
def FWorld.runDb (pt : Key → Option P) (nf : Block → Option P) (anew : Option (Orders × (List Ref → List Ref)))
    (w : FWorld P) (as : List ((Nat → Fault) × Orders × (List P → Except Unit (Option Ev)))) : FWorld P :=
  as.foldl (FWorld.stepDb pt nf anew) w

/-! ## Lemmas -/

theorem tipChecks_withDb (nf : Block → Option P) (m : MV) (d : AMap (List UInt8) Block) :
    ∀ rs : List Ref, tipChecks nf (m.withDb d) rs = tipChecks nf m rs
  | [] => rfl
  | r :: rs => by
    simp only [tipChecks, show (m.withDb d).get r.key = m.get r.key from rfl, tipChecks_withDb nf m d rs]

theorem walkPrev_withDb (m : MV) (d : AMap (List UInt8) Block) : ∀ (n : Nat) (k : Key), walkPrev (m.withDb d) n k = walkPrev m n k
  | 0, _ => rfl
  | n + 1, k => by
    simp only [walkPrev, show (m.withDb d).get k = m.get k from rfl, walkPrev_withDb m d n]

theorem walkNew_withDb (nf : Block → Option P) (m : MV) (d : AMap (List UInt8) Block) (prev : List Key) :
    ∀ (n : Nat) (k : Key) (st : List (FEv P)), walkNew nf (m.withDb d) prev n k st = walkNew nf m prev n k st
  | 0, _, _ => rfl
  | n + 1, k, st => by
    simp only [walkNew, show (m.withDb d).get k = m.get k from rfl, walkNew_withDb nf m d prev n]

theorem newEvents_withDb (nf : Block → Option P) (m : MV) (d : AMap (List UInt8) Block) (last : Option Key)
    (from' : Option P) (v : Block) : newEvents nf (m.withDb d) last from' v = newEvents nf m last from' v := by
  unfold newEvents branchEvents
  simp only [walkPrev_withDb, walkNew_withDb]
  rfl

/-- The same source over another database answers the same, asks the same, and becomes the same but for the database. -/
theorem fpull_withDb (nf : Block → Option P) (s : FSrc P) (d : AMap (List UInt8) Block) (o : Orders) (from' : Option P)
    (resp : List P → Except Unit (Option Ev)) :
    ∃ d', (FSrc.pull nf { s with mv := s.mv.withDb d } o from' resp).res = (s.pull nf o from' resp).res ∧
      (FSrc.pull nf { s with mv := s.mv.withDb d } o from' resp).asked = (s.pull nf o from' resp).asked ∧
      (FSrc.pull nf { s with mv := s.mv.withDb d } o from' resp).src =
        { (s.pull nf o from' resp).src with mv := (s.pull nf o from' resp).src.mv.withDb d' } := by
  have hreq : FSrc.request nf { s with mv := s.mv.withDb d } o from' = s.request nf o from' := by
    simp only [FSrc.request, tipChecks_withDb]
    rfl
  unfold FSrc.pull
  simp only
  cases hev : s.events with
  | cons e es => exact ⟨d, rfl, rfl, rfl⟩
  | nil =>
    simp only
    have hreq' : FSrc.request nf ⟨s.mv.withDb d, s.depth, s.confirmed, s.last, []⟩ o from' = s.request nf o from' := by
      rw [← hev]; exact hreq
    rw [hreq']
    cases s.request nf o from' with
    | error e => exact ⟨d, rfl, rfl, by rw [← hev]⟩
    | ok ps =>
      simp only
      have key : ∀ x, ∃ d', (FSrc.answer nf ⟨s.mv.withDb d, s.depth, s.confirmed, s.last, []⟩ o from' x).1 = (s.answer nf o from' x).1 ∧
          (FSrc.answer nf ⟨s.mv.withDb d, s.depth, s.confirmed, s.last, []⟩ o from' x).2 =
            { (s.answer nf o from' x).2 with mv := (s.answer nf o from' x).2.mv.withDb d' } := by
        intro x
        cases x with
        | error e => exact ⟨d, rfl, by rw [← hev]; rfl⟩
        | ok x =>
          cases x with
          | none => exact ⟨d, rfl, by rw [← hev]; rfl⟩
          | some ev =>
            cases ev with
            | tip n => exact ⟨d, rfl, by rw [← hev]; rfl⟩
            | block v =>
              simp only [FSrc.answer, show (s.mv.withDb d).get v.id = s.mv.get v.id from rfl]
              by_cases hg : (s.mv.get v.id).isSome
              · simp only [if_pos hg]
                exact ⟨d, trivial, by rw [← hev]⟩
              · simp only [if_neg hg]
                have hno : AMap.get s.mv.all v.id = none := by
                  cases hh : AMap.get s.mv.all v.id with
                  | none => rfl
                  | some x =>
                    exfalso
                    apply hg
                    unfold MV.get
                    rw [hh]
                    rfl
                obtain ⟨d', h1⟩ := insertAndGc_withDb s.mv d o s.depth v hno
                unfold FSrc.store
                simp only [h1]
                cases insertAndGc s.mv o s.depth v with
                | error e => exact ⟨d, rfl, by rw [← hev]; rfl⟩
                | ok x =>
                  simp only [Except.map, newEvents_withDb]
                  cases newEvents nf x.2 s.last from' v with
                  | error e => exact ⟨d, rfl, by simp only [hev]⟩
                  | ok l =>
                    cases l with
                    | nil => exact ⟨d, rfl, by simp only [hev]⟩
                    | cons e es => exact ⟨d', rfl, rfl⟩
      obtain ⟨d', h1, h2⟩ := key (resp ps)
      exact ⟨d', h1, trivial, h2⟩

end Verif.Sources
