import Verif.Props.Multiverse

/-!
# C94: two blocks under one identifier

The histories of C15-C22 insert at most one block under each identifier. Here a history is followed by
the insertion of another block under an identifier that is stored.
-/

namespace Verif.Props

open Verif.Multiverse

/-- C94: another block with the same number is not taken over: all answers stay as they are. -/
theorem C94_same_number {B : Key → Block} {sf : Nat} {ops : List Op} {m : MV} {S : Tree}
    (h : MvAfter B sf ops m S) {u v : Block} (hu : m.get v.id = some u) (hn : v.number = u.number) :
    ∃ m', m.insert v = .ok m' ∧ m'.all = m.all ∧ m'.ordered = m.ordered ∧ m'.tips = m.tips ∧
      m'.roots = m.roots ∧
      (∀ kb, AMap.get m'.db kb =
        if m.storeFrom ≤ v.number ∧ kb = mkKey v.number v.id then some v else AMap.get m.db kb) := by
  have hr := h.rel.1
  have hg := hr.get v.id
  rw [hu] at hg
  have hS : (S v.id).isSome := by
    by_contra hc
    rw [if_neg hc] at hg
    cases hg
  rw [if_pos hS] at hg
  cases hg
  obtain ⟨b, hb⟩ := Option.isSome_iff_exists.1 hS
  have hsome : (AMap.get m.all v.id).isSome := by rw [hr.get_all]; exact hS
  unfold MV.insert MV.dbInsert
  by_cases hs : m.storeFrom ≤ v.number
  · have hsv : b.saved = true := by
      cases hh : b.saved with
      | true => rfl
      | false =>
        have := hr.unsaved _ _ hb hh
        omega
    have hg : AMap.get m.db (mkKey v.number v.id) = some (B v.id) :=
      (hr.db _ _).2 ⟨v.id, b, hb, hsv, by rw [hn], rfl⟩
    simp only [hs, if_true, hg, Option.isNone_some, hsome, and_self, true_and]
    refine ⟨_, rfl, rfl, rfl, rfl, rfl, fun kb => ?_⟩
    simp only [AMap.get_insert]
    by_cases he : kb = mkKey v.number v.id
    · rw [if_pos he.symm, if_pos he]
    · rw [if_neg (fun e => he e.symm), if_neg he]
  · simp only [hs, if_false, hsome, and_self, if_true, false_and]
    exact ⟨_, rfl, rfl, rfl, rfl, rfl, fun _ => rfl⟩

/-- C94: another block, with another number, that is to be saved, whose identifier is that of a root and
whose parent is not stored, makes the insertion panic. -/
theorem C94_root_panics {B : Key → Block} {sf : Nat} {ops : List Op} {m : MV} {S : Tree}
    (h : MvAfter B sf ops m S) {u v : Block} (hu : m.get v.id = some u) (hn : v.number ≠ u.number)
    (h64 : v.number < 2 ^ 64) (hsf : m.storeFrom ≤ v.number) (hp : m.contains v.parent = false)
    (hroot : hasKey m.roots v.id = true) : m.insert v = .error .panic := by
  have hr := h.rel.1
  have hg := hr.get v.id
  rw [hu] at hg
  have hS : (S v.id).isSome := by
    by_contra hc
    rw [if_neg hc] at hg
    cases hg
  rw [if_pos hS] at hg
  cases hg
  have hdb : AMap.get m.db (mkKey v.number v.id) = none := by
    cases hd : AMap.get m.db (mkKey v.number v.id) with
    | none => rfl
    | some w =>
      obtain ⟨k, b, h1, _, h3, _⟩ := (hr.db _ _).1 hd
      have := mkKey_inj h64 (hr.num k b h1) h3
      rw [this.2] at hn
      exact absurd this.1 hn
  unfold MV.contains at hp
  unfold MV.insert MV.dbInsert
  simp only [hsf, if_true, hdb, Option.isNone_none, Bool.true_eq_false, false_and, if_false]
  unfold MV.insertMem
  simp only
  cases hx : AMap.get m.all v.parent with
  | some x => rw [hx] at hp; cases hp
  | none => simp [hroot]

/-- The hypotheses are met in the sample: block `[0]` is a root, `[2]` is not. -/
example : ∃ m S, MvAfter forkB 0 forkOps m S ∧ m.get [0] = some ⟨[0], [9], 0, 0⟩ ∧
    m.get [2] = some ⟨[2], [0], 1, 0⟩ ∧ hasKey m.roots [0] = true ∧ m.contains [7] = false := by
  obtain ⟨m, h1, _⟩ := C15_refines fork_hist
  refine ⟨m, _, ⟨fork_hist, h1, rfl⟩, ?_⟩
  have e1 : ((mvRun (MV.empty [] 0) forkOps).map (fun m =>
      (m.get [0], m.get [2], hasKey m.roots [0], m.contains [7]))).toOption =
    some (some ⟨[0], [9], 0, 0⟩, some ⟨[2], [0], 1, 0⟩, true, false) := by decide +kernel
  rw [h1] at e1
  have e2 := Option.some.inj e1
  simp only [Prod.mk.injEq] at e2
  exact e2

/-- **C94 is false**: what was not taken over is on disk. After reopening the other block is found. -/
theorem C94_disk_false : ∃ (m m1 m2 : MV) (v : Block), (∃ S, MvAfter forkB 0 forkOps m S) ∧
    m.insert v = .ok m1 ∧ m1.get v.id = some (forkB v.id) ∧ v ≠ forkB v.id ∧
    loadFrom m1.db 0 = .ok m2 ∧ m2.get v.id = some v := by
  obtain ⟨m, h1, _⟩ := C15_refines fork_hist
  have e1 : ((mvRun (MV.empty [] 0) forkOps).bind (fun m => (m.insert ⟨[2], [0], 1, 5⟩).bind (fun m1 =>
      (loadFrom m1.db 0).map (fun m2 => (m1.get [2], m2.get [2]))))).toOption =
    some (some (forkB [2]), some ⟨[2], [0], 1, 5⟩) := by decide +kernel
  rw [h1] at e1
  simp only [Except.bind] at e1
  cases h2 : m.insert ⟨[2], [0], 1, 5⟩ with
  | error e => rw [h2] at e1; cases e1
  | ok m1 =>
    rw [h2] at e1
    simp only at e1
    cases h3 : loadFrom m1.db 0 with
    | error e => rw [h3] at e1; cases e1
    | ok m2 =>
      rw [h3] at e1
      have e2 := Option.some.inj e1
      simp only [Prod.mk.injEq] at e2
      exact ⟨m, m1, m2, ⟨[2], [0], 1, 5⟩, ⟨_, fork_hist, h1, rfl⟩, h2, e2.1, by decide, h3, e2.2⟩

/-- **C94 is false**: an insertion that panics has already put the block on disk, and the store cannot be
opened any more, with any threshold. -/
theorem C94_unopenable_false : ∃ (m : MV) (v : Block), (∃ S, MvAfter forkB 0 forkOps m S) ∧
    m.insert v = .error .panic ∧ ∀ sf, loadFrom (m.dbInsert v).2.db sf = .error .panic := by
  obtain ⟨m, h1, _⟩ := C15_refines fork_hist
  have e1 : mvRun (MV.empty [] 0) forkOps = .ok m := h1
  have e2 : (match mvRun (MV.empty [] 0) forkOps with
      | .ok m => m.insert ⟨[0], [9], 3, 0⟩
      | .error e => .error e) = .error .panic := by rfl
  have e3 : ∀ sf, (match mvRun (MV.empty [] 0) forkOps with
      | .ok m => loadFrom (m.dbInsert ⟨[0], [9], 3, 0⟩).2.db sf
      | .error e => .error e) = .error .panic := by intro sf; rfl
  rw [e1] at e2 e3
  exact ⟨m, ⟨[0], [9], 3, 0⟩, ⟨_, fork_hist, h1, rfl⟩, e2, e3⟩

/-- **C94 is false**: a block taken over under another number is listed under both. After its removal it is
still listed although it is not stored. -/
theorem C94_listed_false : ∃ (m m1 m2 : MV) (v w : Block), (∃ S, MvAfter forkB 0 forkOps m S) ∧
    m.insert v = .ok m1 ∧ m1.remove (fun _ => false) v.id = .ok (w, m2) ∧ m2.contains v.id = false ∧
    ∃ n s r, (n, s) ∈ m2.ordered ∧ r ∈ s ∧ r.key = v.id := by
  obtain ⟨m, h1, _⟩ := C15_refines fork_hist
  have e1 : ((mvRun (MV.empty [] 0) forkOps).bind (fun m => (m.insert ⟨[2], [0], 5, 0⟩).bind (fun m1 =>
      (m1.remove (fun _ => false) [2]).map (fun x => (x.2.contains [2],
        x.2.ordered.any (fun y => y.2.any (fun r => r.key = [2]))))))).toOption =
    some (false, true) := by decide +kernel
  rw [h1] at e1
  simp only [Except.bind] at e1
  cases h2 : m.insert ⟨[2], [0], 5, 0⟩ with
  | error e => rw [h2] at e1; cases e1
  | ok m1 =>
    rw [h2] at e1
    simp only at e1
    cases h3 : m1.remove (fun _ => false) [2] with
    | error e => rw [h3] at e1; cases e1
    | ok x =>
      rw [h3] at e1
      have e2 := Option.some.inj e1
      simp only [Prod.mk.injEq] at e2
      obtain ⟨y, hy, h4⟩ := List.any_eq_true.1 e2.2
      obtain ⟨r, hr, h5⟩ := List.any_eq_true.1 h4
      exact ⟨m, m1, x.2, ⟨[2], [0], 5, 0⟩, x.1, ⟨_, fork_hist, h1, rfl⟩, h2, h3, e2.1, y.1, y.2, r, hy, hr,
        of_decide_eq_true h5⟩

end Verif.Props
