import Verif.Props.MultiverseOrder
import Verif.Multiverse.Refused

/-!
# C121: taking a block back, and putting it back

A new block is inserted and then removed, or a stored block is removed and then inserted. `SameShown` says that two
multiverses show the same blocks, tips and order by number, and select and discard the same blocks.
-/

namespace Verif.Props

open Verif.Multiverse

theorem fair_snoc : ∀ {ops : List Op} {m m1 : MV} {op : Op}, Fair m ops → mvRun m ops = .ok m1 →
    (∀ k held, op = .remove k held → Calm m1 held k) → Fair m (ops ++ [op])
  | [], m, m1, op, _, h, hc => by
    cases h
    exact ⟨hc, fun _ _ => trivial⟩
  | o :: ops, m, m1, op, hf, h, hc => by
    refine ⟨hf.1, fun m' hm => fair_snoc (hf.2 m' hm) ?_ hc⟩
    unfold mvRun at h
    rw [hm] at h
    exact h

theorem MvAfter.snoc {B : Key → Block} {sf : Nat} {ops : List Op} {m m' : MV} {S : Tree} {op : Op}
    (h : MvAfter B sf ops m S) (hok : OpOk B op) (hc : ∀ k held, op = .remove k held → Calm m held k)
    (hm : mvStep m op = .ok m') : MvAfter B sf (ops ++ [op]) m' (specStep B (m.storeFrom, S) op).2 := by
  have hsf := h.rel.2
  obtain ⟨⟨h1, h2⟩, h3, h4⟩ := h
  refine ⟨⟨fun o ho => ?_, fair_snoc h2 h3 hc⟩, ?_, ?_⟩
  · rcases List.mem_append.1 ho with ho | ho
    · exact h1 o ho
    · rw [List.mem_singleton.1 ho]; exact hok
  · rw [mvRun_append ops [op] h3]
    simp only [mvRun, hm]
  · rw [hsf, h4]
    simp [specRun]

/-- A linked block has its parent stored. -/
theorem linked_parent {B : Key → Block} {sf : Nat} {ops : List Op} {m : MV} {S : Tree} (h : MvAfter B sf ops m S)
    {k : Key} {b : Stored} (hb : S k = some b) (hl : b.linked = true) : (S (B k).parent).isSome := by
  obtain ⟨a, e, r, h1, _⟩ := (C15_links h).2.1 k b hb hl
  rw [← h.rel.1.get_all, h1]
  rfl

/-- Databases of multiverses with the same tree hold the same. -/
theorem same_db {B : Key → Block} {m m' : MV} {S : Tree} (h : Rel B m S) (h' : Rel B m' S) (kb : Key) :
    AMap.get m'.db kb = AMap.get m.db kb :=
  Option.ext fun v => by rw [h.db, h'.db]

/-- C121: a new block can be taken back. Whatever was done before, if a block that is not stored is inserted and then
removed, everything is as if it had never come, on disk too. This holds whatever references to blocks are kept. -/
theorem C121_taken_back {B : Key → Block} {sf : Nat} {ops : List Op} {m : MV} {S : Tree} (h : MvAfter B sf ops m S)
    {v : Block} (hv : v = B v.id) (hn : v.number < 2 ^ 64) (hp : v.parent ≠ v.id) (hnew : m.contains v.id = false)
    (held : Nat → Bool) :
    ∃ m1 m2, m.insert v = .ok m1 ∧ m1.remove held v.id = .ok (v, m2) ∧ SameShown B m m2 ∧
      m2.storeFrom = m.storeFrom ∧ ∀ kb, AMap.get m2.db kb = AMap.get m.db kb := by
  have hr := h.rel.1
  have hS : S v.id = none := by
    have := hr.get_all v.id
    have h0 : (AMap.get m.all v.id).isSome = false := hnew
    rw [h0] at this
    exact Option.not_isSome_iff_eq_none.1 (by rw [← this]; simp)
  obtain ⟨m1, i1, i2, i3⟩ := hr.insert hv hn
  have h1 := h.snoc (op := .insert v) ⟨hv, hn⟩ (fun _ _ he => by cases he) i1
  have e1 : specInsert m.storeFrom S v = fun k => if k = v.id then
      some ⟨(S v.parent).isSome, decide (m.storeFrom ≤ v.number)⟩ else S k := by
    unfold specInsert
    rw [hS]
    rfl
  have hat : specInsert m.storeFrom S v v.id = some ⟨(S v.parent).isSome, decide (m.storeFrom ≤ v.number)⟩ := by
    rw [e1]; simp
  have hcalm : Calm m1 held v.id := by
    intro a e r a' e' g1 g2 _ g4
    have hrk : r.key = v.parent := by
      have := (i2.mem.parent _ _ _ _ g1 g2).1
      rw [← hv] at this
      exact this
    have hpar : (S v.parent).isSome := by
      have := i2.get_all r.key
      rw [g4, hrk, e1] at this
      simp only [if_neg hp] at this
      rw [← this]
      rfl
    obtain ⟨r', e'', q1, q2⟩ := (i2.linked_iff g1).1 ⟨_, hat, hpar⟩
    rw [g2] at q1
    cases q1
    rw [g4] at q2
    cases q2
    rfl
  obtain ⟨m2, j1, j2, j3⟩ := i2.remove hcalm (by rw [hat]; rfl)
  have h2 := h1.snoc (op := .remove v.id held) trivial (fun k hd he => by cases he; exact hcalm)
    (m' := m2) (by simp only [mvStep, j1])
  have e2 : specRemove B (specInsert m.storeFrom S v) v.id = S := by
    funext k
    unfold specRemove
    rw [e1]
    by_cases hk : k = v.id
    · rw [if_pos hk, hk, hS]
    · simp only [if_neg hk]
      by_cases hkp : (B k).parent = v.id
      · rw [if_pos hkp]
        cases hb : S k with
        | none => rfl
        | some b =>
          have : b.linked = false := by
            cases hl : b.linked with
            | false => rfl
            | true =>
              have := linked_parent h hb hl
              rw [hkp, hS] at this
              cases this
          cases b
          simp only at this
          simp [this]
      · rw [if_neg hkp]
  have e3 : (specStep B (m1.storeFrom, (specStep B (m.storeFrom, S) (.insert v)).2) (.remove v.id held)).2 = S := e2
  rw [e3] at h2
  rw [e2] at j2
  exact ⟨m1, m2, i1, by rw [j1, ← hv], same_shown h h2, by rw [j3, i3], same_db hr j2⟩

/-- C121 the other way round: a tip can be removed and put back, if it hung on its parent or the parent is not stored,
and if it is in the database exactly when a block of its number is saved now. -/
theorem C121_put_back_partial {B : Key → Block} {sf : Nat} {ops : List Op} {m : MV} {S : Tree}
    (h : MvAfter B sf ops m S) {v : Block} (hget : m.get v.id = some v) (htip : v.id ∈ m.tips.map Ref.key)
    (hpar : m.get v.parent = none ∨
      ∃ a e r, AMap.get m.all v.parent = some (a, e) ∧ r ∈ e.children ∧ r.key = v.id)
    (hdb : (AMap.get m.db (mkKey v.number v.id)).isSome ↔ m.storeFrom ≤ v.number)
    {held : Nat → Bool} (hc : Calm m held v.id) :
    ∃ m1 m2, m.remove held v.id = .ok (v, m1) ∧ m1.get v.id = none ∧ m1.insert v = .ok m2 ∧ SameShown B m m2 ∧
      m2.storeFrom = m.storeFrom ∧ ∀ kb, AMap.get m2.db kb = AMap.get m.db kb := by
  have hr := h.rel.1
  have hg := hr.get v.id
  rw [hget] at hg
  have hk : (S v.id).isSome := by
    by_contra hk
    rw [if_neg hk] at hg
    cases hg
  rw [if_pos hk] at hg
  have hv : v = B v.id := Option.some.inj hg
  obtain ⟨b, hb⟩ := Option.isSome_iff_exists.1 hk
  have hn : v.number < 2 ^ 64 := by rw [hv]; exact hr.num _ _ hb
  obtain ⟨_, hkids⟩ := (hr.tips v.id).1 htip
  obtain ⟨m1, j1, j2, j3⟩ := hr.remove hc hk
  have h1 := h.snoc (op := .remove v.id held) trivial (fun k hd he => by cases he; exact hc)
    (m' := m1) (by simp only [mvStep, j1])
  obtain ⟨m2, i1, i2, i3⟩ := j2.insert hv hn
  have h2 := h1.snoc (op := .insert v) ⟨hv, hn⟩ (fun _ _ he => by cases he) i1
  have hrem : ∀ k, k ≠ v.id → specRemove B S v.id k = S k := fun k hkv => by
    unfold specRemove
    rw [if_neg hkv]
    by_cases hkp : (B k).parent = v.id
    · rw [if_pos hkp]
      cases hb' : S k with
      | none => rfl
      | some b' =>
        have : b'.linked = false := by
          cases hl : b'.linked with
          | false => rfl
          | true => exact absurd hkp (hkids k b' hb' hl)
        cases b'
        simp only at this
        simp [this]
    · rw [if_neg hkp]
  have hgone : specRemove B S v.id v.id = none := by simp [specRemove]
  have hlink : b.linked = (specRemove B S v.id v.parent).isSome := by
    rcases hpar with hpar | ⟨a, e, r, q1, q2, q3⟩
    · have hpn : ¬ (S v.parent).isSome := fun hh => by
        rw [hr.get, if_pos hh] at hpar
        cases hpar
      have hne : v.parent ≠ v.id := fun hh => hpn (by rw [hh]; exact hk)
      rw [hrem _ hne]
      cases hl : b.linked with
      | false => simpa using hpn
      | true =>
        have := linked_parent h hb hl
        rw [← hv] at this
        exact absurd this hpn
    · obtain ⟨b', c1, c2, _⟩ := (C15_links h).1 _ _ _ _ q1 q2
      rw [q3, hb] at c1
      cases c1
      have hne : v.parent ≠ v.id := fun hh => hkids v.id b hb c2 (by rw [← hv]; exact hh)
      rw [hrem _ hne, c2, ← hr.get_all, q1]
      rfl
  have hsaved : b.saved = decide (m.storeFrom ≤ v.number) := by
    rw [Bool.eq_iff_iff, decide_eq_true_iff, ← hdb]
    constructor
    · intro hs
      rw [(hr.db (mkKey v.number v.id) (B v.id)).2 ⟨v.id, b, hb, hs, by rw [← hv], rfl⟩]
      rfl
    · intro hs
      obtain ⟨w, hw⟩ := Option.isSome_iff_exists.1 hs
      obtain ⟨k, b', g1, g2, g3, rfl⟩ := (hr.db _ _).1 hw
      have hkk : k = v.id := (mkKey_inj hn (hr.num k b' g1) g3).2.symm
      subst hkk
      rw [hb] at g1
      cases g1
      exact g2
  have e2 : specInsert m1.storeFrom (specRemove B S v.id) v = S := by
    unfold specInsert
    rw [hgone, if_neg (by simp)]
    funext k
    by_cases hkv : k = v.id
    · rw [if_pos hkv, hkv, hb, j3, ← hlink, ← hsaved]
    · rw [if_neg hkv, hrem k hkv]
  have e3 : (specStep B (m1.storeFrom, (specStep B (m.storeFrom, S) (.remove v.id held)).2) (.insert v)).2 = S := e2
  rw [e3] at h2
  have j4 := i2
  rw [e2] at i2
  exact ⟨m1, m2, by rw [j1, ← hv], by rw [j2.get, hgone]; rfl, i1, same_shown h h2, by rw [i3, j3], same_db hr i2⟩

/-- C121 is false without the condition: a block that has a child is removed and put back. The child stays apart, the
block counts as a tip, and the child's ancestor is no longer selected. -/
theorem C121_put_back_false : ¬ ∀ (B : Key → Block) (ops : List Op) (m m1 m2 : MV) (S : Tree) (v : Block),
    MvAfter B 0 ops m S → m.get v.id = some v → m.remove (fun _ => false) v.id = .ok (v, m1) → m1.insert v = .ok m2 →
    (∀ k, k ∈ m.tips.map Ref.key ↔ k ∈ m2.tips.map Ref.key) ∨
    (m.selectBest (fun _ => false) id 1 0).map (fun x => x.1.map Ref.key) =
      (m2.selectBest (fun _ => false) id 1 0).map (fun x => x.1.map Ref.key) := by
  intro h
  obtain ⟨m, h1, _⟩ := C15_refines fork_hist
  have ha : MvAfter forkB 0 forkOps m _ := ⟨fork_hist, h1, rfl⟩
  have hs : ((specRun forkB (0, fun _ => none) forkOps).2 [1]).isSome := by decide +kernel
  obtain ⟨m1, h2, h3, _⟩ := ha.rel.1.remove (k := [1]) (held := fun _ => false) (fun _ _ _ _ _ _ _ hf => by cases hf) hs
  obtain ⟨m2, h4, _⟩ := h3.insert (v := forkB [1]) (by rw [forkB_id]) (by decide)
  have e1 : ((mvRun (MV.empty [] 0) forkOps).map (fun m => (m.tips.map Ref.key,
      ((m.selectBest (fun _ => false) id 1 0).map (fun x => x.1.map Ref.key)).toOption))).toOption =
    some ([[3], [2]], some (some [1])) := by decide +kernel
  have e2 : ((mvRun (MV.empty [] 0) (forkOps ++ [.remove [1] fun _ => false, .insert (forkB [1])])).map
      (fun m => (m.tips.map Ref.key,
      ((m.selectBest (fun _ => false) id 1 0).map (fun x => x.1.map Ref.key)).toOption))).toOption =
    some ([[1], [3], [2]], some none) := by decide +kernel
  rw [mvRun_append _ _ h1] at e2
  rw [h1] at e1
  simp only [mvRun, mvStep, h2, h4, Except.map, Except.toOption, Option.some.injEq, Prod.mk.injEq] at e1 e2
  obtain ⟨t1, t3⟩ := e1
  obtain ⟨t2, t4⟩ := e2
  have hg : m.get (forkB [1]).id = some (forkB [1]) := by
    rw [forkB_id, ha.rel.1.get, if_pos hs]
  rcases h forkB forkOps m m1 m2 _ (forkB [1]) ha hg (by rw [forkB_id]; exact h2) h4 with hh | hh
  · have := (hh [1]).2 (by rw [t2]; simp)
    rw [t1] at this
    simp at this
  · have hh := congrArg Except.toOption hh
    simp only [Except.map, Except.toOption] at hh
    rw [t3, t4] at hh
    cases hh

/-- Non-vacuity: the tip of the fork is removed and put back. -/
example : ∃ m m1 m2, mvRun (MV.empty [] 0) forkOps = .ok m ∧ m.remove (fun _ => false) [3] = .ok (forkB [3], m1) ∧
    m1.get [3] = none ∧ m1.insert (forkB [3]) = .ok m2 ∧ SameShown forkB m m2 := by
  obtain ⟨m, h1, _⟩ := C15_refines fork_hist
  have ha : MvAfter forkB 0 forkOps m _ := ⟨fork_hist, h1, rfl⟩
  have hs : ((specRun forkB (0, fun _ => none) forkOps).2 [3]).isSome := by decide +kernel
  have e1 : ((mvRun (MV.empty [] 0) forkOps).map fun m => (m.tips.map Ref.key,
      (AMap.get m.all [1]).map fun x => x.2.children.map Ref.key,
      (AMap.get m.db (mkKey 2 [3])).isSome, m.storeFrom)).toOption =
      some ([[3], [2]], some [[3]], true, 0) := by decide +kernel
  rw [h1] at e1
  simp only [Except.map, Except.toOption, Option.some.injEq, Prod.mk.injEq] at e1
  obtain ⟨t1, t2, t3, t4⟩ := e1
  obtain ⟨x, x1, x2⟩ := Option.map_eq_some_iff.1 t2
  obtain ⟨r, r1, r2⟩ := List.mem_map.1 (show [3] ∈ x.2.children.map Ref.key by rw [x2]; simp)
  obtain ⟨m1, m2, g1, g2, g3, g4, _⟩ := C121_put_back_partial ha (v := forkB [3]) (held := fun _ => false)
    (by rw [forkB_id, ha.rel.1.get, if_pos hs]) (by rw [forkB_id, t1]; simp)
    (.inr ⟨x.1, x.2, r, x1, r1, r2⟩) (by rw [t4]; exact ⟨fun _ => Nat.zero_le _, fun _ => t3⟩)
    (fun _ _ _ _ _ _ _ hf => by cases hf)
  rw [forkB_id] at g1 g2
  exact ⟨m, m1, m2, h1, g1, g2, g3, g4⟩

/-- Non-vacuity: a second root comes to the fork and is taken back. -/
example : ∃ m m1 m2, mvRun (MV.empty [] 0) forkOps = .ok m ∧ m.insert (forkB [7]) = .ok m1 ∧
    m1.remove (fun _ => true) [7] = .ok (forkB [7], m2) ∧ SameShown forkB m m2 := by
  obtain ⟨m, h1, _, _, _, h2, _⟩ := C15_refines fork_hist
  have ha : MvAfter forkB 0 forkOps m _ := ⟨fork_hist, h1, rfl⟩
  have e1 : ((mvRun (MV.empty [] 0) forkOps).map fun m => m.contains [7]).toOption = some false := by decide +kernel
  rw [h1] at e1
  obtain ⟨m1, m2, g1, g2, g3, _⟩ := C121_taken_back ha (v := forkB [7]) (by rw [forkB_id]) (by decide) (by decide)
    (by rw [forkB_id]; exact Option.some.inj e1) (fun _ => true)
  rw [forkB_id] at g2
  exact ⟨m, m1, m2, h1, g1, g2, g3⟩

end Verif.Props
