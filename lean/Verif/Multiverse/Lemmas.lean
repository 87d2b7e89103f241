import Verif.Multiverse.Model
import Mathlib.Data.List.Sort

/-!
# The invariant of the multiverse

`Mem` relates the in-memory part of a multiverse to the map `L` that gives for each stored block whether it
is linked to its parent. `B` gives the block with a given identifier.
-/

namespace Verif.Multiverse

/-- The in-memory invariant. -/
structure Mem (B : Key → Block) (m : MV) (L : Key → Option Bool) : Prop where
  nodup : m.all.keys.Nodup
  dom : ∀ k, (AMap.get m.all k).isSome = (L k).isSome
  val : ∀ k a e, AMap.get m.all k = some (a, e) → e.value = B k ∧ (B k).id = k ∧ a < m.nextArc
  arcs : ∀ k k' a e e', AMap.get m.all k = some (a, e) → AMap.get m.all k' = some (a, e') → k = k'
  parent : ∀ k a e r, AMap.get m.all k = some (a, e) → e.parent = some r →
    r.key = (B k).parent ∧ r.arc < a
  weakKey : ∀ k a e r k' e', AMap.get m.all k = some (a, e) → e.parent = some r →
    AMap.get m.all k' = some (r.arc, e') → k' = r.key
  linked : ∀ k a e, AMap.get m.all k = some (a, e) →
    (L k = some true ↔ ∃ r e', e.parent = some r ∧ AMap.get m.all r.key = some (r.arc, e'))
  children : ∀ p a e, AMap.get m.all p = some (a, e) → ∀ r, r ∈ e.children ↔
    ∃ e', AMap.get m.all r.key = some (r.arc, e') ∧ e'.parent = some ⟨p, a⟩
  childNodup : ∀ p a e, AMap.get m.all p = some (a, e) → e.children.Nodup
  tips : ∀ r, r ∈ m.tips ↔ ∃ e, AMap.get m.all r.key = some (r.arc, e) ∧ e.children = []
  roots : ∀ r, r ∈ m.roots → (∃ e, AMap.get m.all r.key = some (r.arc, e)) ∧ L r.key = some false
  ordSorted : m.ordered.Pairwise (fun x y => x.1 < y.1)
  ordMem : ∀ n r, (∃ s, (n, s) ∈ m.ordered ∧ r ∈ s) ↔
    ∃ e, AMap.get m.all r.key = some (r.arc, e) ∧ (B r.key).number = n
  ordNe : ∀ n s, (n, s) ∈ m.ordered → s ≠ []

/-! ### Sets -/

theorem hasKey_iff {s : List Ref} {k : Key} : hasKey s k = true ↔ ∃ r ∈ s, r.key = k := by
  simp [hasKey]

theorem mem_setRemove {s : List Ref} {k : Key} {r : Ref} : r ∈ setRemove s k ↔ r ∈ s ∧ r.key ≠ k := by
  simp [setRemove]

theorem nodup_setRemove {s : List Ref} (h : s.Nodup) (k : Key) : (setRemove s k).Nodup := h.filter _

theorem setInsert_new {s : List Ref} {r : Ref} (h : ∀ x ∈ s, x.key ≠ r.key) : setInsert s r = r :: s := by
  unfold setInsert
  rw [if_neg]
  rw [hasKey_iff]
  rintro ⟨x, hx, he⟩
  exact h x hx he

theorem setInsert_ne_nil (s : List Ref) (r : Ref) : setInsert s r ≠ [] := by
  unfold setInsert
  split
  · rename_i h
    rw [hasKey_iff] at h
    obtain ⟨x, hx, _⟩ := h
    exact List.ne_nil_of_mem hx
  · exact List.cons_ne_nil _ _

theorem mem_addRoots : ∀ {cs roots : List Ref}, (∀ c ∈ cs, ∀ r ∈ roots, r.key ≠ c.key) →
    (cs.map Ref.key).Nodup → ∃ rs, addRoots roots cs = .ok rs ∧ ∀ x, x ∈ rs ↔ x ∈ cs ∨ x ∈ roots
  | [], roots, _, _ => ⟨roots, rfl, by simp⟩
  | c :: cs, roots, h1, h2 => by
    simp only [List.map_cons, List.nodup_cons] at h2
    have hk : ¬ hasKey roots c.key = true := by
      rw [hasKey_iff]
      rintro ⟨x, hx, he⟩
      exact h1 c (by simp) x hx he
    obtain ⟨rs, h3, h4⟩ := mem_addRoots (cs := cs) (roots := c :: roots) (by
      intro d hd r hr he
      rcases List.mem_cons.1 hr with rfl | hr
      · exact h2.1 (List.mem_map.2 ⟨d, hd, he.symm⟩)
      · exact h1 d (List.mem_cons_of_mem _ hd) r hr he) h2.2
    refine ⟨rs, ?_, fun x => ?_⟩
    · rw [addRoots, if_neg hk]
      exact h3
    · rw [h4]
      simp only [List.mem_cons]
      tauto

/-! ### The map by numbers -/

theorem ordInsert_lb {n b : Nat} {r : Ref} : ∀ {l : List (Nat × List Ref)},
    b < n → (∀ x ∈ l, b < x.1) → ∀ x ∈ ordInsert n r l, b < x.1
  | [], hb, _, x, hx => by
    simp only [ordInsert, List.mem_singleton] at hx
    subst hx
    exact hb
  | (m, s) :: rest, hb, h, x, hx => by
    rw [ordInsert] at hx
    split at hx
    · rcases List.mem_cons.1 hx with rfl | hx
      · exact hb
      · exact h x hx
    · split at hx
      · rcases List.mem_cons.1 hx with rfl | hx
        · exact h (m, s) (by simp)
        · exact h x (List.mem_cons_of_mem _ hx)
      · rcases List.mem_cons.1 hx with rfl | hx
        · exact h (m, s) (by simp)
        · exact ordInsert_lb hb (fun y hy => h y (List.mem_cons_of_mem _ hy)) x hx

theorem ordInsert_sorted {n : Nat} {r : Ref} : ∀ {l : List (Nat × List Ref)},
    l.Pairwise (fun x y => x.1 < y.1) → (ordInsert n r l).Pairwise (fun x y => x.1 < y.1)
  | [], _ => by simp [ordInsert]
  | (m, s) :: rest, h => by
    rw [List.pairwise_cons] at h
    rw [ordInsert]
    split
    · rename_i hlt
      rw [List.pairwise_cons, List.pairwise_cons]
      refine ⟨fun y hy => ?_, h⟩
      rcases List.mem_cons.1 hy with rfl | hy
      · exact hlt
      · exact lt_trans hlt (h.1 y hy)
    · split
      · rw [List.pairwise_cons]
        exact h
      · rw [List.pairwise_cons]
        exact ⟨ordInsert_lb (by omega) h.1, ordInsert_sorted h.2⟩

theorem ordInsert_mem {n : Nat} {r : Ref} : ∀ {l : List (Nat × List Ref)},
    (∀ n' s, (n', s) ∈ l → ∀ x ∈ s, x.key ≠ r.key) → ∀ n' x,
    (∃ s, (n', s) ∈ ordInsert n r l ∧ x ∈ s) ↔ (n' = n ∧ x = r) ∨ ∃ s, (n', s) ∈ l ∧ x ∈ s
  | [], _, n', x => by simp [ordInsert]
  | (m, s) :: rest, h, n', x => by
    rw [ordInsert]
    have hs := setInsert_new (h m s (by simp))
    split
    · simp only [List.mem_cons, Prod.mk.injEq]
      constructor
      · rintro ⟨t, (⟨rfl, rfl⟩ | ht), hx⟩
        · simp at hx; exact .inl ⟨rfl, hx⟩
        · exact .inr ⟨t, ht, hx⟩
      · rintro (⟨rfl, rfl⟩ | ⟨t, ht, hx⟩)
        · exact ⟨[x], .inl ⟨rfl, rfl⟩, by simp⟩
        · exact ⟨t, .inr ht, hx⟩
    · split
      · rename_i hnm
        subst hnm
        rw [hs]
        simp only [List.mem_cons, Prod.mk.injEq]
        constructor
        · rintro ⟨t, (⟨rfl, rfl⟩ | ht), hx⟩
          · rcases List.mem_cons.1 hx with rfl | hx
            · exact .inl ⟨rfl, rfl⟩
            · exact .inr ⟨s, .inl ⟨rfl, rfl⟩, hx⟩
          · exact .inr ⟨t, .inr ht, hx⟩
        · rintro (⟨rfl, rfl⟩ | ⟨t, (⟨rfl, rfl⟩ | ht), hx⟩)
          · exact ⟨_, .inl ⟨rfl, rfl⟩, by simp⟩
          · exact ⟨_, .inl ⟨rfl, rfl⟩, List.mem_cons_of_mem _ hx⟩
          · exact ⟨t, .inr ht, hx⟩
      · have ih := ordInsert_mem (n := n) (r := r) (l := rest)
          (fun n' t ht => h n' t (List.mem_cons_of_mem _ ht)) n' x
        simp only [List.mem_cons, Prod.mk.injEq]
        constructor
        · rintro ⟨t, (⟨rfl, rfl⟩ | ht), hx⟩
          · exact .inr ⟨t, .inl ⟨rfl, rfl⟩, hx⟩
          · rcases ih.1 ⟨t, ht, hx⟩ with h | ⟨u, hu, hx⟩
            · exact .inl h
            · exact .inr ⟨u, .inr hu, hx⟩
        · rintro (h1 | ⟨t, (⟨rfl, rfl⟩ | ht), hx⟩)
          · obtain ⟨u, hu, hx⟩ := ih.2 (.inl h1)
            exact ⟨u, .inr hu, hx⟩
          · exact ⟨t, .inl ⟨rfl, rfl⟩, hx⟩
          · obtain ⟨u, hu, hx⟩ := ih.2 (.inr ⟨t, ht, hx⟩)
            exact ⟨u, .inr hu, hx⟩

theorem ordInsert_ne {n : Nat} {r : Ref} : ∀ {l : List (Nat × List Ref)},
    (∀ n' s, (n', s) ∈ l → s ≠ []) → ∀ n' s, (n', s) ∈ ordInsert n r l → s ≠ []
  | [], _, n', s, h => by
    simp only [ordInsert, List.mem_singleton, Prod.mk.injEq] at h
    rw [h.2]
    simp
  | (m, t) :: rest, h, n', s, hs => by
    rw [ordInsert] at hs
    split at hs
    · rcases List.mem_cons.1 hs with he | hs
      · rw [(Prod.mk.inj he).2]; simp
      · exact h n' s hs
    · split at hs
      · rcases List.mem_cons.1 hs with he | hs
        · rw [(Prod.mk.inj he).2]; exact setInsert_ne_nil _ _
        · exact h n' s (List.mem_cons_of_mem _ hs)
      · rcases List.mem_cons.1 hs with he | hs
        · exact h n' s (by rw [he]; simp)
        · exact ordInsert_ne (fun n' s h' => h n' s (List.mem_cons_of_mem _ h')) n' s hs

theorem ordRemove_sub {n : Nat} {k : Key} : ∀ {l : List (Nat × List Ref)} {x},
    x ∈ ordRemove n k l → ∃ y ∈ l, y.1 = x.1
  | (m, s) :: rest, x, hx => by
    rw [ordRemove] at hx
    split at hx
    · split at hx
      · exact ⟨x, List.mem_cons_of_mem _ hx, rfl⟩
      · rcases List.mem_cons.1 hx with rfl | hx
        · exact ⟨(m, s), by simp, rfl⟩
        · exact ⟨x, List.mem_cons_of_mem _ hx, rfl⟩
    · rcases List.mem_cons.1 hx with rfl | hx
      · exact ⟨(m, s), by simp, rfl⟩
      · obtain ⟨y, hy, he⟩ := ordRemove_sub hx
        exact ⟨y, List.mem_cons_of_mem _ hy, he⟩

theorem ordRemove_sorted {n : Nat} {k : Key} : ∀ {l : List (Nat × List Ref)},
    l.Pairwise (fun x y => x.1 < y.1) → (ordRemove n k l).Pairwise (fun x y => x.1 < y.1)
  | [], _ => by simp [ordRemove]
  | (m, s) :: rest, h => by
    rw [List.pairwise_cons] at h
    rw [ordRemove]
    split
    · split
      · exact h.2
      · rw [List.pairwise_cons]; exact h
    · rw [List.pairwise_cons]
      refine ⟨fun y hy => ?_, ordRemove_sorted h.2⟩
      obtain ⟨z, hz, he⟩ := ordRemove_sub hy
      rw [← he]
      exact h.1 z hz

theorem ordRemove_mem {n : Nat} {k : Key} : ∀ {l : List (Nat × List Ref)},
    l.Pairwise (fun x y => x.1 < y.1) → ∀ n' x,
    (∃ s, (n', s) ∈ ordRemove n k l ∧ x ∈ s) ↔ ¬ (n' = n ∧ x.key = k) ∧ ∃ s, (n', s) ∈ l ∧ x ∈ s
  | [], _, n', x => by simp [ordRemove]
  | (m, s) :: rest, h, n', x => by
    rw [List.pairwise_cons] at h
    rw [ordRemove]
    split
    · rename_i hnm
      subst hnm
      have hrest : ∀ t, (n', t) ∈ rest → n' ≠ n := fun t ht he => by
        have := h.1 _ ht
        simp only [he] at this
        omega
      split
      · rename_i hnil
        constructor
        · rintro ⟨t, ht, hx⟩
          exact ⟨fun hh => hrest t ht hh.1, t, List.mem_cons_of_mem _ ht, hx⟩
        · rintro ⟨hne, t, ht, hx⟩
          rcases List.mem_cons.1 ht with he | ht
          · obtain ⟨rfl, rfl⟩ := Prod.mk.inj he
            have : x ∈ setRemove t k := mem_setRemove.2 ⟨hx, fun hk => hne ⟨rfl, hk⟩⟩
            rw [hnil] at this
            cases this
          · exact ⟨t, ht, hx⟩
      · simp only [List.mem_cons, Prod.mk.injEq]
        constructor
        · rintro ⟨t, (⟨rfl, rfl⟩ | ht), hx⟩
          · rw [mem_setRemove] at hx
            exact ⟨fun hh => hx.2 hh.2, s, .inl ⟨rfl, rfl⟩, hx.1⟩
          · exact ⟨fun hh => hrest t ht hh.1, t, .inr ht, hx⟩
        · rintro ⟨hne, t, (⟨rfl, rfl⟩ | ht), hx⟩
          · exact ⟨_, .inl ⟨rfl, rfl⟩, mem_setRemove.2 ⟨hx, fun hk => hne ⟨rfl, hk⟩⟩⟩
          · exact ⟨t, .inr ht, hx⟩
    · rename_i hnm
      have ih := ordRemove_mem (n := n) (k := k) h.2 n' x
      simp only [List.mem_cons, Prod.mk.injEq]
      constructor
      · rintro ⟨t, (⟨rfl, rfl⟩ | ht), hx⟩
        · exact ⟨fun hh => hnm hh.1.symm, t, .inl ⟨rfl, rfl⟩, hx⟩
        · obtain ⟨h1, u, hu, hx⟩ := ih.1 ⟨t, ht, hx⟩
          exact ⟨h1, u, .inr hu, hx⟩
      · rintro ⟨hne, t, (⟨rfl, rfl⟩ | ht), hx⟩
        · exact ⟨t, .inl ⟨rfl, rfl⟩, hx⟩
        · obtain ⟨u, hu, hx⟩ := ih.2 ⟨hne, t, ht, hx⟩
          exact ⟨u, .inr hu, hx⟩

theorem ordRemove_ne {n : Nat} {k : Key} : ∀ {l : List (Nat × List Ref)},
    (∀ n' s, (n', s) ∈ l → s ≠ []) → ∀ n' s, (n', s) ∈ ordRemove n k l → s ≠ []
  | (m, t) :: rest, h, n', s, hs => by
    rw [ordRemove] at hs
    split at hs
    · split at hs
      · exact h n' s (List.mem_cons_of_mem _ hs)
      · rename_i hne
        rcases List.mem_cons.1 hs with he | hs
        · rw [(Prod.mk.inj he).2]; exact hne
        · exact h n' s (List.mem_cons_of_mem _ hs)
    · rcases List.mem_cons.1 hs with he | hs
      · exact h n' s (by rw [he]; simp)
      · exact ordRemove_ne (fun n' s h' => h n' s (List.mem_cons_of_mem _ h')) n' s hs

/-! ### The operations -/

variable {B : Key → Block} {m : MV} {L : Key → Option Bool}

theorem Mem.empty (B : Key → Block) (db : AMap (List UInt8) Block) (sf : Nat) :
    Mem B (MV.empty db sf) (fun _ => none) := by
  constructor <;> simp [MV.empty, AMap.keys]

theorem Mem.clear (B : Key → Block) (m : MV) : Mem B m.clear (fun _ => none) := by
  constructor <;> simp [MV.clear, AMap.keys]

/-- The strong references held by the multiverse are those to stored entries. -/
theorem Mem.refs (h : Mem B m L) (r : Ref) :
    r ∈ m.refs ↔ ∃ e, AMap.get m.all r.key = some (r.arc, e) := by
  unfold MV.refs
  simp only [List.mem_append, List.mem_map, List.mem_flatten]
  constructor
  · rintro ((((⟨x, hx, rfl⟩ | ⟨_, ⟨x, hx, rfl⟩, hr⟩) | ⟨_, ⟨x, hx, rfl⟩, hr⟩) | hr) | hr)
    · exact ⟨x.2.2, AMap.get_of_mem h.nodup (k := x.1) (v := x.2) hx⟩
    · have hg := AMap.get_of_mem h.nodup (k := x.1) (v := (x.2.1, x.2.2)) hx
      obtain ⟨e', he, _⟩ := (h.children _ _ _ hg r).1 hr
      exact ⟨e', he⟩
    · obtain ⟨e, he, _⟩ := (h.ordMem x.1 r).1 ⟨x.2, hx, hr⟩
      exact ⟨e, he⟩
    · obtain ⟨e, he, _⟩ := (h.tips r).1 hr
      exact ⟨e, he⟩
    · exact (h.roots r hr).1
  · rintro ⟨e, he⟩
    exact .inl (.inl (.inl (.inl ⟨(r.key, (r.arc, e)), AMap.mem_of_get he, rfl⟩)))

/-- Change of one value. -/
def upd (L : Key → Option Bool) (k : Key) (x : Option Bool) : Key → Option Bool :=
  fun k' => if k' = k then x else L k'

theorem insertMem_linked (h : Mem B m L) {v : Block} {a : Nat} {e : Entry} (hB : v = B v.id)
    (hnew : AMap.get m.all v.id = none) (hp : AMap.get m.all v.parent = some (a, e)) :
    Mem B (MV.finish { m with
      all := AMap.insert m.all v.parent (a, { e with children := setInsert e.children ⟨v.id, m.nextArc⟩ })
      tips := setRemove m.tips v.parent } v (some ⟨v.parent, a⟩)) (upd L v.id (some true)) := by
  have hne : v.parent ≠ v.id := by
    intro he
    rw [he, hnew] at hp
    cases hp
  have hci : setInsert e.children ⟨v.id, m.nextArc⟩ = ⟨v.id, m.nextArc⟩ :: e.children := by
    apply setInsert_new
    intro x hx he
    obtain ⟨e', h1, _⟩ := (h.children _ _ _ hp x).1 hx
    rw [he, hnew] at h1
    cases h1
  have hti : setInsert (setRemove m.tips v.parent) ⟨v.id, m.nextArc⟩ =
      ⟨v.id, m.nextArc⟩ :: setRemove m.tips v.parent := by
    apply setInsert_new
    intro x hx he
    obtain ⟨e', h1, _⟩ := (h.tips x).1 (mem_setRemove.1 hx).1
    rw [he, hnew] at h1
    cases h1
  have hdom := h.dom
  have hval := h.val
  have harcs := h.arcs
  have hpar := h.parent
  have hlnk := h.linked
  have hchi := h.children
  have hcnd := h.childNodup
  have htip := h.tips
  have hroo := h.roots
  have hidB : (B v.id).id = v.id := by rw [← hB]
  have hpB : (B v.id).parent = v.parent := by rw [← hB]
  have hnB : (B v.id).number = v.number := by rw [← hB]
  rw [hci]
  unfold MV.finish
  simp only [AMap.get_insert, if_neg hne, hnew, Option.map_none, Option.getD_none, hti]
  have hpa := (hval _ _ _ hp).2.2
  constructor
  · exact AMap.nodup_insert (AMap.nodup_insert h.nodup _ _) _ _
  · intro k
    simp only [AMap.get_insert, upd]
    have := hdom k
    by_cases h1 : k = v.id
    · simp [h1]
    · by_cases h2 : k = v.parent
      · subst h2
        rw [hp] at this
        simp only [Ne.symm hne, hne, if_true, if_false]
        simpa using this
      · simp only [Ne.symm h1, Ne.symm h2, h1, if_false]
        exact this
  · intro k a' e'
    simp only [AMap.get_insert]
    grind
  · intro k k' a' e1 e2
    simp only [AMap.get_insert]
    grind
  · intro k a' e' r
    simp only [AMap.get_insert]
    grind
  · intro k a' e' r k' e2
    simp only [AMap.get_insert]
    have hwk := h.weakKey
    intro h1 h2 h3
    by_cases h4 : v.id = k
    · rw [if_pos h4] at h1
      obtain ⟨heq1, heq2⟩ := Prod.mk.inj (Option.some.inj h1); subst heq2
      have h2 := Option.some.inj h2
      subst h2
      by_cases h5 : v.id = k'
      · rw [if_pos h5] at h3
        have := (Prod.mk.inj (Option.some.inj h3)).1
        simp only at this
        omega
      · rw [if_neg h5] at h3
        by_cases h6 : v.parent = k'
        · exact h6.symm
        · rw [if_neg h6] at h3
          exact harcs _ _ _ _ _ h3 hp
    · rw [if_neg h4] at h1
      have hold : ∃ e0, AMap.get m.all k = some (a', e0) ∧ e0.parent = some r := by
        by_cases h5 : v.parent = k
        · rw [if_pos h5] at h1
          obtain ⟨heq1, heq2⟩ := Prod.mk.inj (Option.some.inj h1); subst heq2
          exact ⟨e, by rw [← h5, hp, heq1], h2⟩
        · rw [if_neg h5] at h1
          exact ⟨e', h1, h2⟩
      obtain ⟨e0, h6, h7⟩ := hold
      have h8 := (hpar _ _ _ _ h6 h7).2
      have h9 := (hval _ _ _ h6).2.2
      by_cases h5 : v.id = k'
      · rw [if_pos h5] at h3
        have := (Prod.mk.inj (Option.some.inj h3)).1
        omega
      · rw [if_neg h5] at h3
        by_cases h10 : v.parent = k'
        · rw [if_pos h10] at h3
          obtain ⟨heq1, heq2⟩ := Prod.mk.inj (Option.some.inj h3)
          rw [heq1, h10] at hp
          exact hwk _ _ _ _ _ _ h6 h7 hp
        · rw [if_neg h10] at h3
          exact hwk _ _ _ _ _ _ h6 h7 h3
  · intro k a' e'
    simp only [AMap.get_insert, upd]
    intro hg
    by_cases h1 : v.id = k
    · subst h1
      rw [if_pos rfl] at hg
      cases hg
      simp only [if_pos]
      refine ⟨fun _ => ⟨⟨v.parent, a⟩, { e with children := ⟨v.id, m.nextArc⟩ :: e.children }, rfl, ?_⟩,
        fun _ => trivial⟩
      rw [if_neg (Ne.symm hne), if_pos rfl]
    · rw [if_neg h1] at hg
      rw [if_neg (Ne.symm h1)]
      have hold : ∃ e0, AMap.get m.all k = some (a', e0) ∧ e0.parent = e'.parent := by
        by_cases h2 : v.parent = k
        · subst h2
          rw [if_pos rfl] at hg
          cases hg
          exact ⟨e, hp, rfl⟩
        · rw [if_neg h2] at hg
          exact ⟨e', hg, rfl⟩
      obtain ⟨e0, h3, h4⟩ := hold
      rw [hlnk _ _ _ h3, h4]
      constructor
      · rintro ⟨r, e1, h5, h6⟩
        have h7 : v.id ≠ r.key := by
          intro he
          rw [← he, hnew] at h6
          cases h6
        by_cases h8 : v.parent = r.key
        · rw [← h8, hp] at h6
          obtain ⟨heq1, heq2⟩ := Prod.mk.inj (Option.some.inj h6); subst heq2
          exact ⟨r, _, h5, by rw [if_neg h7, if_pos h8, heq1]⟩
        · exact ⟨r, e1, h5, by rw [if_neg h7, if_neg h8]; exact h6⟩
      · rintro ⟨r, e1, h5, h6⟩
        have h9 := (hpar _ _ _ _ h3 (h4.trans h5)).2
        have h10 := (hval _ _ _ h3).2.2
        by_cases h7 : v.id = r.key
        · rw [if_pos h7] at h6
          have h11 := (Prod.mk.inj (Option.some.inj h6)).1
          omega
        · rw [if_neg h7] at h6
          by_cases h8 : v.parent = r.key
          · rw [if_pos h8] at h6
            have h11 := (Prod.mk.inj (Option.some.inj h6)).1
            exact ⟨r, e, h5, by rw [← h8, hp, h11]⟩
          · rw [if_neg h8] at h6
            exact ⟨r, e1, h5, h6⟩
  · intro p a' e' hg r
    simp only [AMap.get_insert] at hg ⊢
    have hr : r = ⟨r.key, r.arc⟩ := rfl
    by_cases h1 : v.id = p
    · subst h1
      rw [if_pos rfl] at hg
      cases hg
      simp only [List.not_mem_nil, false_iff]
      rintro ⟨e1, h2, h3⟩
      by_cases h4 : v.id = r.key
      · rw [if_pos h4] at h2
        obtain ⟨heq1, heq2⟩ := Prod.mk.inj (Option.some.inj h2); subst heq2
        simp only [Option.some.injEq, Ref.mk.injEq] at h3
        exact hne h3.1
      · rw [if_neg h4] at h2
        by_cases h5 : v.parent = r.key
        · rw [if_pos h5] at h2
          obtain ⟨heq1, heq2⟩ := Prod.mk.inj (Option.some.inj h2); subst heq2
          have := (hpar _ _ _ _ hp h3).2
          simp only at this
          omega
        · rw [if_neg h5] at h2
          have := (hpar _ _ _ _ h2 h3).2
          have := (hval _ _ _ h2).2.2
          simp only at *
          omega
    · rw [if_neg h1] at hg
      by_cases h2 : v.parent = p
      · subst h2
        rw [if_pos rfl] at hg
        cases hg
        simp only [List.mem_cons]
        constructor
        · rintro (rfl | hm)
          · exact ⟨_, by rw [if_pos rfl], rfl⟩
          · obtain ⟨e1, h3, h4⟩ := (hchi _ _ _ hp r).1 hm
            have h7 : v.id ≠ r.key := by
              intro he
              rw [← he, hnew] at h3
              cases h3
            by_cases h8 : v.parent = r.key
            · rw [← h8, hp] at h3
              obtain ⟨heq1, heq2⟩ := Prod.mk.inj (Option.some.inj h3); subst heq2
              exact ⟨{ e with children := ⟨v.id, m.nextArc⟩ :: e.children }, by rw [if_neg h7, if_pos h8, heq1], h4⟩
            · exact ⟨e1, by rw [if_neg h7, if_neg h8]; exact h3, h4⟩
        · rintro ⟨e1, h3, h4⟩
          by_cases h7 : v.id = r.key
          · rw [if_pos h7] at h3
            left
            rw [hr, ← h7, ← (Prod.mk.inj (Option.some.inj h3)).1]
          · rw [if_neg h7] at h3
            right
            rw [hchi _ _ _ hp]
            by_cases h8 : v.parent = r.key
            · rw [if_pos h8] at h3
              obtain ⟨heq1, heq2⟩ := Prod.mk.inj (Option.some.inj h3); subst heq2
              exact ⟨e, by rw [← h8, hp, heq1], h4⟩
            · rw [if_neg h8] at h3
              exact ⟨e1, h3, h4⟩
      · rw [if_neg h2] at hg
        rw [hchi _ _ _ hg]
        constructor
        · rintro ⟨e1, h3, h4⟩
          have h7 : v.id ≠ r.key := by
            intro he
            rw [← he, hnew] at h3
            cases h3
          by_cases h8 : v.parent = r.key
          · rw [← h8, hp] at h3
            obtain ⟨heq1, heq2⟩ := Prod.mk.inj (Option.some.inj h3); subst heq2
            exact ⟨{ e with children := ⟨v.id, m.nextArc⟩ :: e.children }, by rw [if_neg h7, if_pos h8, heq1], h4⟩
          · exact ⟨e1, by rw [if_neg h7, if_neg h8]; exact h3, h4⟩
        · rintro ⟨e1, h3, h4⟩
          by_cases h7 : v.id = r.key
          · rw [if_pos h7] at h3
            obtain ⟨heq1, heq2⟩ := Prod.mk.inj (Option.some.inj h3); subst heq2
            simp only [Option.some.injEq, Ref.mk.injEq] at h4
            exact absurd h4.1 h2
          · rw [if_neg h7] at h3
            by_cases h8 : v.parent = r.key
            · rw [if_pos h8] at h3
              obtain ⟨heq1, heq2⟩ := Prod.mk.inj (Option.some.inj h3); subst heq2
              exact ⟨e, by rw [← h8, hp, heq1], h4⟩
            · rw [if_neg h8] at h3
              exact ⟨e1, h3, h4⟩
  · intro p a' e'
    simp only [AMap.get_insert]
    have hnd := hcnd _ _ _ hp
    have hnm : ⟨v.id, m.nextArc⟩ ∉ e.children := by
      intro hm
      obtain ⟨e1, h3, _⟩ := (hchi _ _ _ hp _).1 hm
      rw [hnew] at h3
      cases h3
    grind
  · intro r
    simp only [AMap.get_insert, List.mem_cons, mem_setRemove, htip]
    have hr : r = ⟨r.key, r.arc⟩ := rfl
    constructor
    · rintro (h1 | ⟨⟨e1, h1, h2⟩, h3⟩)
      · rw [h1]
        exact ⟨_, by rw [if_pos rfl], rfl⟩
      · have h7 : v.id ≠ r.key := by
          intro he
          rw [← he, hnew] at h1
          cases h1
        exact ⟨e1, by rw [if_neg h7, if_neg (Ne.symm h3)]; exact h1, h2⟩
    · rintro ⟨e1, h1, h2⟩
      by_cases h7 : v.id = r.key
      · rw [if_pos h7] at h1
        left
        rw [hr, ← h7, ← (Prod.mk.inj (Option.some.inj h1)).1]
      · rw [if_neg h7] at h1
        by_cases h8 : v.parent = r.key
        · rw [if_pos h8] at h1
          obtain ⟨heq1, heq2⟩ := Prod.mk.inj (Option.some.inj h1); subst heq2
          cases h2
        · rw [if_neg h8] at h1
          exact .inr ⟨⟨e1, h1, h2⟩, Ne.symm h8⟩
  · intro r hr
    simp only [AMap.get_insert, upd]
    obtain ⟨⟨e1, h1⟩, h2⟩ := hroo r hr
    have h7 : v.id ≠ r.key := by
      intro he
      rw [← he, hnew] at h1
      cases h1
    rw [if_neg h7, if_neg (Ne.symm h7)]
    refine ⟨?_, h2⟩
    by_cases h8 : v.parent = r.key
    · rw [if_pos h8]
      rw [← h8, hp] at h1
      obtain ⟨heq1, heq2⟩ := Prod.mk.inj (Option.some.inj h1); subst heq2
      exact ⟨_, by rw [heq1]⟩
    · rw [if_neg h8]
      exact ⟨e1, h1⟩
  · exact ordInsert_sorted h.ordSorted
  · intro n r
    simp only [AMap.get_insert]
    have hr : r = ⟨r.key, r.arc⟩ := rfl
    rw [ordInsert_mem, h.ordMem]
    · constructor
      · rintro (⟨h1, h2⟩ | ⟨e1, h1, h2⟩)
        · rw [h2]
          exact ⟨_, by rw [if_pos rfl], by rw [h1]; exact hnB⟩
        · have h7 : v.id ≠ r.key := by
            intro he
            rw [← he, hnew] at h1
            cases h1
          rw [if_neg h7]
          refine Exists.imp (fun _ => fun x => ⟨x, h2⟩) ?_
          by_cases h8 : v.parent = r.key
          · rw [if_pos h8]
            rw [← h8, hp] at h1
            obtain ⟨heq1, heq2⟩ := Prod.mk.inj (Option.some.inj h1); subst heq2
            exact ⟨_, by rw [heq1]⟩
          · rw [if_neg h8]
            exact ⟨e1, h1⟩
      · rintro ⟨e1, h1, h2⟩
        by_cases h7 : v.id = r.key
        · rw [if_pos h7] at h1
          left
          refine ⟨by rw [← h2, ← h7, hnB], ?_⟩
          rw [hr, ← h7, ← (Prod.mk.inj (Option.some.inj h1)).1]
        · rw [if_neg h7] at h1
          right
          by_cases h8 : v.parent = r.key
          · rw [if_pos h8] at h1
            obtain ⟨heq1, heq2⟩ := Prod.mk.inj (Option.some.inj h1); subst heq2
            exact ⟨e, by rw [← h8, hp, heq1], h2⟩
          · rw [if_neg h8] at h1
            exact ⟨e1, h1, h2⟩
    · intro n' s hs x hx he
      obtain ⟨e1, h1, _⟩ := (h.ordMem n' x).1 ⟨s, hs, hx⟩
      simp only at he
      rw [he, hnew] at h1
      cases h1
  · exact ordInsert_ne h.ordNe

theorem insertMem_root (h : Mem B m L) {v : Block} (hB : v = B v.id)
    (hnew : AMap.get m.all v.id = none) :
    Mem B (MV.finish { m with roots := ⟨v.id, m.nextArc⟩ :: m.roots } v none) (upd L v.id (some false)) := by
  have hti : setInsert m.tips ⟨v.id, m.nextArc⟩ = ⟨v.id, m.nextArc⟩ :: m.tips := by
    apply setInsert_new
    intro x hx he
    obtain ⟨e', h1, _⟩ := (h.tips x).1 hx
    rw [he, hnew] at h1
    cases h1
  have hidB : (B v.id).id = v.id := by rw [← hB]
  have hnB : (B v.id).number = v.number := by rw [← hB]
  have hstored : ∀ {r : Ref} {a e}, AMap.get m.all r.key = some (a, e) → v.id ≠ r.key := by
    intro r a e h1 he
    rw [← he, hnew] at h1
    cases h1
  have hval := h.val
  have harcs := h.arcs
  have hpar := h.parent
  unfold MV.finish
  simp only [hnew, Option.map_none, Option.getD_none, hti]
  constructor
  · exact AMap.nodup_insert h.nodup _ _
  · intro k
    simp only [AMap.get_insert, upd]
    have := h.dom k
    by_cases h1 : k = v.id
    · simp [h1]
    · simp only [Ne.symm h1, h1, if_false]
      exact this
  · intro k a' e'
    simp only [AMap.get_insert]
    grind
  · intro k k' a' e1 e2
    simp only [AMap.get_insert]
    grind
  · intro k a' e' r
    simp only [AMap.get_insert]
    grind
  · intro k a' e' r k' e2
    simp only [AMap.get_insert]
    have hwk := h.weakKey
    grind
  · intro k a' e'
    simp only [AMap.get_insert, upd]
    intro hg
    by_cases h1 : v.id = k
    · subst h1
      rw [if_pos rfl] at hg
      cases hg
      simp
    · rw [if_neg h1] at hg
      rw [if_neg (Ne.symm h1), h.linked _ _ _ hg]
      constructor
      · rintro ⟨r, e1, h5, h6⟩
        exact ⟨r, e1, h5, by rw [if_neg (hstored h6)]; exact h6⟩
      · rintro ⟨r, e1, h5, h6⟩
        have h9 := (hpar _ _ _ _ hg h5).2
        have h10 := (hval _ _ _ hg).2.2
        by_cases h7 : v.id = r.key
        · rw [if_pos h7] at h6
          have h11 := (Prod.mk.inj (Option.some.inj h6)).1
          omega
        · rw [if_neg h7] at h6
          exact ⟨r, e1, h5, h6⟩
  · intro p a' e' hg r
    simp only [AMap.get_insert] at hg ⊢
    by_cases h1 : v.id = p
    · subst h1
      rw [if_pos rfl] at hg
      cases hg
      simp only [List.not_mem_nil, false_iff]
      rintro ⟨e1, h2, h3⟩
      by_cases h4 : v.id = r.key
      · rw [if_pos h4] at h2
        obtain ⟨heq1, heq2⟩ := Prod.mk.inj (Option.some.inj h2); subst heq2
        cases h3
      · rw [if_neg h4] at h2
        have := (hpar _ _ _ _ h2 h3).2
        have := (hval _ _ _ h2).2.2
        simp only at *
        omega
    · rw [if_neg h1] at hg
      rw [h.children _ _ _ hg]
      constructor
      · rintro ⟨e1, h3, h4⟩
        exact ⟨e1, by rw [if_neg (hstored h3)]; exact h3, h4⟩
      · rintro ⟨e1, h3, h4⟩
        by_cases h7 : v.id = r.key
        · rw [if_pos h7] at h3
          obtain ⟨heq1, heq2⟩ := Prod.mk.inj (Option.some.inj h3); subst heq2
          cases h4
        · rw [if_neg h7] at h3
          exact ⟨e1, h3, h4⟩
  · intro p a' e'
    simp only [AMap.get_insert]
    have := h.childNodup
    grind
  · intro r
    simp only [AMap.get_insert, List.mem_cons, h.tips]
    have hr : r = ⟨r.key, r.arc⟩ := rfl
    constructor
    · rintro (h1 | ⟨e1, h1, h2⟩)
      · rw [h1]
        exact ⟨_, by rw [if_pos rfl], rfl⟩
      · exact ⟨e1, by rw [if_neg (hstored h1)]; exact h1, h2⟩
    · rintro ⟨e1, h1, h2⟩
      by_cases h7 : v.id = r.key
      · rw [if_pos h7] at h1
        left
        rw [hr, ← h7, ← (Prod.mk.inj (Option.some.inj h1)).1]
      · rw [if_neg h7] at h1
        exact .inr ⟨e1, h1, h2⟩
  · intro r hr
    simp only [AMap.get_insert, upd]
    rcases List.mem_cons.1 hr with h1 | hr
    · rw [h1]
      exact ⟨⟨_, by rw [if_pos rfl]⟩, by rw [if_pos rfl]⟩
    · obtain ⟨⟨e1, h1⟩, h2⟩ := h.roots r hr
      have h7 := hstored h1
      rw [if_neg h7, if_neg (Ne.symm h7)]
      exact ⟨⟨e1, h1⟩, h2⟩
  · exact ordInsert_sorted h.ordSorted
  · intro n r
    simp only [AMap.get_insert]
    have hr : r = ⟨r.key, r.arc⟩ := rfl
    rw [ordInsert_mem, h.ordMem]
    · constructor
      · rintro (⟨h1, h2⟩ | ⟨e1, h1, h2⟩)
        · rw [h2]
          exact ⟨_, by rw [if_pos rfl], by rw [h1]; exact hnB⟩
        · exact ⟨e1, by rw [if_neg (hstored h1)]; exact h1, h2⟩
      · rintro ⟨e1, h1, h2⟩
        by_cases h7 : v.id = r.key
        · rw [if_pos h7] at h1
          left
          refine ⟨by rw [← h2, ← h7, hnB], ?_⟩
          rw [hr, ← h7, ← (Prod.mk.inj (Option.some.inj h1)).1]
        · rw [if_neg h7] at h1
          exact .inr ⟨e1, h1, h2⟩
    · intro n' s hs x hx he
      obtain ⟨e1, h1, _⟩ := (h.ordMem n' x).1 ⟨s, hs, hx⟩
      exact hstored h1 he.symm
  · exact ordInsert_ne h.ordNe

/-- A new block is linked to its parent if that is stored. -/
theorem insertMem_spec (h : Mem B m L) {v : Block} (hB : v = B v.id) (hnew : L v.id = none) :
    ∃ m', m.insertMem v = .ok m' ∧ Mem B m' (upd L v.id (some (L v.parent).isSome)) ∧ m'.db = m.db ∧
      m'.storeFrom = m.storeFrom := by
  have hn : AMap.get m.all v.id = none := by
    have := h.dom v.id
    rw [hnew] at this
    simpa using this
  have hd := h.dom v.parent
  unfold MV.insertMem
  cases hp : AMap.get m.all v.parent with
  | some x =>
    rw [hp] at hd
    rw [← hd]
    exact ⟨_, rfl, insertMem_linked h hB hn hp, rfl, rfl⟩
  | none =>
    rw [hp] at hd
    rw [← hd]
    have hr : ¬ hasKey m.roots v.id = true := by
      rw [hasKey_iff]
      rintro ⟨r, hr, he⟩
      obtain ⟨⟨e, h1⟩, _⟩ := h.roots r hr
      rw [he, hn] at h1
      cases h1
    simp only [if_neg hr]
    exact ⟨_, rfl, insertMem_root h hB hn, rfl, rfl⟩

/-- Removal of a block: the blocks linked to it are no longer linked. -/
def unl (B : Key → Block) (L : Key → Option Bool) (k : Key) : Key → Option Bool :=
  fun k' => if k' = k then none else if (B k').parent = k then (L k').map (fun _ => false) else L k'

/-- A multiverse without the block `k` and without the links to it has the invariant. -/
theorem Mem.without (h : Mem B m L) {k : Key} {a : Nat} {e : Entry} (hk : AMap.get m.all k = some (a, e))
    {m' : MV} (hnd : m'.all.keys.Nodup)
    (hG : ∀ k' a' e', AMap.get m'.all k' = some (a', e') ↔
      k' ≠ k ∧ ∃ e0, AMap.get m.all k' = some (a', e0) ∧ e' = { e0 with children := setRemove e0.children k })
    (hT : ∀ r, r ∈ m'.tips ↔
      r.key ≠ k ∧ ∃ e0, AMap.get m.all r.key = some (r.arc, e0) ∧ setRemove e0.children k = [])
    (hR : ∀ r, r ∈ m'.roots → r.key ≠ k ∧ (r ∈ m.roots ∨ r ∈ e.children))
    (hO : m'.ordered = ordRemove e.value.number k m.ordered) (hA : m'.nextArc = m.nextArc) :
    Mem B m' (unl B L k) := by
  have hG' : ∀ {k' a' e'}, AMap.get m.all k' = some (a', e') → k' ≠ k →
      AMap.get m'.all k' = some (a', { e' with children := setRemove e'.children k }) :=
    fun h1 h2 => (hG _ _ _).2 ⟨h2, _, h1, rfl⟩
  constructor
  · exact hnd
  · intro k'
    have hd := h.dom k'
    unfold unl
    by_cases h1 : k' = k
    · rw [if_pos h1]
      cases h2 : AMap.get m'.all k' with
      | none => rfl
      | some x => exact absurd h1 ((hG k' x.1 x.2).1 h2).1
    · rw [if_neg h1]
      have : (AMap.get m'.all k').isSome = (AMap.get m.all k').isSome := by
        cases h2 : AMap.get m.all k' with
        | some x => rw [hG' (a' := x.1) (e' := x.2) h2 h1]; rfl
        | none =>
          cases h3 : AMap.get m'.all k' with
          | none => rfl
          | some x =>
            obtain ⟨_, e0, h4, _⟩ := (hG k' x.1 x.2).1 h3
            rw [h2] at h4
            cases h4
      rw [this, hd]
      split <;> simp
  · intro k' a' e' h1
    obtain ⟨_, e0, h2, rfl⟩ := (hG _ _ _).1 h1
    rw [hA]
    exact ⟨(h.val _ _ _ h2).1, (h.val _ _ _ h2).2⟩
  · intro k1 k2 a' e1 e2 h1 h2
    obtain ⟨_, e0, h3, _⟩ := (hG _ _ _).1 h1
    obtain ⟨_, e0', h4, _⟩ := (hG _ _ _).1 h2
    exact h.arcs _ _ _ _ _ h3 h4
  · intro k' a' e' r h1 h2
    obtain ⟨_, e0, h3, rfl⟩ := (hG _ _ _).1 h1
    exact h.parent _ _ _ _ h3 h2
  · intro k' a' e' r k2 e2 h1 h2 h3
    obtain ⟨_, e0, h4, rfl⟩ := (hG _ _ _).1 h1
    obtain ⟨_, e0', h5, _⟩ := (hG _ _ _).1 h3
    exact h.weakKey _ _ _ _ _ _ h4 h2 h5
  · intro k' a' e' h1
    obtain ⟨hne, e0, h2, rfl⟩ := (hG _ _ _).1 h1
    have hl := h.linked _ _ _ h2
    unfold unl
    rw [if_neg hne]
    by_cases h3 : (B k').parent = k
    · rw [if_pos h3]
      constructor
      · intro h4
        simp at h4
      · rintro ⟨r, e', h5, h6⟩
        exact absurd ((h.parent _ _ _ _ h2 h5).1.trans h3) ((hG _ _ _).1 h6).1
    · rw [if_neg h3, hl]
      constructor
      · rintro ⟨r, e', h5, h6⟩
        refine ⟨r, _, h5, hG' h6 ?_⟩
        rw [(h.parent _ _ _ _ h2 h5).1]
        exact h3
      · rintro ⟨r, e', h5, h6⟩
        obtain ⟨_, e0', h7, _⟩ := (hG _ _ _).1 h6
        exact ⟨r, e0', h5, h7⟩
  · intro p a' e' h1 r
    obtain ⟨hne, e0, h2, rfl⟩ := (hG _ _ _).1 h1
    simp only [mem_setRemove, h.children _ _ _ h2 r]
    constructor
    · rintro ⟨⟨e', h3, h4⟩, h5⟩
      exact ⟨_, hG' h3 h5, h4⟩
    · rintro ⟨e', h3, h4⟩
      obtain ⟨h5, e1, h6, rfl⟩ := (hG _ _ _).1 h3
      exact ⟨⟨e1, h6, h4⟩, h5⟩
  · intro p a' e' h1
    obtain ⟨hne, e0, h2, rfl⟩ := (hG _ _ _).1 h1
    exact nodup_setRemove (h.childNodup _ _ _ h2) _
  · intro r
    rw [hT]
    constructor
    · rintro ⟨h1, e0, h2, h3⟩
      exact ⟨_, hG' h2 h1, h3⟩
    · rintro ⟨e', h1, h2⟩
      obtain ⟨h3, e0, h4, rfl⟩ := (hG _ _ _).1 h1
      exact ⟨h3, e0, h4, h2⟩
  · intro r hr
    obtain ⟨hne, h1⟩ := hR r hr
    rcases h1 with h1 | h1
    · obtain ⟨⟨e', h2⟩, h3⟩ := h.roots r h1
      refine ⟨⟨_, hG' h2 hne⟩, ?_⟩
      unfold unl
      rw [if_neg hne, h3]
      split <;> rfl
    · obtain ⟨e', h2, h3⟩ := (h.children _ _ _ hk r).1 h1
      refine ⟨⟨_, hG' h2 hne⟩, ?_⟩
      unfold unl
      have h4 := (h.parent _ _ _ _ h2 h3).1
      have h5 := (h.linked _ _ _ h2).2 ⟨_, e, h3, hk⟩
      simp only at h4
      rw [if_neg hne, if_pos h4.symm, h5]
      rfl
  · rw [hO]
    exact ordRemove_sorted h.ordSorted
  · intro n r
    rw [hO, ordRemove_mem h.ordSorted, h.ordMem]
    have hv := (h.val _ _ _ hk).1
    constructor
    · rintro ⟨h1, e', h2, h3⟩
      have hne : r.key ≠ k := by
        intro he
        apply h1
        refine ⟨?_, he⟩
        rw [hv, ← h3, he]
      exact ⟨_, hG' h2 hne, h3⟩
    · rintro ⟨e', h1, h2⟩
      obtain ⟨h3, e0, h4, _⟩ := (hG _ _ _).1 h1
      exact ⟨fun h5 => h3 h5.2, e0, h4, h2⟩
  · rw [hO]
    exact ordRemove_ne h.ordNe

/-- Is the block linked to an entry that is stored? -/
theorem Mem.parent_cases (h : Mem B m L) {k : Key} {a : Nat} {e : Entry}
    (hk : AMap.get m.all k = some (a, e)) :
    (∃ r p, e.parent = some r ∧ AMap.get m.all r.key = some (r.arc, p) ∧ r.key ≠ k ∧ ⟨k, a⟩ ∈ p.children) ∨
    (L k = some false ∧ ∀ r, e.parent = some r → (∀ k' e', AMap.get m.all k' ≠ some (r.arc, e'))) := by
  cases hp : e.parent with
  | none =>
    right
    refine ⟨?_, by simp⟩
    have hd := h.dom k
    have hl := h.linked _ _ _ hk
    rw [hk] at hd
    cases hL : L k with
    | none => rw [hL] at hd; cases hd
    | some b =>
      cases b with
      | false => rfl
      | true =>
        obtain ⟨r, e', h1, _⟩ := hl.1 hL
        rw [hp] at h1
        cases h1
  | some r =>
    have hpar := h.parent _ _ _ _ hk hp
    by_cases hs : ∃ k' e', AMap.get m.all k' = some (r.arc, e')
    · left
      obtain ⟨k', e', h1⟩ := hs
      have := h.weakKey _ _ _ _ _ _ hk hp h1
      subst this
      refine ⟨r, e', rfl, h1, ?_, (h.children _ _ _ h1 _).2 ⟨e, hk, hp⟩⟩
      intro he
      rw [he, hk] at h1
      have := (Prod.mk.inj (Option.some.inj h1)).1
      omega
    · right
      refine ⟨?_, fun r' hr' k' e' h1 => hs ?_⟩
      · have hd := h.dom k
        rw [hk] at hd
        cases hL : L k with
        | none => rw [hL] at hd; cases hd
        | some b =>
          cases b with
          | false => rfl
          | true =>
            obtain ⟨r', e', h1, h2⟩ := (h.linked _ _ _ hk).1 hL
            rw [hp] at h1
            cases h1
            exact absurd ⟨_, _, h2⟩ hs
      · cases hr'
        exact ⟨k', e', h1⟩

/-- Nobody keeps a reference to an entry that was removed and inserted again. -/
def Calm (m : MV) (held : Nat → Bool) (k : Key) : Prop :=
  ∀ a e r a' e', AMap.get m.all k = some (a, e) → e.parent = some r → held r.arc = true →
    AMap.get m.all r.key = some (a', e') → a' = r.arc

theorem remove_spec (h : Mem B m L) {k : Key} {held : Nat → Bool} (hc : Calm m held k)
    (hk : (L k).isSome) :
    ∃ m', m.remove held k = .ok (B k, m') ∧ Mem B m' (unl B L k) ∧
      m'.db = AMap.erase m.db (mkKey (B k).number k) ∧ m'.storeFrom = m.storeFrom := by
  have hd := h.dom k
  rw [hk] at hd
  obtain ⟨⟨a, e⟩, hke⟩ := Option.isSome_iff_exists.1 hd
  have hv := (h.val _ _ _ hke).1
  have hkeys : ∀ p q : Ref, p ∈ e.children → q ∈ e.children → p.key = q.key → p = q := by
    intro p q hp hq he
    obtain ⟨e1, h1, _⟩ := (h.children _ _ _ hke p).1 hp
    obtain ⟨e2, h2, _⟩ := (h.children _ _ _ hke q).1 hq
    rw [he, h2] at h1
    have := (Prod.mk.inj (Option.some.inj h1)).1
    cases p; cases q
    simp only at he this
    rw [he, this]
  have hcne : ∀ c ∈ e.children, c.key ≠ k := by
    intro c hc he
    obtain ⟨e1, h1, h2⟩ := (h.children _ _ _ hke c).1 hc
    have h3 := (h.parent _ _ _ _ h1 h2).2
    rw [he, hke] at h1
    have := (Prod.mk.inj (Option.some.inj h1)).1
    simp only at h3
    omega
  -- the roots
  have horph : ∃ rs, orphan (setRemove m.roots k) (hasKey m.roots k) e.children = .ok rs ∧
      ∀ r ∈ rs, r.key ≠ k ∧ (r ∈ m.roots ∨ r ∈ e.children) := by
    unfold orphan
    by_cases hr : hasKey m.roots k = true
    · rw [if_pos hr]
      obtain ⟨rs, h1, h2⟩ := mem_addRoots (cs := e.children) (roots := setRemove m.roots k) (by
        intro c hc r hr he
        obtain ⟨e1, h3, h4⟩ := (h.children _ _ _ hke c).1 hc
        have h5 := (h.linked _ _ _ h3).2 ⟨_, e, h4, hke⟩
        have h6 := (h.roots r (mem_setRemove.1 hr).1).2
        rw [he, h5] at h6
        cases h6) (List.Nodup.map_on (fun p hp q hq => hkeys p q hp hq) (h.childNodup _ _ _ hke))
      refine ⟨rs, h1, fun r hr => ?_⟩
      rcases (h2 r).1 hr with h3 | h3
      · exact ⟨hcne r h3, .inr h3⟩
      · exact ⟨(mem_setRemove.1 h3).2, .inl (mem_setRemove.1 h3).1⟩
    · rw [if_neg hr]
      exact ⟨_, rfl, fun r hr => ⟨(mem_setRemove.1 hr).2, .inl (mem_setRemove.1 hr).1⟩⟩
  obtain ⟨rs, hrs, hrs2⟩ := horph
  -- the references that are left
  have hrefs : ∀ r ∈ ({ m with all := AMap.erase m.all k, roots := rs } : MV).refs ++
      (if hasKey m.roots k then [] else e.children), ∃ e', AMap.get m.all r.key = some (r.arc, e') := by
    intro r hr
    rcases List.mem_append.1 hr with hr | hr
    · rw [← h.refs]
      unfold MV.refs at hr ⊢
      simp only [List.mem_append, List.mem_map, List.mem_flatten] at hr ⊢
      rcases hr with (((⟨x, hx, rfl⟩ | ⟨l, ⟨x, hx, h1⟩, hr⟩) | hr) | hr) | hr
      · exact .inl (.inl (.inl (.inl ⟨x, (AMap.mem_erase.1 hx).1, rfl⟩)))
      · exact .inl (.inl (.inl (.inr ⟨l, ⟨x, (AMap.mem_erase.1 hx).1, h1⟩, hr⟩)))
      · exact .inl (.inl (.inr hr))
      · exact .inl (.inr hr)
      · rcases (hrs2 r hr).2 with h1 | h1
        · exact .inr h1
        · exact .inl (.inl (.inl (.inr ⟨e.children, ⟨(k, (a, e)), AMap.mem_of_get hke, rfl⟩, h1⟩)))
    · split at hr
      · cases hr
      · obtain ⟨e1, h1, _⟩ := (h.children _ _ _ hke r).1 hr
        exact ⟨e1, h1⟩
  -- children of other entries
  have hother : ∀ k' a' e', AMap.get m.all k' = some (a', e') → e.parent ≠ some ⟨k', a'⟩ →
      setRemove e'.children k = e'.children := by
    intro k' a' e' h1 h2
    apply List.filter_eq_self.2
    intro r hr
    simp only [ne_eq, decide_eq_true_eq]
    intro he
    obtain ⟨e1, h3, h4⟩ := (h.children _ _ _ h1 r).1 hr
    rw [he, hke] at h3
    rw [← (Prod.mk.inj (Option.some.inj h3)).2] at h4
    exact h2 h4
  have hrem : ∀ m2, MV.unlink { m with all := AMap.erase m.all k, roots := rs } held
        (if hasKey m.roots k then [] else e.children) k e.parent = .ok m2 →
      m.remove held k = .ok (B k, MV.dbRemove { m2 with
          ordered := ordRemove e.value.number k m2.ordered
          tips := setRemove m2.tips k } e.value.number k) := by
    intro m2 h1
    unfold MV.remove
    rw [hke]
    simp only [hrs, h1, hv]
  rcases h.parent_cases hke with ⟨r, p, h1, h2, h3, h4⟩ | ⟨h1, h2⟩
  · -- linked to a stored parent
    have hpc : hasKey p.children k = true := hasKey_iff.2 ⟨_, h4, rfl⟩
    have halive : alive (({ m with all := AMap.erase m.all k, roots := rs } : MV).refs ++
        (if hasKey m.roots k then [] else e.children)) held r.arc = true := by
      unfold alive
      rw [Bool.or_eq_true]
      right
      rw [List.any_eq_true]
      refine ⟨r, List.mem_append.2 (.inl ?_), by simp⟩
      unfold MV.refs
      simp only [List.mem_append, List.mem_map]
      exact .inl (.inl (.inl (.inl ⟨(r.key, (r.arc, p)), AMap.mem_erase.2 ⟨AMap.mem_of_get h2, h3⟩, rfl⟩)))
    have hgp : AMap.get (AMap.erase m.all k) r.key = some (r.arc, p) := by
      rw [AMap.get_erase, if_neg (by simpa using Ne.symm h3)]
      exact h2
    have hnt : ¬ hasKey m.tips r.key = true := by
      rw [hasKey_iff]
      rintro ⟨x, hx, he⟩
      obtain ⟨e', h5, h6⟩ := (h.tips x).1 hx
      rw [he, h2] at h5
      rw [← (Prod.mk.inj (Option.some.inj h5)).2] at h6
      rw [h6] at h4
      cases h4
    have hun : MV.unlink { m with all := AMap.erase m.all k, roots := rs } held
        (if hasKey m.roots k then [] else e.children) k e.parent = .ok { m with
          all := AMap.insert (AMap.erase m.all k) r.key (r.arc, { p with children := setRemove p.children k })
          roots := rs
          tips := if setRemove p.children k = [] then r :: m.tips else m.tips } := by
      unfold MV.unlink
      rw [h1]
      simp only [halive, hgp, hpc, if_true]
      by_cases h5 : setRemove p.children k = []
      · simp [h5, hnt]
      · simp only [h5, if_false]
    refine ⟨_, hrem _ hun, ?_, ?_, rfl⟩
    · refine h.without hke ?_ ?_ ?_ ?_ ?_ ?_
      · exact AMap.nodup_insert (AMap.nodup_erase h.nodup _) _ _
      · intro k' a' e'
        simp only [MV.dbRemove, AMap.get_insert, AMap.get_erase]
        by_cases h5 : r.key = k'
        · subst h5
          rw [if_pos rfl]
          simp only [h2, Option.some.injEq, Prod.mk.injEq]
          constructor
          · rintro ⟨rfl, rfl⟩
            exact ⟨h3, p, ⟨rfl, rfl⟩, rfl⟩
          · rintro ⟨_, e0, ⟨rfl, rfl⟩, rfl⟩
            exact ⟨rfl, rfl⟩
        · rw [if_neg h5]
          by_cases h6 : k = k'
          · subst h6
            simp
          · rw [if_neg h6]
            constructor
            · intro h7
              refine ⟨Ne.symm h6, e', h7, ?_⟩
              rw [hother _ _ _ h7]
              intro h8
              rw [h1] at h8
              exact h5 (by rw [Option.some.inj h8])
            · rintro ⟨_, e0, h7, rfl⟩
              rw [hother _ _ _ h7, h7]
              intro h8
              rw [h1] at h8
              exact h5 (by rw [Option.some.inj h8])
      · intro x
        have hxt : x ∈ (if setRemove p.children k = [] then r :: m.tips else m.tips) ↔
            (x = r ∧ setRemove p.children k = []) ∨ x ∈ m.tips := by
          split
          · rename_i h5
            simp [h5]
          · rename_i h5
            simp [h5]
        simp only [MV.dbRemove, mem_setRemove, hxt, h.tips]
        constructor
        · rintro ⟨(⟨rfl, h5⟩ | ⟨e', h5, h6⟩), h7⟩
          · exact ⟨h7, p, h2, h5⟩
          · exact ⟨h7, e', h5, by rw [h6]; rfl⟩
        · rintro ⟨h5, e0, h6, h7⟩
          refine ⟨?_, h5⟩
          by_cases h8 : x.key = r.key
          · left
            rw [h8, h2] at h6
            obtain ⟨h9, rfl⟩ := Prod.mk.inj (Option.some.inj h6)
            cases x; cases r
            simp only at h8 h9
            exact ⟨by rw [h8, h9], h7⟩
          · right
            refine ⟨e0, h6, ?_⟩
            rw [← h7, hother _ _ _ h6]
            intro h9
            rw [h1] at h9
            exact h8 (by rw [Option.some.inj h9])
      · exact hrs2
      · rfl
      · rfl
    · simp only [MV.dbRemove, hv]
  · -- not linked
    have hun : MV.unlink { m with all := AMap.erase m.all k, roots := rs } held
        (if hasKey m.roots k then [] else e.children) k e.parent =
          .ok { m with all := AMap.erase m.all k, roots := rs } := by
      cases hp : e.parent with
      | none => rfl
      | some r =>
        unfold MV.unlink
        simp only
        by_cases hal : alive (({ m with all := AMap.erase m.all k, roots := rs } : MV).refs ++
            (if hasKey m.roots k then [] else e.children)) held r.arc = true
        · rw [if_pos hal]
          have hnone : AMap.get (AMap.erase m.all k) r.key = none := by
            unfold alive at hal
            rw [Bool.or_eq_true, List.any_eq_true] at hal
            rcases hal with hh | ⟨x, hx, hxa⟩
            · rw [AMap.get_erase]
              split
              · rfl
              · cases h5 : AMap.get m.all r.key with
                | none => rfl
                | some y =>
                  have h6 := hc a e r y.1 y.2 hke hp hh h5
                  exact absurd (by rw [h5, ← h6]) (h2 r hp r.key y.2)
            · obtain ⟨e', h5⟩ := hrefs x hx
              simp only [beq_iff_eq] at hxa
              rw [hxa] at h5
              exact absurd h5 (h2 r hp x.key e')
          simp only [hnone]
        · rw [if_neg hal]
    have hno : ∀ k' a' e', AMap.get m.all k' = some (a', e') → e.parent ≠ some ⟨k', a'⟩ := by
      intro k' a' e' h5 h6
      exact h2 _ h6 k' e' h5
    refine ⟨_, hrem _ hun, ?_, ?_, rfl⟩
    · refine h.without hke ?_ ?_ ?_ ?_ ?_ ?_
      · exact AMap.nodup_erase h.nodup _
      · intro k' a' e'
        simp only [MV.dbRemove, AMap.get_erase]
        by_cases h6 : k = k'
        · subst h6
          simp
        · rw [if_neg h6]
          constructor
          · intro h7
            refine ⟨Ne.symm h6, e', h7, ?_⟩
            rw [hother _ _ _ h7 (hno _ _ _ h7)]
          · rintro ⟨_, e0, h7, rfl⟩
            rw [hother _ _ _ h7 (hno _ _ _ h7), h7]
      · intro x
        simp only [MV.dbRemove, mem_setRemove, h.tips]
        constructor
        · rintro ⟨⟨e', h5, h6⟩, h7⟩
          exact ⟨h7, e', h5, by rw [h6]; rfl⟩
        · rintro ⟨h5, e0, h6, h7⟩
          exact ⟨⟨e0, h6, by rw [← h7, hother _ _ _ h6 (hno _ _ _ h6)]⟩, h5⟩
      · exact hrs2
      · rfl
      · rfl
    · simp only [MV.dbRemove, hv]

end Verif.Multiverse
