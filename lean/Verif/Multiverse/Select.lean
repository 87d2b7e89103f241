import Verif.Multiverse.Spec

/-!
# Selection of the best block, in terms of the specification
-/

namespace Verif.Multiverse

variable {B : Key → Block} {m : MV} {S : Tree}

/-- The block selected is stored and is the ancestor, `depth` links up, of a stored block of
maximal number; nothing is selected if there is no such ancestor or nothing is stored. `order` is the
order of iteration over a hash set. -/
theorem Rel.selected (hr : Rel B m S) {held : Nat → Bool} (hs : NoStale m held) {order : List Ref → List Ref}
    (ho : ∀ l, (order l).Perm l) (depth ageGap : Nat) :
    ∃ sel disc, m.selectBest held order depth ageGap = .ok (sel, disc) ∧
      (∀ r, sel = some r → (S r.key).isSome) ∧
      ((sel = none ∧ ∀ k, S k = none) ∨
        ∃ top, (S top).isSome ∧ (∀ k, (S k).isSome → (B k).number ≤ (B top).number) ∧
          sel.map Ref.key = specAncestor B S depth top) := by
  unfold MV.selectBest MV.candidate
  cases hl : m.ordered.getLast? with
  | none =>
    rw [List.getLast?_eq_none_iff] at hl
    refine ⟨none, [], rfl, by simp, .inl ⟨rfl, fun k => ?_⟩⟩
    by_contra hk
    obtain ⟨s, r, h1, _⟩ := (hr.ordered (B k).number k).2 ⟨by simpa using Option.isSome_iff_ne_none.2 hk, rfl⟩
    rw [hl] at h1
    cases h1
  | some x =>
    obtain ⟨n, s⟩ := x
    have hmem : (n, s) ∈ m.ordered := List.mem_of_getLast? hl
    have hne := hr.mem.ordNe n s hmem
    cases hh : (order s).head? with
    | none =>
      rw [List.head?_eq_none_iff] at hh
      have := ho s
      rw [hh] at this
      exact absurd (List.nil_perm.1 this) hne
    | some tip =>
      have htip : tip ∈ s := (ho s).mem_iff.1 (List.mem_of_head? hh)
      obtain ⟨e, h1, h2⟩ := (hr.mem.ordMem n tip).1 ⟨s, hmem, htip⟩
      obtain ⟨x, h3, h4, h5⟩ := hr.ancestor hs depth tip ⟨e, h1⟩
      have hmax : ∀ k, (S k).isSome → (B k).number ≤ (B tip.key).number := by
        intro k hk
        obtain ⟨s', r, h6, _⟩ := (hr.ordered (B k).number k).2 ⟨hk, rfl⟩
        rw [h2]
        obtain ⟨l0, hl0⟩ := List.getLast?_eq_some_iff.1 hl
        have hsort := hr.mem.ordSorted
        rw [hl0] at h6 hsort
        rw [List.pairwise_append] at hsort
        rcases List.mem_append.1 h6 with h7 | h7
        · exact le_of_lt (hsort.2.2 _ h7 (n, s) (by simp))
        · simp only [List.mem_singleton, Prod.mk.injEq] at h7
          exact le_of_eq h7.1
      have hst : (S tip.key).isSome := hr.stored ⟨e, h1⟩
      simp only [hh, h3]
      cases x with
      | none => exact ⟨none, [], rfl, by simp, .inr ⟨tip.key, hst, hmax, h4⟩⟩
      | some y =>
        refine ⟨some y, _, rfl, fun r hr' => ?_, .inr ⟨tip.key, hst, hmax, h4⟩⟩
        rw [← Option.some.inj hr']
        exact hr.stored (h5 y rfl)

/-- The blocks to discard are exactly the stored blocks whose number is below the selected block's
number minus the age gap; there are none if nothing is selected. -/
theorem Rel.discarded (hr : Rel B m S) {held : Nat → Bool} (hs : NoStale m held) {order : List Ref → List Ref}
    (ho : ∀ l, (order l).Perm l) {depth ageGap : Nat} {sel : Option Ref} {disc : List Ref}
    (hsel : m.selectBest held order depth ageGap = .ok (sel, disc)) :
    (sel = none → disc = []) ∧
    ∀ r, sel = some r → ∀ k, k ∈ disc.map Ref.key ↔
      (S k).isSome ∧ (B k).number < (B r.key).number - ageGap := by
  obtain ⟨sel', disc', h1, hst, _⟩ := hr.selected hs ho depth ageGap
  rw [h1] at hsel
  obtain ⟨rfl, rfl⟩ := Prod.mk.inj (Except.ok.inj hsel)
  unfold MV.selectBest at h1
  cases hc : m.candidate held order depth with
  | error e => rw [hc] at h1; cases h1
  | ok x =>
    cases x with
    | none =>
      simp only [hc] at h1
      obtain ⟨rfl, rfl⟩ := Prod.mk.inj (Except.ok.inj h1)
      exact ⟨fun _ => rfl, fun r hr => by cases hr⟩
    | some y =>
      simp only [hc] at h1
      obtain ⟨rfl, rfl⟩ := Prod.mk.inj (Except.ok.inj h1)
      refine ⟨fun hh => (by cases hh), fun r hr' k => ?_⟩
      cases hr'
      have hd := hr.get_all y.key
      rw [hst y rfl] at hd
      obtain ⟨⟨a, e⟩, hg⟩ := Option.isSome_iff_exists.1 hd
      unfold MV.discarded MV.below
      rw [hg]
      simp only [List.mem_map, List.mem_flatten, List.mem_filter, decide_eq_true_eq,
        (hr.mem.val _ _ _ hg).1]
      constructor
      · rintro ⟨r, ⟨l, ⟨z, ⟨h2, h3⟩, rfl⟩, h5⟩, rfl⟩
        obtain ⟨h6, h7⟩ := (hr.ordered z.1 r.key).1 ⟨z.2, r, h2, h5, rfl⟩
        exact ⟨h6, by rw [h7]; exact h3⟩
      · rintro ⟨h2, h3⟩
        obtain ⟨s, r, h4, h5, h6⟩ := (hr.ordered _ k).2 ⟨h2, rfl⟩
        exact ⟨r, ⟨s, ⟨(_, s), ⟨h4, h3⟩, rfl⟩, h5⟩, h6⟩

theorem iterLoop_spec {B : Key → Block} {m : MV} {L : Key → Option Bool} (h : Mem B m L)
    {order : List Ref → List Ref} (ho : ∀ l, (order l).Perm l) :
    ∀ l : List (Nat × List Ref), (∀ x ∈ l, x ∈ m.ordered) →
      (m.iterLoop order l).map Block.number = l.map Prod.fst ∧
      ∀ b ∈ m.iterLoop order l, ∃ k, b = B k ∧ (L k).isSome
  | [], _ => ⟨rfl, by simp [MV.iterLoop]⟩
  | (n, s) :: l, hl => by
    obtain ⟨h1, h2⟩ := iterLoop_spec h ho l (fun x hx => hl x (List.mem_cons_of_mem _ hx))
    have hmem := hl (n, s) (by simp)
    rw [MV.iterLoop]
    cases hh : (order s).head? with
    | none =>
      rw [List.head?_eq_none_iff] at hh
      have := ho s
      rw [hh] at this
      exact absurd (List.nil_perm.1 this) (h.ordNe n s hmem)
    | some r =>
      have hr : r ∈ s := (ho s).mem_iff.1 (List.mem_of_head? hh)
      obtain ⟨e, h3, h4⟩ := (h.ordMem n r).1 ⟨s, hmem, hr⟩
      have hv := (h.val _ _ _ h3).1
      simp only [h3]
      refine ⟨by rw [List.map_cons, List.map_cons, h1, hv, h4], fun b hb => ?_⟩
      rcases List.mem_cons.1 hb with rfl | hb
      · exact ⟨r.key, hv, by rw [← h.dom, h3]; rfl⟩
      · exact h2 b hb

/-- What the iterator visits. -/
theorem Rel.iter {B : Key → Block} {m : MV} {S : Tree} (hr : Rel B m S) {order : List Ref → List Ref}
    (ho : ∀ l, (order l).Perm l) :
    (m.iter order).Pairwise (fun a b => a.number < b.number) ∧
    (∀ b ∈ m.iter order, ∃ k, b = B k ∧ (S k).isSome) ∧
    (∀ k, (S k).isSome → ∃ b ∈ m.iter order, b.number = (B k).number) := by
  obtain ⟨h1, h2⟩ := iterLoop_spec hr.mem ho m.ordered (fun _ hx => hx)
  refine ⟨?_, fun b hb => ?_, fun k hk => ?_⟩
  · have : ((m.iter order).map Block.number).Pairwise (· < ·) := by
      unfold MV.iter
      rw [h1, List.pairwise_map]
      exact hr.mem.ordSorted
    rwa [List.pairwise_map] at this
  · obtain ⟨k, h3, h4⟩ := h2 b hb
    exact ⟨k, h3, by simpa using h4⟩
  · obtain ⟨s, r, h4, _⟩ := (hr.ordered _ k).2 ⟨hk, rfl⟩
    have : (B k).number ∈ (m.iter order).map Block.number := by
      unfold MV.iter
      rw [h1]
      exact List.mem_map.2 ⟨_, h4, rfl⟩
    obtain ⟨b, h5, h6⟩ := List.mem_map.1 this
    exact ⟨b, h5, h6⟩

end Verif.Multiverse
