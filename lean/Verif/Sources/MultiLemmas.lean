import Verif.Sources.Multi
import Verif.Multiverse.Select

/-!
# Insertion and pruning, in terms of the specification of the multiverse
-/

namespace Verif.Sources

open Verif.Multiverse

variable {B : Key → Block} {m : MV} {S : Tree}

theorem unlink_isStored {held : Nat → Bool} {strong : List Ref} {k : Key} {parent : Option Ref} {m' : MV}
    (h : m.unlink held strong k parent = .ok m') {r : Ref} (hr : IsStored m r) : IsStored m' r := by
  unfold MV.unlink at h
  cases parent with
  | none =>
    rw [← Except.ok.inj h]
    exact hr
  | some q =>
    simp only at h
    split at h
    · cases hq : AMap.get m.all q.key with
      | none =>
        simp only [hq] at h
        rw [← Except.ok.inj h]
        exact hr
      | some y =>
        obtain ⟨ap, p⟩ := y
        simp only [hq] at h
        obtain ⟨e0, h0⟩ := hr
        have key : ∀ p1 : Entry, ∃ e, AMap.get (AMap.insert m.all q.key (ap, p1)) r.key =
            some (r.arc, e) := by
          intro p1
          rw [AMap.get_insert]
          split
          · rename_i heq
            rw [← heq, hq] at h0
            obtain ⟨h1, _⟩ := Prod.mk.inj (Option.some.inj h0)
            exact ⟨p1, by rw [h1]⟩
          · exact ⟨e0, h0⟩
        split at h
        · split at h
          · split at h
            · cases h
            · rw [← Except.ok.inj h]
              exact key _
          · rw [← Except.ok.inj h]
            exact key _
        · cases h
    · rw [← Except.ok.inj h]
      exact hr

/-- A removal leaves the other entries where they are. -/
theorem remove_isStored {held : Nat → Bool} {k : Key} {b : Block} {m' : MV}
    (h : m.remove held k = .ok (b, m')) {r : Ref} (hr : IsStored m r) (hk : r.key ≠ k) : IsStored m' r := by
  obtain ⟨e0, h0⟩ := hr
  unfold MV.remove at h
  cases hg : AMap.get m.all k with
  | none => rw [hg] at h; cases h
  | some x =>
    obtain ⟨a, e⟩ := x
    simp only [hg] at h
    cases ho : orphan (setRemove m.roots k) (hasKey m.roots k) e.children with
    | error x => simp only [ho] at h; cases h
    | ok roots2 =>
      simp only [ho] at h
      cases hu : MV.unlink { m with all := AMap.erase m.all k, roots := roots2 } held
          (if hasKey m.roots k then [] else e.children) k e.parent with
      | error x => simp only [hu] at h; cases h
      | ok m2 =>
        simp only [hu] at h
        have hm' := (Prod.mk.inj (Except.ok.inj h)).2
        have hall : m'.all = m2.all := by rw [← hm']; rfl
        have := unlink_isStored hu (r := r) ⟨e0, by
          simp only
          rw [AMap.get_erase, if_neg (fun hh => hk hh.symm)]
          exact h0⟩
        unfold IsStored at this ⊢
        rw [hall]
        exact this

/-- Holding references to stored entries does no harm. -/
theorem Rel.calm (h : Rel B m S) {hs : List Ref} (hst : ∀ r ∈ hs, IsStored m r) (k : Key) :
    Calm m (fun a => hs.any (fun x => x.arc == a)) k := by
  intro a e r a' e' h1 h2 h3 h4
  simp only [List.any_eq_true, beq_iff_eq] at h3
  obtain ⟨q, hq, hqa⟩ := h3
  obtain ⟨e2, h5⟩ := hst q hq
  rw [hqa] at h5
  have h6 := h.mem.weakKey _ _ _ _ _ _ h1 h2 h5
  rw [h6, h4] at h5
  exact (Prod.mk.inj (Option.some.inj h5)).1

/-- Several removals. -/
def specDrop (B : Key → Block) (S : Tree) (R : List Key) : Tree := R.foldl (specRemove B) S

theorem specDrop_apply : ∀ (R : List Key) (S : Tree) (k : Key), specDrop B S R k =
    if k ∈ R then none
    else if (B k).parent ∈ R then (S k).map (fun b => { b with linked := false }) else S k
  | [], S, k => by simp [specDrop]
  | x :: R, S, k => by
    have ih := specDrop_apply R (specRemove B S x) k
    unfold specDrop at ih ⊢
    rw [List.foldl_cons, ih]
    unfold specRemove
    by_cases h1 : k ∈ R
    · simp [h1]
    · by_cases h2 : k = x
      · subst h2
        simp [h1]
      · by_cases h3 : (B k).parent ∈ R
        · by_cases h4 : (B k).parent = x
          · have h5 : x ∈ R := h4 ▸ h3
            simp [h1, h2, h4, h5]
            cases S k <;> simp
          · simp [h1, h2, h3, h4]
        · by_cases h4 : (B k).parent = x
          · have h5 : x ∉ R := h4 ▸ h3
            simp [h1, h2, h4, h5]
          · simp [h1, h2, h3, h4]

theorem Rel.gc : ∀ {rs : List Ref} {keep : List Ref} {m : MV} {S : Tree}, Rel B m S →
    (∀ r ∈ keep ++ rs, IsStored m r) → (rs.map Ref.key).Nodup →
    (∀ r ∈ keep, r.key ∉ rs.map Ref.key) →
    ∃ m', Sources.gc keep m rs = .ok m' ∧ Rel B m' (specDrop B S (rs.map Ref.key)) ∧
      m'.storeFrom = m.storeFrom
  | [], keep, m, S, h, _, _, _ => ⟨m, rfl, h, rfl⟩
  | r :: rs, keep, m, S, h, h1, h2, h3 => by
    have hr : (S r.key).isSome := Rel.stored h (h1 r (by simp))
    obtain ⟨m1, h4, h5, h6⟩ := Rel.remove h (Rel.calm h h1 r.key) hr
    rw [List.map_cons, List.nodup_cons] at h2
    obtain ⟨m2, h7, h8, h9⟩ := Rel.gc (rs := rs) (keep := keep) h5 (by
      intro x hx
      rcases List.mem_append.1 hx with hx' | hx'
      · exact remove_isStored h4 (h1 x (List.mem_append.2 (.inl hx')))
          (fun he => h3 x hx' (by rw [he]; simp))
      · exact remove_isStored h4 (h1 x (List.mem_append.2 (.inr (List.mem_cons_of_mem _ hx'))))
          (fun he => h2.1 (by rw [← he]; exact List.mem_map_of_mem hx'))) h2.2
      (fun x hx hm => h3 x hx (by simp only [List.map_cons, List.mem_cons]; exact .inr hm))
    refine ⟨m2, ?_, h8, h9.trans h6⟩
    simp only [Sources.gc, h4, h7]

/-- The blocks to discard are given by references to stored blocks. -/
theorem Rel.discard_stored (h : Rel B m S) (n : Nat) {r : Ref} (hr : r ∈ m.below n) : IsStored m r := by
  unfold MV.below at hr
  simp only [List.mem_flatten, List.mem_map, List.mem_filter] at hr
  obtain ⟨l, ⟨x, ⟨hx, _⟩, rfl⟩, hl⟩ := hr
  obtain ⟨e, he, _⟩ := (h.mem.ordMem x.1 r).1 ⟨x.2, hx, hl⟩
  exact ⟨e, he⟩

/-- The selected block is given by a reference to a stored block. -/
theorem Rel.selected_stored (h : Rel B m S) {held : Nat → Bool} (hs : NoStale m held)
    {order : List Ref → List Ref} (ho : ∀ l, (order l).Perm l) {depth ageGap : Nat} {r : Ref} {disc : List Ref}
    (hsel : m.selectBest held order depth ageGap = .ok (some r, disc)) :
    IsStored m r ∧ ∀ x ∈ disc, IsStored m x := by
  unfold MV.selectBest MV.candidate at hsel
  cases hl : m.ordered.getLast? with
  | none => simp only [hl] at hsel; cases hsel
  | some x =>
    obtain ⟨n, s⟩ := x
    simp only [hl] at hsel
    have hmem : (n, s) ∈ m.ordered := List.mem_of_getLast? hl
    cases hh : (order s).head? with
    | none => simp only [hh] at hsel; cases hsel
    | some tip =>
      simp only [hh] at hsel
      have htip : tip ∈ s := (ho s).mem_iff.1 (List.mem_of_head? hh)
      obtain ⟨e, h1, h2⟩ := (h.mem.ordMem n tip).1 ⟨s, hmem, htip⟩
      obtain ⟨x, h3, _, h5⟩ := h.ancestor hs depth tip ⟨e, h1⟩
      simp only [h3] at hsel
      cases x with
      | none => cases hsel
      | some y =>
        obtain ⟨h6, rfl⟩ := Prod.mk.inj (Except.ok.inj hsel)
        obtain rfl := Option.some.inj h6
        refine ⟨h5 _ rfl, fun x hx => ?_⟩
        unfold MV.discarded at hx
        split at hx
        · cases hx
        · exact Rel.discard_stored h _ hx

/-- What inserting a new block selects and discards. -/
structure Selected (B : Key → Block) (S1 : Tree) (depth : Nat) (sel : Option Key) (R : List Key) : Prop where
  /-- the selected block is the ancestor at the depth of a block of maximal number. -/
  top : ∃ top, (S1 top).isSome ∧ (∀ k, (S1 k).isSome → (B k).number ≤ (B top).number) ∧
    sel = specAncestor B S1 depth top
  stored : ∀ c, sel = some c → (S1 c).isSome
  /-- the discarded blocks are the stored ones below the parent's number. -/
  discard : ∀ k, k ∈ R ↔ (S1 k).isSome ∧ ∃ c, sel = some c ∧ (B k).number < (B c).number - 1

theorem insertAndSelect_spec (h : Rel B m S) {v : Block} (hv : v = B v.id) (hn : v.number < 2 ^ 64)
    {o : Orders} (ho : o.Ok) (depth : Nat) :
    ∃ m1 sel rs, insertAndSelect m o depth v = .ok (m1, sel, rs) ∧
      Rel B m1 (specInsert m.storeFrom S v) ∧ m1.storeFrom = m.storeFrom ∧
      Selected B (specInsert m.storeFrom S v) depth (sel.map Ref.key) (rs.map Ref.key) ∧
      (∀ r ∈ sel.toList ++ rs, IsStored m1 r) ∧ (rs.map Ref.key).Nodup := by
  obtain ⟨m1, h1, h2, h3⟩ := h.insert hv hn
  have hns : NoStale m1 (fun _ => false) := fun _ _ _ _ _ _ hf => by cases hf
  obtain ⟨sel, disc, h4, h5, h6⟩ := h2.selected hns ho.2.1 depth 1
  have hd := h2.discarded hns ho.2.1 h4
  have hmem : ∀ x, x ∈ discardList o (sel, disc) ↔ x ∈ disc := by
    intro x
    unfold discardList
    rw [(ho.2.2 _).mem_iff, List.mem_dedup]
  have hst : ∀ r ∈ sel.toList ++ disc, IsStored m1 r := by
    intro r hr
    cases sel with
    | none =>
      rw [hd.1 rfl] at hr
      cases hr
    | some y =>
      have := Rel.selected_stored h2 hns ho.2.1 h4
      rcases List.mem_append.1 hr with hr | hr
      · simp only [Option.toList_some, List.mem_singleton] at hr
        rw [hr]
        exact this.1
      · exact this.2 r hr
  refine ⟨m1, sel, discardList o (sel, disc), ?_, h2, h3, ?_, ?_, ?_⟩
  · simp only [insertAndSelect, h1, h4]
  · constructor
    · rcases h6 with ⟨_, h6⟩ | h6
      · have : (specInsert m.storeFrom S v v.id).isSome := by
          unfold specInsert
          split
          · assumption
          · simp
        rw [h6] at this
        cases this
      · exact h6
    · intro c hc
      obtain ⟨r, hr, rfl⟩ := Option.map_eq_some_iff.1 hc
      exact h5 r hr
    · intro k
      rw [List.mem_map]
      simp only [hmem]
      rw [← List.mem_map]
      cases sel with
      | none => simp [hd.1 rfl]
      | some y =>
        rw [hd.2 y rfl]
        simp
  · intro r hr
    rw [List.mem_append, hmem, ← List.mem_append] at hr
    exact hst r hr
  · have hnd : (discardList o (sel, disc)).Nodup := (ho.2.2 _).nodup_iff.2 (List.nodup_dedup _)
    refine (List.nodup_map_iff_inj_on hnd).2 ?_
    intro x hx y hy he
    obtain ⟨e1, h7⟩ := hst x (List.mem_append.2 (.inr ((hmem x).1 hx)))
    obtain ⟨e2, h8⟩ := hst y (List.mem_append.2 (.inr ((hmem y).1 hy)))
    rw [he, h8] at h7
    have := (Prod.mk.inj (Option.some.inj h7)).1
    obtain ⟨xk, xa⟩ := x
    obtain ⟨yk, ya⟩ := y
    simp only at he this
    rw [he, this]

theorem insertAndGc_spec (h : Rel B m S) {v : Block} (hv : v = B v.id) (hn : v.number < 2 ^ 64)
    {o : Orders} (ho : o.Ok) (depth : Nat) :
    ∃ sel R m', insertAndGc m o depth v = .ok (sel, m') ∧
      Rel B m' (specDrop B (specInsert m.storeFrom S v) R) ∧ m'.storeFrom = m.storeFrom ∧
      Selected B (specInsert m.storeFrom S v) depth sel R := by
  obtain ⟨m1, sel, rs, h1, h2, h3, h4, h5, h6⟩ := insertAndSelect_spec h hv hn ho depth
  obtain ⟨m', h7, h8, h9⟩ := Rel.gc h2 h5 h6 (by
    intro r hr hm
    simp only [Option.mem_toList] at hr
    obtain ⟨_, c, hc, hlt⟩ := (h4.discard _).1 hm
    rw [hr] at hc
    obtain rfl := Option.some.inj hc
    omega)
  refine ⟨_, _, m', ?_, h8, h9.trans h3, h4⟩
  simp only [insertAndGc, h1, h7]

theorem insertAndDie_spec (h : Rel B m S) {v : Block} (hv : v = B v.id) (hn : v.number < 2 ^ 64)
    {o : Orders} (ho : o.Ok) (depth n : Nat) :
    ∃ sel R Rn m', insertAndDie m o depth v n = .ok m' ∧ (∀ k ∈ Rn, k ∈ R) ∧
      Rel B m' (specDrop B (specInsert m.storeFrom S v) Rn) ∧ m'.storeFrom = m.storeFrom ∧
      Selected B (specInsert m.storeFrom S v) depth sel R := by
  obtain ⟨m1, sel, rs, h1, h2, h3, h4, h5, h6⟩ := insertAndSelect_spec h hv hn ho depth
  have hnd := h6
  rw [← List.take_append_drop n rs, List.map_append, List.nodup_append] at hnd
  obtain ⟨m', h7, h8, h9⟩ := Rel.gc (keep := sel.toList ++ rs.drop n) (rs := rs.take n) h2 (by
      intro r hr
      rw [List.append_assoc, List.mem_append, List.mem_append] at hr
      rcases hr with hr | hr | hr
      · exact h5 r (List.mem_append.2 (.inl hr))
      · exact h5 r (List.mem_append.2 (.inr (List.mem_of_mem_drop hr)))
      · exact h5 r (List.mem_append.2 (.inr (List.mem_of_mem_take hr)))) hnd.1 (by
    intro r hr hm
    rcases List.mem_append.1 hr with hr | hr
    · simp only [Option.mem_toList] at hr
      obtain ⟨_, c, hc, hlt⟩ := (h4.discard _).1 (by
        rw [← List.take_append_drop n rs, List.map_append]
        exact List.mem_append.2 (.inl hm))
      rw [hr] at hc
      obtain rfl := Option.some.inj hc
      omega
    · exact hnd.2.2 _ hm _ (List.mem_map_of_mem hr) rfl)
  refine ⟨_, _, _, m', ?_, ?_, h8, h9.trans h3, h4⟩
  · simp only [insertAndDie, h1, h7]
  · intro k hk
    rw [← List.take_append_drop n rs, List.map_append]
    exact List.mem_append.2 (.inl hk)

end Verif.Sources
