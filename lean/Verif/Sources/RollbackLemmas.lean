import Verif.Sources.Rollback
import Verif.Sources.MultiInv
import Mathlib.Data.List.Perm.Subperm

/-!
# Lemmas on the fork handling source
-/

namespace Verif.Sources

open Verif.Multiverse

set_option linter.unusedSectionVars false

variable {P : Type} [DecidableEq P] {B : Key → Block} {d : Nat} {r : Key} {D : List Block} {S : Tree} {m : MV}
  {nf : Block → Option P} {p0 : P}

/-! ### What is pruned -/

theorem Inv.anc_number (h : Inv B d r D S) (hf : Feed B r D) (hr : Rel B m S) : ∀ (j : Nat) (u : Block),
    u ∈ D → ∀ c, specAncestor B S j u.id = some c → ∃ w ∈ D, w.id = c ∧ w.number + j = u.number
  | 0, u, hu, c, hc => ⟨u, hu, Option.some.inj hc, rfl⟩
  | j + 1, u, hu, c, hc => by
    rw [specAncestor] at hc
    split at hc
    · rename_i hl
      cases hS : S u.id with
      | none => rw [hS] at hl; cases hl
      | some b =>
        rw [hS] at hl
        have h1 := hr.parent_linked hS (by simpa using hl)
        obtain ⟨w, hw, he⟩ := h.sub _ h1
        rw [← (hf.ok u hu).1] at he hc
        rcases hf.cases hu with h2 | ⟨x, h2, h3, h4⟩
        · exfalso
          refine hf.rootParent w hw ?_
          rw [he, (hf.ok u hu).1, h2]
        · rw [← h3] at hc
          obtain ⟨y, h5, h6, h7⟩ := Inv.anc_number h hf hr j x h2 c hc
          exact ⟨y, h5, h6, by omega⟩
    · cases hc

/-- The discarded blocks are low. -/
theorem Inv.selected_low (h : Inv B d r D S) (hf : Feed B r D) (hr : Rel B m S) {sel : Option Key}
    {R : List Key} (hs : Selected B S d sel R) : ∀ k ∈ R, ∃ x ∈ D, (B k).number + d + 1 < x.number := by
  intro k hk
  obtain ⟨_, c, h1, h2⟩ := (hs.discard k).1 hk
  obtain ⟨top, h3, _, h4⟩ := hs.top
  obtain ⟨t, ht, rfl⟩ := h.sub _ h3
  obtain ⟨w, hw, h5, h6⟩ := h.anc_number hf hr d t ht c (by rw [← h4, h1])
  rw [← h5, ← (hf.ok w hw).1] at h2
  exact ⟨t, ht, by omega⟩

/-- The selected block is the ancestor at the depth of a highest block. -/
theorem Inv.selected_anc (h : Inv B d r D S) (hf : Feed B r D) (hr : Rel B m S) {top : Key} {sel : Option Key}
    (h1 : (S top).isSome) (h2 : ∀ k, (S k).isSome → (B k).number ≤ (B top).number)
    (h3 : sel = specAncestor B S d top) : ∃ x ∈ D, (∀ y ∈ D, y.number ≤ x.number) ∧
      sel = if (B r).number + d ≤ x.number then some (anc B d x.id) else none := by
  obtain ⟨t, ht, rfl⟩ := h.sub _ h1
  have hBt : B t.id = t := (hf.ok t ht).1.symm
  rw [hBt] at h2
  have hmax : ∀ y ∈ D, y.number ≤ t.number := by
    obtain ⟨x, hx, hm⟩ := exists_top (List.ne_nil_of_mem ht)
    have h4 := h2 x.id (h.keep x hx (fun y hy => by
      have := hm y hy
      omega))
    rw [← (hf.ok x hx).1] at h4
    intro y hy
    exact le_trans (hm y hy) h4
  exact ⟨t, ht, hmax, by rw [h3, h.ancestor hf hr ht hmax d t ht le_rfl]⟩

/-- What is left after pruning is not low. -/
theorem Inv.low (h : Inv B d r D S) (hf : Feed B r D) (hr : Rel B m S) {sel : Option Key} {R : List Key}
    (hs : Selected B S d sel R) : ∀ k, (specDrop B S R k).isSome → ∀ x ∈ D, x.number ≤ (B k).number + d + 1 := by
  intro k hk x hx
  rw [specDrop_apply] at hk
  split at hk
  · cases hk
  rename_i hR
  have hS : (S k).isSome := by
    split at hk
    · rwa [Option.isSome_map] at hk
    · exact hk
  obtain ⟨v, hv, rfl⟩ := h.sub k hS
  obtain ⟨top, h1, h2, h3⟩ := hs.top
  obtain ⟨t, ht, hmax, h4⟩ := h.selected_anc hf hr h1 h2 h3
  have hxt := hmax x hx
  have hge := hf.ge hv
  rw [← (hf.ok v hv).1]
  split at h4
  · rename_i hle
    obtain ⟨c, hc, hc1, hc2⟩ := hf.anc d ht hle
    by_contra hlt
    refine hR ((hs.discard v.id).2 ⟨hS, _, h4, ?_⟩)
    rw [← hc1, ← (hf.ok c hc).1, ← (hf.ok v hv).1]
    omega
  · omega

/-- The new confirmed block is stored. -/
theorem confirmed_kept {v : Block} {sf : Nat} {sel old : Option Key} {R : List Key}
    (hs : Selected B (specInsert sf S v) d sel R) (hold : ∀ c, old = some c → (S c).isSome) :
    ∀ c, newConfirmed old sel = some c → (specDrop B (specInsert sf S v) R c).isSome := by
  have hkeep : ∀ k, (specInsert sf S v k).isSome → k ∉ R → (specDrop B (specInsert sf S v) R k).isSome := by
    intro k hk hR
    rw [specDrop_apply, if_neg hR]
    split
    · rw [Option.isSome_map]
      exact hk
    · exact hk
  intro c hc
  cases hsel : sel with
  | none =>
    rw [hsel] at hc
    refine hkeep c ?_ (fun hR => ?_)
    · have := hold c hc
      unfold specInsert
      split
      · exact this
      · simp only
        split
        · rfl
        · exact this
    · obtain ⟨_, c', h5, _⟩ := (hs.discard c).1 hR
      rw [hsel] at h5
      cases h5
  | some c' =>
    rw [hsel] at hc
    obtain rfl : c' = c := Option.some.inj hc
    refine hkeep c' (hs.stored c' hsel) (fun hR => ?_)
    obtain ⟨_, c2, h5, h6⟩ := (hs.discard c').1 hR
    rw [hsel] at h5
    obtain rfl := Option.some.inj h5
    omega

/-! ### The request -/

theorem tipChecks_ok (h : Rel B m S) (hnf : ∀ k, (S k).isSome → (nf (B k)).isSome) :
    ∀ {rs : List Ref}, (∀ x ∈ rs, (S x.key).isSome) → ∃ ps, tipChecks nf m rs = .ok ps
  | [], _ => ⟨[], rfl⟩
  | x :: rs, hx => by
    obtain ⟨ps, h1⟩ := tipChecks_ok h hnf (rs := rs) (fun y hy => hx y (List.mem_cons_of_mem _ hy))
    have h3 := hx x (by simp)
    obtain ⟨p, hp⟩ := Option.isSome_iff_exists.1 (hnf _ h3)
    refine ⟨p :: ps, ?_⟩
    rw [tipChecks, h.get, if_pos h3]
    simp only [hp, h1]
    rfl

theorem FSrc.request_ok {s : FSrc P} (h : Rel B s.mv S) (hnf : ∀ k, (S k).isSome → (nf (B k)).isSome)
    (hc : ∀ c, s.confirmed = some c → (S c).isSome) {o : Orders} (ho : o.Ok) (f : Option P) :
    ∃ ps, s.request nf o f = .ok ps := by
  obtain ⟨ps, h1⟩ := tipChecks_ok h hnf (rs := o.tips s.mv.tips) (fun x hx =>
    ((h.tips x.key).1 (List.mem_map_of_mem ((ho.1 _).mem_iff.1 hx))).1)
  have h2 : ∃ qs, s.confirmedCheck nf = .ok qs := by
    unfold FSrc.confirmedCheck
    cases hcc : s.confirmed with
    | none => exact ⟨[], rfl⟩
    | some k =>
      obtain ⟨p, hp⟩ := Option.isSome_iff_exists.1 (hnf k (hc k hcc))
      refine ⟨[p], ?_⟩
      have e : (s.mv.get k).bind nf = some p := by
        rw [h.get, if_pos (hc k hcc)]
        exact hp
      simp only [e]
  obtain ⟨qs, h2⟩ := h2
  refine ⟨(ps ++ qs ++ f.toList).dedup, ?_⟩
  simp only [FSrc.request, h1, h2]

/-! ### Walking back -/

theorem stored_length (hr : Rel B m S) {l : List Key} (hn : l.Nodup) (hl : ∀ k ∈ l, (S k).isSome) :
    l.length ≤ m.all.length := by
  have hsub : l ⊆ m.all.keys := by
    intro k hk
    have h1 := hr.get_all k
    rw [hl k hk] at h1
    by_contra hk'
    rw [← AMap.get_eq_none_iff] at hk'
    rw [hk'] at h1
    cases h1
  have := (List.subperm_of_subset hn hsub).length_le
  simpa [AMap.keys] using this

theorem walkPrev_spec (hr : Rel B m S) (h : Inv B d r D S) (hf : Feed B r D) : ∀ (n : Nat) (u : Block), u ∈ D →
    u.number = (B r).number + n → ∃ l : List Key,
      (∀ fuel, l.length < fuel → walkPrev m fuel u.id = some l) ∧ l.Nodup ∧
      (∀ k ∈ l, (S k).isSome ∧ (B k).number ≤ u.number) ∧
      (∀ k ∈ l, ∃ j, k = anc B j u.id ∧ (B r).number + j ≤ u.number) ∧
      ∀ j, (∀ i ≤ j, (S (anc B i u.id)).isSome) → anc B j u.id ∈ l := by
  intro n
  induction n with
  | zero =>
    intro u hu hn
    have hur := hf.root hu hn
    have hBu : B u.id = u := (hf.ok u hu).1.symm
    have hpar : ¬ (S u.parent).isSome := by
      intro hs
      obtain ⟨w, hw, he⟩ := h.sub _ hs
      refine hf.rootParent w hw ?_
      rw [he, ← hur, hBu]
    by_cases hs : (S u.id).isSome
    · refine ⟨[u.id], fun fuel hfu => ?_, by simp, ?_, ?_, fun j hj => ?_⟩
      · obtain ⟨f, rfl⟩ : ∃ f, fuel = f + 2 := ⟨fuel - 2, by simp at hfu; omega⟩
        rw [walkPrev, hr.get, if_pos hs, hBu]
        simp only
        rw [walkPrev, hr.get, if_neg hpar]
        rfl
      · simp only [List.mem_singleton, forall_eq]
        exact ⟨hs, by rw [hBu]⟩
      · simp only [List.mem_singleton, forall_eq]
        exact ⟨0, rfl, by omega⟩
      · cases j with
        | zero => simp [anc]
        | succ j =>
          exfalso
          apply hpar
          have := hj 1 (by omega)
          simpa [anc, hBu] using this
    · refine ⟨[], fun fuel hfu => ?_, by simp, by simp, by simp, fun j hj => ?_⟩
      · obtain ⟨f, rfl⟩ : ∃ f, fuel = f + 1 := ⟨fuel - 1, by simp at hfu; omega⟩
        rw [walkPrev, hr.get, if_neg hs]
      · exact absurd (hj 0 (Nat.zero_le _)) hs
  | succ n ih =>
    intro u hu hn
    have hBu : B u.id = u := (hf.ok u hu).1.symm
    by_cases hs : (S u.id).isSome
    · rcases hf.cases hu with hur | ⟨x, hx, hx1, hx2⟩
      · have := hf.number_root hu hur
        omega
      · obtain ⟨l, h1, h2, h3, h4, h5⟩ := ih x hx (by omega)
        refine ⟨u.id :: l, fun fuel hfu => ?_, ?_, ?_, ?_, fun j hj => ?_⟩
        · obtain ⟨f, rfl⟩ : ∃ f, fuel = f + 1 := ⟨fuel - 1, by simp at hfu; omega⟩
          rw [walkPrev, hr.get, if_pos hs, hBu]
          simp only
          rw [← hx1, h1 f (by simp at hfu; omega)]
          rfl
        · refine List.nodup_cons.2 ⟨fun hm => ?_, h2⟩
          have := (h3 _ hm).2
          rw [hBu] at this
          omega
        · intro k hk
          rcases List.mem_cons.1 hk with rfl | hk
          · exact ⟨hs, by rw [hBu]⟩
          · have := h3 k hk
            exact ⟨this.1, by omega⟩
        · intro k hk
          rcases List.mem_cons.1 hk with rfl | hk
          · exact ⟨0, rfl, by omega⟩
          · obtain ⟨j, h6, h7⟩ := h4 k hk
            refine ⟨j + 1, ?_, by omega⟩
            rw [h6, anc, hBu, hx1]
        · cases j with
          | zero => simp [anc]
          | succ j =>
            refine List.mem_cons_of_mem _ ?_
            rw [anc, hBu, ← hx1]
            refine h5 j (fun i hi => ?_)
            have := hj (i + 1) (by omega)
            rw [anc, hBu, ← hx1] at this
            exact this
    · refine ⟨[], fun fuel hfu => ?_, by simp, by simp, by simp, fun j hj => ?_⟩
      · obtain ⟨f, rfl⟩ : ∃ f, fuel = f + 1 := ⟨fuel - 1, by simp at hfu; omega⟩
        rw [walkPrev, hr.get, if_neg hs]
      · exact absurd (hj 0 (Nat.zero_le _)) hs

/-- A rollback to the `i`-th ancestor and the blocks from there on. -/
def evs (B : Key → Block) (nf : Block → Option P) : Nat → Key → List (FEv P)
  | 0, k =>
    match nf (B k) with
    | none => []
    | some p => [.rollback p]
  | i + 1, k => evs B nf i (B k).parent ++ [.inner (.block (B k))]

theorem evs_length (B : Key → Block) (nf : Block → Option P) : ∀ (i : Nat) (k : Key), (evs B nf i k).length ≤ i + 1
  | 0, k => by
    rw [evs]
    split <;> simp
  | i + 1, k => by
    rw [evs, List.length_append]
    have := evs_length B nf i (B k).parent
    simp
    omega

theorem walkNew_spec (hr : Rel B m S) (hnf : ∀ k, (S k).isSome → (nf (B k)).isSome) {prev : List Key} :
    ∀ (i : Nat) (k : Key) (fuel : Nat) (st : List (FEv P)), i < fuel → anc B i k ∈ prev →
    (∀ i' ≤ i, (S (anc B i' k)).isSome) →
    ∃ i0 ≤ i, anc B i0 k ∈ prev ∧ walkNew nf m prev fuel k st = .ok (evs B nf i0 k ++ st) := by
  intro i
  induction i with
  | zero =>
    intro k fuel st hfu hp hst
    obtain ⟨f, rfl⟩ : ∃ f, fuel = f + 1 := ⟨fuel - 1, by omega⟩
    have hs : (S k).isSome := hst 0 le_rfl
    obtain ⟨p, hpp⟩ := Option.isSome_iff_exists.1 (hnf k hs)
    refine ⟨0, le_rfl, hp, ?_⟩
    rw [walkNew, hr.get, if_pos hs]
    have hid := hr.stored_id hs
    simp only [hid]
    rw [if_pos (show k ∈ prev from hp)]
    simp only [hpp, evs]
    rfl
  | succ i ih =>
    intro k fuel st hfu hp hst
    obtain ⟨f, rfl⟩ : ∃ f, fuel = f + 1 := ⟨fuel - 1, by omega⟩
    have hs : (S k).isSome := hst 0 (by omega)
    have hid := hr.stored_id hs
    rw [walkNew, hr.get, if_pos hs]
    simp only [hid]
    by_cases hk : k ∈ prev
    · obtain ⟨p, hpp⟩ := Option.isSome_iff_exists.1 (hnf k hs)
      refine ⟨0, by omega, hk, ?_⟩
      rw [if_pos hk]
      simp only [hpp, evs]
      rfl
    · rw [if_neg hk]
      obtain ⟨i0, h1, h2, h3⟩ := ih (B k).parent f (.inner (.block (B k)) :: st) (by omega) hp
        (fun i' hi' => hst (i' + 1) (by omega))
      refine ⟨i0 + 1, by omega, h2, ?_⟩
      rw [h3, evs, List.append_assoc]
      rfl

/-! ### The queue -/

/-- The event is a block. -/
def FEv.isBlock : FEv P → Bool
  | .inner (.block _) => true
  | _ => false

theorem walkNew_queue {prev : List Key} : ∀ {n : Nat} {k : Key} {st st' : List (FEv P)},
    (∀ e ∈ st, e.isBlock = true) → walkNew nf m prev n k st = .ok st' → ∀ e ∈ st'.tail, e.isBlock = true
  | 0, _, _, _, _, h => by cases h
  | n + 1, k, st, st', hst, h => by
    rw [walkNew] at h
    split at h
    · obtain rfl := Except.ok.inj h
      exact fun e he => hst e (List.mem_of_mem_tail he)
    · split at h
      · split at h
        · cases h
        · obtain rfl := Except.ok.inj h
          exact hst
      · refine walkNew_queue (fun e he => ?_) h
        rcases List.mem_cons.1 he with rfl | he
        · rfl
        · exact hst e he

/-- Only the first event is not a block. -/
theorem newEvents_queue {last : Option Key} {from' : Option P} {v : Block} {e : FEv P} {es : List (FEv P)}
    (h : newEvents nf m last from' v = .ok (e :: es)) : ∀ x ∈ es, x.isBlock = true := by
  unfold newEvents at h
  split at h
  · split at h
    · cases h
    · obtain ⟨_, rfl⟩ := List.cons.inj (Except.ok.inj h)
      intro x hx
      rw [List.mem_singleton.1 hx]
      rfl
  · split at h
    · obtain ⟨_, rfl⟩ := List.cons.inj (Except.ok.inj h)
      simp
    · unfold branchEvents at h
      split at h
      · cases h
      · exact walkNew_queue (st' := e :: es) (by simp) h

/-- Blocks are added to the consumer's chain. -/
theorem consumeAll_blocks {pt : Key → Option P} : ∀ {es : List (FEv P)} {c c' : List Key},
    (∀ e ∈ es, e.isBlock = true) → consumeAll pt c es = some c' → c <:+ c'
  | [], c, c', _, h => by
    obtain rfl := Option.some.inj h
    exact List.suffix_rfl
  | e :: es, c, c', hb, h => by
    have he := hb e (by simp)
    rw [consumeAll] at h
    cases e with
    | rollback p => cases he
    | inner e =>
      cases e with
      | tip n => cases he
      | block v =>
        simp only [consume] at h
        split at h
        · cases h
        · rename_i c1 hc1
          split at hc1
          · obtain rfl := Option.some.inj hc1
            exact (List.suffix_cons v.id c).trans (consumeAll_blocks (fun x hx => hb x (List.mem_cons_of_mem _ hx)) h)
          · cases hc1

theorem consumeAll_length {pt : Key → Option P} : ∀ {es : List (FEv P)} {c c' : List Key},
    (∀ e ∈ es, e.isBlock = true) → consumeAll pt c es = some c' → c'.length = c.length + es.length ∧ (c = [] → c' = [])
  | [], c, c', _, h => by
    obtain rfl := Option.some.inj h
    exact ⟨rfl, id⟩
  | e :: es, c, c', hb, h => by
    have he := hb e (by simp)
    rw [consumeAll] at h
    cases e with
    | rollback p => cases he
    | inner e =>
      cases e with
      | tip n => cases he
      | block v =>
        simp only [consume] at h
        split at h
        · cases h
        · rename_i c1 hc1
          split at hc1
          · rename_i hh
            obtain rfl := Option.some.inj hc1
            have h1 := (consumeAll_length (fun x hx => hb x (List.mem_cons_of_mem _ hx)) h).1
            simp only [List.length_cons] at h1 ⊢
            refine ⟨by omega, ?_⟩
            rintro rfl
            cases hh
          · cases hc1

/-! ### The consumer's chain -/

/-- The chain up to a block, newest first, with the parent of the first block at its end. -/
def chainTo (B : Key → Block) (r : Key) : Option Key → List Key
  | none => [(B r).parent]
  | some k => (path B ((B k).number - (B r).number) k).reverse ++ [(B r).parent]

theorem chainTo_root (hf : Feed B r D) {u : Block} (hu : u ∈ D) (hr : u.id = r) :
    chainTo B r (some u.id) = [u.id, u.parent] := by
  have hBu : B u.id = u := (hf.ok u hu).1.symm
  have : B r = u := by rw [← hr, hBu]
  simp [chainTo, hBu, this, path]

theorem chainTo_next (hf : Feed B r D) {u v : Block} (hu : u ∈ D) (hv : v ∈ D) (hp : u.id = v.parent)
    (hn : v.number = u.number + 1) : chainTo B r (some v.id) = v.id :: chainTo B r (some u.id) := by
  have hBu : B u.id = u := (hf.ok u hu).1.symm
  have hBv : B v.id = v := (hf.ok v hv).1.symm
  have hge := hf.ge hu
  have e : v.number - (B r).number = u.number - (B r).number + 1 := by omega
  simp only [chainTo, hBu, hBv, e, path, List.reverse_append, List.reverse_cons, List.reverse_nil,
    List.nil_append, List.cons_append, ← hp]

theorem chainTo_head (hf : Feed B r D) {u : Block} (hu : u ∈ D) :
    ∃ t, chainTo B r (some u.id) = u.id :: t := by
  rcases hf.cases hu with h | ⟨w, h1, h2, h3⟩
  · exact ⟨_, chainTo_root hf hu h⟩
  · exact ⟨_, chainTo_next hf h1 hu h2 h3⟩

/-- Positions identify the delivered blocks and the parent of the first. -/
def FPoints (nf : Block → Option P) (p0 : P) (D : List Block) : Prop :=
  (∀ v ∈ D, (nf v).isSome ∧ nf v ≠ some p0) ∧ ∀ u ∈ D, ∀ v ∈ D, nf u = nf v → u = v

theorem FPoints.append {l : List Block} (h : FPoints nf p0 (l ++ D)) : FPoints nf p0 D :=
  ⟨fun v hv => h.1 v (List.mem_append.2 (.inr hv)), fun u hu v hv => h.2 u (List.mem_append.2 (.inr hu)) v
    (List.mem_append.2 (.inr hv))⟩

theorem pointOf_mem (hf : Feed B r D) {u : Block} (hu : u ∈ D) : pointOf B nf r p0 u.id = nf u := by
  unfold pointOf
  rw [if_neg (hf.rootParent u hu), ← (hf.ok u hu).1]

theorem consume_cons_rollback {pt : Key → Option P} {k : Key} {c c' : List Key} {p : P} (hk : pt k ≠ some p)
    (h : consume pt c (.rollback p) = some c') : consume pt (k :: c) (.rollback p) = some c' := by
  simp only [consume] at h ⊢
  split at h
  · rename_i hex
    obtain ⟨x, hx, hxp⟩ := hex
    rw [if_pos ⟨x, List.mem_cons_of_mem _ hx, hxp⟩, ← h, List.dropWhile_cons_of_pos (by simpa using hk)]
  · cases h

/-- A rollback to an ancestor. -/
theorem consume_rollback (hf : Feed B r D) (hp : FPoints nf p0 D) : ∀ (j : Nat) (u : Block), u ∈ D →
    (B r).number + j ≤ u.number → ∀ p, nf (B (anc B j u.id)) = some p →
    consume (pointOf B nf r p0) (chainTo B r (some u.id)) (.rollback p) =
      some (chainTo B r (some (anc B j u.id)))
  | 0, u, hu, _, p, hpp => by
    obtain ⟨t, ht⟩ := chainTo_head hf hu
    have h1 : pointOf B nf r p0 u.id = some p := by
      rw [pointOf_mem hf hu, (hf.ok u hu).1]
      exact hpp
    rw [anc, ht]
    simp only [consume]
    rw [if_pos ⟨u.id, by simp, h1⟩, List.dropWhile_cons_of_neg (by simpa using h1)]
  | j + 1, u, hu, hj, p, hpp => by
    rcases hf.cases hu with h | ⟨w, h1, h2, h3⟩
    · have := hf.number_root hu h
      omega
    · have hBu : B u.id = u := (hf.ok u hu).1.symm
      rw [chainTo_next hf h1 hu h2 h3, anc, hBu, ← h2]
      rw [anc, hBu, ← h2] at hpp
      refine consume_cons_rollback ?_ (consume_rollback hf hp j w h1 (by omega) p hpp)
      obtain ⟨x, hx, hx1, hx2⟩ := hf.anc j h1 (by omega)
      rw [pointOf_mem hf hu]
      rw [← hx1, ← (hf.ok x hx).1] at hpp
      intro he
      have := hp.2 u hu x hx (by rw [he, hpp])
      rw [← this] at hx2
      omega

theorem consumeAll_append {pt : Key → Option P} : ∀ (l1 l2 : List (FEv P)) (c : List Key),
    consumeAll pt c (l1 ++ l2) = (consumeAll pt c l1).bind (fun c' => consumeAll pt c' l2)
  | [], l2, c => rfl
  | e :: l1, l2, c => by
    rw [List.cons_append, consumeAll, consumeAll]
    cases consume pt c e with
    | none => rfl
    | some c' => exact consumeAll_append l1 l2 c'

/-- The block after the head. -/
theorem consume_next (hf : Feed B r D) {u v : Block} (hu : u ∈ D) (hv : v ∈ D) (hp : u.id = v.parent)
    (hn : v.number = u.number + 1) (pt : Key → Option P) :
    consume pt (chainTo B r (some u.id)) (.inner (.block v)) = some (chainTo B r (some v.id)) := by
  obtain ⟨t, ht⟩ := chainTo_head hf hu
  rw [chainTo_next hf hu hv hp hn]
  simp only [consume]
  rw [if_pos]
  rw [ht, hp]
  rfl

/-- The events after a switch of branches lead to the new block. -/
theorem consume_evs (hf : Feed B r D) (hp : FPoints nf p0 D) {u : Block} (hu : u ∈ D) {j : Nat}
    (hj : (B r).number + j ≤ u.number) : ∀ (i : Nat) (v : Block), v ∈ D → (B r).number + i ≤ v.number →
    anc B i v.id = anc B j u.id →
    consumeAll (pointOf B nf r p0) (chainTo B r (some u.id)) (evs B nf i v.id) =
      some (chainTo B r (some v.id)) ∧ evs B nf i v.id ≠ []
  | 0, v, hv, _, he => by
    rw [anc] at he
    obtain ⟨p, hpp⟩ := Option.isSome_iff_exists.1 (hp.1 v hv).1
    have hpp' : nf (B v.id) = some p := by rw [← (hf.ok v hv).1]; exact hpp
    have h1 := consume_rollback hf hp j u hu hj p (by rw [← he]; exact hpp')
    simp only [evs, hpp', consumeAll, h1, ← he]
    exact ⟨trivial, by simp⟩
  | i + 1, v, hv, hi, he => by
    rcases hf.cases hv with h | ⟨w, h1, h2, h3⟩
    · have := hf.number_root hv h
      omega
    · have hBv : B v.id = v := (hf.ok v hv).1.symm
      rw [anc, hBv, ← h2] at he
      obtain ⟨h4, _⟩ := consume_evs hf hp hu hj i w h1 (by omega) he
      rw [evs, hBv, ← h2, consumeAll_append, h4]
      simp only [Option.bind_some, consumeAll, consume_next hf h1 hv h2 h3]
      exact ⟨trivial, by simp⟩

/-! ### The events for a new block -/

theorem branchEvents_spec (hr : Rel B m S) (h : Inv B d r D S) (hf : Feed B r D) (hp : FPoints nf p0 D)
    {u v : Block} (hu : u ∈ D) (hv : v ∈ D) {i j : Nat} (hi : (B r).number + i ≤ v.number)
    (hj : (B r).number + j ≤ u.number) (he : anc B i v.id = anc B j u.id)
    (hd : ∀ x ∈ D, x.number + i ≤ v.number + d + 1) :
    ∃ es, branchEvents nf m u.id v.id = .ok es ∧ es ≠ [] ∧ es.length ≤ i + 1 ∧
      consumeAll (pointOf B nf r p0) (chainTo B r (some u.id)) es = some (chainTo B r (some v.id)) := by
  have hnf : ∀ k, (S k).isSome → (nf (B k)).isSome := by
    intro k hk
    obtain ⟨w, hw, rfl⟩ := h.sub k hk
    rw [← (hf.ok w hw).1]
    exact (hp.1 w hw).1
  have hnum : v.number + j = u.number + i := by
    obtain ⟨a, ha, ha1, ha2⟩ := hf.anc i hv hi
    obtain ⟨b, hb, hb1, hb2⟩ := hf.anc j hu hj
    have := hf.same ha hb (by rw [ha1, hb1, he])
    subst this
    omega
  have hsv : ∀ i' ≤ i, (S (anc B i' v.id)).isSome := by
    intro i' hi'
    obtain ⟨a, ha, ha1, ha2⟩ := hf.anc i' hv (by omega)
    rw [← ha1]
    exact h.keep a ha (fun x hx => by have := hd x hx; omega)
  have hsu : ∀ j' ≤ j, (S (anc B j' u.id)).isSome := by
    intro j' hj'
    obtain ⟨a, ha, ha1, ha2⟩ := hf.anc j' hu (by omega)
    rw [← ha1]
    exact h.keep a ha (fun x hx => by have := hd x hx; omega)
  obtain ⟨l, h1, h2, h3, h4, h5⟩ := walkPrev_spec hr h hf (u.number - (B r).number) u hu
    (by have := hf.ge hu; omega)
  have hlen := stored_length hr h2 (fun k hk => (h3 k hk).1)
  -- the blocks walked over are different
  have hdist : i + 1 ≤ m.all.length := by
    have hnd : ((List.range (i + 1)).map (fun i' => anc B i' v.id)).Nodup := by
      refine List.Nodup.map_on ?_ List.nodup_range
      intro a ha b hb hab
      simp only [List.mem_range] at ha hb
      obtain ⟨x, hx, hx1, hx2⟩ := hf.anc a hv (by omega)
      obtain ⟨y, hy, hy1, hy2⟩ := hf.anc b hv (by omega)
      have := hf.same hx hy (by rw [hx1, hy1, hab])
      subst this
      omega
    have := stored_length hr hnd (by
      intro k hk
      simp only [List.mem_map, List.mem_range] at hk
      obtain ⟨i', hi', rfl⟩ := hk
      exact hsv i' (by omega))
    simpa using this
  obtain ⟨i0, h6, h7, h8⟩ := walkNew_spec hr hnf (prev := l) i v.id (m.all.length + 1) [] (by omega)
    (by rw [he]; exact h5 j hsu) hsv
  obtain ⟨j0, h9, h10⟩ := h4 _ h7
  obtain ⟨h11, h12⟩ := consume_evs hf hp hu h10 i0 v hv (by omega) h9
  refine ⟨evs B nf i0 v.id, ?_, h12, (evs_length B nf i0 v.id).trans (by omega), h11⟩
  unfold branchEvents
  rw [h1 _ (by omega)]
  simp only [h8, List.append_nil]

end Verif.Sources
