import Verif.Selection.RandomImproveComplete

/-!
# Random-improve as a function of the order of the draws

The first phase draws the inputs one after the other; whether it succeeds is decided by the order in which they are drawn.
-/

namespace Verif.Selection.Random

open Verif Verif.Core

/-- The amounts `xs`, taken one after the other, pay the needs `ws` one after the other: each need takes as many as it is
positive, and what it takes too much is lost for the next ones. -/
inductive Covers : List ℚ → List ℚ → Prop
  | done {xs : List ℚ} : Covers [] xs
  | next {w : ℚ} {ws xs : List ℚ} : w ≤ 0 → Covers ws xs → Covers (w :: ws) xs
  | take {w x : ℚ} {ws xs : List ℚ} : 0 < w → Covers ((w - x) :: ws) xs → Covers (w :: ws) (x :: xs)

theorem Covers.next_iff {w : ℚ} {ws xs : List ℚ} (h : w ≤ 0) : Covers (w :: ws) xs ↔ Covers ws xs :=
  ⟨fun c => by
    cases c with
    | next _ c => exact c
    | take h' _ => exact absurd h' (not_lt.2 h), .next h⟩

theorem Covers.take_iff {w x : ℚ} {ws xs : List ℚ} (h : 0 < w) :
    Covers (w :: ws) (x :: xs) ↔ Covers ((w - x) :: ws) xs :=
  ⟨fun c => by
    cases c with
    | next h' _ => exact absurd h (not_lt.2 h')
    | take _ c => exact c, .take h⟩

theorem Covers.nil_iff {w : ℚ} {ws : List ℚ} (h : 0 < w) : ¬ Covers (w :: ws) [] := by
  intro c
  cases c with
  | next h' _ => exact absurd h (not_lt.2 h')

theorem Covers.tail {ws xs : List ℚ} (h : Covers ws xs) :
    ∀ w ws', ws = w :: ws' → ∃ ys, ys.Sublist xs ∧ Covers ws' ys := by
  induction h with
  | done => intro w ws' e; cases e
  | next h c _ =>
    intro w ws' e
    cases e
    exact ⟨_, List.Sublist.refl _, c⟩
  | take h c ih =>
    intro w ws' e
    cases e
    obtain ⟨ys, h1, h2⟩ := ih _ _ rfl
    exact ⟨ys, h1.cons _, h2⟩

/-- More amounts pay as well. -/
theorem Covers.mono (n : Nat) : ∀ {ws ws' xs ys : List ℚ}, ws.length + ys.length ≤ n →
    List.Forall₂ (· ≤ ·) ws' ws → xs.Sublist ys → (∀ y ∈ ys, 0 ≤ y) → Covers ws xs → Covers ws' ys := by
  induction n with
  | zero =>
    intro ws ws' xs ys hn hw _ _ _
    have : ws = [] := List.eq_nil_of_length_eq_zero (by omega)
    subst this
    cases hw
    exact .done
  | succ n ih =>
    intro ws ws' xs ys hn hw hs hy c
    cases hw with
    | nil => exact .done
    | @cons w' w ws1' ws1 hle hrest =>
      rw [List.length_cons] at hn
      by_cases hp : w' ≤ 0
      · obtain ⟨zs, z1, z2⟩ := c.tail _ _ rfl
        exact .next hp (ih (by omega) hrest (z1.trans hs) hy z2)
      · have hp' := not_le.1 hp
        have hwp : 0 < w := lt_of_lt_of_le hp' hle
        cases c with
        | next h' _ => exact absurd hwp (not_lt.2 h')
        | @take _ x _ xs1 _ c =>
          cases hs with
          | @cons _ ys1 y hs =>
            rw [List.length_cons] at hn
            refine .take hp' (ih (ws := w :: ws1) (by rw [List.length_cons]; omega) (.cons ?_ hrest) hs
              (fun z hz => hy z (by simp [hz])) (.take hwp c))
            have := hy y (by simp)
            linarith
          | @cons_cons _ ys1 _ hs =>
            rw [List.length_cons] at hn
            refine .take hp' (ih (ws := (w - x) :: ws1) (by rw [List.length_cons]; omega) (.cons (by linarith) hrest) hs
              (fun z hz => hy z (by simp [hz])) c)

theorem Covers.sum_le {ws xs : List ℚ} (h : Covers ws xs) (hx : ∀ x ∈ xs, 0 ≤ x) :
    (ws.map (fun w => max 0 w)).sum ≤ xs.sum := by
  induction h with
  | done => simpa using List.sum_nonneg hx
  | next h _ ih =>
    have := ih hx
    rw [List.map_cons, List.sum_cons, max_eq_left h]
    linarith
  | @take w x ws xs h _ ih =>
    have := ih (fun y hy => hx y (by simp [hy]))
    rw [List.map_cons, List.sum_cons] at this
    rw [List.map_cons, List.sum_cons, List.sum_cons, max_eq_right h.le]
    have := le_max_right 0 (w - x)
    linarith

/-- From the `k`-th draw on, the indices are drawn in the order of the list. -/
def Follows (rnd : Nat → Nat) : Nat → List Nat → List Nat → Prop
  | _, rel, [] => rel = []
  | k, rel, i :: is => rel ≠ [] ∧ rel.getD (rnd k % rel.length) 0 = i ∧
    Follows rnd (k + 1) (swapRemove rel (rnd k % rel.length)) is

theorem Follows.perm {rnd : Nat → Nat} : ∀ {l : List Nat} {k : Nat} {rel : List Nat}, Follows rnd k rel l → rel.Perm l
  | [], _, _, h => by rw [show _ = _ from h]
  | i :: is, k, rel, h => by
    obtain ⟨h1, h2, h3⟩ := h
    have := swapRemove_perm (Nat.mod_lt (rnd k) (List.length_pos_iff.2 h1))
    rw [h2] at this
    exact this.trans (h3.perm.cons i)

theorem Follows.congr {rnd rnd' : Nat → Nat} : ∀ {l : List Nat} {k : Nat} {rel : List Nat},
    (∀ n, k ≤ n → rnd n = rnd' n) → Follows rnd k rel l → Follows rnd' k rel l
  | [], _, _, _, h => h
  | i :: is, k, rel, he, h => by
    obtain ⟨h1, h2, h3⟩ := h
    have e := he k (le_refl _)
    rw [e] at h2 h3
    exact ⟨h1, h2, h3.congr (fun n hn => he n (by omega))⟩

/-- Every stream of draws has its order. -/
theorem exists_order (rnd : Nat → Nat) : ∀ (n : Nat) (k : Nat) (rel : List Nat), rel.length = n → ∃ l, Follows rnd k rel l
  | 0, _, _, h => ⟨[], List.eq_nil_of_length_eq_zero h⟩
  | n + 1, k, rel, h => by
    have hne : rel ≠ [] := by
      rintro rfl
      simp at h
    have hp := swapRemove_perm (Nat.mod_lt (rnd k) (List.length_pos_iff.2 hne))
    have hl := hp.length_eq
    rw [List.length_cons] at hl
    obtain ⟨l, hl'⟩ := exists_order rnd n (k + 1) (swapRemove rel (rnd k % rel.length)) (by omega)
    exact ⟨_ :: l, hne, rfl, hl'⟩

/-- Every order has a stream of draws. -/
theorem exists_draws : ∀ (l : List Nat) (k : Nat) (rel : List Nat), rel.Perm l → ∃ rnd, Follows rnd k rel l
  | [], _, _, h => ⟨fun _ => 0, h.eq_nil⟩
  | i :: is, k, rel, h => by
    have hi : i ∈ rel := h.mem_iff.2 (by simp)
    have hne : rel ≠ [] := List.ne_nil_of_mem hi
    obtain ⟨r, hr, rfl⟩ := List.mem_iff_getElem.1 hi
    have hp := swapRemove_perm hr
    have hg : rel.getD r 0 = rel[r] := List.getD_eq_getElem _ _ hr
    rw [hg] at hp
    obtain ⟨rnd, h1⟩ := exists_draws is (k + 1) (swapRemove rel r) ((List.perm_cons _).1 (hp.symm.trans h))
    refine ⟨fun n => if n = k then r else rnd n, ?_⟩
    have e : (fun n => if n = k then r else rnd n) k % rel.length = r := by
      simp only [if_true]
      exact Nat.mod_eq_of_lt hr
    refine ⟨hne, ?_, ?_⟩
    · rw [e, hg]
    · rw [e]
      refine h1.congr (fun n hn => ?_)
      simp only [if_neg (show n ≠ k by omega)]

section

variable {inputs : List Utxo} {amt : Utxo → Option ℚ} {rnd : Nat → Nat}

/-- The amount of the input with the index. -/
def amtAt (inputs : List Utxo) (amt : Utxo → Option ℚ) (i : Nat) : ℚ := ((inputs[i]?).bind amt).getD 0

theorem coverLoop_follows {o : Output} {needed : ℚ} (fuel : Nat) {added : ℚ} {p : Pick} {l : List Nat}
    (hr : AllAmt inputs amt p.relevant) (hf : p.relevant.length ≤ fuel) (hl : Follows rnd p.k p.relevant l) :
    (∃ p' rest, coverLoop rnd inputs amt o needed fuel added p = .ok p' ∧ AllAmt inputs amt p'.relevant ∧
      Follows rnd p'.k p'.relevant rest ∧
      ∀ ws, Covers ((needed - added) :: ws) (l.map (amtAt inputs amt)) ↔ Covers ws (rest.map (amtAt inputs amt))) ∨
    ∃ av, coverLoop rnd inputs amt o needed fuel added p = .error (.noInput, av) ∧
      ∀ ws, ¬ Covers ((needed - added) :: ws) (l.map (amtAt inputs amt)) := by
  induction fuel generalizing added p l with
  | zero =>
    have hn : p.relevant = [] := List.eq_nil_of_length_eq_zero (by omega)
    unfold coverLoop
    by_cases hlt : added < needed
    · right
      rw [if_pos hlt, if_pos hn]
      refine ⟨_, rfl, fun ws => ?_⟩
      have : l = [] := by
        have := hl.perm
        rw [hn] at this
        exact this.nil_eq.symm
      rw [this]
      exact Covers.nil_iff (by linarith)
    · left
      rw [if_neg hlt]
      exact ⟨p, l, rfl, hr, hl, fun ws => Covers.next_iff (by linarith)⟩
  | succ fuel ih =>
    unfold coverLoop
    by_cases hlt : added < needed
    swap
    · left
      rw [if_neg hlt]
      exact ⟨p, l, rfl, hr, hl, fun ws => Covers.next_iff (by linarith)⟩
    rw [if_pos hlt]
    cases l with
    | nil =>
      have hn : p.relevant = [] := hl
      right
      rw [if_pos hn]
      exact ⟨_, rfl, fun ws => Covers.nil_iff (by linarith)⟩
    | cons i is =>
      obtain ⟨hn, h2, h3⟩ := hl
      rw [if_neg hn]
      have hlt' : rnd p.k % p.relevant.length < p.relevant.length := Nat.mod_lt _ (List.length_pos_iff.2 hn)
      dsimp only
      have hsw := swapRemove_perm hlt'
      obtain ⟨u, a, hu, ha⟩ := hr _ (getD_mem hlt')
      rw [h2] at hu hsw
      have hat : at' inputs i = .ok u := by simp only [at', hu]
      simp only [h2, hat, ha]
      have hr' : AllAmt inputs amt (swapRemove p.relevant (rnd p.k % p.relevant.length)) := fun j hj =>
        hr j (hsw.mem_iff.2 (List.mem_cons_of_mem _ hj))
      have hlen : (swapRemove p.relevant (rnd p.k % p.relevant.length)).length ≤ fuel := by
        have := hsw.length_eq
        simp only [List.length_cons] at this
        omega
      have hai : amtAt inputs amt i = a := by simp [amtAt, hu, ha]
      have hstep : ∀ ws, Covers ((needed - added) :: ws) ((i :: is).map (amtAt inputs amt)) ↔
          Covers ((needed - (added + a)) :: ws) (is.map (amtAt inputs amt)) := by
        intro ws
        rw [List.map_cons, hai, Covers.take_iff (by linarith), sub_add_eq_sub_sub]
      rcases ih (added := added + a)
        (p := { relevant := swapRemove p.relevant (rnd p.k % p.relevant.length), avail := p.avail.erase i,
                assoc := p.assoc.insert o (p.of o ++ [i]), k := p.k + 1 }) hr' hlen h3 with
        ⟨p', rest, g1, g2, g3, g4⟩ | ⟨av, g1, g2⟩
      · exact .inl ⟨p', rest, g1, g2, g3, fun ws => (hstep ws).trans (g4 ws)⟩
      · exact .inr ⟨av, g1, fun ws hc => g2 ws ((hstep ws).1 hc)⟩

theorem coverAll_follows {want : Output → Option ℚ} : ∀ (os : List Output) {p : Pick} {l : List Nat},
    (∀ o ∈ os, (want o).isSome) → AllAmt inputs amt p.relevant → Follows rnd p.k p.relevant l →
    (∃ p', coverAll rnd inputs amt want os p = .ok p' ∧
      Covers (os.map (fun o => (want o).getD 0)) (l.map (amtAt inputs amt))) ∨
    ∃ av, coverAll rnd inputs amt want os p = .error (.noInput, av) ∧
      ¬ Covers (os.map (fun o => (want o).getD 0)) (l.map (amtAt inputs amt))
  | [], p, l, _, _, _ => .inl ⟨p, rfl, .done⟩
  | o :: os, p, l, hw, hr, hl => by
    obtain ⟨w, hw'⟩ := Option.isSome_iff_exists.1 (hw o (by simp))
    simp only [coverAll, hw', List.map_cons, Option.getD_some]
    rcases coverLoop_follows (o := o) (needed := w) (added := 0) p.relevant.length hr (le_refl _) hl with
      ⟨p1, rest, g1, g2, g3, g4⟩ | ⟨av, g1, g2⟩
    · simp only [g1]
      rw [sub_zero] at g4
      rcases coverAll_follows os (fun x hx => hw x (by simp [hx])) g2 g3 with ⟨p2, k1, k2⟩ | ⟨av, k1, k2⟩
      · exact .inl ⟨p2, k1, (g4 _).2 k2⟩
      · exact .inr ⟨av, k1, fun hc => k2 ((g4 _).1 hc)⟩
    · simp only [g1]
      rw [sub_zero] at g2
      exact .inr ⟨av, rfl, g2 _⟩

end

section

variable {σ : Type} {E : Estimator σ} {inputs : List Utxo} {c : Start σ} {wraps : Bool} {rnd : Nat → Nat}

/-- A pass runs out of inputs in its first phase only. -/
theorem selectPass_first {outs : List Output} {amt : Utxo → Option ℚ} {want : Output → Option ℚ} {I : List Nat}
    (hI : I.Nodup) (hlt : ∀ i ∈ I, i < inputs.length) {k : Nat} {b : Books σ} (hb : BInv E inputs c b)
    (hE : ¬ EstErr E .noInput) {rel : List Nat} (r1 : relevantOf inputs amt I = .ok rel) {av : List Nat}
    (h : selectPass wraps rnd E inputs outs amt want I k b = .error (.noInput, av)) :
    coverAll rnd inputs amt want (outputsFor want outs).reverse ⟨rel, I, [], k⟩ = .error (.noInput, av) := by
  obtain ⟨rel', r1', r2, r3⟩ := relevantOf_spec (amt := amt) I hlt
  rw [r1] at r1'
  cases r1'
  unfold selectPass at h
  simp only [r1] at h
  have hos := outputsFor_perm want outs
  generalize hosdef : outputsFor want outs = os at *
  have hmem : ∀ o ∈ os, o ∈ outs ∧ (want o).isSome := fun o ho => by
    simpa [List.mem_filter] using hos.mem_iff.1 ho
  have hD : os.dedup.Nodup := List.nodup_dedup _
  have h0 : PInv os.dedup I ⟨rel, I, [], k⟩ :=
    ⟨by rw [allOf_nil]; simp, sublist_perm r3⟩
  cases h1 : coverAll rnd inputs amt want os.reverse ⟨rel, I, [], k⟩ with
  | error e =>
    simp only [h1, Except.error.injEq] at h
    rw [h]
  | ok p1 =>
    exfalso
    simp only [h1] at h
    rcases coverAll_spec (want := want) (rnd := rnd) hD os.reverse (p := ⟨rel, I, [], k⟩)
        (fun o ho => List.mem_dedup.2 (List.mem_reverse.1 ho))
        (fun o ho => (hmem o (List.mem_reverse.1 ho)).2) h0 r2 with
      ⟨p1', g1, g2, g3, g4, g5, g6, g7⟩ | ⟨p1', g1, _⟩
    swap
    · rw [h1] at g1
      cases g1
    rw [h1] at g1
    cases g1
    have hmid : (∃ p2, (if p1.relevant = [] then .ok p1 else improveAll wraps rnd inputs os p1) = .ok p2 ∧
          PInv os.dedup I p2) ∨
        ∃ e av, (if p1.relevant = [] then .ok p1 else improveAll wraps rnd inputs os p1) = .error (e, av) ∧
          e ≠ .noInput := by
      by_cases hr : p1.relevant = []
      · left
        rw [if_pos hr]
        exact ⟨p1, rfl, g2⟩
      · rw [if_neg hr]
        rcases improveAll_spec (wraps := wraps) (rnd := rnd) hD hI hlt os
            (fun o ho => List.mem_dedup.2 ho) g2 hr with ⟨p2, k1, k2, k3⟩ | ⟨e, av, k1, k2, k3⟩
        · exact .inl ⟨p2, k1, k2⟩
        · refine .inr ⟨e, av, k1, ?_⟩
          rcases k3 with ⟨rfl, _⟩ | ⟨rfl, _⟩ <;> decide
    rcases hmid with ⟨p2, m1, m2⟩ | ⟨e, av, m1, m2⟩
    · rw [m1] at h
      simp only at h
      have hin : ∀ i ∈ allOf os p2.assoc, i ∈ allOf os.dedup p2.assoc := by
        intro i hi
        obtain ⟨o, ho, hi⟩ := List.mem_flatMap.1 hi
        exact List.mem_flatMap.2 ⟨o, List.mem_dedup.2 ho, hi⟩
      rcases addAll_spec (p := p2) os hb (fun i hi => hlt i (m2.perm.mem_iff.2
          (List.mem_append.2 (.inl (hin i hi))))) with ⟨b', a1, a2, a3⟩ | ⟨e, a1, a2⟩
      · simp [a1] at h
      · simp only [a1, Except.error.injEq, Prod.mk.injEq] at h
        obtain ⟨rfl, _⟩ := h
        rcases a2 with ⟨a2, _⟩ | a2
        · exact absurd a2 (by decide)
        · exact hE a2
    · rw [m1] at h
      simp only [Except.error.injEq, Prod.mk.injEq] at h
      exact m2 h.1

end

end Verif.Selection.Random
