import Verif.Selection.RandomImproveLemmas

/-!
# Random-improve selection: when inputs run out

How much the inputs are worth if a phase of `/repo/utxo-selection/src/algorithms/random_improve.rs` fails for
want of an input, and which inputs a pass takes.
-/

namespace Verif.Selection.Random

open Verif Verif.Core

section

variable {inputs : List Utxo} {amt : Utxo → Option ℚ} {rnd : Nat → Nat} {wraps : Bool} {M : ℚ}

theorem sumAmt_perm {l l' : List Nat} (h : l.Perm l') : sumAmt inputs amt l = sumAmt inputs amt l' :=
  (h.map _).sum_eq

theorem sumAmt_cons (i : Nat) (l : List Nat) :
    sumAmt inputs amt (i :: l) = ((inputs[i]?).bind amt).getD 0 + sumAmt inputs amt l := by
  simp [sumAmt]

theorem sumAmt_append (l l' : List Nat) :
    sumAmt inputs amt (l ++ l') = sumAmt inputs amt l + sumAmt inputs amt l' := by
  simp [sumAmt]

/-- No input is worth more than `M`. -/
def Below (inputs : List Utxo) (amt : Utxo → Option ℚ) (M : ℚ) (l : List Nat) : Prop :=
  ∀ i ∈ l, ((inputs[i]?).bind amt).getD 0 ≤ M

/-- The first phase for one output: it takes less than the amount wanted and one more input; if it fails,
the inputs left were worth less than wanted. -/
theorem coverLoop_amount {o : Output} {needed : ℚ} (fuel : Nat) {added : ℚ} {p : Pick}
    (hb : Below inputs amt M p.relevant) :
    (∀ p', coverLoop rnd inputs amt o needed fuel added p = .ok p' → added ≤ needed + M →
      sumAmt inputs amt p.relevant - sumAmt inputs amt p'.relevant + added ≤ needed + M ∧
      Below inputs amt M p'.relevant) ∧
    (∀ av, coverLoop rnd inputs amt o needed fuel added p = .error (.noInput, av) →
      sumAmt inputs amt p.relevant + added < needed) := by
  induction fuel generalizing added p with
  | zero =>
    unfold coverLoop
    by_cases hlt : added < needed
    · by_cases hn : p.relevant = []
      · simp [hn, sumAmt, hlt]
      · simp [if_pos hlt, hn]
    · simp only [if_neg hlt]
      refine ⟨?_, by simp⟩
      rintro p' h ha
      cases h
      exact ⟨by linarith, hb⟩
  | succ fuel ih =>
    unfold coverLoop
    by_cases hlt : added < needed
    swap
    · simp only [if_neg hlt]
      refine ⟨?_, by simp⟩
      rintro p' h ha
      cases h
      exact ⟨by linarith, hb⟩
    by_cases hn : p.relevant = []
    · simp [hn, sumAmt, hlt]
    simp only [if_pos hlt, if_neg hn]
    have hr : rnd p.k % p.relevant.length < p.relevant.length :=
      Nat.mod_lt _ (List.length_pos_iff.2 hn)
    generalize rnd p.k % p.relevant.length = r at *
    have hsw := swapRemove_perm hr
    have hsum := sumAmt_perm (inputs := inputs) (amt := amt) hsw
    rw [sumAmt_cons] at hsum
    have hi : ((inputs[p.relevant.getD r 0]?).bind amt).getD 0 ≤ M := hb _ (getD_mem hr)
    generalize p.relevant.getD r 0 = i at *
    cases hat : at' inputs i with
    | error e =>
      refine ⟨by simp, ?_⟩
      intro av h
      simp only [Except.error.injEq, Prod.mk.injEq] at h
      unfold at' at hat
      split at hat
      · cases hat
      · cases hat
        exact absurd h.1 (by decide)
    | ok u =>
      have hu := at'_ok hat
      simp only
      cases ha : amt u with
      | none => simp
      | some a =>
        simp only [hu, Option.bind_some, ha, Option.getD_some] at hsum hi
        have hb' : Below inputs amt M (swapRemove p.relevant r) := fun j hj =>
          hb j (hsw.mem_iff.2 (List.mem_cons_of_mem _ hj))
        obtain ⟨h1, h2⟩ := ih (added := added + a)
          (p := { relevant := swapRemove p.relevant r, avail := p.avail.erase i,
                  assoc := p.assoc.insert o (p.of o ++ [i]), k := p.k + 1 }) hb'
        simp only at h1 h2 ⊢
        refine ⟨fun p' h _ => ?_, fun av h => ?_⟩
        · obtain ⟨g1, g2⟩ := h1 p' h (by linarith)
          exact ⟨by linarith, g2⟩
        · have := h2 av h
          linarith

/-- The first phase: if it fails, the inputs are worth less than all outputs and one input for each output but one. -/
theorem coverAll_amount {want : Output → Option ℚ} (hM : 0 ≤ M) : ∀ (os : List Output) {p : Pick} {av : List Nat},
    (∀ o ∈ os, 0 ≤ (want o).getD 0) → Below inputs amt M p.relevant →
    coverAll rnd inputs amt want os p = .error (.noInput, av) →
    sumAmt inputs amt p.relevant < (os.map (fun o => (want o).getD 0)).sum + ((os.length : ℚ) - 1) * M
  | [], p, av, _, _, h => by simp [coverAll] at h
  | o :: os, p, av, hw, hb, h => by
    have hw0 := hw o (by simp)
    have hpos : 0 ≤ (os.map (fun o => (want o).getD 0)).sum := by
      refine List.sum_nonneg (fun x hx => ?_)
      obtain ⟨y, hy, rfl⟩ := List.mem_map.1 hx
      exact hw y (by simp [hy])
    have hlen : (0 : ℚ) ≤ os.length * M := mul_nonneg (Nat.cast_nonneg _) hM
    simp only [coverAll] at h
    cases hwo : want o with
    | none => simp [hwo] at h
    | some w =>
      simp only [hwo] at h
      rw [hwo, Option.getD_some] at hw0
      obtain ⟨c1, c2⟩ := coverLoop_amount (rnd := rnd) (o := o) (needed := w) p.relevant.length (added := 0) hb
      simp only [List.map_cons, List.sum_cons, hwo, Option.getD_some, List.length_cons, Nat.cast_add, Nat.cast_one]
      cases hc : coverLoop rnd inputs amt o w p.relevant.length 0 p with
      | error e =>
        simp only [hc, Except.error.injEq] at h
        subst h
        have := c2 av hc
        linarith
      | ok p1 =>
        simp only [hc] at h
        obtain ⟨g1, g2⟩ := c1 p1 hc (by linarith)
        have := coverAll_amount hM os (fun x hx => hw x (by simp [hx])) g2 h
        linarith

/-! ### Only inputs with the asset are taken -/

/-- Everything set aside, or still to be drawn, holds the asset. -/
def Rel (inputs : List Utxo) (amt : Utxo → Option ℚ) (p : Pick) : Prop :=
  AllAmt inputs amt p.relevant ∧ ∀ o, AllAmt inputs amt (p.of o)

theorem of_insert {m : AMap Output (List Nat)} {o o' : Output} {l : List Nat} (rel av : List Nat) (k : Nat) :
    Pick.of ⟨rel, av, m.insert o l, k⟩ o' = if o = o' then l else (m.get o').getD [] := by
  unfold Pick.of
  simp only [AMap.get_insert]
  split <;> rfl

theorem coverLoop_rel {o : Output} {needed : ℚ} (fuel : Nat) {added : ℚ} {p p' : Pick} (h : Rel inputs amt p)
    (hc : coverLoop rnd inputs amt o needed fuel added p = .ok p') : Rel inputs amt p' := by
  induction fuel generalizing added p with
  | zero =>
    unfold coverLoop at hc
    split at hc
    · split at hc <;> cases hc
    · cases hc
      exact h
  | succ fuel ih =>
    unfold coverLoop at hc
    by_cases hlt : added < needed
    swap
    · rw [if_neg hlt] at hc
      cases hc
      exact h
    rw [if_pos hlt] at hc
    by_cases hn : p.relevant = []
    · rw [if_pos hn] at hc
      cases hc
    rw [if_neg hn] at hc
    have hr : rnd p.k % p.relevant.length < p.relevant.length :=
      Nat.mod_lt _ (List.length_pos_iff.2 hn)
    dsimp only at hc
    generalize rnd p.k % p.relevant.length = r at *
    have hsw := swapRemove_perm hr
    have hi := h.1 _ (getD_mem hr)
    generalize p.relevant.getD r 0 = i at *
    cases hat : at' inputs i with
    | error e => simp [hat] at hc
    | ok u =>
      simp only [hat] at hc
      cases ha : amt u with
      | none => simp [ha] at hc
      | some a =>
        simp only [ha] at hc
        refine ih ⟨?_, ?_⟩ hc
        · exact fun j hj => h.1 j (hsw.mem_iff.2 (List.mem_cons_of_mem _ hj))
        · intro o'
          rw [of_insert]
          split
          · intro j hj
            rcases List.mem_append.1 hj with hj | hj
            · exact h.2 o j hj
            · rw [List.mem_singleton] at hj
              subst hj
              exact hi
          · exact h.2 o'

theorem coverAll_rel {want : Output → Option ℚ} : ∀ (os : List Output) {p p' : Pick}, Rel inputs amt p →
    coverAll rnd inputs amt want os p = .ok p' → Rel inputs amt p'
  | [], p, p', h, hc => by
    cases hc
    exact h
  | o :: os, p, p', h, hc => by
    simp only [coverAll] at hc
    cases hw : want o with
    | none => simp [hw] at hc
    | some w =>
      simp only [hw] at hc
      cases h1 : coverLoop rnd inputs amt o w p.relevant.length 0 p with
      | error e => simp [h1] at hc
      | ok p1 =>
        simp only [h1] at hc
        exact coverAll_rel os (coverLoop_rel _ h h1) hc

theorem improveLoop_rel {o : Output} : ∀ (l : List Nat) {p p' : Pick} {l' : List Nat},
    AllAmt inputs amt l → AllAmt inputs amt p.relevant → p.relevant ≠ [] →
    improveLoop wraps rnd inputs o l p = .ok (l', p') →
    AllAmt inputs amt l' ∧ AllAmt inputs amt p'.relevant ∧ p'.assoc = p.assoc ∧ p'.relevant ≠ []
  | [], p, p', l', hl, hr, hn, h => by
    cases h
    exact ⟨hl, hr, rfl, hn⟩
  | i :: is, p, p', l', hl, hr, hn, h => by
    simp only [improveLoop] at h
    have hlt : rnd p.k % p.relevant.length < p.relevant.length :=
      Nat.mod_lt _ (List.length_pos_iff.2 hn)
    generalize rnd p.k % p.relevant.length = r at *
    have hj := hr _ (getD_mem hlt)
    generalize p.relevant.getD r 0 = j at *
    have his : AllAmt inputs amt is := fun x hx => hl x (by simp [hx])
    cases ha : at' inputs i with
    | error e => simp [ha] at h
    | ok a =>
      cases hb : at' inputs j with
      | error e => simp [ha, hb] at h
      | ok b =>
        simp only [ha, hb] at h
        cases hs : shouldImprove wraps a b o with
        | error e => simp [hs] at h
        | ok c =>
          simp only [hs] at h
          cases c with
          | true =>
            simp only at h
            have hr2 : AllAmt inputs amt (p.relevant.set r i) := by
              intro x hx
              rcases List.mem_or_eq_of_mem_set hx with hx | rfl
              · exact hr x hx
              · exact hl x (by simp)
            have hn2 : p.relevant.set r i ≠ [] := by simpa using hn
            cases hrec : improveLoop wraps rnd inputs o is
                { p with avail := (insertIx i p.avail).erase j, relevant := p.relevant.set r i, k := p.k + 1 } with
            | error e => simp [hrec] at h
            | ok y =>
              obtain ⟨l1, p1⟩ := y
              simp only [hrec] at h
              cases h
              obtain ⟨g1, g2, g3, g4⟩ := improveLoop_rel is his hr2 hn2 hrec
              refine ⟨?_, g2, g3, g4⟩
              intro x hx
              rcases List.mem_cons.1 hx with rfl | hx
              · exact hj
              · exact g1 x hx
          | false =>
            simp only at h
            cases hrec : improveLoop wraps rnd inputs o is { p with k := p.k + 1 } with
            | error e => simp [hrec] at h
            | ok y =>
              obtain ⟨l1, p1⟩ := y
              simp only [hrec] at h
              cases h
              obtain ⟨g1, g2, g3, g4⟩ := improveLoop_rel is his (p := { p with k := p.k + 1 }) hr hn hrec
              refine ⟨?_, g2, g3, g4⟩
              intro x hx
              rcases List.mem_cons.1 hx with rfl | hx
              · exact hl x (by simp)
              · exact g1 x hx

theorem improveAll_rel : ∀ (os : List Output) {p p' : Pick}, Rel inputs amt p → p.relevant ≠ [] →
    improveAll wraps rnd inputs os p = .ok p' → Rel inputs amt p'
  | [], p, p', h, _, hc => by
    cases hc
    exact h
  | o :: os, p, p', h, hn, hc => by
    simp only [improveAll] at hc
    cases hg : p.assoc.get o with
    | none => simp [hg] at hc
    | some l =>
      simp only [hg] at hc
      cases h1 : improveLoop wraps rnd inputs o l p with
      | error e => simp [h1] at hc
      | ok y =>
        obtain ⟨l1, p1⟩ := y
        simp only [h1] at hc
        have hl : AllAmt inputs amt l := by
          have := h.2 o
          rwa [Pick.of, hg] at this
        obtain ⟨g1, g2, g3, g4⟩ := improveLoop_rel l hl h.1 hn h1
        refine improveAll_rel os (p := ⟨p1.relevant, p1.avail, p1.assoc.insert o l1, p1.k⟩) ⟨g2, ?_⟩ g4 hc
        intro o'
        rw [of_insert]
        split
        · exact g1
        · rw [g3]
          exact h.2 o'

end

section

variable {σ : Type} {E : Estimator σ} {inputs : List Utxo} {c : Start σ} {rnd : Nat → Nat} {wraps : Bool}

theorem relevantOf_sum {amt : Utxo → Option ℚ} : ∀ (l : List Nat) {r : List Nat},
    relevantOf inputs amt l = .ok r → sumAmt inputs amt r = sumAmt inputs amt l
  | [], r, h => by
    cases h
    rfl
  | i :: is, r, h => by
    simp only [relevantOf] at h
    cases hat : at' inputs i with
    | error e => simp [hat] at h
    | ok u =>
      simp only [hat] at h
      cases hr : relevantOf inputs amt is with
      | error e => simp [hr] at h
      | ok l =>
        simp only [hr] at h
        have ih := relevantOf_sum is hr
        cases h
        rw [sumAmt_cons, ← ih]
        split
        · rw [sumAmt_cons]
        · rename_i hn
          have : amt u = none := by simpa using hn
          simp [at'_ok hat, this]

/-- How many outputs ask for the token. -/
def asking (want : Output → Option ℚ) (outs : List Output) : ℚ := (outs.filter (fun o => (want o).isSome)).length

theorem sum_filter (want : Output → Option ℚ) : ∀ (outs : List Output),
    ((outs.filter (fun o => (want o).isSome)).map (fun o => (want o).getD 0)).sum =
      (outs.map (fun o => (want o).getD 0)).sum
  | [] => rfl
  | o :: outs => by
    by_cases h : (want o).isSome
    · rw [List.filter_cons_of_pos (p := fun o => (want o).isSome) h]
      simp [sum_filter want outs]
    · rw [List.filter_cons_of_neg (p := fun o => (want o).isSome) h, List.map_cons, List.sum_cons,
        sum_filter want outs]
      have : want o = none := by simpa using h
      simp [this]

/-- A pass that finds too little: the inputs hold less than the outputs ask for, with one input on top for
each output but one. -/
theorem selectPass_noInput {outs : List Output} {amt : Utxo → Option ℚ} {want : Output → Option ℚ} {I : List Nat}
    (hI : I.Nodup) (hlt : ∀ i ∈ I, i < inputs.length) {k : Nat} {b : Books σ} (hb : BInv E inputs c b)
    (hE : ¬ EstErr E .noInput) {M : ℚ} (hM : 0 ≤ M) (hbel : Below inputs amt M I)
    (hw : ∀ o ∈ outs, 0 ≤ (want o).getD 0) {av : List Nat}
    (h : selectPass wraps rnd E inputs outs amt want I k b = .error (.noInput, av)) :
    sumAmt inputs amt I < (outs.map (fun o => (want o).getD 0)).sum + (asking want outs - 1) * M := by
  obtain ⟨rel, r1, r2, r3⟩ := relevantOf_spec (amt := amt) I hlt
  unfold selectPass at h
  simp only [r1] at h
  have hos := outputsFor_perm want outs
  generalize hosdef : outputsFor want outs = os at *
  have hmem : ∀ o ∈ os, o ∈ outs ∧ (want o).isSome := fun o ho => by
    simpa [List.mem_filter] using hos.mem_iff.1 ho
  have hD : os.dedup.Nodup := List.nodup_dedup _
  have h0 : PInv os.dedup I ⟨rel, I, [], k⟩ :=
    ⟨by rw [allOf_nil]; simp, sublist_perm r3⟩
  have hasum : (os.reverse.map (fun o => (want o).getD 0)).sum + ((os.reverse.length : ℚ) - 1) * M =
      (outs.map (fun o => (want o).getD 0)).sum + (asking want outs - 1) * M := by
    rw [((os.reverse_perm).map (fun o => (want o).getD 0)).sum_eq, (hos.map (fun o => (want o).getD 0)).sum_eq,
      sum_filter, List.length_reverse, hos.length_eq]
    rfl
  cases h1 : coverAll rnd inputs amt want os.reverse ⟨rel, I, [], k⟩ with
  | error e =>
    simp only [h1, Except.error.injEq] at h
    subst h
    have := coverAll_amount hM os.reverse (p := ⟨rel, I, [], k⟩)
      (fun o ho => hw o (hmem o (List.mem_reverse.1 ho)).1) (fun i hi => hbel i (r3.subset hi)) h1
    rw [hasum] at this
    rw [← relevantOf_sum I r1]
    exact this
  | ok p1 =>
    exfalso
    simp only [h1] at h
    rcases coverAll_spec (want := want) (rnd := rnd) hD os.reverse (p := ⟨rel, I, [], k⟩)
        (fun o ho => List.mem_dedup.2 (List.mem_reverse.1 ho))
        (fun o ho => (hmem o (List.mem_reverse.1 ho)).2) h0 r2 with
      ⟨p1', g1, g2, g3, g4, g5, g6, g7⟩ | ⟨p1', g1, _⟩
    swap
    · rw [h1] at g1
      cases g1
    rw [h1] at g1
    cases g1
    have hmid : (∃ p2, (if p1.relevant = [] then .ok p1 else improveAll wraps rnd inputs os p1) = .ok p2 ∧
          PInv os.dedup I p2) ∨
        ∃ e av, (if p1.relevant = [] then .ok p1 else improveAll wraps rnd inputs os p1) = .error (e, av) ∧
          e ≠ .noInput := by
      by_cases hr : p1.relevant = []
      · left
        rw [if_pos hr]
        exact ⟨p1, rfl, g2⟩
      · rw [if_neg hr]
        rcases improveAll_spec (wraps := wraps) (rnd := rnd) hD hI hlt os
            (fun o ho => List.mem_dedup.2 ho) g2 hr with ⟨p2, k1, k2, k3⟩ | ⟨e, av, k1, k2, k3⟩
        · exact .inl ⟨p2, k1, k2⟩
        · refine .inr ⟨e, av, k1, ?_⟩
          rcases k3 with ⟨rfl, _⟩ | ⟨rfl, _⟩ <;> decide
    rcases hmid with ⟨p2, m1, m2⟩ | ⟨e, av, m1, m2⟩
    · rw [m1] at h
      simp only at h
      have hin : ∀ i ∈ allOf os p2.assoc, i ∈ allOf os.dedup p2.assoc := by
        intro i hi
        obtain ⟨o, ho, hi⟩ := List.mem_flatMap.1 hi
        exact List.mem_flatMap.2 ⟨o, List.mem_dedup.2 ho, hi⟩
      rcases addAll_spec (p := p2) os hb (fun i hi => hlt i (m2.perm.mem_iff.2
          (List.mem_append.2 (.inl (hin i hi))))) with ⟨b', a1, a2, a3⟩ | ⟨e, a1, a2⟩
      · simp [a1] at h
      · simp only [a1, Except.error.injEq, Prod.mk.injEq] at h
        obtain ⟨rfl, _⟩ := h
        rcases a2 with ⟨a2, _⟩ | a2
        · exact absurd a2 (by decide)
        · exact hE a2
    · rw [m1] at h
      simp only [Except.error.injEq, Prod.mk.injEq] at h
      exact m2 h.1

/-- A pass leaves all inputs without the token. -/
theorem selectPass_leaves {outs : List Output} {amt : Utxo → Option ℚ} {want : Output → Option ℚ} {I : List Nat}
    (hI : I.Nodup) (hlt : ∀ i ∈ I, i < inputs.length) {k k' : Nat} {b b' : Books σ} (hb : BInv E inputs c b)
    {av : List Nat} (h : selectPass wraps rnd E inputs outs amt want I k b = .ok (av, k', b')) :
    BInv E inputs c b' ∧ ∃ A, b'.added = b.added ++ A ∧ I.Perm (A.dedup ++ av) ∧ AllAmt inputs amt A := by
  obtain ⟨rel, r1, r2, r3⟩ := relevantOf_spec (amt := amt) I hlt
  have key := h
  unfold selectPass at h
  simp only [r1] at h
  generalize hosdef : outputsFor want outs = os at *
  have hrel0 : Rel inputs amt ⟨rel, I, [], k⟩ := ⟨r2, fun o => by
    intro i hi
    simp [Pick.of, AMap.get] at hi⟩
  cases h1 : coverAll rnd inputs amt want os.reverse ⟨rel, I, [], k⟩ with
  | error e => simp [h1] at h
  | ok p1 =>
    simp only [h1] at h
    have hrel1 := coverAll_rel _ hrel0 h1
    have hmid : ∀ p2, (if p1.relevant = [] then .ok p1 else improveAll wraps rnd inputs os p1) = .ok p2 →
        Rel inputs amt p2 := by
      intro p2 hp
      by_cases hr : p1.relevant = []
      · rw [if_pos hr] at hp
        cases hp
        exact hrel1
      · rw [if_neg hr] at hp
        exact improveAll_rel os hrel1 hr hp
    cases hp : (if p1.relevant = [] then .ok p1 else improveAll wraps rnd inputs os p1 : Except Fail Pick) with
    | error e => simp [hp] at h
    | ok p2 =>
      have hrel2 := hmid p2 hp
      simp only [hp] at h
      have hall : ∀ i ∈ allOf os p2.assoc, ∃ u a, inputs[i]? = some u ∧ amt u = some a := by
        intro i hi
        obtain ⟨o, ho, hi⟩ := List.mem_flatMap.1 hi
        exact hrel2.2 o i hi
      rcases addAll_spec (p := p2) os hb (fun i hi => by
          obtain ⟨u, a, hu, _⟩ := hall i hi
          exact (List.getElem?_eq_some_iff.1 hu).1) with ⟨b1, a1, a2, a3⟩ | ⟨e, a1, a2⟩
      · simp only [a1] at h
        cases h
        rcases selectPass_spec (wraps := wraps) (rnd := rnd) (outs := outs) (amt := amt) (want := want) (k := k)
            hI hlt hb with ⟨av', k', b2, A, s1, s2, s3, s4, _⟩ | ⟨e, av', s1, _⟩
        · rw [key] at s1
          cases s1
          refine ⟨s2, A, s3, s4, ?_⟩
          rw [a3] at s3
          rw [← List.append_cancel_left s3]
          exact hall
        · rw [key] at s1
          cases s1
      · simp [a1] at h

/-- The passes for the assets, if every input holds at most one of them: each pass finds as much as the first
would, so none runs out; inputs with none of the assets are all left. -/
theorem assetPasses_enough {outs : List Output} {fmt : Nat → Nat → Token} {I : List Nat} (hI : I.Nodup)
    (hlt : ∀ i ∈ I, i < inputs.length) (hE : ¬ EstErr E .noInput)
    (hw : ∀ t, ∀ o ∈ outs, 0 ≤ (firstOf t o.assets).getD 0) :
    ∀ (l : List (Nat × Nat)) {av : List Nat} {k : Nat} {b : Books σ}, SInv E inputs c outs I av b →
    (l.map (fun x => fmt x.1 x.2)).Nodup →
    (∀ i ∈ I, ∀ u, inputs[i]? = some u → ∀ x ∈ l, ∀ y ∈ l, (firstOf (fmt x.1 x.2) u.assets).isSome →
      (firstOf (fmt y.1 y.2) u.assets).isSome → fmt x.1 x.2 = fmt y.1 y.2) →
    (∀ x ∈ l, ∃ M, 0 ≤ M ∧ Below inputs (fun u => firstOf (fmt x.1 x.2) u.assets) M I ∧
      (outs.map (fun o => (firstOf (fmt x.1 x.2) o.assets).getD 0)).sum +
        (asking (fun o => firstOf (fmt x.1 x.2) o.assets) outs - 1) * M ≤
        sumAmt inputs (fun u => firstOf (fmt x.1 x.2) u.assets) av) →
    (∀ av', assetPasses wraps rnd fmt E inputs outs l av k b ≠ .error (.noInput, av')) ∧
    ∀ av' k' b', assetPasses wraps rnd fmt E inputs outs l av k b = .ok (av', k', b') →
      SInv E inputs c outs I av' b' ∧
      ∀ i ∈ av, ∀ u, inputs[i]? = some u → (∀ x ∈ l, firstOf (fmt x.1 x.2) u.assets = none) → i ∈ av'
  | [], av, k, b, h, _, _, _ => by
    refine ⟨fun av' h' => (by cases h'), fun av' k' b' h' => ?_⟩
    cases h'
    exact ⟨h, fun i hi _ _ _ => hi⟩
  | (pol, name) :: rest, av, k, b, h, hnd, hone, hen => by
    obtain ⟨hn, hs⟩ := h.avail hI
    obtain ⟨M, hM, hbel, hsum⟩ := hen (pol, name) (by simp)
    have hlt' : ∀ i ∈ av, i < inputs.length := fun i hi => hlt i (hs.subset hi)
    simp only [assetPasses]
    cases hp : selectPass wraps rnd E inputs outs (fun u => firstOf (fmt pol name) u.assets)
        (fun o => firstOf (fmt pol name) o.assets) av k b with
    | error e =>
      simp only
      refine ⟨fun av' h' => ?_, fun _ _ _ h' => by cases h'⟩
      cases h'
      have := selectPass_noInput hn hlt' h.books hE hM (fun i hi => hbel i (hs.subset hi)) (hw _) hp
      linarith
    | ok y =>
      obtain ⟨av1, k1, b1⟩ := y
      simp only
      obtain ⟨g1, A, g2, g3, g4⟩ := selectPass_leaves hn hlt' h.books hp
      have hst : SInv E inputs c outs I av1 b1 := by
        rcases selectPass_spec (wraps := wraps) (rnd := rnd) (outs := outs) (k := k)
            (amt := fun u => firstOf (fmt pol name) u.assets)
            (want := fun o => firstOf (fmt pol name) o.assets) hn hlt' h.books with
          ⟨av', k', b2, A', s1, s2, s3, s4, s5, _⟩ | ⟨e, av', s1, _⟩
        · rw [hp] at s1
          cases s1
          exact h.step hI s2 s3 s4 s5
        · rw [hp] at s1
          cases s1
      rw [List.map_cons, List.nodup_cons] at hnd
      -- what was taken holds none of the other assets
      have hzero : ∀ y ∈ rest, sumAmt inputs (fun u => firstOf (fmt y.1 y.2) u.assets) av1 =
          sumAmt inputs (fun u => firstOf (fmt y.1 y.2) u.assets) av := by
        intro y hy
        rw [sumAmt_perm g3, sumAmt_append]
        have : sumAmt inputs (fun u => firstOf (fmt y.1 y.2) u.assets) A.dedup = 0 := by
          refine List.sum_eq_zero (fun q hq => ?_)
          obtain ⟨i, hi, rfl⟩ := List.mem_map.1 hq
          obtain ⟨u, a, hu, ha⟩ := g4 i (List.mem_dedup.1 hi)
          rw [hu, Option.bind_some]
          cases hf : firstOf (fmt y.1 y.2) u.assets with
          | none => rfl
          | some q =>
            exfalso
            have hiI : i ∈ I := hs.subset (g3.mem_iff.2 (List.mem_append.2 (.inl hi)))
            have := hone i hiI u hu (pol, name) (by simp) y (by simp [hy]) (by simp [ha]) (by simp [hf])
            refine hnd.1 (List.mem_map.2 ⟨y, hy, this.symm⟩)
        linarith
      obtain ⟨e1, e2⟩ := assetPasses_enough hI hlt hE hw rest (k := k1) hst hnd.2
        (fun i hi u hu x hx y hy => hone i hi u hu x (by simp [hx]) y (by simp [hy]))
        (fun x hx => by
          obtain ⟨M', m1, m2, m3⟩ := hen x (by simp [hx])
          exact ⟨M', m1, m2, by rw [hzero x hx]; exact m3⟩)
      refine ⟨e1, fun av' k' b' h' => ?_⟩
      obtain ⟨f1, f2⟩ := e2 av' k' b' h'
      refine ⟨f1, fun i hi u hu hno => f2 i ?_ u hu (fun x hx => hno x (by simp [hx]))⟩
      rcases List.mem_append.1 (g3.mem_iff.1 hi) with hA | hA
      · obtain ⟨u', a, hu', ha⟩ := g4 i (List.mem_dedup.1 hA)
        rw [hu] at hu'
        cases hu'
        have h0 := hno (pol, name) (by simp)
        simp only [h0] at ha
        cases ha
      · exact hA

/-- The main amounts. -/
abbrev mainOf (u : Utxo) : Option ℚ := some u.value

theorem addInput_input {i : Nat} {b b' : Books σ} (h : addInput E inputs i b = .ok b') :
    b'.input = b.input + ((inputs[i]?).bind mainOf).getD 0 := by
  unfold addInput at h
  cases hat : at' inputs i with
  | error e => simp [hat] at h
  | ok u =>
    simp only [hat] at h
    cases hf : E.feeIn b.est u with
    | error e => simp [hf] at h
    | ok f =>
      simp only [hf] at h
      cases ha : E.addIn b.est u with
      | error e => simp [ha] at h
      | ok est' =>
        simp only [ha] at h
        cases h
        simp [at'_ok hat]

/-- The last phase: if inputs run out, all of them together are too little. -/
theorem topUp_noInput {output : ℚ} (hE : ¬ EstErr E .noInput) (fuel : Nat) {I : List Nat}
    (hlt : ∀ i ∈ I, i < inputs.length) {k : Nat} {b : Books σ} {av : List Nat} (hb : BInv E inputs c b)
    (h : topUp rnd E inputs output fuel I k b = .error (.noInput, av)) :
    b.input + sumAmt inputs mainOf I < output := by
  induction fuel generalizing I k b with
  | zero =>
    unfold topUp at h
    by_cases hl : b.input < output
    · rw [if_pos hl] at h
      by_cases hn : I = []
      · subst hn
        simpa [sumAmt] using hl
      · simp [hn] at h
    · simp [hl] at h
  | succ fuel ih =>
    unfold topUp at h
    by_cases hl : b.input < output
    swap
    · simp [hl] at h
    rw [if_pos hl] at h
    by_cases hn : I = []
    · subst hn
      simpa [sumAmt] using hl
    rw [if_neg hn] at h
    dsimp only at h
    have hm := getD_mem (Nat.mod_lt (rnd k) (List.length_pos_iff.2 hn))
    generalize I.getD (rnd k % I.length) 0 = i at *
    have hper := List.perm_cons_erase hm
    rcases addInput_spec hb (hlt i hm) with ⟨b1, h1, h2, h3⟩ | ⟨e, h1, h2⟩
    · simp only [h1] at h
      have := ih (fun j hj => hlt j (List.mem_of_mem_erase hj)) h2 h
      rw [addInput_input h1] at this
      rw [sumAmt_perm hper, sumAmt_cons]
      linarith
    · simp only [h1, Except.error.injEq, Prod.mk.injEq] at h
      rw [h.1] at h2
      exact absurd h2 hE

end

end Verif.Selection.Random
