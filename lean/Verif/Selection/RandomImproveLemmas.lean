import Verif.Selection.RandomImprove
import Verif.Selection.LargestFirstLemmas
import Mathlib.Data.List.GetD

/-!
# Lemmas about random-improve
-/

namespace Verif.Selection.Random

open Verif Verif.Core

/-! ### Lists of indices -/

theorem at'_of_lt {inputs : List Utxo} {i : Nat} (h : i < inputs.length) : at' inputs i = .ok inputs[i] := by
  simp [at', h]

theorem at'_ok {inputs : List Utxo} {i : Nat} {u : Utxo} (h : at' inputs i = .ok u) : inputs[i]? = some u := by
  unfold at' at h
  split at h
  · rename_i w hw
    cases h
    exact hw
  · cases h

theorem atAll_append {inputs : List Utxo} {l l' : List Nat} {us us' : List Utxo} (h : atAll inputs l = .ok us)
    (h' : atAll inputs l' = .ok us') : atAll inputs (l ++ l') = .ok (us ++ us') := by
  induction l generalizing us with
  | nil => cases h; simpa using h'
  | cons i is ih =>
    simp only [atAll] at h
    rw [List.cons_append]
    simp only [atAll]
    cases h1 : at' inputs i with
    | error e => simp [h1] at h
    | ok u =>
      simp only [h1] at h
      cases h2 : atAll inputs is with
      | error e => simp [h2] at h
      | ok ws =>
        simp only [h2] at h
        cases h
        simp only [ih h2, List.cons_append]

theorem atAll_of_lt {inputs : List Utxo} {l : List Nat} (h : ∀ i ∈ l, i < inputs.length) :
    atAll inputs l = .ok (l.map (fun i => inputs.getD i ⟨0, 0, [], 0⟩)) := by
  induction l with
  | nil => rfl
  | cons i is ih =>
    have hi : i < inputs.length := h i (by simp)
    simp only [atAll, at'_of_lt hi, ih (fun j hj => h j (by simp [hj])), List.map_cons]
    rw [List.getD_eq_getElem _ _ hi]

theorem atAll_lt {inputs : List Utxo} {l : List Nat} {us : List Utxo} (h : atAll inputs l = .ok us) :
    ∀ i ∈ l, i < inputs.length := by
  induction l generalizing us with
  | nil => simp
  | cons j js ih =>
    simp only [atAll] at h
    cases h1 : at' inputs j with
    | error e => simp [h1] at h
    | ok u =>
      simp only [h1] at h
      cases h2 : atAll inputs js with
      | error e => simp [h2] at h
      | ok ws =>
        intro i hi
        rcases List.mem_cons.1 hi with rfl | hi
        · exact (List.getElem?_eq_some_iff.1 (at'_ok h1)).1
        · exact ih h2 i hi

theorem getD_mem {v : List Nat} {i : Nat} (h : i < v.length) : v.getD i 0 ∈ v := by
  rw [List.getD_eq_getElem _ _ h]
  exact List.getElem_mem h

theorem swapRemove_perm {v : List Nat} {i : Nat} (h : i < v.length) : v.Perm (v.getD i 0 :: swapRemove v i) := by
  have hne : v ≠ [] := by
    rintro rfl
    simp at h
  obtain ⟨w, a, rfl⟩ := List.eq_nil_or_concat v |>.resolve_left hne
  unfold swapRemove
  rw [List.concat_eq_append] at h ⊢
  have hl : (w ++ [a]).getLastD 0 = a := by simp
  rw [hl]
  by_cases hi : i < w.length
  · rw [List.set_append_left _ _ hi, List.dropLast_concat, List.getD_append _ _ _ _ hi,
      List.getD_eq_getElem _ _ hi]
    have h1 := List.set_getElem_self hi
    have h2 : (w ++ [a]).Perm (a :: w) := by
      simp
    refine h2.trans ?_
    conv => lhs; rw [← List.take_append_drop i w]
    rw [List.set_eq_take_append_cons_drop, if_pos hi]
    rw [List.drop_eq_getElem_cons hi]
    have h3 : (a :: (w.take i ++ w[i] :: w.drop (i + 1))).Perm (a :: w[i] :: (w.take i ++ w.drop (i + 1))) :=
      List.Perm.cons _ List.perm_middle
    have h4 : (w[i] :: (w.take i ++ a :: w.drop (i + 1))).Perm (w[i] :: a :: (w.take i ++ w.drop (i + 1))) :=
      List.Perm.cons _ List.perm_middle
    exact h3.trans ((List.Perm.swap _ _ _).trans h4.symm)
  · have hi' : i = w.length := by simp at h; omega
    subst hi'
    simp [List.set_append_right]

theorem set_perm {v : List Nat} {r : Nat} (i : Nat) (h : r < v.length) :
    (v.getD r 0 :: v.set r i).Perm (i :: v) := by
  rw [List.getD_eq_getElem _ _ h, List.set_eq_take_append_cons_drop, if_pos h]
  conv => rhs; rw [← List.take_append_drop r v, List.drop_eq_getElem_cons h]
  have h1 : (v[r] :: (v.take r ++ i :: v.drop (r + 1))).Perm (v[r] :: i :: (v.take r ++ v.drop (r + 1))) :=
    List.Perm.cons _ List.perm_middle
  have h2 : (i :: (v.take r ++ v[r] :: v.drop (r + 1))).Perm (i :: v[r] :: (v.take r ++ v.drop (r + 1))) :=
    List.Perm.cons _ List.perm_middle
  exact h1.trans ((List.Perm.swap _ _ _).trans h2.symm)

theorem insertIx_perm {i : Nat} {l : List Nat} (h : i ∉ l) : (insertIx i l).Perm (i :: l) := by
  unfold insertIx
  rw [if_neg h]
  exact List.perm_orderedInsert _ _ _

/-! ### The indices of the outputs -/

/-- All indices associated with the outputs. -/
def allOf (D : List Output) (m : AMap Output (List Nat)) : List Nat := D.flatMap (fun o => (m.get o).getD [])

theorem allOf_split {D : List Output} {o : Output} (ho : o ∈ D) (m : AMap Output (List Nat)) :
    (allOf D m).Perm ((m.get o).getD [] ++ allOf (D.erase o) m) := by
  have h := List.Perm.flatMap_right (fun o => (m.get o).getD []) (List.perm_cons_erase ho)
  simpa [allOf] using h

theorem allOf_insert {D : List Output} (hD : D.Nodup) {o : Output} (ho : o ∈ D) (m : AMap Output (List Nat))
    (l : List Nat) : (allOf D (m.insert o l)).Perm (l ++ allOf (D.erase o) m) := by
  refine (allOf_split ho _).trans ?_
  rw [AMap.get_insert, if_pos rfl, Option.getD_some]
  refine List.Perm.append_left _ (List.Perm.of_eq ?_)
  unfold allOf
  refine List.flatMap_congr (fun o' ho' => ?_)
  have hne : o ≠ o' := by
    rintro rfl
    exact (List.Nodup.not_mem_erase hD) ho'
  rw [AMap.get_insert, if_neg hne]

/-- The indices given at the start are those associated and those left. -/
structure PInv (D : List Output) (I : List Nat) (p : Pick) : Prop where
  perm : I.Perm (allOf D p.assoc ++ p.avail)
  relevant : ∃ other, p.avail.Perm (p.relevant ++ other)

section

variable {D : List Output} {I : List Nat} {inputs : List Utxo} {amt : Utxo → Option ℚ} {rnd : Nat → Nat}

/-- The amounts of the inputs with the given indices. -/
def sumAmt (inputs : List Utxo) (amt : Utxo → Option ℚ) (l : List Nat) : ℚ :=
  (l.map (fun i => ((inputs[i]?).bind amt).getD 0)).sum

/-- Every index names an input for which there is an amount. -/
def AllAmt (inputs : List Utxo) (amt : Utxo → Option ℚ) (l : List Nat) : Prop :=
  ∀ i ∈ l, ∃ u a, inputs[i]? = some u ∧ amt u = some a

theorem coverLoop_spec (hD : D.Nodup) {o : Output} (ho : o ∈ D) {needed : ℚ} (fuel : Nat) {added : ℚ}
    {p : Pick} (h : PInv D I p) (hr : AllAmt inputs amt p.relevant) (hf : p.relevant.length ≤ fuel) :
    (∃ p', coverLoop rnd inputs amt o needed fuel added p = .ok p' ∧ PInv D I p' ∧
      AllAmt inputs amt p'.relevant ∧ (∀ o', o' ≠ o → p'.assoc.get o' = p.assoc.get o') ∧
      needed ≤ added + (sumAmt inputs amt (p'.of o) - sumAmt inputs amt (p.of o)) ∧
      (p.assoc.get o ≠ none → p'.assoc.get o ≠ none) ∧ (added < needed → p'.assoc.get o ≠ none)) ∨
    ∃ p', coverLoop rnd inputs amt o needed fuel added p = .error (.noInput, p'.avail) ∧ PInv D I p' := by
  induction fuel generalizing added p with
  | zero =>
    unfold coverLoop
    have hn : p.relevant = [] := List.eq_nil_of_length_eq_zero (by omega)
    by_cases hlt : added < needed
    · right
      rw [if_pos hlt, if_pos hn]
      exact ⟨p, rfl, h⟩
    · left
      rw [if_neg hlt]
      exact ⟨p, rfl, h, hr, fun _ _ => rfl, by linarith, fun h => h, fun h => absurd h hlt⟩
  | succ fuel ih =>
    unfold coverLoop
    by_cases hlt : added < needed
    swap
    · left
      rw [if_neg hlt]
      exact ⟨p, rfl, h, hr, fun _ _ => rfl, by linarith, fun h => h, fun h => absurd h hlt⟩
    rw [if_pos hlt]
    by_cases hn : p.relevant = []
    · right
      rw [if_pos hn]
      exact ⟨p, rfl, h⟩
    rw [if_neg hn]
    have hpos : 0 < p.relevant.length := List.length_pos_iff.2 hn
    have hlt' : rnd p.k % p.relevant.length < p.relevant.length := Nat.mod_lt _ hpos
    dsimp only
    generalize hrr : rnd p.k % p.relevant.length = r at *
    have hsw := swapRemove_perm hlt'
    obtain ⟨u, a, hu, ha⟩ := hr _ (getD_mem hlt')
    have hat : at' inputs (p.relevant.getD r 0) = .ok u := by simp only [at', hu]
    generalize hii : p.relevant.getD r 0 = i at *
    simp only [hat, ha]
    obtain ⟨other, hot⟩ := h.relevant
    have hia : i ∈ p.avail := hot.mem_iff.2 (List.mem_append.2 (.inl (hsw.mem_iff.2 (by simp))))
    have hinv : PInv D I { relevant := swapRemove p.relevant r, avail := p.avail.erase i,
                           assoc := p.assoc.insert o (p.of o ++ [i]), k := p.k + 1 } := by
      constructor
      · refine h.perm.trans ?_
        refine ((allOf_split ho p.assoc).append_right _).trans ?_
        refine List.Perm.trans ?_ ((allOf_insert hD ho p.assoc _).append_right _).symm
        show ((p.of o ++ allOf (D.erase o) p.assoc) ++ p.avail).Perm
          (((p.of o ++ [i]) ++ allOf (D.erase o) p.assoc) ++ p.avail.erase i)
        rw [List.append_assoc, List.append_assoc, List.append_assoc]
        refine List.Perm.append_left _ ?_
        refine ((List.perm_cons_erase hia).append_left _).trans ?_
        exact List.perm_middle
      · refine ⟨other, ?_⟩
        show (p.avail.erase i).Perm _
        refine (hot.erase i).trans ?_
        have h2 := ((hsw.append_right other).erase i)
        rw [List.cons_append, List.erase_cons_head] at h2
        exact h2
    have hr' : AllAmt inputs amt (swapRemove p.relevant r) := by
      intro j hj
      exact hr j (hsw.mem_iff.2 (List.mem_cons_of_mem _ hj))
    have hlen : (swapRemove p.relevant r).length ≤ fuel := by
      have := hsw.length_eq
      simp only [List.length_cons] at this
      omega
    rcases ih (added := added + a) hinv hr' hlen with ⟨p', h1, h2, h3, h4, h5, h6, h7⟩ | ⟨p', h1, h2⟩
    · left
      refine ⟨p', h1, h2, h3, fun o' ho' => ?_, ?_, fun _ => h6 ?_, fun _ => h6 ?_⟩
      · rw [h4 o' ho']
        show (p.assoc.insert o _).get o' = _
        rw [AMap.get_insert, if_neg (Ne.symm ho')]
      · have : Pick.of { relevant := swapRemove p.relevant r, avail := p.avail.erase i,
                         assoc := p.assoc.insert o (p.of o ++ [i]), k := p.k + 1 } o = p.of o ++ [i] := by
          show ((p.assoc.insert o (p.of o ++ [i])).get o).getD [] = _
          rw [AMap.get_insert, if_pos rfl, Option.getD_some]
        rw [this] at h5
        have h8 : sumAmt inputs amt (p.of o ++ [i]) = sumAmt inputs amt (p.of o) + a := by
          simp [sumAmt, hu, ha]
        rw [h8] at h5
        linarith
      · show (p.assoc.insert o _).get o ≠ none
        rw [AMap.get_insert, if_pos rfl]
        simp
      · show (p.assoc.insert o _).get o ≠ none
        rw [AMap.get_insert, if_pos rfl]
        simp
    · right
      exact ⟨p', h1, h2⟩

theorem coverAll_spec {want : Output → Option ℚ} (hD : D.Nodup) :
    ∀ (os : List Output) {p : Pick}, (∀ o ∈ os, o ∈ D) → (∀ o ∈ os, (want o).isSome) → PInv D I p →
    AllAmt inputs amt p.relevant →
    (∃ p', coverAll rnd inputs amt want os p = .ok p' ∧ PInv D I p' ∧ AllAmt inputs amt p'.relevant ∧
      (∀ o', o' ∉ os → p'.assoc.get o' = p.assoc.get o') ∧
      (os.Nodup → (∀ o ∈ os, p.assoc.get o = none) →
        ∀ o ∈ os, (want o).getD 0 ≤ sumAmt inputs amt (p'.of o)) ∧
      (∀ o, p.assoc.get o ≠ none → p'.assoc.get o ≠ none) ∧
      (∀ o ∈ os, 0 < (want o).getD 0 → p'.assoc.get o ≠ none)) ∨
    ∃ p', coverAll rnd inputs amt want os p = .error (.noInput, p'.avail) ∧ PInv D I p'
  | [], p, _, _, h, hr => .inl ⟨p, rfl, h, hr, fun _ _ => rfl, by simp, fun _ h => h, by simp⟩
  | o :: os, p, hos, hw, h, hr => by
    obtain ⟨w, hw'⟩ := Option.isSome_iff_exists.1 (hw o (by simp))
    simp only [coverAll, hw']
    rcases coverLoop_spec (rnd := rnd) (needed := w) (added := 0) hD (hos o (by simp)) p.relevant.length h hr (le_refl _) with
      ⟨p1, h1, h2, h3, h4, h5, h6, h6'⟩ | ⟨p1, h1, h2⟩
    · simp only [h1]
      rcases coverAll_spec hD os (fun x hx => hos x (by simp [hx])) (fun x hx => hw x (by simp [hx])) h2 h3 with
        ⟨p2, g1, g2, g3, g4, g5, g6, g7⟩ | ⟨p2, g1, g2⟩
      · left
        refine ⟨p2, g1, g2, g3, fun o' ho' => ?_, fun hnd hne x hx => ?_, fun x hx => ?_, fun x hx hpos => ?_⟩
        · rw [g4 o' (fun hx => ho' (by simp [hx])), h4 o' (fun hx => ho' (by simp [hx]))]
        · rw [List.nodup_cons] at hnd
          rcases List.mem_cons.1 hx with rfl | hx
          · have e : p2.of x = p1.of x := by
              unfold Pick.of
              rw [g4 x hnd.1]
            rw [e, hw', Option.getD_some]
            have : p.of x = [] := by
              unfold Pick.of
              rw [hne x (by simp)]
              rfl
            rw [this] at h5
            simpa [sumAmt] using h5
          · refine g5 hnd.2 (fun y hy => ?_) x hx
            rw [h4 y (fun e => hnd.1 (e ▸ hy))]
            exact hne y (by simp [hy])
        · refine g6 x ?_
          by_cases hxo : x = o
          · subst hxo
            exact h6 hx
          · rw [h4 x hxo]
            exact hx
        · rcases List.mem_cons.1 hx with rfl | hx
          · refine g6 x (h6' ?_)
            rw [hw'] at hpos
            exact hpos
          · exact g7 x hx hpos
      · right
        exact ⟨p2, g1, g2⟩
    · right
      simp only [h1]
      exact ⟨p1, rfl, h2⟩

/-! ### Improvement -/

theorem improveLoop_spec {wraps : Bool} {o : Output} (hI : I.Nodup) (hlt : ∀ i ∈ I, i < inputs.length)
    {rest : List Nat} : ∀ (l : List Nat) {p : Pick}, I.Perm (rest ++ (l ++ p.avail)) →
      (∃ other, p.avail.Perm (p.relevant ++ other)) → p.relevant ≠ [] →
    (∃ l' p', improveLoop wraps rnd inputs o l p = .ok (l', p') ∧ I.Perm (rest ++ (l' ++ p'.avail)) ∧
      (∃ other, p'.avail.Perm (p'.relevant ++ other)) ∧ p'.relevant ≠ [] ∧ p'.assoc = p.assoc ∧
      (l ≠ [] → l' ≠ [])) ∨
    ∃ av, improveLoop wraps rnd inputs o l p = .error (.panic, av) ∧ av.Subperm I ∧
      (∃ i ∈ I, ∃ j ∈ I, ∃ a b, inputs[i]? = some a ∧ inputs[j]? = some b ∧
        ∃ e, shouldImprove wraps a b o = .error e)
  | [], p, h, hrel, hne => .inl ⟨[], p, rfl, h, hrel, hne, rfl, by simp⟩
  | i :: is, p, h, hrel, hne => by
    obtain ⟨other, hot⟩ := hrel
    have hpos : 0 < p.relevant.length := List.length_pos_iff.2 hne
    have hr' : rnd p.k % p.relevant.length < p.relevant.length := Nat.mod_lt _ hpos
    simp only [improveLoop]
    generalize hrr : rnd p.k % p.relevant.length = r at *
    have hjr := getD_mem hr'
    have hset := set_perm i hr'
    generalize hjj : p.relevant.getD r 0 = j at *
    have hja : j ∈ p.avail := hot.mem_iff.2 (List.mem_append.2 (.inl hjr))
    have hjI : j ∈ I := h.mem_iff.2 (by simp [hja])
    have hiI : i ∈ I := h.mem_iff.2 (by simp)
    have hi := hlt i hiI
    have hj := hlt j hjI
    simp only [at'_of_lt hi, at'_of_lt hj]
    have hsub : p.avail.Subperm I :=
      ((List.sublist_append_right _ _).trans (List.sublist_append_right _ _)).subperm.trans h.symm.subperm
    have hnd := h.nodup_iff.1 hI
    have hia : i ∉ p.avail := by
      have h1 := (List.nodup_append.1 hnd).2.1
      rw [List.cons_append, List.nodup_cons] at h1
      exact fun hx => h1.1 (List.mem_append.2 (.inr hx))
    cases hs : shouldImprove wraps inputs[i] inputs[j] o with
    | error e =>
      right
      have he : e = .panic := by
        unfold shouldImprove at hs
        repeat' split at hs
        all_goals first | (cases hs; rfl) | cases hs
      subst he
      exact ⟨p.avail, rfl, hsub, i, hiI, j, hjI, inputs[i], inputs[j], List.getElem?_eq_getElem hi,
        List.getElem?_eq_getElem hj, _, hs⟩
    | ok b =>
      have hpi := insertIx_perm hia
      cases b with
      | true =>
        have hje : ((insertIx i p.avail).erase j).Perm (i :: p.avail.erase j) := by
          refine (hpi.erase j).trans ?_
          have hij : i ≠ j := fun e => hia (e ▸ hja)
          rw [List.erase_cons_tail (by simpa using hij)]
        have hperm : I.Perm ((rest ++ [j]) ++ (is ++ ((insertIx i p.avail).erase j))) := by
          refine h.trans ?_
          rw [List.append_assoc]
          refine List.Perm.append_left _ ?_
          have h1 : ((i :: is) ++ p.avail).Perm ((i :: is) ++ (j :: p.avail.erase j)) :=
            (List.perm_cons_erase hja).append_left _
          refine h1.trans ?_
          have h2 : (is ++ ((insertIx i p.avail).erase j)).Perm (is ++ i :: p.avail.erase j) := hje.append_left _
          refine List.Perm.trans ?_ ((h2.append_left [j])).symm
          show (i :: (is ++ j :: p.avail.erase j)).Perm (j :: (is ++ i :: p.avail.erase j))
          refine (List.Perm.cons _ List.perm_middle).trans ?_
          refine (List.Perm.swap _ _ _).trans ?_
          exact List.Perm.cons _ List.perm_middle.symm
        have hrel' : ∃ other, ((insertIx i p.avail).erase j).Perm (p.relevant.set r i ++ other) := by
          refine ⟨other, hje.trans ?_⟩
          have h1 : (j :: (i :: p.avail.erase j)).Perm (j :: (p.relevant.set r i ++ other)) := by
            refine (List.Perm.swap _ _ _).trans ?_
            refine (List.Perm.cons i (List.perm_cons_erase hja).symm).trans ?_
            refine (List.Perm.cons i hot).trans ?_
            exact (hset.append_right other).symm
          exact h1.cons_inv
        rcases improveLoop_spec (wraps := wraps) (o := o) hI hlt (rest := rest ++ [j]) is
            (p := { p with avail := (insertIx i p.avail).erase j, relevant := p.relevant.set r i, k := p.k + 1 })
            hperm hrel' (by
              show p.relevant.set r i ≠ []
              intro e
              have := congrArg List.length e
              rw [List.length_set] at this
              simp at this
              exact hne this) with
          ⟨l', p', g1, g2, g3, g4, g5, _⟩ | ⟨av, g1, g2, g3⟩
        · left
          refine ⟨j :: l', p', by simp only [g1], ?_, g3, g4, g5, by simp⟩
          simpa using g2
        · right
          exact ⟨av, by simp only [g1], g2, g3⟩
      | false =>
        rcases improveLoop_spec (wraps := wraps) (o := o) hI hlt (rest := rest ++ [i]) is (p := { p with k := p.k + 1 })
            (by simpa using h) ⟨other, hot⟩ hne with
          ⟨l', p', g1, g2, g3, g4, g5, _⟩ | ⟨av, g1, g2, g3⟩
        · left
          refine ⟨i :: l', p', by simp only [g1], ?_, g3, g4, g5, by simp⟩
          simpa using g2
        · right
          exact ⟨av, by simp only [g1], g2, g3⟩

/-- The ways the improvement can fail. -/
def ImproveFails (wraps : Bool) (inputs : List Utxo) (I : List Nat) (os : List Output) : Prop :=
  ∃ o ∈ os, ∃ i ∈ I, ∃ j ∈ I, ∃ a b, inputs[i]? = some a ∧ inputs[j]? = some b ∧
    ∃ e, shouldImprove wraps a b o = .error e

theorem improveAll_spec {wraps : Bool} (hD : D.Nodup) (hI : I.Nodup) (hlt : ∀ i ∈ I, i < inputs.length) :
    ∀ (os : List Output) {p : Pick}, (∀ o ∈ os, o ∈ D) → PInv D I p → p.relevant ≠ [] →
    (∃ p', improveAll wraps rnd inputs os p = .ok p' ∧ PInv D I p' ∧
      (∀ o, p.assoc.get o ≠ none ↔ p'.assoc.get o ≠ none)) ∨
    ∃ e av, improveAll wraps rnd inputs os p = .error (e, av) ∧ av.Subperm I ∧
      ((e = .other ∧ ∃ o ∈ os, p.assoc.get o = none) ∨ (e = .panic ∧ ImproveFails wraps inputs I os))
  | [], p, _, h, _ => .inl ⟨p, rfl, h, fun _ => Iff.rfl⟩
  | o :: os, p, hos, h, hne => by
    simp only [improveAll]
    have hsub : p.avail.Subperm I := (List.sublist_append_right _ _).subperm.trans h.perm.symm.subperm
    cases hg : p.assoc.get o with
    | none =>
      right
      exact ⟨_, _, rfl, hsub, .inl ⟨rfl, o, by simp, hg⟩⟩
    | some l =>
      have hoD := hos o (by simp)
      have h1 : I.Perm (allOf (D.erase o) p.assoc ++ (l ++ p.avail)) := by
        refine h.perm.trans ?_
        refine ((allOf_split hoD p.assoc).append_right _).trans ?_
        rw [hg, Option.getD_some, ← List.append_assoc]
        exact (List.perm_append_comm).append_right _
      rcases improveLoop_spec (wraps := wraps) (rnd := rnd) (o := o) hI hlt l h1 h.relevant hne with
        ⟨l', p1, g1, g2, g3, g4, g5, _⟩ | ⟨av, g1, g2, g3⟩
      · simp only [g1]
        have hinv : PInv D I { p1 with assoc := p1.assoc.insert o l' } := by
          refine ⟨g2.trans ?_, g3⟩
          show (_ : List Nat).Perm (allOf D (p1.assoc.insert o l') ++ p1.avail)
          rw [g5, ← List.append_assoc]
          exact (List.perm_append_comm.trans (allOf_insert hD hoD p.assoc l').symm).append_right _
        have hkeys : ∀ x, p.assoc.get x ≠ none ↔ (p1.assoc.insert o l').get x ≠ none := by
          intro x
          rw [AMap.get_insert, g5]
          by_cases hx : o = x
          · subst hx
            simp [hg]
          · rw [if_neg hx]
        rcases improveAll_spec (wraps := wraps) hD hI hlt os (p := { p1 with assoc := p1.assoc.insert o l' })
            (fun x hx => hos x (by simp [hx])) hinv g4 with
          ⟨p2, k1, k2, k3⟩ | ⟨e, av, k1, k2, k3⟩
        · left
          exact ⟨p2, k1, k2, fun x => (hkeys x).trans (k3 x)⟩
        · right
          refine ⟨e, av, k1, k2, ?_⟩
          rcases k3 with ⟨ke, x, hx, hk⟩ | ⟨ke, x, hx, hk⟩
          · refine .inl ⟨ke, x, by simp [hx], ?_⟩
            by_contra hc
            exact (hkeys x).1 hc hk
          · exact .inr ⟨ke, x, by simp [hx], hk⟩
      · right
        simp only [g1]
        exact ⟨_, _, rfl, g2, .inr ⟨rfl, o, by simp, g3⟩⟩

/-! ### Without improvement -/

theorem shouldImprove_same {wraps : Bool} {a b : Utxo} {o : Output} (h : a.value = b.value) :
    shouldImprove wraps a b o ≠ .ok true := by
  unfold shouldImprove
  rw [h]
  cases h1 : toU64 b.value with
  | none => simp
  | some x =>
    cases h2 : toU64 o.value with
    | none => simp
    | some m =>
      cases h3 : mulU64 wraps 2 m with
      | error e => simp [h3]
      | ok y =>
        cases h4 : mulU64 wraps 3 m with
        | error e => simp [h4]
        | ok z => simp [h3, h4]

/-- No exchange of the improvement for one of the outputs gives away an amount. -/
def NoLoss (wraps : Bool) (inputs : List Utxo) (amt : Utxo → Option ℚ) (os : List Output) : Prop :=
  ∀ u ∈ inputs, ∀ w ∈ inputs, ∀ a b, amt u = some a → amt w = some b → b < a →
    ∀ o ∈ os, shouldImprove wraps u w o ≠ .ok true

theorem coverLoop_amt {o : Output} {needed : ℚ} (fuel : Nat) : ∀ {added : ℚ} {p p' : Pick},
    AllAmt inputs amt p.relevant → (∀ x, AllAmt inputs amt (p.of x)) →
    coverLoop rnd inputs amt o needed fuel added p = .ok p' → ∀ x, AllAmt inputs amt (p'.of x) := by
  induction fuel with
  | zero =>
    intro added p p' _ h2 h
    unfold coverLoop at h
    split at h
    · split at h <;> cases h
    · cases h; exact h2
  | succ fuel ih =>
    intro added p p' h1 h2 h
    unfold coverLoop at h
    split at h
    swap
    · cases h; exact h2
    split at h
    · cases h
    rename_i hn
    have hlt : rnd p.k % p.relevant.length < p.relevant.length := Nat.mod_lt _ (List.length_pos_iff.2 hn)
    dsimp only at h
    generalize rnd p.k % p.relevant.length = r at *
    have hsw := swapRemove_perm hlt
    have hi := h1 _ (getD_mem hlt)
    generalize p.relevant.getD r 0 = i at *
    split at h
    · cases h
    split at h
    · cases h
    refine ih ?_ ?_ h
    · exact fun j hj => h1 j (hsw.mem_iff.2 (List.mem_cons_of_mem _ hj))
    · intro x j hj
      simp only [Pick.of, AMap.get_insert] at hj
      split at hj
      · rename_i hx
        subst hx
        rw [Option.getD_some] at hj
        rcases List.mem_append.1 hj with hj | hj
        · exact h2 o j hj
        · rw [List.mem_singleton.1 hj]; exact hi
      · exact h2 x j hj

theorem coverAll_amt {want : Output → Option ℚ} (hD : D.Nodup) : ∀ (os : List Output) {p p' : Pick},
    (∀ o ∈ os, o ∈ D) → PInv D I p → AllAmt inputs amt p.relevant → (∀ x, AllAmt inputs amt (p.of x)) →
    coverAll rnd inputs amt want os p = .ok p' → ∀ x, AllAmt inputs amt (p'.of x)
  | [], p, p', _, _, _, h2, h => by cases h; exact h2
  | o :: os, p, p', hos, hp, h1, h2, h => by
    simp only [coverAll] at h
    split at h
    · cases h
    · rename_i needed _
      split at h
      · cases h
      · rename_i p1 hc
        rcases coverLoop_spec (rnd := rnd) (needed := needed) (added := 0) hD (hos o (by simp)) p.relevant.length hp h1
          (le_refl _) with ⟨p2, k1, k2, k3, _⟩ | ⟨p2, k1, _⟩
        · rw [hc] at k1
          cases k1
          exact coverAll_amt hD os (fun x hx => hos x (by simp [hx])) k2 k3 (coverLoop_amt _ h1 h2 hc) h
        · rw [hc] at k1
          cases k1

theorem improveLoop_keeps {wraps : Bool} {o : Output} {os : List Output} (hv : NoLoss wraps inputs amt os) (ho : o ∈ os) :
    ∀ (l : List Nat) {p : Pick} {l' : List Nat} {p' : Pick}, AllAmt inputs amt l → AllAmt inputs amt p.relevant →
      p.relevant ≠ [] → improveLoop wraps rnd inputs o l p = .ok (l', p') →
      AllAmt inputs amt l' ∧ AllAmt inputs amt p'.relevant ∧ p'.relevant ≠ [] ∧ p'.assoc = p.assoc ∧
      sumAmt inputs amt l ≤ sumAmt inputs amt l'
  | [], p, l', p', _, h2, hne, h => by
    simp only [improveLoop] at h
    cases h
    exact ⟨fun i hi => absurd hi (by simp), h2, hne, rfl, le_refl _⟩
  | i :: is, p, l', p', h1, h2, hne, h => by
    have hlt : rnd p.k % p.relevant.length < p.relevant.length := Nat.mod_lt _ (List.length_pos_iff.2 hne)
    simp only [improveLoop] at h
    generalize rnd p.k % p.relevant.length = r at *
    have hjr := h2 _ (getD_mem hlt)
    have hset := set_perm i hlt
    generalize p.relevant.getD r 0 = j at *
    obtain ⟨u, a, hu, hua⟩ := h1 i (by simp)
    obtain ⟨w, b, hw, hwb⟩ := hjr
    have hau : at' inputs i = .ok u := by simp only [at', hu]
    have haw : at' inputs j = .ok w := by simp only [at', hw]
    have his : AllAmt inputs amt is := fun x hx => h1 x (by simp [hx])
    simp only [hau, haw] at h
    split at h
    · cases h
    · rename_i hs
      split at h
      · cases h
      · rename_i l1 p1 hl
        cases h
        have hr' : AllAmt inputs amt (p.relevant.set r i) := by
          intro x hx
          rcases List.mem_or_eq_of_mem_set hx with hx | rfl
          · exact h2 x hx
          · exact ⟨u, a, hu, hua⟩
        obtain ⟨g1, g2, g3, g4, g5⟩ := improveLoop_keeps hv ho is his (p := ⟨p.relevant.set r i,
          (insertIx i p.avail).erase j, p.assoc, p.k + 1⟩) hr' (by
            intro e
            have := congrArg List.length e
            simp only [List.length_set, List.length_nil] at this
            exact hne (List.eq_nil_of_length_eq_zero this)) hl
        refine ⟨?_, g2, g3, g4, ?_⟩
        · intro x hx
          rcases List.mem_cons.1 hx with rfl | hx
          · exact ⟨w, b, hw, hwb⟩
          · exact g1 x hx
        · have hab : a ≤ b := by
            by_contra hc
            exact hv u (List.mem_of_getElem? hu) w (List.mem_of_getElem? hw) a b hua hwb (not_le.1 hc) o ho hs
          simp only [sumAmt, List.map_cons, List.sum_cons, hu, hw, Option.bind_some, hua, hwb, Option.getD_some] at g5 ⊢
          linarith
    · split at h
      · cases h
      · rename_i l1 p1 hl
        cases h
        obtain ⟨g1, g2, g3, g4, g5⟩ := improveLoop_keeps hv ho is his (p := { p with k := p.k + 1 }) h2 hne hl
        refine ⟨?_, g2, g3, g4, ?_⟩
        · intro x hx
          rcases List.mem_cons.1 hx with rfl | hx
          · exact ⟨u, a, hu, hua⟩
          · exact g1 x hx
        · simp only [sumAmt, List.map_cons, List.sum_cons] at g5 ⊢
          linarith

theorem improveAll_keeps {wraps : Bool} {D' : List Output} (hv : NoLoss wraps inputs amt D') :
    ∀ (os : List Output) {p p' : Pick}, (∀ o ∈ os, o ∈ D') → AllAmt inputs amt p.relevant →
      (∀ x, AllAmt inputs amt (p.of x)) → p.relevant ≠ [] → improveAll wraps rnd inputs os p = .ok p' →
      ∀ o, sumAmt inputs amt (p.of o) ≤ sumAmt inputs amt (p'.of o)
  | [], p, p', _, _, _, _, h, o => by
    simp only [improveAll] at h
    cases h
    exact le_refl _
  | x :: os, p, p', hos, h1, h2, hne, h, o => by
    simp only [improveAll] at h
    split at h
    · cases h
    · rename_i l hl
      split at h
      · cases h
      · rename_i l1 p1 hi
        have hx : p.of x = l := by simp [Pick.of, hl]
        obtain ⟨g1, g2, g3, g4, g5⟩ := improveLoop_keeps hv (hos x (by simp)) l (hx ▸ h2 x) h1 hne hi
        have hof : ∀ y, Pick.of { p1 with assoc := p1.assoc.insert x l1 } y = if x = y then l1 else p.of y := by
          intro y
          simp only [Pick.of, AMap.get_insert, g4]
          split <;> rfl
        refine le_trans ?_ (improveAll_keeps hv os (p := { p1 with assoc := p1.assoc.insert x l1 })
          (fun y hy => hos y (by simp [hy])) g2 ?_ g3 h o)
        · rw [hof]
          split
          · rename_i e
            subst e
            rw [hx]; exact g5
          · exact le_refl _
        · intro y
          rw [hof]
          split
          · exact g1
          · exact h2 y

end

/-! ### Books -/

section

variable {σ : Type} {E : Estimator σ} {inputs : List Utxo} {c : Start σ} {rnd : Nat → Nat} {wraps : Bool}

/-- The error is the estimator's. -/
def EstErr (E : Estimator σ) (e : SelErr) : Prop := ∃ s u, E.feeIn s u = .error e ∨ E.addIn s u = .error e

/-- The balances are those of the inputs added. -/
def BInv (E : Estimator σ) (inputs : List Utxo) (c : Start σ) (b : Books σ) : Prop :=
  ∃ us, atAll inputs b.added = .ok us ∧ b.input = c.inputAfter us ∧
    (∀ t, qty b.assets t = c.assetAfter us t) ∧ runFee E c.est c.fee us = .ok (b.fee, b.est)

theorem addInput_spec {b : Books σ} (h : BInv E inputs c b) {i : Nat} (hi : i < inputs.length) :
    (∃ b', addInput E inputs i b = .ok b' ∧ BInv E inputs c b' ∧ b'.added = b.added ++ [i]) ∨
    ∃ e, addInput E inputs i b = .error e ∧ EstErr E e := by
  obtain ⟨us, h1, h2, h3, h4⟩ := h
  unfold addInput
  simp only [at'_of_lt hi]
  cases hf : E.feeIn b.est inputs[i] with
  | error e => exact .inr ⟨e, rfl, _, _, .inl hf⟩
  | ok f =>
    cases ha : E.addIn b.est inputs[i] with
    | error e => exact .inr ⟨e, rfl, _, _, .inr ha⟩
    | ok s' =>
      left
      refine ⟨_, rfl, ⟨us ++ [inputs[i]], ?_, ?_, fun t => ?_, ?_⟩, rfl⟩
      · refine atAll_append h1 ?_
        simp [atAll, at'_of_lt hi]
      · show b.input + _ = _
        rw [h2, inputAfter_append]
      · show qty (inputs[i].assets.foldl addAsset b.assets) t = _
        rw [qty_addAssets, h3, assetAfter_append]
      · exact runFee_append E us inputs[i] _ _ _ _ _ _ h4 hf ha

theorem addInputs_spec : ∀ (l : List Nat) {b : Books σ}, BInv E inputs c b → (∀ i ∈ l, i < inputs.length) →
    (∃ b', addInputs E inputs l b = .ok b' ∧ BInv E inputs c b' ∧ b'.added = b.added ++ l) ∨
    ∃ e, addInputs E inputs l b = .error e ∧ EstErr E e
  | [], b, h, _ => .inl ⟨b, rfl, h, by simp⟩
  | i :: is, b, h, hl => by
    simp only [addInputs]
    rcases addInput_spec h (hl i (by simp)) with ⟨b1, h1, h2, h3⟩ | ⟨e, h1, h2⟩
    · simp only [h1]
      rcases addInputs_spec is h2 (fun j hj => hl j (by simp [hj])) with ⟨b2, g1, g2, g3⟩ | ⟨e, g1, g2⟩
      · exact .inl ⟨b2, g1, g2, by rw [g3, h3]; simp⟩
      · exact .inr ⟨e, g1, g2⟩
    · simp only [h1]
      exact .inr ⟨e, rfl, h2⟩

theorem addAll_spec {p : Pick} : ∀ (os : List Output) {b : Books σ}, BInv E inputs c b →
    (∀ i ∈ allOf os p.assoc, i < inputs.length) →
    (∃ b', addAll E inputs p os b = .ok b' ∧ BInv E inputs c b' ∧ b'.added = b.added ++ allOf os p.assoc) ∨
    ∃ e, addAll E inputs p os b = .error e ∧ ((e = .other ∧ ∃ o ∈ os, p.assoc.get o = none) ∨ EstErr E e)
  | [], b, h, _ => .inl ⟨b, rfl, h, by simp [allOf]⟩
  | o :: os, b, h, hl => by
    simp only [addAll]
    cases hg : p.assoc.get o with
    | none => exact .inr ⟨_, rfl, .inl ⟨rfl, o, by simp, hg⟩⟩
    | some l =>
      have e : allOf (o :: os) p.assoc = l ++ allOf os p.assoc := by simp [allOf, hg]
      rw [e] at hl
      simp only
      rcases addInputs_spec l h (fun i hi => hl i (List.mem_append.2 (.inl hi))) with ⟨b1, h1, h2, h3⟩ | ⟨er, h1, h2⟩
      · simp only [h1]
        rcases addAll_spec os h2 (fun i hi => hl i (List.mem_append.2 (.inr hi))) with ⟨b2, g1, g2, g3⟩ | ⟨er, g1, g2⟩
        · exact .inl ⟨b2, g1, g2, by rw [g3, h3, e]; simp⟩
        · refine .inr ⟨er, g1, ?_⟩
          rcases g2 with ⟨g2, x, hx, g3⟩ | g2
          · exact .inl ⟨g2, x, by simp [hx], g3⟩
          · exact .inr g2
      · simp only [h1]
        exact .inr ⟨er, rfl, .inr h2⟩

theorem relevantOf_spec {amt : Utxo → Option ℚ} : ∀ (l : List Nat), (∀ i ∈ l, i < inputs.length) →
    ∃ r, relevantOf inputs amt l = .ok r ∧ AllAmt inputs amt r ∧ r.Sublist l
  | [], _ => ⟨[], rfl, fun _ h => absurd h (by simp), List.Sublist.refl _⟩
  | i :: is, h => by
    obtain ⟨r, h1, h2, h3⟩ := relevantOf_spec (amt := amt) is (fun j hj => h j (by simp [hj]))
    have hi := h i (by simp)
    simp only [relevantOf, at'_of_lt hi, h1]
    refine ⟨_, rfl, ?_, ?_⟩
    · split
      · rename_i ha
        obtain ⟨a, ha⟩ := Option.isSome_iff_exists.1 ha
        intro j hj
        rcases List.mem_cons.1 hj with rfl | hj
        · exact ⟨inputs[j], a, List.getElem?_eq_getElem hi, ha⟩
        · exact h2 j hj
      · exact h2
    · split
      · exact h3.cons_cons _
      · exact h3.cons _

theorem outputsFor_perm (want : Output → Option ℚ) (outs : List Output) :
    (outputsFor want outs).Perm (outs.filter (fun o => (want o).isSome)) := List.perm_insertionSort _ _

theorem sublist_perm {l r : List Nat} (h : r.Sublist l) : ∃ other, l.Perm (r ++ other) := by
  induction h with
  | slnil => exact ⟨[], by simp⟩
  | cons a _ ih =>
    obtain ⟨o, ho⟩ := ih
    exact ⟨a :: o, (ho.cons a).trans List.perm_middle.symm⟩
  | cons_cons a _ ih =>
    obtain ⟨o, ho⟩ := ih
    exact ⟨o, ho.cons a⟩

theorem allOf_nil (D : List Output) : allOf D [] = [] := by
  simp [allOf]

theorem allOf_congr {D : List Output} {m m' : AMap Output (List Nat)} (h : ∀ o ∈ D, m.get o = m'.get o) :
    allOf D m = allOf D m' := by
  unfold allOf
  refine List.flatMap_congr (fun o ho => ?_)
  rw [h o ho]

/-- Why a pass can fail. -/
def PassErr (E : Estimator σ) (wraps : Bool) (inputs : List Utxo) (I : List Nat) (outs : List Output)
    (want : Output → Option ℚ) (e : SelErr) : Prop :=
  e = .noInput ∨ (e = .other ∧ ∃ o ∈ outs, ∃ w, want o = some w ∧ w ≤ 0) ∨
    (e = .panic ∧ ImproveFails wraps inputs I outs) ∨ EstErr E e

theorem selectPass_spec {outs : List Output} {amt : Utxo → Option ℚ} {want : Output → Option ℚ} {I : List Nat}
    (hI : I.Nodup) (hlt : ∀ i ∈ I, i < inputs.length) {k : Nat} {b : Books σ} (hb : BInv E inputs c b) :
    (∃ av' k' b' A, selectPass wraps rnd E inputs outs amt want I k b = .ok (av', k', b') ∧
      BInv E inputs c b' ∧ b'.added = b.added ++ A ∧ I.Perm (A.dedup ++ av') ∧ (outs.Nodup → A.Nodup) ∧
      (outs.Nodup → NoLoss wraps inputs amt (outs.filter (fun o => (want o).isSome)) →
        (outs.map (fun o => (want o).getD 0)).sum ≤ sumAmt inputs amt A)) ∨
    ∃ e av', selectPass wraps rnd E inputs outs amt want I k b = .error (e, av') ∧ av'.Subperm I ∧
      PassErr E wraps inputs I outs want e := by
  obtain ⟨rel, r1, r2, r3⟩ := relevantOf_spec (amt := amt) I hlt
  unfold selectPass
  simp only [r1]
  have hos := outputsFor_perm want outs
  generalize hosdef : outputsFor want outs = os at *
  have hmem : ∀ o ∈ os, o ∈ outs ∧ (want o).isSome := fun o ho => by
    simpa [List.mem_filter] using hos.mem_iff.1 ho
  have hD : os.dedup.Nodup := List.nodup_dedup _
  have h0 : PInv os.dedup I ⟨rel, I, [], k⟩ :=
    ⟨by rw [allOf_nil]; simp, sublist_perm r3⟩
  rcases coverAll_spec (want := want) (rnd := rnd) hD os.reverse (p := ⟨rel, I, [], k⟩)
      (fun o ho => List.mem_dedup.2 (List.mem_reverse.1 ho))
      (fun o ho => (hmem o (List.mem_reverse.1 ho)).2) h0 r2 with
    ⟨p1, h1, h2, h3, h4, h5, h6, h7⟩ | ⟨p1, h1, h2⟩
  swap
  · simp only [h1]
    right
    exact ⟨_, _, rfl, (List.sublist_append_right _ _).subperm.trans h2.perm.symm.subperm, .inl rfl⟩
  simp only [h1]
  -- an output without entry asks for nothing
  have hnone : ∀ o ∈ os, p1.assoc.get o = none → ∃ o ∈ outs, ∃ w, want o = some w ∧ w ≤ 0 := by
    intro o ho hn
    obtain ⟨w, hw⟩ := Option.isSome_iff_exists.1 (hmem o ho).2
    refine ⟨o, (hmem o ho).1, w, hw, ?_⟩
    by_contra hc
    exact h7 o (List.mem_reverse.2 ho) (by rw [hw]; simpa using not_le.1 hc) hn
  -- the second phase
  have hmid : (∃ p2, (if p1.relevant = [] then .ok p1 else improveAll wraps rnd inputs os p1) = .ok p2 ∧
        PInv os.dedup I p2 ∧ (∀ o, p1.assoc.get o ≠ none ↔ p2.assoc.get o ≠ none) ∧
        (NoLoss wraps inputs amt (outs.filter (fun o => (want o).isSome)) →
          ∀ o, sumAmt inputs amt (p1.of o) ≤ sumAmt inputs amt (p2.of o))) ∨
      ∃ e av, (if p1.relevant = [] then .ok p1 else improveAll wraps rnd inputs os p1) = .error (e, av) ∧
        av.Subperm I ∧ PassErr E wraps inputs I outs want e := by
    by_cases hr : p1.relevant = []
    · left
      rw [if_pos hr]
      exact ⟨p1, rfl, h2, fun _ => Iff.rfl, fun _ _ => le_refl _⟩
    · rw [if_neg hr]
      rcases improveAll_spec (wraps := wraps) (rnd := rnd) hD hI hlt os
          (fun o ho => List.mem_dedup.2 ho) h2 hr with ⟨p2, g1, g2, g3⟩ | ⟨e, av, g1, g2, g3⟩
      · left
        exact ⟨p2, g1, g2, g3, fun hv => improveAll_keeps hv os (fun o ho => hos.mem_iff.1 ho) h3
          (coverAll_amt hD _ (fun o ho => List.mem_dedup.2 (List.mem_reverse.1 ho)) h0 r2
            (fun x i hi => absurd hi (by simp [Pick.of])) h1) hr g1⟩
      · right
        refine ⟨e, av, g1, g2, ?_⟩
        rcases g3 with ⟨ge, o, ho, gn⟩ | ⟨ge, o, ho, gn⟩
        · exact .inr (.inl ⟨ge, hnone o ho gn⟩)
        · exact .inr (.inr (.inl ⟨ge, o, (hmem o ho).1, gn⟩))
  rcases hmid with ⟨p2, m1, m2, m3, m4⟩ | ⟨e, av, m1, m2, m3⟩
  swap
  · rw [m1]
    exact .inr ⟨e, av, rfl, m2, m3⟩
  rw [m1]
  simp only
  have hsub : p2.avail.Subperm I := (List.sublist_append_right _ _).subperm.trans m2.perm.symm.subperm
  have hin : ∀ i ∈ allOf os p2.assoc, i ∈ allOf os.dedup p2.assoc := by
    intro i hi
    obtain ⟨o, ho, hi⟩ := List.mem_flatMap.1 hi
    exact List.mem_flatMap.2 ⟨o, List.mem_dedup.2 ho, hi⟩
  rcases addAll_spec (p := p2) os hb (fun i hi => hlt i (m2.perm.mem_iff.2
      (List.mem_append.2 (.inl (hin i hi))))) with ⟨b', a1, a2, a3⟩ | ⟨e, a1, a2⟩
  swap
  · simp only [a1]
    right
    refine ⟨e, _, rfl, hsub, ?_⟩
    rcases a2 with ⟨ae, o, ho, an⟩ | a2
    · refine .inr (.inl ⟨ae, hnone o ho ?_⟩)
      by_contra hc
      exact (m3 o).1 hc an
    · exact .inr (.inr (.inr a2))
  simp only [a1]
  left
  refine ⟨_, _, _, allOf os p2.assoc, rfl, a2, a3, ?_, fun hn => ?_, fun hn hv => ?_⟩
  · have hnd : (allOf os.dedup p2.assoc).Nodup := by
      have := m2.perm.nodup_iff.1 hI
      exact (List.nodup_append.1 this).1
    refine m2.perm.trans (List.Perm.append_right _ ?_)
    rw [List.perm_ext_iff_of_nodup hnd (List.nodup_dedup _)]
    intro i
    rw [List.mem_dedup]
    constructor
    · intro hi
      obtain ⟨o, ho, hi⟩ := List.mem_flatMap.1 hi
      exact List.mem_flatMap.2 ⟨o, List.mem_dedup.1 ho, hi⟩
    · exact hin i
  · have hosn : os.Nodup := hos.nodup_iff.2 (hn.filter _)
    have := m2.perm.nodup_iff.1 hI
    rw [List.dedup_eq_self.2 hosn] at this
    exact (List.nodup_append.1 this).1
  · have hosn : os.Nodup := hos.nodup_iff.2 (hn.filter _)
    have e2 : (outs.map (fun o => (want o).getD 0)).sum = (os.map (fun o => (want o).getD 0)).sum := by
      rw [(hos.map _).sum_eq]
      clear * -
      induction outs with
      | nil => rfl
      | cons o outs ih =>
        by_cases h : (want o).isSome
        · rw [List.filter_cons_of_pos (p := fun o => (want o).isSome) h]
          simp [ih]
        · rw [List.filter_cons_of_neg (p := fun o => (want o).isSome) h, List.map_cons, List.sum_cons, ih]
          have : want o = none := by simpa using h
          simp [this]
    rw [e2]
    have h8 : ∀ o ∈ os, (want o).getD 0 ≤ sumAmt inputs amt (p2.of o) := fun o ho =>
      (h5 (List.nodup_reverse.2 hosn) (fun x _ => rfl) o (List.mem_reverse.2 ho)).trans (m4 hv o)
    clear * - h8
    induction os with
    | nil => simp [allOf, sumAmt]
    | cons o os ih =>
      have := ih (fun x hx => h8 x (by simp [hx]))
      have h9 := h8 o (by simp)
      have e3 : sumAmt inputs amt (allOf (o :: os) p2.assoc) =
          sumAmt inputs amt (p2.of o) + sumAmt inputs amt (allOf os p2.assoc) := by
        simp [sumAmt, allOf, Pick.of]
      rw [e3, List.map_cons, List.sum_cons]
      linarith

theorem topUp_spec {output : ℚ} (fuel : Nat) {I : List Nat} (hI : I.Nodup) (hlt : ∀ i ∈ I, i < inputs.length)
    (hf : I.length ≤ fuel) {k : Nat} {b : Books σ} (hb : BInv E inputs c b) :
    (∃ av' b' A, topUp rnd E inputs output fuel I k b = .ok (av', b') ∧ BInv E inputs c b' ∧
      b'.added = b.added ++ A ∧ I.Perm (A ++ av') ∧ output ≤ b'.input) ∨
    ∃ e av', topUp rnd E inputs output fuel I k b = .error (e, av') ∧ av'.Subperm I ∧
      (e = .noInput ∨ EstErr E e) := by
  induction fuel generalizing I k b with
  | zero =>
    unfold topUp
    have hn : I = [] := List.eq_nil_of_length_eq_zero (by omega)
    by_cases h : b.input < output
    · rw [if_pos h, if_pos hn]
      exact .inr ⟨_, _, rfl, List.Subperm.refl _, .inl rfl⟩
    · rw [if_neg h]
      exact .inl ⟨_, _, [], rfl, hb, by simp, by simp, not_lt.1 h⟩
  | succ fuel ih =>
    unfold topUp
    by_cases h : b.input < output
    swap
    · rw [if_neg h]
      exact .inl ⟨_, _, [], rfl, hb, by simp, by simp, not_lt.1 h⟩
    rw [if_pos h]
    by_cases hn : I = []
    · rw [if_pos hn]
      exact .inr ⟨_, _, rfl, List.Subperm.refl _, .inl rfl⟩
    rw [if_neg hn]
    dsimp only
    have hpos : 0 < I.length := List.length_pos_iff.2 hn
    have hm := getD_mem (Nat.mod_lt (rnd k) hpos)
    generalize I.getD (rnd k % I.length) 0 = i at *
    have hper := List.perm_cons_erase hm
    rcases addInput_spec hb (hlt i hm) with ⟨b1, h1, h2, h3⟩ | ⟨e, h1, h2⟩
    · simp only [h1]
      have hl : (I.erase i).length ≤ fuel := by
        rw [List.length_erase_of_mem hm]
        omega
      rcases ih (I := I.erase i) (hI.erase i) (fun j hj => hlt j (List.mem_of_mem_erase hj)) hl h2 (k := k + 1) with
        ⟨av, b2, A, g1, g2, g3, g4, g5⟩ | ⟨e, av, g1, g2, g3⟩
      · refine .inl ⟨av, b2, i :: A, g1, g2, by rw [g3, h3]; simp, ?_, g5⟩
        exact hper.trans (g4.cons i)
      · exact .inr ⟨e, av, g1, g2.trans (List.erase_subperm _ _), g3⟩
    · simp only [h1]
      exact .inr ⟨e, _, rfl, List.erase_subperm _ _, .inr h2⟩

theorem dedup_append_perm {I B A av av' : List Nat} (hI : I.Nodup) (h1 : I.Perm (B.dedup ++ av))
    (h2 : av.Perm (A.dedup ++ av')) : I.Perm ((B ++ A).dedup ++ av') := by
  have h3 : I.Perm ((B.dedup ++ A.dedup) ++ av') := by
    rw [List.append_assoc]
    exact h1.trans (h2.append_left _)
  refine h3.trans (List.Perm.append_right _ ?_)
  have hn := (List.nodup_append.1 (h3.nodup_iff.1 hI)).1
  rw [List.perm_ext_iff_of_nodup hn (List.nodup_dedup _)]
  intro i
  simp [List.mem_dedup]

theorem nodup_append_dedup {I B A av av' : List Nat} (hI : I.Nodup) (h1 : I.Perm (B.dedup ++ av))
    (h2 : av.Perm (A.dedup ++ av')) (hB : B.Nodup) (hA : A.Nodup) : (B ++ A).Nodup := by
  rw [List.dedup_eq_self.2 hB] at h1
  rw [List.dedup_eq_self.2 hA] at h2
  have h3 : I.Perm ((B ++ A) ++ av') := by
    rw [List.append_assoc]
    exact h1.trans (h2.append_left _)
  exact (List.nodup_append.1 (h3.nodup_iff.1 hI)).1

/-- The state between the passes. -/
structure SInv (E : Estimator σ) (inputs : List Utxo) (c : Start σ) (outs : List Output) (I av : List Nat)
    (b : Books σ) : Prop where
  books : BInv E inputs c b
  perm : I.Perm (b.added.dedup ++ av)
  distinct : outs.Nodup → b.added.Nodup

theorem SInv.step {outs : List Output} {I av av' A : List Nat} {b b' : Books σ} (hI : I.Nodup)
    (h : SInv E inputs c outs I av b) (h1 : BInv E inputs c b') (h2 : b'.added = b.added ++ A)
    (h3 : av.Perm (A.dedup ++ av')) (h4 : outs.Nodup → A.Nodup) : SInv E inputs c outs I av' b' := by
  refine ⟨h1, ?_, fun hn => ?_⟩
  · rw [h2]
    exact dedup_append_perm hI h.perm h3
  · rw [h2]
    exact nodup_append_dedup hI h.perm h3 (h.distinct hn) (h4 hn)

theorem SInv.avail {outs : List Output} {I av : List Nat} {b : Books σ} (hI : I.Nodup)
    (h : SInv E inputs c outs I av b) : av.Nodup ∧ av.Subperm I :=
  ⟨(List.nodup_append.1 (h.perm.nodup_iff.1 hI)).2.1,
    (List.sublist_append_right _ _).subperm.trans h.perm.symm.subperm⟩

/-- The passes for assets: what was added in the pass of each asset. -/
theorem assetPasses_spec {outs : List Output} {fmt : Nat → Nat → Token} {I : List Nat} (hI : I.Nodup)
    (hlt : ∀ i ∈ I, i < inputs.length) : ∀ (l : List (Nat × Nat)) {av : List Nat} {k : Nat} {b : Books σ},
    SInv E inputs c outs I av b →
    (∃ av' k' b' A, assetPasses wraps rnd fmt E inputs outs l av k b = .ok (av', k', b') ∧
      SInv E inputs c outs I av' b' ∧ b'.added = b.added ++ A ∧
      (outs.Nodup → ∀ x ∈ l, NoLoss wraps inputs (fun u => firstOf (fmt x.1 x.2) u.assets)
          (outs.filter (fun o => (firstOf (fmt x.1 x.2) o.assets).isSome)) → ∃ A1 A2 A3, A = A1 ++ (A2 ++ A3) ∧
        (outs.map (fun o => (firstOf (fmt x.1 x.2) o.assets).getD 0)).sum ≤
          sumAmt inputs (fun u => firstOf (fmt x.1 x.2) u.assets) A2)) ∨
    ∃ e av', assetPasses wraps rnd fmt E inputs outs l av k b = .error (e, av') ∧ av'.Subperm I ∧
      ∃ x ∈ l, PassErr E wraps inputs I outs (fun o => firstOf (fmt x.1 x.2) o.assets) e
  | [], av, k, b, h => .inl ⟨av, k, b, [], rfl, h, by simp, fun _ x hx => absurd hx (by simp)⟩
  | (pol, name) :: rest, av, k, b, h => by
    simp only [assetPasses]
    obtain ⟨hn, hs⟩ := h.avail hI
    rcases selectPass_spec (wraps := wraps) (rnd := rnd) (outs := outs) (k := k)
        (amt := fun u => firstOf (fmt pol name) u.assets)
        (want := fun o => firstOf (fmt pol name) o.assets) hn (fun i hi => hlt i (hs.subset hi)) h.books with
      ⟨av1, k1, b1, A, h1, h2, h3, h4, h5, h6⟩ | ⟨e, av1, h1, h2, h3⟩
    · simp only [h1]
      rcases assetPasses_spec hI hlt rest (h.step hI h2 h3 h4 h5) (k := k1) (fmt := fmt) with
        ⟨av2, k2, b2, A', g1, g2, g3, g4⟩ | ⟨e, av2, g1, g2, x, hx, g3⟩
      · refine .inl ⟨av2, k2, b2, A ++ A', g1, g2, by rw [g3, h3]; simp, fun hd x hx hv => ?_⟩
        rcases List.mem_cons.1 hx with rfl | hx
        · exact ⟨[], A, A', by simp, h6 hd hv⟩
        · obtain ⟨A1, A2, A3, e1, e2⟩ := g4 hd x hx hv
          exact ⟨A ++ A1, A2, A3, by rw [e1]; simp, e2⟩
      · exact .inr ⟨e, av2, g1, g2, x, by simp [hx], g3⟩
    · simp only [h1]
      refine .inr ⟨e, av1, rfl, h2.trans hs, (pol, name), by simp, ?_⟩
      rcases h3 with h3 | h3 | ⟨he, o, ho, i, hi, j, hj, h3⟩ | h3
      · exact .inl h3
      · exact .inr (.inl h3)
      · exact .inr (.inr (.inl ⟨he, o, ho, i, hs.subset hi, j, hs.subset hj, h3⟩))
      · exact .inr (.inr (.inr h3))

end

end Verif.Selection.Random
