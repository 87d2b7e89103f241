import Verif.Selection.RandomImproveLemmas
import Mathlib.Algebra.Order.Floor.Ring
import Mathlib.Data.Rat.Floor

/-!
# How many inputs random-improve takes
-/

namespace Verif.Selection.Random

open Verif Verif.Core

/-- How many pieces of at least `d` an amount takes at most. -/
def pieces (d q : ℚ) : Nat := ⌈q / d⌉₊

theorem pieces_step {d x a : ℚ} (hd : 0 < d) (hx : 0 < x) (ha : d ≤ a) : pieces d (x - a) + 1 ≤ pieces d x := by
  unfold pieces
  have h1 : (x - a) / d ≤ x / d - 1 := by
    rw [sub_div]
    have : 1 ≤ a / d := by rw [le_div_iff₀ hd]; linarith
    linarith
  have h2 : ⌈(x - a) / d⌉₊ ≤ ⌈x / d - 1⌉₊ := Nat.ceil_mono h1
  have h3 : ⌈x / d - 1⌉₊ = ⌈x / d⌉₊ - 1 := by simp
  have h4 : 0 < ⌈x / d⌉₊ := Nat.ceil_pos.2 (div_pos hx hd)
  omega

theorem pieces_add {d : ℚ} (x y : ℚ) : pieces d (x + y) ≤ pieces d x + pieces d y := by
  unfold pieces
  rw [add_div]
  exact Nat.ceil_add_le _ _

theorem pieces_sum {d : ℚ} (l : List ℚ) : pieces d l.sum ≤ (l.map (pieces d)).sum := by
  induction l with
  | nil => simp [pieces]
  | cons x l ih =>
    rw [List.sum_cons, List.map_cons, List.sum_cons]
    have := pieces_add (d := d) x l.sum
    omega

theorem length_erase_ge (l : List Nat) (i : Nat) : l.length ≤ (l.erase i).length + 1 := by
  rw [List.length_erase]
  split <;> omega

section

variable {inputs : List Utxo} {amt : Utxo → Option ℚ} {rnd : Nat → Nat} {d : ℚ} {wraps : Bool}

theorem coverLoop_few (hd : 0 < d) (ha : ∀ u ∈ inputs, ∀ a, amt u = some a → d ≤ a) {o : Output} {needed : ℚ}
    (fuel : Nat) {added : ℚ} {p p' : Pick} (h : coverLoop rnd inputs amt o needed fuel added p = .ok p') :
    p.avail.length ≤ p'.avail.length + pieces d (needed - added) := by
  induction fuel generalizing added p with
  | zero =>
    unfold coverLoop at h
    split at h
    · split at h <;> cases h
    · cases h; omega
  | succ fuel ih =>
    unfold coverLoop at h
    split at h
    · rename_i hlt
      split at h
      · cases h
      · simp only at h
        split at h
        · cases h
        · rename_i u hu
          split at h
          · cases h
          · rename_i a ham
            have h1 := ih h
            have h2 := pieces_step hd (sub_pos.2 hlt) (ha u (List.mem_of_getElem? (at'_ok hu)) a ham)
            have h3 := length_erase_ge p.avail (p.relevant.getD (rnd p.k % p.relevant.length) 0)
            have e : needed - (added + a) = needed - added - a := by ring
            rw [e] at h1
            simp only at h1
            omega
    · cases h; omega

theorem coverAll_few (hd : 0 < d) (ha : ∀ u ∈ inputs, ∀ a, amt u = some a → d ≤ a) {want : Output → Option ℚ}
    (os : List Output) {p p' : Pick} (h : coverAll rnd inputs amt want os p = .ok p') :
    p.avail.length ≤ p'.avail.length + (os.map (fun o => pieces d ((want o).getD 0))).sum := by
  induction os generalizing p with
  | nil => cases h; simp
  | cons o os ih =>
    simp only [coverAll] at h
    split at h
    · cases h
    · rename_i needed hw
      split at h
      · cases h
      · rename_i p1 h1
        have h2 := coverLoop_few hd ha _ h1
        have h3 := ih h
        rw [sub_zero] at h2
        rw [List.map_cons, List.sum_cons, hw, Option.getD_some]
        omega

theorem improveLoop_length {o : Output} (l : List Nat) {p p' : Pick} {l' : List Nat}
    (h : improveLoop wraps rnd inputs o l p = .ok (l', p')) : l'.length = l.length ∧ p'.assoc = p.assoc := by
  induction l generalizing p l' p' with
  | nil => cases h; exact ⟨rfl, rfl⟩
  | cons i is ih =>
    simp only [improveLoop] at h
    split at h
    · split at h
      · cases h
      · split at h
        · cases h
        · rename_i h1
          cases h
          have := ih h1
          exact ⟨by simp [this.1], this.2⟩
      · split at h
        · cases h
        · rename_i h1
          cases h
          have := ih h1
          exact ⟨by simp [this.1], this.2⟩
    · cases h

theorem improveAll_length (os : List Output) {p p' : Pick} (h : improveAll wraps rnd inputs os p = .ok p') :
    ∀ o, (p'.of o).length = (p.of o).length := by
  induction os generalizing p with
  | nil => cases h; exact fun _ => rfl
  | cons o os ih =>
    simp only [improveAll] at h
    split at h
    · cases h
    · rename_i l hl
      split at h
      · cases h
      · rename_i l' p1 h1
        obtain ⟨e1, e2⟩ := improveLoop_length l h1
        intro x
        rw [ih h x]
        unfold Pick.of
        simp only [AMap.get_insert]
        split
        · rename_i hx
          subst hx
          rw [hl]
          simpa using e1
        · rw [e2]

theorem allOf_length (D : List Output) (p : Pick) : (allOf D p.assoc).length = (D.map (fun o => (p.of o).length)).sum := by
  unfold allOf
  rw [List.length_flatMap]
  rfl

variable {σ : Type} {E : Estimator σ}

/-- A pass takes no more inputs than the amounts have pieces. -/
theorem selectPass_few (hd : 0 < d) (ha : ∀ u ∈ inputs, ∀ a, amt u = some a → d ≤ a) {want : Output → Option ℚ}
    {outs : List Output} {I av' : List Nat} (hI : I.Nodup) (hlt : ∀ i ∈ I, i < inputs.length) {k k' : Nat}
    {b b' : Books σ} (h : selectPass wraps rnd E inputs outs amt want I k b = .ok (av', k', b')) :
    I.length ≤ av'.length + (outs.map (fun o => pieces d ((want o).getD 0))).sum := by
  obtain ⟨rel, r1, r2, r3⟩ := relevantOf_spec (amt := amt) I hlt
  unfold selectPass at h
  simp only [r1] at h
  have hos := outputsFor_perm want outs
  generalize hosdef : outputsFor want outs = os at *
  have hmem : ∀ o ∈ os, (want o).isSome := fun o ho => by
    have := hos.mem_iff.1 ho
    simp only [List.mem_filter] at this
    exact this.2
  have hsum : (os.map (fun o => pieces d ((want o).getD 0))).sum ≤ (outs.map (fun o => pieces d ((want o).getD 0))).sum := by
    rw [(hos.map _).sum_eq]
    exact ((List.filter_sublist).map _).sum_le_sum (fun _ _ => Nat.zero_le _)
  have hD : os.dedup.Nodup := List.nodup_dedup _
  have h0 : PInv os.dedup I ⟨rel, I, [], k⟩ := ⟨by rw [allOf_nil]; simp, sublist_perm r3⟩
  cases h1 : coverAll rnd inputs amt want os.reverse ⟨rel, I, [], k⟩ with
  | error e => simp [h1] at h
  | ok p1 =>
    simp only [h1] at h
    have c1 := coverAll_few hd ha _ h1
    rw [((List.reverse_perm os).map _).sum_eq] at c1
    simp only at c1
    have hp1 : PInv os.dedup I p1 := by
      rcases coverAll_spec (want := want) (rnd := rnd) hD os.reverse (p := ⟨rel, I, [], k⟩)
        (fun o ho => List.mem_dedup.2 (List.mem_reverse.1 ho))
        (fun o ho => hmem o (List.mem_reverse.1 ho)) h0 r2 with ⟨q, g1, g2, _⟩ | ⟨q, g1, _⟩
      · rw [h1] at g1; cases g1; exact g2
      · rw [h1] at g1; cases g1
    have key : ∀ p2, (if p1.relevant = [] then .ok p1 else improveAll wraps rnd inputs os p1) = .ok p2 →
        p1.avail.length = p2.avail.length := by
      intro p2 h2
      by_cases hr : p1.relevant = []
      · rw [if_pos hr] at h2; cases h2; rfl
      · rw [if_neg hr] at h2
        rcases improveAll_spec (wraps := wraps) (rnd := rnd) hD hI hlt os
          (fun o ho => List.mem_dedup.2 ho) hp1 hr with ⟨q, g1, g2, _⟩ | ⟨e, av, g1, _⟩
        · rw [h2] at g1
          cases g1
          have e1 := hp1.perm.length_eq
          have e2 := g2.perm.length_eq
          rw [List.length_append, allOf_length] at e1 e2
          have e3 : os.dedup.map (fun o => (p2.of o).length) = os.dedup.map (fun o => (p1.of o).length) :=
            List.map_congr_left (fun o _ => improveAll_length os h2 o)
          rw [e3] at e2
          omega
        · rw [h2] at g1; cases g1
    split at h
    · cases h
    · rename_i p2 h2
      split at h
      · cases h
      · cases h
        have := key p2 h2
        omega

/-- The passes for the assets. -/
theorem assetPasses_few {outs : List Output} {fmt : Nat → Nat → Token} {c : Start σ} {I : List Nat} (hI : I.Nodup)
    (hlt : ∀ i ∈ I, i < inputs.length) {dt : Token → ℚ} (hdt : ∀ t, 0 < dt t)
    (ha : ∀ u ∈ inputs, ∀ a ∈ u.assets, dt a.fingerprint ≤ a.quantity) :
    ∀ (l : List (Nat × Nat)) {av av' : List Nat} {k k' : Nat} {b b' : Books σ},
    SInv E inputs c outs I av b → assetPasses wraps rnd fmt E inputs outs l av k b = .ok (av', k', b') →
    av.length ≤ av'.length + (l.map (fun x => (outs.map (fun o =>
      pieces (dt (fmt x.1 x.2)) ((firstOf (fmt x.1 x.2) o.assets).getD 0))).sum)).sum
  | [], av, av', k, k', b, b', _, h => by cases h; simp
  | (pol, name) :: rest, av, av', k, k', b, b', hs, h => by
    simp only [assetPasses] at h
    obtain ⟨hn, hsub⟩ := hs.avail hI
    cases h1 : selectPass wraps rnd E inputs outs (fun u => firstOf (fmt pol name) u.assets)
      (fun o => firstOf (fmt pol name) o.assets) av k b with
    | error e => simp [h1] at h
    | ok x =>
      obtain ⟨av1, k1, b1⟩ := x
      simp only [h1] at h
      have c1 := selectPass_few (d := dt (fmt pol name)) (hdt _) (fun u hu a hf => by
        unfold firstOf at hf
        cases hf' : u.assets.find? (fun a => a.fingerprint = fmt pol name) with
        | none => simp [hf'] at hf
        | some y =>
          rw [hf'] at hf
          have e1 : y.fingerprint = fmt pol name := by simpa using List.find?_some hf'
          have e2 : y.quantity = a := by simpa using hf
          rw [← e1, ← e2]
          exact ha u hu y (List.mem_of_find?_eq_some hf')) hn (fun i hi => hlt i (hsub.subset hi)) h1
      have hs1 : SInv E inputs c outs I av1 b1 := by
        rcases selectPass_spec (wraps := wraps) (rnd := rnd) (outs := outs) (k := k)
          (amt := fun u => firstOf (fmt pol name) u.assets)
          (want := fun o => firstOf (fmt pol name) o.assets) hn (fun i hi => hlt i (hsub.subset hi)) hs.books with
          ⟨av2, k2, b2, A, g1, g2, g3, g4, g5, _⟩ | ⟨e, av2, g1, _⟩
        · rw [h1] at g1; cases g1
          exact hs.step hI g2 g3 g4 g5
        · rw [h1] at g1; cases g1
      have c2 := assetPasses_few hI hlt hdt ha rest hs1 h
      rw [List.map_cons, List.sum_cons]
      simp only
      omega

theorem topUp_few (hd : 0 < d) (ha : ∀ u ∈ inputs, d ≤ u.value) {output : ℚ} (fuel : Nat) {I av' : List Nat} {k : Nat}
    {b b' : Books σ} (h : topUp rnd E inputs output fuel I k b = .ok (av', b')) :
    I.length ≤ av'.length + pieces d (output - b.input) := by
  induction fuel generalizing I k b with
  | zero =>
    unfold topUp at h
    split at h
    · split at h <;> cases h
    · cases h; omega
  | succ fuel ih =>
    unfold topUp at h
    split at h
    · rename_i hlt
      split at h
      · cases h
      · simp only at h
        split at h
        · cases h
        · rename_i b1 h1
          have c1 := ih h
          have c2 := length_erase_ge I (I.getD (rnd k % I.length) 0)
          unfold addInput at h1
          split at h1
          · cases h1
          · rename_i u hu
            split at h1
            · cases h1
            · split at h1
              · cases h1
              · cases h1
                have c3 := pieces_step hd (sub_pos.2 hlt) (ha u (List.mem_of_getElem? (at'_ok hu)))
                have e : output - (b.input + u.value) = output - b.input - u.value := by ring
                simp only [e] at c1
                omega
    · cases h; omega

end

end Verif.Selection.Random
