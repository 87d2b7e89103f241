import Verif.Props.RandomOrders

/-!
# A smaller payment does not fail where a larger one is made: random-improve (C119)
-/

namespace Verif.Props

open Verif Verif.Core Verif.Selection Verif.Selection.Random

/-- Outputs that pay no more: each belongs to another output of the second list, which pays at least as much. -/
def PayNoMore (outs' outs : List Output) : Prop :=
  ∃ l, l.Sublist outs ∧ List.Forall₂ (fun o' o : Output => o'.value ≤ o.value) outs' l

/-- The first list is no longer than the second, and at no place above it. -/
inductive Below : List ℚ → List ℚ → Prop
  | nil {l : List ℚ} : Below [] l
  | cons {a b : ℚ} {as bs : List ℚ} : a ≤ b → Below as bs → Below (a :: as) (b :: bs)

theorem insert_head {a : ℚ} {as : List ℚ} (h : (a :: as).Pairwise (· ≥ ·)) : as.orderedInsert (· ≥ ·) a = a :: as := by
  cases as with
  | nil => rfl
  | cons b bs =>
    rw [List.orderedInsert_cons, if_pos ((List.pairwise_cons.1 h).1 b (by simp))]

theorem Below.insert {l' l : List ℚ} (h : Below l' l) : ∀ {x' x : ℚ}, l'.Pairwise (· ≥ ·) → l.Pairwise (· ≥ ·) → x' ≤ x →
    Below (l'.orderedInsert (· ≥ ·) x') (l.orderedInsert (· ≥ ·) x) := by
  induction h with
  | @nil l =>
    intro x' x _ _ hx
    cases l with
    | nil => exact .cons hx .nil
    | cons b bs =>
      rw [List.orderedInsert_cons]
      split
      · exact .cons hx .nil
      · rename_i hb
        exact .cons (by linarith [not_le.1 hb]) .nil
  | @cons a b as bs hab hB ih =>
    intro x' x h1 h2 hx
    have g1 := (List.pairwise_cons.1 h1).2
    have g2 := (List.pairwise_cons.1 h2).2
    rw [List.orderedInsert_cons, List.orderedInsert_cons]
    split
    · rename_i q1
      split
      · exact .cons hx (.cons hab hB)
      · rename_i q2
        refine .cons (by linarith [not_le.1 q2]) ?_
        rw [← insert_head h1]
        exact ih g1 g2 (le_trans q1 hx)
    · rename_i q1
      split
      · rename_i q2
        refine .cons (le_trans hab q2) ?_
        rw [← insert_head h2]
        exact ih g1 g2 (by linarith [not_le.1 q1])
      · exact .cons hab (ih g1 g2 hx)

theorem Below.skip {l' l : List ℚ} (h : Below l' l) : ∀ (x : ℚ), l.Pairwise (· ≥ ·) →
    Below l' (l.orderedInsert (· ≥ ·) x) := by
  induction h with
  | nil => intro _ _; exact .nil
  | @cons a b as bs hab hB ih =>
    intro x h2
    have g2 := (List.pairwise_cons.1 h2).2
    rw [List.orderedInsert_cons]
    split
    · rename_i q
      refine .cons (le_trans hab q) ?_
      rw [← insert_head h2]
      exact ih b g2
    · exact .cons hab (ih x g2)

/-- Sorting keeps the comparison. -/
theorem needs_below {outs' outs : List Output} (h : PayNoMore outs' outs) : Below (needs outs') (needs outs) := by
  obtain ⟨l, hl, hf⟩ := h
  induction hl generalizing outs' with
  | slnil =>
    cases hf
    exact .nil
  | @cons l1 l2 a _ ih => exact (ih hf).skip _ (List.pairwise_insertionSort _ _)
  | @cons_cons l1 l2 a _ ih =>
    cases hf with
    | cons ha hf => exact (ih hf).insert (List.pairwise_insertionSort _ _) (List.pairwise_insertionSort _ _) ha

theorem Below.split {l' l : List ℚ} (h : Below l' l) : ∃ l1 l2, l = l1 ++ l2 ∧ List.Forall₂ (· ≤ ·) l' l1 := by
  induction h with
  | @nil l => exact ⟨[], l, rfl, .nil⟩
  | @cons a b as bs hab _ ih =>
    obtain ⟨l1, l2, e, hf⟩ := ih
    exact ⟨b :: l1, l2, by rw [e]; rfl, .cons hab hf⟩

theorem covers_prefix {ws xs : List ℚ} (h : Covers ws xs) : ∀ {l1 l2 : List ℚ}, ws = l1 ++ l2 → Covers l1 xs := by
  induction h with
  | done =>
    intro l1 l2 e
    rw [(List.append_eq_nil_iff.1 e.symm).1]
    exact .done
  | next hw _ ih =>
    intro l1 l2 e
    cases l1 with
    | nil => exact .done
    | cons a as =>
      cases e
      exact .next hw (ih rfl)
  | take hw _ ih =>
    intro l1 l2 e
    cases l1 with
    | nil => exact .done
    | cons a as =>
      cases e
      exact .take hw (ih rfl)

section

variable {σ : Type} {wraps : Bool} {rnd : Nat → Nat} {fmt : Nat → Nat → Token} {ord : List Nat → List Nat}
  {E : Estimator σ} {s : RI} {est estS : σ} {ins insS : List Utxo} {outs outs' : List Output} {ch : Option Nat}
  {us : List Utxo}

/-- C119 for random-improve, without assets: for one and the same random numbers, fewer or smaller outputs are paid where the
larger ones are, whatever the fixed inputs. -/
theorem C119_random (h : PlainCase E s est ins outs us) (h' : PlainCase E s estS insS outs' us) (hord : ∀ l, (ord l).Perm l)
    (hless : PayNoMore outs' outs)
    (hr : ∃ r est' s1, s.select wraps rnd fmt ord E est (Setup.fromFixed ins outs ch) = (.ok (r, est'), s1)) :
    ∃ r est' s1, s.select wraps rnd fmt ord E estS (Setup.fromFixed insS outs' ch) = (.ok (r, est'), s1) := by
  obtain ⟨l, hl⟩ := exists_order rnd _ 0 s.indices rfl
  have h1 := (plain_follows h hord hl).1 hr
  refine (plain_follows h' hord hl).2 ?_
  obtain ⟨l1, l2, e, hf⟩ := (needs_below hless).split
  refine Covers.mono _ (le_refl _) hf (List.Sublist.refl _) ?_ (covers_prefix h1 e)
  have hus := h.available
  unfold RI.available at hus
  rw [amounts_eq h.indices.2 (fun i hi => hl.perm.mem_iff.2 hi)]
  intro y hy
  obtain ⟨u, hu, rfl⟩ := List.mem_map.1 hy
  refine (h.inRange u ?_).1
  rw [atAll_map hus]
  exact (hl.perm.symm.map _).mem_iff.1 hu

end

/-- The draws that pay 30 and 30 pay 25 as well. -/
example : ∃ r est' s1, (RI.ofList orAvail).select false (fun k => if k = 0 then 4 else 1) riFmt id (flatEstimator 1 1 0) ()
    (Setup.fromFixed [] [⟨9, 25, []⟩] none) = (.ok (r, est'), s1) := by
  have h1 : riView ((RI.ofList orAvail).select false (fun k => if k = 0 then 4 else 1) riFmt id (flatEstimator 1 1 0) ()
      (Setup.fromFixed [] orOuts none)) = (some (70, 0, 4, [3, 1, 2]), []) := by decide +kernel
  obtain ⟨r, e1, _⟩ := ri_ok h1
  have hc := or_case orAvail (by decide +kernel)
  refine C119_random hc ⟨hc.indices, hc.available, by decide, by simp, hc.inRange, by decide +kernel, ⟨_, rfl⟩, hc.answers⟩
    (fun l => List.Perm.refl l) ⟨[⟨9, 30, []⟩], ?_, ?_⟩ ⟨_, _, _, e1⟩
  · exact .cons _ (.refl _)
  · exact .cons (by norm_num) .nil

end Verif.Props
