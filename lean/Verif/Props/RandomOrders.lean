import Verif.Selection.RandomImproveOrders
import Verif.Props.RandomImproveComplete

/-!
# Random-improve: when a payment without assets is made whatever is drawn (C114)
-/

namespace Verif.Props

open Verif Verif.Core Verif.Selection Verif.Selection.Random

/-- A payment without assets from the UTxOs `us`: amounts are 64-bit numbers, outputs are positive. -/
structure PlainCase {σ : Type} (E : Estimator σ) (s : RI) (est : σ) (ins : List Utxo) (outs : List Output)
    (us : List Utxo) : Prop where
  indices : IndicesOk s
  available : s.available = .ok us
  noAssets : ∀ o ∈ outs, o.assets = []
  fixed : ∀ u ∈ ins, 0 ≤ u.value
  inRange : ∀ u ∈ us, 0 ≤ u.value ∧ u.value < 2 ^ 64
  outRange : ∀ o ∈ outs, 0 < o.value ∧ 3 * o.value < 2 ^ 64
  fee : ∃ fee, E.minFee est = .ok fee
  answers : ∀ st u, (∃ f, E.feeIn st u = .ok f) ∧ ∃ st', E.addIn st u = .ok st'

/-- The amounts of the outputs, the largest first. -/
def needs (outs : List Output) : List ℚ := (outs.map (·.value)).insertionSort (· ≥ ·)

section

variable {σ : Type} {wraps : Bool} {rnd : Nat → Nat} {fmt : Nat → Nat → Token} {ord : List Nat → List Nat}
  {E : Estimator σ} {s s' : RI} {est : σ} {ins : List Utxo} {outs : List Output} {ch : Option Nat}
  {us us' more : List Utxo}

theorem needs_eq (outs : List Output) :
    (outputsFor (fun o : Output => some o.value) outs).reverse.map (fun o => ((fun o : Output => some o.value) o).getD 0) =
      needs outs := by
  have h1 : (needs outs).Pairwise (· ≥ ·) := List.pairwise_insertionSort _ _
  have h2 : ((outputsFor (fun o : Output => some o.value) outs).reverse.map (·.value)).Pairwise (· ≥ ·) := by
    rw [List.map_reverse, List.pairwise_reverse, List.pairwise_map]
    have : (outputsFor (fun o : Output => some o.value) outs).Pairwise
        (fun a b => ((fun o : Output => some o.value) a).getD 0 ≤ ((fun o : Output => some o.value) b).getD 0) := by
      unfold outputsFor
      haveI : Std.Total (fun a b : Output => ((fun o : Output => some o.value) a).getD 0 ≤
          ((fun o : Output => some o.value) b).getD 0) := ⟨fun a b => le_total _ _⟩
      haveI : IsTrans Output (fun a b : Output => ((fun o : Output => some o.value) a).getD 0 ≤
          ((fun o : Output => some o.value) b).getD 0) := ⟨fun a b c => le_trans⟩
      exact List.pairwise_insertionSort _ _
    exact this
  have hp : ((outputsFor (fun o : Output => some o.value) outs).reverse.map (·.value)).Perm (needs outs) := by
    refine List.Perm.trans ?_ (List.perm_insertionSort _ _).symm
    refine List.Perm.map _ ((List.reverse_perm _).trans ((outputsFor_perm _ _).trans ?_))
    simp
  exact hp.eq_of_pairwise (fun a b _ _ h3 h4 => le_antisymm h4 h3) h2 h1

/-- Nothing but a lack of inputs makes such a payment fail. -/
theorem plain_noInput (h : PlainCase E s est ins outs us) (hord : ∀ l, (ord l).Perm l) {e : SelErr} {s1 : RI}
    (h1 : s.select wraps rnd fmt ord E est (Setup.fromFixed ins outs ch) = (.error e, s1)) : e = .noInput := by
  have hno : ∀ e, ¬ EstErr E e := by
    rintro e ⟨st, u, h' | h'⟩
    · obtain ⟨⟨f, hf⟩, _⟩ := h.answers st u
      rw [hf] at h'
      cases h'
    · obtain ⟨_, st', hf⟩ := h.answers st u
      rw [hf] at h'
      cases h'
  obtain ⟨fee, hfee⟩ := h.fee
  have hus := h.available
  unfold RI.available at hus
  rcases random_spec (wraps := wraps) (rnd := rnd) (fmt := fmt) (io := Setup.fromFixed ins outs ch) h.indices hord hfee with
    ⟨b, av, A, chosen, _, _, _, _, _, h5⟩ | ⟨e', av, h1', _, h3⟩
  · rw [h5] at h1
    cases h1
  rw [h1'] at h1
  cases h1
  rcases h3 with rfl | ⟨_, o, ho, h3⟩ | ⟨_, o, ho, i, hi, j, hj, a, b, ha, hb, e', hs'⟩ | h3
  · rfl
  · exfalso
    rcases h3 with h3 | ⟨a, ha, h3⟩
    · linarith [(h.outRange o ho).1]
    · rw [h.noAssets o ho] at ha
      cases ha
  · exfalso
    have hr : ∀ q : ℚ, 0 ≤ q → q < 2 ^ 64 → ∃ n : Nat, toU64 q = some n ∧ (n : ℚ) ≤ q := by
      intro q h0 h1
      have h2 : 0 ≤ q.floor := Rat.le_floor_iff.2 (by simpa using h0)
      have h3 : (q.floor : ℚ) ≤ q := Rat.floor_le _
      refine ⟨q.floor.toNat, ?_, ?_⟩
      · unfold toU64
        have hlt : q.floor.toNat < 2 ^ 64 := by
          have h4 : (q.floor : ℚ) < ((2 ^ 64 : Int) : ℚ) := lt_of_le_of_lt h3 (by push_cast; exact h1)
          have h5 : q.floor < 2 ^ 64 := by exact_mod_cast h4
          omega
        rw [if_neg (not_lt.2 h0), if_pos hlt]
      · have h4 : ((q.floor.toNat : Int) : ℚ) = (q.floor : ℚ) := by rw [Int.toNat_of_nonneg h2]
        have h5 : ((q.floor.toNat : Nat) : ℚ) = (q.floor : ℚ) := by rw [← h4]; norm_cast
        rw [h5]
        exact h3
    obtain ⟨a1, a2⟩ := h.inRange a (us_mem hus hi ha)
    obtain ⟨b1, b2⟩ := h.inRange b (us_mem hus hj hb)
    obtain ⟨o1, o2⟩ := h.outRange o ho
    obtain ⟨x, hx, _⟩ := hr _ a1 a2
    obtain ⟨y, hy, _⟩ := hr _ b1 b2
    obtain ⟨z, hz, hz'⟩ := hr o.value (le_of_lt o1) (by linarith)
    have h7 : (3 * z : ℚ) < 2 ^ 64 := by linarith
    have h8 : 3 * z < 2 ^ 64 := by exact_mod_cast h7
    simp only [shouldImprove, hx, hy, hz, mulU64, if_pos h8, if_pos (show 2 * z < 2 ^ 64 by omega)] at hs'
    cases hs'
  · exact absurd h3 (hno _)

/-- The selection answers just when the order of the draws covers the outputs. -/
theorem plain_follows (h : PlainCase E s est ins outs us) (hord : ∀ l, (ord l).Perm l) {l : List Nat}
    (hl : Follows rnd 0 s.indices l) :
    (∃ r est' s1, s.select wraps rnd fmt ord E est (Setup.fromFixed ins outs ch) = (.ok (r, est'), s1)) ↔
      Covers (needs outs) (l.map (amtAt s.inputs (fun u => some u.value))) := by
  have hno : ¬ EstErr E .noInput := by
    rintro ⟨st, u, h' | h'⟩
    · obtain ⟨⟨f, hf⟩, _⟩ := h.answers st u
      rw [hf] at h'
      cases h'
    · obtain ⟨_, st', hf⟩ := h.answers st u
      rw [hf] at h'
      cases h'
  obtain ⟨fee, hfee⟩ := h.fee
  obtain ⟨hI, hlt⟩ := h.indices
  have hus := h.available
  unfold RI.available at hus
  obtain ⟨hin, hout, _, _, _, hkeys, _⟩ := C48_setup_totals ins outs ch
  have hoa : (Setup.fromFixed ins outs ch).outputAssets = [] := by
    cases hk : (Setup.fromFixed ins outs ch).outputAssets with
    | nil => rfl
    | cons x xs =>
      exfalso
      have : x.1 ∈ (Setup.fromFixed ins outs ch).outputAssets.keys := by
        rw [hk]
        simp [AMap.keys]
      obtain ⟨o, ho, a, ha, _⟩ := (hkeys _).1 this
      rw [h.noAssets o ho] at ha
      cases ha
  have hw : wanted (Setup.fromFixed ins outs ch).outputAssets = [] := by
    rw [hoa]
    rfl
  have hfix : (Setup.fromFixed ins outs ch).fixedOutputs = outs := rfl
  have hrel : relevantOf s.inputs (fun u => some u.value) s.indices = .ok s.indices := relevantOf_all hlt
  have hall : AllAmt s.inputs (fun u => some u.value) s.indices := fun i hi =>
    ⟨_, _, List.getElem?_eq_getElem (hlt i hi), rfl⟩
  have hcov := coverAll_follows (rnd := rnd) (amt := fun u => some u.value) (inputs := s.inputs)
    (want := fun o => some o.value) (outputsFor (fun o : Output => some o.value) outs).reverse
    (p := ⟨s.indices, s.indices, [], 0⟩) (fun _ _ => rfl) hall hl
  rw [needs_eq] at hcov
  have h0 : BInv E s.inputs (startOf [] est (Setup.fromFixed ins outs ch) fee)
      ⟨est, (Setup.fromFixed ins outs ch).inputAssets, (Setup.fromFixed ins outs ch).inputBalance, fee, []⟩ := by
    refine ⟨[], rfl, ?_, ?_, rfl⟩
    · simp [Start.inputAfter, startOf]
    · intro t
      simp [Start.assetAfter, startOf]
  generalize hb0 : (⟨est, (Setup.fromFixed ins outs ch).inputAssets, (Setup.fromFixed ins outs ch).inputBalance, fee, []⟩ :
    Books σ) = b0 at h0
  have hsel : ∀ e av, selectPass wraps rnd E s.inputs outs (fun u => some u.value) (fun o => some o.value) s.indices 0 b0 =
      .error (e, av) → s.select wraps rnd fmt ord E est (Setup.fromFixed ins outs ch) = (.error e, { s with indices := av }) := by
    intro e av he
    unfold RI.select
    simp only [hfee, hw, hfix, assetPasses, hb0, he]
  constructor
  · rintro ⟨r, est', s1, hr⟩
    rcases hcov with ⟨_, _, hc⟩ | ⟨av, h1, _⟩
    · exact hc
    exfalso
    rw [hsel .noInput av (by unfold selectPass; simp only [hrel, h1])] at hr
    cases hr
  · intro hc
    rcases hcov with ⟨p1, h1, _⟩ | ⟨av, _, h1⟩
    swap
    · exact absurd hc h1
    rcases hres : s.select wraps rnd fmt ord E est (Setup.fromFixed ins outs ch) with ⟨res, s1⟩
    cases res with
    | ok x => exact ⟨x.1, x.2, s1, rfl⟩
    | error e =>
      exfalso
      have he := plain_noInput h hord hres
      subst he
      cases hp : selectPass wraps rnd E s.inputs outs (fun u => some u.value) (fun o => some o.value) s.indices 0 b0 with
      | error f =>
        obtain ⟨e, av⟩ := f
        have := hsel e av hp
        rw [hres] at this
        obtain ⟨rfl, -⟩ : e = .noInput ∧ True := by
          simp only [Prod.mk.injEq, Except.error.injEq] at this
          exact ⟨this.1.symm, trivial⟩
        have := selectPass_first hI hlt h0 hno hrel hp
        rw [h1] at this
        cases this
      | ok y =>
        obtain ⟨av2, k2, b2⟩ := y
        unfold RI.select at hres
        simp only [hfee, hw, hfix, assetPasses, hb0, hp] at hres
        rcases selectPass_spec (wraps := wraps) (rnd := rnd) (outs := outs) (k := 0)
            (amt := fun u => some u.value) (want := fun o => some o.value) hI hlt h0 with
          ⟨av', k', b', A', g1, g2, g3, g4, g5, _⟩ | ⟨e, av', g1, _⟩
        swap
        · rw [hp] at g1
          cases g1
        rw [hp] at g1
        cases g1
        have hb0a : b0.added = [] := by rw [← hb0]
        rw [hb0a, List.nil_append] at g3
        have hn2 : av2.Nodup := (List.nodup_append.1 (g4.nodup_iff.1 hI)).2.1
        have hlt2 : ∀ i ∈ av2, i < s.inputs.length := fun i hi => hlt i (g4.mem_iff.2 (List.mem_append.2 (.inr hi)))
        have hval : ∀ i ∈ s.indices, 0 ≤ ((s.inputs[i]?).bind mainOf).getD 0 := by
          intro i hi
          rw [List.getElem?_eq_getElem (hlt i hi), Option.bind_some]
          exact (h.inRange _ (us_mem hus hi (List.getElem?_eq_getElem (hlt i hi)))).1
        cases ht : topUp rnd E s.inputs (Setup.fromFixed ins outs ch).outputBalance av2.length av2 k2 b2 with
        | error f =>
          obtain ⟨e, av'⟩ := f
          simp only [ht, Prod.mk.injEq, Except.error.injEq] at hres
          rw [hres.1] at ht
          have hlast := topUp_noInput hno _ hlt2 g2 ht
          obtain ⟨vs, w1, w2, _⟩ := g2
          have hvs : b2.input = (Setup.fromFixed ins outs ch).inputBalance + sumAmt s.inputs mainOf b2.added := by
            rw [w2, sumAmt_us w1]
            simp [Start.inputAfter, startOf]
          have hded : sumAmt s.inputs mainOf b2.added.dedup ≤ sumAmt s.inputs mainOf b2.added := by
            refine List.Sublist.sum_le_sum ((List.dedup_sublist _).map _) (fun x hx => ?_)
            obtain ⟨i, hi, rfl⟩ := List.mem_map.1 hx
            exact hval i (g4.mem_iff.2 (List.mem_append.2 (.inl (List.mem_dedup.2 (g3 ▸ hi)))))
          have hsum : sumAmt s.inputs mainOf s.indices =
              sumAmt s.inputs mainOf b2.added.dedup + sumAmt s.inputs mainOf av2 := by
            rw [sumAmt_perm g4, sumAmt_append, g3]
          have hib : 0 ≤ (Setup.fromFixed ins outs ch).inputBalance := by
            rw [hin]
            refine List.sum_nonneg (fun x hx => ?_)
            obtain ⟨u, hu, rfl⟩ := List.mem_map.1 hx
            exact h.fixed u hu
          have hsl : sumAmt s.inputs mainOf s.indices = (l.map (amtAt s.inputs (fun u => some u.value))).sum :=
            sumAmt_perm hl.perm
          have hcs := hc.sum_le (fun x hx => by
            obtain ⟨i, hi, rfl⟩ := List.mem_map.1 hx
            exact hval i (hl.perm.mem_iff.2 hi))
          have hpos : ∀ w ∈ needs outs, 0 ≤ w := by
            intro w hw'
            obtain ⟨o, ho, rfl⟩ := List.mem_map.1 ((List.perm_insertionSort _ _).mem_iff.1 hw')
            exact (h.outRange o ho).1.le
          have hns : ((needs outs).map (fun w => max 0 w)).sum = (outs.map (·.value)).sum := by
            rw [List.map_congr_left (g := id) (fun w hw' => by simpa using hpos w hw'), List.map_id]
            exact (List.perm_insertionSort _ _).sum_eq
          linarith
        | ok y =>
          obtain ⟨av3, b3⟩ := y
          simp only [ht] at hres
          rcases topUp_spec (rnd := rnd) (k := k2) (output := (Setup.fromFixed ins outs ch).outputBalance) av2.length hn2
              hlt2 (le_refl _) g2 with ⟨av', b', A'', q1, q2, q3, q4, q5⟩ | ⟨e, av', q1, _⟩
          swap
          · rw [ht] at q1
            cases q1
          rw [ht] at q1
          cases q1
          have hat := atAll_of_lt (inputs := s.inputs) (l := ord b3.added.dedup) (fun i hi => by
            have hi' := List.mem_dedup.1 ((hord _).mem_iff.1 hi)
            rw [q3, g3] at hi'
            rcases List.mem_append.1 hi' with hi' | hi'
            · exact hlt i (g4.mem_iff.2 (List.mem_append.2 (.inl (List.mem_dedup.2 hi'))))
            · exact hlt2 i (q4.mem_iff.2 (List.mem_append.2 (.inl hi'))))
          simp [hat] at hres

theorem map_order {f : Nat → Utxo} : ∀ {order : List Utxo} {l : List Nat}, order.Perm (l.map f) →
    ∃ l', l.Perm l' ∧ order = l'.map f
  | [], l, h => ⟨[], by simpa using h.nil_eq.symm, rfl⟩
  | u :: order, l, h => by
    obtain ⟨i, hi, rfl⟩ := List.mem_map.1 (h.mem_iff.1 (List.mem_cons_self ..))
    have hp := List.perm_cons_erase hi
    obtain ⟨l', h1, h2⟩ := map_order (order := order) (l := l.erase i)
      ((List.perm_cons _).1 (h.trans (hp.map f)))
    exact ⟨i :: l', hp.trans (h1.cons i), by rw [h2, List.map_cons]⟩

theorem amounts_eq (hlt : ∀ i ∈ s.indices, i < s.inputs.length) {l : List Nat} (hl : ∀ i ∈ l, i ∈ s.indices) :
    l.map (amtAt s.inputs (fun u => some u.value)) = (l.map (utxoAt s.inputs)).map (·.value) := by
  rw [List.map_map]
  refine List.map_congr_left (fun i hi => ?_)
  have := hlt i (hl i hi)
  simp [amtAt, utxoAt, List.getElem?_eq_getElem this]

/-- C114: whatever the random choices, the UTxOs are drawn in some order, and the payment is made just when the UTxOs in this
order cover the outputs, the largest first, one after the other. -/
theorem C114_run (h : PlainCase E s est ins outs us) (hord : ∀ l, (ord l).Perm l) (wraps : Bool) (rnd : Nat → Nat)
    (fmt : Nat → Nat → Token) (ch : Option Nat) : ∃ order : List Utxo, order.Perm us ∧
      ((∃ r est' s1, s.select wraps rnd fmt ord E est (Setup.fromFixed ins outs ch) = (.ok (r, est'), s1)) ↔
        Covers (needs outs) (order.map (·.value))) := by
  obtain ⟨l, hl⟩ := exists_order rnd _ 0 s.indices rfl
  have hus := h.available
  unfold RI.available at hus
  refine ⟨l.map (utxoAt s.inputs), ?_, ?_⟩
  · rw [atAll_map hus]
    exact hl.perm.symm.map _
  · rw [← amounts_eq h.indices.2 (fun i hi => hl.perm.mem_iff.2 hi)]
    exact plain_follows h hord hl

/-- C114: every order of the UTxOs is drawn by some random choices. -/
theorem C114_order (h : PlainCase E s est ins outs us) (hord : ∀ l, (ord l).Perm l) {order : List Utxo}
    (ho : order.Perm us) : ∃ rnd, ∀ (wraps : Bool) (fmt : Nat → Nat → Token) (ch : Option Nat),
      ((∃ r est' s1, s.select wraps rnd fmt ord E est (Setup.fromFixed ins outs ch) = (.ok (r, est'), s1)) ↔
        Covers (needs outs) (order.map (·.value))) := by
  have hus := h.available
  unfold RI.available at hus
  rw [atAll_map hus] at ho
  obtain ⟨l, h1, rfl⟩ := map_order ho
  obtain ⟨rnd, hl⟩ := exists_draws l 0 s.indices h1
  refine ⟨rnd, fun wraps fmt ch => ?_⟩
  rw [← amounts_eq h.indices.2 (fun i hi => hl.perm.mem_iff.2 hi)]
  exact plain_follows h hord hl

/-- C114: a payment without assets is made whatever is drawn if and only if the UTxOs cover its outputs in every order. -/
theorem C114_exact (h : PlainCase E s est ins outs us) (hord : ∀ l, (ord l).Perm l) (wraps : Bool)
    (fmt : Nat → Nat → Token) (ch : Option Nat) :
    (∀ rnd, ∃ r est' s1, s.select wraps rnd fmt ord E est (Setup.fromFixed ins outs ch) = (.ok (r, est'), s1)) ↔
      ∀ order : List Utxo, order.Perm us → Covers (needs outs) (order.map (·.value)) := by
  constructor
  · intro hall order ho
    obtain ⟨rnd, hr⟩ := C114_order h hord ho
    exact (hr wraps fmt ch).1 (hall rnd)
  · intro hall rnd
    obtain ⟨order, ho, hr⟩ := C114_run h hord wraps rnd fmt ch
    exact hr.2 (hall order ho)

/-- C114: a payment without assets that is made whatever is drawn is so as well when there are more UTxOs. -/
theorem C114_more (h : PlainCase E s est ins outs us) (h' : PlainCase E s' est ins outs us') (hord : ∀ l, (ord l).Perm l)
    (hmore : us'.Perm (us ++ more))
    (hall : ∀ rnd, ∃ r est' s1, s.select wraps rnd fmt ord E est (Setup.fromFixed ins outs ch) = (.ok (r, est'), s1)) :
    ∀ rnd, ∃ r est' s1, s'.select wraps rnd fmt ord E est (Setup.fromFixed ins outs ch) = (.ok (r, est'), s1) := by
  rw [C114_exact h hord] at hall
  rw [C114_exact h' hord]
  intro order ho
  obtain ⟨l, h1, h2⟩ : us.Subperm order :=
    ((List.sublist_append_left us more).subperm.trans hmore.symm.subperm).trans ho.symm.subperm
  refine Covers.mono _ (le_refl _) (List.forall₂_same.2 (fun x _ => le_refl x)) (h2.map _) ?_ (hall l h1)
  intro y hy
  obtain ⟨u, hu, rfl⟩ := List.mem_map.1 hy
  exact (h'.inRange u (ho.mem_iff.1 hu)).1

end

/-- Two payments of 30 from UTxOs of 20, 30, 20. -/
def orAvail : List Utxo := [⟨1, 20, [], 0⟩, ⟨2, 30, [], 0⟩, ⟨3, 20, [], 0⟩]

def orOuts : List Output := [⟨8, 30, []⟩, ⟨9, 30, []⟩]

theorem or_case (us : List Utxo) (h : ∀ u ∈ us, 0 ≤ u.value ∧ u.value < 2 ^ 64) :
    PlainCase (flatEstimator 1 1 0) (RI.ofList us) () [] orOuts us where
  indices := IndicesOk.ofList _
  available := (C44_same_length_partial rfl).2
  noAssets := by decide
  fixed := by simp
  inRange := h
  outRange := by decide +kernel
  fee := ⟨_, rfl⟩
  answers := fun _ _ => ⟨⟨_, rfl⟩, ⟨_, rfl⟩⟩

/-- The order 30, 20, 20 covers the outputs, the order 20, 30, 20 does not. -/
theorem or_covers : Covers (needs orOuts) [30, 20, 20] ∧ ¬ Covers (needs orOuts) [20, 30, 20] := by
  have e : needs orOuts = [30, 30] := by decide +kernel
  rw [e]
  constructor
  · refine .take (by norm_num) (.next (by norm_num) (.take (by norm_num) (.take (by norm_num) (.next (by norm_num) .done))))
  · rw [Covers.take_iff (by norm_num), Covers.take_iff (by norm_num), Covers.next_iff (by norm_num),
      Covers.take_iff (by norm_num)]
    exact Covers.nil_iff (by norm_num)

/-- So the payment is a matter of luck. -/
example : ¬ ∀ rnd, ∃ r est' s1, (RI.ofList orAvail).select false rnd riFmt id (flatEstimator 1 1 0) ()
    (Setup.fromFixed [] orOuts none) = (.ok (r, est'), s1) := by
  rw [C114_exact (ord := id) (or_case orAvail (by decide +kernel)) (fun l => List.Perm.refl l)]
  intro h
  exact or_covers.2 (h orAvail (List.Perm.refl _))

/-- With a UTxO of 60 or more for each output it is not, and by `C114_more` whatever else there is. -/
example (more : List Utxo) (hm : ∀ u ∈ more, 0 ≤ u.value ∧ u.value < 2 ^ 64) (rnd : Nat → Nat) :
    ∃ r est' s1, (RI.ofList ([⟨1, 60, [], 0⟩, ⟨2, 70, [], 0⟩] ++ more)).select false rnd riFmt id (flatEstimator 1 1 0) ()
      (Setup.fromFixed [] orOuts none) = (.ok (r, est'), s1) := by
  have h2 : ∀ u ∈ ([⟨1, 60, [], 0⟩, ⟨2, 70, [], 0⟩] : List Utxo), 0 ≤ u.value ∧ u.value < 2 ^ 64 := by decide +kernel
  refine C114_more (or_case _ h2) (or_case _ ?_) (ord := id) (fun l => List.Perm.refl l) (List.Perm.refl _) ?_ rnd
  · intro u hu
    rcases List.mem_append.1 hu with hu | hu
    · exact h2 u hu
    · exact hm u hu
  · rw [C114_exact (ord := id) (or_case _ h2) (fun l => List.Perm.refl l)]
    intro order ho
    have e : needs orOuts = [30, 30] := by decide +kernel
    rw [e]
    have hl := ho.length_eq
    have hv : ∀ u ∈ order, (30 : ℚ) ≤ u.value := fun u hu => by
      have : ∀ u ∈ ([⟨1, 60, [], 0⟩, ⟨2, 70, [], 0⟩] : List Utxo), (30 : ℚ) ≤ u.value := by decide +kernel
      exact this u (ho.mem_iff.1 hu)
    match order, hl with
    | [a, b], _ =>
      have ha := hv a (by simp)
      have hb := hv b (by simp)
      exact .take (by norm_num) (.next (by linarith) (.take (by norm_num) (.next (by linarith) .done)))

/-- C114: for one and the same random choices a further UTxO can make the payment fail. -/
theorem C114_one_draw_false : ¬ ∀ (rnd : Nat → Nat) (us : List Utxo) (u : Utxo) (outs : List Output),
    (∀ v ∈ u :: us, 0 ≤ v.value ∧ v.value < 2 ^ 64) → (∀ o ∈ outs, 0 < o.value ∧ 3 * o.value < 2 ^ 64 ∧ o.assets = []) →
    (∃ r est' s1, (RI.ofList us).select false rnd riFmt id (flatEstimator 1 1 0) () (Setup.fromFixed [] outs none) =
      (.ok (r, est'), s1)) →
    ∃ r est' s1, (RI.ofList (us ++ [u])).select false rnd riFmt id (flatEstimator 1 1 0) ()
      (Setup.fromFixed [] outs none) = (.ok (r, est'), s1) := by
  intro h
  have h1 : riView ((RI.ofList orAvail).select false (fun k => if k = 0 then 4 else 1) riFmt id (flatEstimator 1 1 0) ()
      (Setup.fromFixed [] orOuts none)) = (some (70, 0, 4, [3, 1, 2]), []) := by decide +kernel
  obtain ⟨r, e1, _⟩ := ri_ok h1
  have := h (fun k => if k = 0 then 4 else 1) orAvail ⟨4, 1, [], 0⟩ orOuts (by decide +kernel) (by decide +kernel)
    ⟨_, _, _, e1⟩
  exact ri_err (l := []) (by decide +kernel) this

/-- Two UTxOs, each with the token and the amount asked for. -/
def orTokens : List Utxo := [⟨1, 50, [⟨7, 10, 3, 4⟩], 0⟩, ⟨2, 50, [⟨7, 10, 3, 4⟩], 0⟩]

def orTokenOut : Output := ⟨9, 50, [⟨7, 10, 3, 4⟩]⟩

theorem or_token (rnd : Nat → Nat) : ∃ r est' s1, (RI.ofList orTokens).select false rnd riFmt id (flatEstimator 1 1 0) ()
      (Setup.fromFixed [] [orTokenOut] none) = (.ok (r, est'), s1) := by
  have hw : wanted (Setup.fromFixed [] [orTokenOut] none).outputAssets = [(3, 4)] := by decide +kernel
  have hfix : (Setup.fromFixed [] [orTokenOut] none).fixedOutputs = [orTokenOut] := rfl
  have hfm : riFmt 3 4 = 7 := rfl
  have hf : outputsFor (fun o => firstOf 7 o.assets) [orTokenOut] = [orTokenOut] := rfl
  have hf2 : outputsFor (fun o => some o.value) [orTokenOut] = [orTokenOut] := rfl
  have hr : relevantOf orTokens (fun u => firstOf 7 u.assets) [0, 1] = .ok [0, 1] := rfl
  have hr1 : relevantOf orTokens (fun u => some u.value) [0] = .ok [0] := rfl
  have hr2 : relevantOf orTokens (fun u => some u.value) [1] = .ok [1] := rfl
  have hs0 : swapRemove [0, 1] 0 = [1] := rfl
  have hs1 : swapRemove [0, 1] 1 = [0] := rfl
  have hs2 : swapRemove [0] 0 = [] := rfl
  have hs3 : swapRemove [1] 0 = [] := rfl
  have ha0 : at' orTokens 0 = .ok ⟨1, 50, [⟨7, 10, 3, 4⟩], 0⟩ := rfl
  have ha1 : at' orTokens 1 = .ok ⟨2, 50, [⟨7, 10, 3, 4⟩], 0⟩ := rfl
  have hi1 : shouldImprove false ⟨1, 50, [⟨7, 10, 3, 4⟩], 0⟩ ⟨2, 50, [⟨7, 10, 3, 4⟩], 0⟩ orTokenOut = .ok false := by decide +kernel
  have hi2 : shouldImprove false ⟨2, 50, [⟨7, 10, 3, 4⟩], 0⟩ ⟨1, 50, [⟨7, 10, 3, 4⟩], 0⟩ orTokenOut = .ok false := by decide +kernel
  have hI : (RI.ofList orTokens).inputs = orTokens := rfl
  have hJ : (RI.ofList orTokens).indices = [0, 1] := rfl
  have hv : orTokenOut.value = 50 := rfl
  have hva : orTokenOut.assets = [⟨7, 10, 3, 4⟩] := rfl
  have hfo : firstOf 7 [⟨7, 10, 3, 4⟩] = some 10 := rfl
  rcases Nat.mod_two_eq_zero_or_one (rnd 0) with h | h
  all_goals
    simp [RI.select, hw, hfix, hfm, assetPasses, selectPass, hI, hJ, hr, hf, coverAll, hva, hfo, flatEstimator, coverLoop,
      h, hs0, hs1, ha0, ha1, Pick.of, AMap.get, AMap.insert, improveAll, improveLoop, Nat.mod_one, hi1, hi2, addAll,
      addInputs, addInput, hr1, hr2, hf2, hs2, hs3, hv, topUp]
  all_goals
    rw [if_neg (by decide +kernel)]
    exact ⟨_, _, _, rfl⟩

/-- C114: with assets more UTxOs can make a payment fail that is made before whatever is drawn. Of the two further UTxOs, with
five of the token each, both are drawn for the token, both are then improved to the large ones, and nothing is left for the
main amount. -/
theorem C114_assets_false : ¬ ∀ (us more : List Utxo) (o : Output),
    (∀ u ∈ us ++ more, 0 ≤ u.value ∧ u.value < 2 ^ 64) → (0 < o.value ∧ 3 * o.value < 2 ^ 64) →
    (∀ rnd, ∃ r est' s1, (RI.ofList us).select false rnd riFmt id (flatEstimator 1 1 0) () (Setup.fromFixed [] [o] none) =
      (.ok (r, est'), s1)) →
    ∀ rnd, ∃ r est' s1, (RI.ofList (us ++ more)).select false rnd riFmt id (flatEstimator 1 1 0) ()
      (Setup.fromFixed [] [o] none) = (.ok (r, est'), s1) := by
  intro h
  have := h orTokens [⟨3, 1, [⟨7, 5, 3, 4⟩], 0⟩, ⟨4, 1, [⟨7, 5, 3, 4⟩], 0⟩] orTokenOut (by decide +kernel) (by decide +kernel)
    or_token (fun k => if k < 2 then 7 else 0)
  exact ri_err (l := []) (by decide +kernel) this

end Verif.Props
