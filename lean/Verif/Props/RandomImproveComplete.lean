import Verif.Selection.RandomImproveComplete
import Verif.Props.RandomImprove

/-!
# Random-improve: an affordable payment is made (C69), the choice is improved (C70)
-/

namespace Verif.Props

open Verif Verif.Core Verif.Selection Verif.Selection.Random

/-- An output asks for the token. -/
def Asked (outs : List Output) (t : Token) : Prop := ∃ o ∈ outs, ∃ a ∈ o.assets, a.fingerprint = t

/-- How many outputs ask for the token. -/
def askers (outs : List Output) (t : Token) : ℚ :=
  (outs.filter (fun o => decide (∃ a ∈ o.assets, a.fingerprint = t))).length

/-- The UTxO holds none of the tokens asked for. -/
def Untouched (outs : List Output) (u : Utxo) : Prop := ∀ a ∈ u.assets, ∀ o ∈ outs, ∀ b ∈ o.assets,
  a.fingerprint ≠ b.fingerprint

instance (outs : List Output) (u : Utxo) : Decidable (Untouched outs u) := by
  unfold Untouched
  infer_instance

/-- The UTxOs `us` are enough for the outputs, whatever way they are drawn: of each token asked for there is as
much as the outputs ask, and the largest UTxO once more for each further output. -/
structure Enough (outs : List Output) (us : List Utxo) : Prop where
  distinct : ∀ u ∈ us, (u.assets.map (·.fingerprint)).Nodup
  outDistinct : ∀ o ∈ outs, (o.assets.map (·.fingerprint)).Nodup
  /-- No UTxO holds two of the tokens asked for. -/
  one : ∀ u ∈ us, ∀ a ∈ u.assets, ∀ b ∈ u.assets, Asked outs a.fingerprint → Asked outs b.fingerprint →
    a.fingerprint = b.fingerprint
  assets : ∀ t, Asked outs t → ∃ largest, 0 ≤ largest ∧ (∀ u ∈ us, assetSum t u.assets ≤ largest) ∧
    (outs.map (fun o => assetSum t o.assets)).sum + (askers outs t - 1) * largest ≤
      (us.map (fun u => assetSum t u.assets)).sum
  main : ∃ largest, 0 ≤ largest ∧ (∀ u ∈ us, u.value ≤ largest) ∧
    (outs.map (·.value)).sum + ((outs.length : ℚ) - 1) * largest ≤
      ((us.filter (fun u => decide (Untouched outs u))).map (·.value)).sum
  /-- Main amounts are 64-bit numbers. -/
  inRange : ∀ u ∈ us, 0 ≤ u.value ∧ u.value < 2 ^ 64
  outRange : ∀ o ∈ outs, 0 < o.value ∧ 3 * o.value < 2 ^ 64 ∧ ∀ a ∈ o.assets, 0 < a.quantity

section

variable {σ : Type} {wraps : Bool} {rnd : Nat → Nat} {fmt : Nat → Nat → Token} {ord : List Nat → List Nat}
  {E : Estimator σ} {s s' : RI} {est est' : σ} {r : Result}

theorem firstOf_isSome {t : Token} {as : List Asset} :
    (firstOf t as).isSome = true ↔ ∃ a ∈ as, a.fingerprint = t := by
  unfold firstOf
  rw [Option.isSome_map, List.find?_isSome]
  simp

theorem askers_eq (outs : List Output) (t : Token) : askers outs t = asking (fun o => firstOf t o.assets) outs := by
  unfold askers asking
  congr 2
  refine List.filter_congr (fun o _ => ?_)
  rw [Bool.eq_iff_iff, decide_eq_true_iff]
  exact firstOf_isSome.symm

theorem sumAmt_us {inputs : List Utxo} {amt : Utxo → Option ℚ} {l : List Nat} {us : List Utxo}
    (h : atAll inputs l = .ok us) : sumAmt inputs amt l = (us.map (fun u => (amt u).getD 0)).sum := by
  have hl := atAll_lt h
  rw [atAll_map h, List.map_map]
  unfold sumAmt
  congr 1
  refine List.map_congr_left (fun i hi => ?_)
  rw [List.getElem?_eq_getElem (hl i hi), Option.bind_some]
  simp [utxoAt, List.getElem?_eq_getElem (hl i hi)]

theorem us_mem {inputs : List Utxo} {l : List Nat} {us : List Utxo} (h : atAll inputs l = .ok us) {i : Nat}
    (hi : i ∈ l) {u : Utxo} (hu : inputs[i]? = some u) : u ∈ us := by
  rw [atAll_map h]
  refine List.mem_map.2 ⟨i, hi, ?_⟩
  simp [utxoAt, hu]

/-- The list of passes: each token asked for once. -/
theorem wanted_tokens {ins : List Utxo} {outs : List Output} {ch : Option Nat}
    (hfmt : ∀ o ∈ outs, ∀ a ∈ o.assets, fmt a.policy a.name = a.fingerprint) :
    ((wanted (Setup.fromFixed ins outs ch).outputAssets).map (fun x => fmt x.1 x.2)).Nodup ∧
    (∀ x ∈ wanted (Setup.fromFixed ins outs ch).outputAssets, Asked outs (fmt x.1 x.2)) := by
  obtain ⟨_, _, _, _, _, hkeys, _, hnd, _, hkeyed, _⟩ := C48_setup_totals ins outs ch
  have hf : ∀ kv ∈ (Setup.fromFixed ins outs ch).outputAssets, fmt kv.2.policy kv.2.name = kv.1 := by
    rintro ⟨t, a⟩ h
    have hg := AMap.get_of_mem hnd h
    have := fold_origin outs (fun a => fmt a.policy a.name = a.fingerprint) []
      (fun _ _ h => h) (fun t a h => by simp at h) hfmt t a hg
    rw [this, hkeyed t a hg]
  have hp : ((wanted (Setup.fromFixed ins outs ch).outputAssets).map (fun x => fmt x.1 x.2)).Perm
      (Setup.fromFixed ins outs ch).outputAssets.keys := by
    refine ((List.perm_insertionSort _ _).map _).trans (List.Perm.of_eq ?_)
    rw [List.map_map]
    unfold AMap.keys
    exact List.map_congr_left (fun kv h => hf kv h)
  refine ⟨hp.nodup_iff.2 hnd, fun x hx => ?_⟩
  have := hp.mem_iff.1 (List.mem_map.2 ⟨x, hx, rfl⟩)
  exact (hkeys _).1 this

/-- C69: enough is available, identifiers are of the form `policy:name`, the estimator answers: the selection
succeeds (and then by C42, C43 the reported input covers the outputs). Missing: payments for which the outputs
compete for the inputs, that the fixed inputs pay, and UTxOs with several of the tokens. -/
theorem C69_succeeds_partial {ins : List Utxo} {outs : List Output} {ch : Option Nat} {us : List Utxo}
    (hs : IndicesOk s) (hord : ∀ l, (ord l).Perm l) (hus : s.available = .ok us) (hen : Enough outs us)
    (hins : ∀ u ∈ ins, 0 ≤ u.value)
    (hfmt : ∀ o ∈ outs, ∀ a ∈ o.assets, fmt a.policy a.name = a.fingerprint)
    (hfee : ∃ fee, E.minFee est = .ok fee) (hE : ∀ st u, (∃ f, E.feeIn st u = .ok f) ∧ ∃ st', E.addIn st u = .ok st') :
    ∃ r est' s', s.select wraps rnd fmt ord E est (Setup.fromFixed ins outs ch) = (.ok (r, est'), s') := by
  obtain ⟨fee, hfee⟩ := hfee
  have hno : ∀ e, ¬ EstErr E e := by
    rintro e ⟨st, u, h | h⟩
    · obtain ⟨⟨f, hf⟩, _⟩ := hE st u
      rw [hf] at h
      cases h
    · obtain ⟨_, st', hf⟩ := hE st u
      rw [hf] at h
      cases h
  obtain ⟨hin, hout, _⟩ := C48_setup_totals ins outs ch
  have hwt := wanted_tokens (fmt := fmt) (ins := ins) (ch := ch) hfmt
  rcases random_spec (wraps := wraps) (rnd := rnd) (fmt := fmt) (io := Setup.fromFixed ins outs ch) hs hord hfee with
    ⟨b, av, A, chosen, _, _, _, _, _, h5⟩ | ⟨e, av, h1, _, h3⟩
  · exact ⟨_, _, _, h5⟩
  exfalso
  unfold RI.available at hus
  rcases h3 with rfl | ⟨_, o, ho, h3⟩ | ⟨_, o, ho, i, hi, j, hj, a, b, ha, hb, e', hs'⟩ | h3
  · -- no input left
    obtain ⟨hI, hlt⟩ := hs
    unfold RI.select at h1
    simp only [hfee] at h1
    have h0 : SInv E s.inputs (startOf [] est (Setup.fromFixed ins outs ch) fee) outs s.indices s.indices
        ⟨est, (Setup.fromFixed ins outs ch).inputAssets, (Setup.fromFixed ins outs ch).inputBalance, fee, []⟩ := by
      refine ⟨⟨[], rfl, ?_, ?_, rfl⟩, by simp, fun _ => by simp⟩
      · simp [Start.inputAfter, startOf]
      · intro t
        simp [Start.assetAfter, startOf]
    have hwnn : ∀ t, ∀ o ∈ outs, 0 ≤ (firstOf t o.assets).getD 0 := by
      intro t o ho
      cases hf : firstOf t o.assets with
      | none => simp
      | some q =>
        obtain ⟨a, ha, _, rfl⟩ := firstOf_mem hf
        exact le_of_lt ((hen.outRange o ho).2.2 a ha)
    have hfix : (Setup.fromFixed ins outs ch).fixedOutputs = outs := rfl
    rw [hfix] at h1
    obtain ⟨p1, p2⟩ := assetPasses_enough (wraps := wraps) (rnd := rnd) (fmt := fmt) hI hlt (hno _) hwnn
      (wanted (Setup.fromFixed ins outs ch).outputAssets) (k := 0) h0 hwt.1
      (by
        intro i hi u hu x hx y hy hx' hy'
        obtain ⟨a, ha, hat⟩ := firstOf_isSome.1 hx'
        obtain ⟨b, hb, hbt⟩ := firstOf_isSome.1 hy'
        rw [← hat, ← hbt]
        refine hen.one u (us_mem hus hi hu) a ha b hb ?_ ?_
        · rw [hat]
          exact hwt.2 x hx
        · rw [hbt]
          exact hwt.2 y hy)
      (by
        intro x hx
        obtain ⟨M, m1, m2, m3⟩ := hen.assets _ (hwt.2 x hx)
        refine ⟨M, m1, ?_, ?_⟩
        · intro i hi
          cases hu : s.inputs[i]? with
          | none => simpa using m1
          | some u =>
            rw [Option.bind_some, ← firstOf_eq (hen.distinct u (us_mem hus hi hu))]
            exact m2 u (us_mem hus hi hu)
        · rw [sumAmt_us hus, ← askers_eq]
          rw [List.map_congr_left (fun o ho => firstOf_eq (hen.outDistinct o ho)),
            List.map_congr_left (fun u hu => firstOf_eq (hen.distinct u hu))] at m3
          exact m3)
    cases ha : assetPasses wraps rnd fmt E s.inputs outs (wanted (Setup.fromFixed ins outs ch).outputAssets)
        s.indices 0 ⟨est, (Setup.fromFixed ins outs ch).inputAssets, (Setup.fromFixed ins outs ch).inputBalance, fee, []⟩ with
    | error f =>
      obtain ⟨e, av'⟩ := f
      simp only [ha, Prod.mk.injEq, Except.error.injEq] at h1
      rw [h1.1] at ha
      exact p1 _ ha
    | ok y =>
      obtain ⟨av1, k1, b1⟩ := y
      simp only [ha] at h1
      obtain ⟨i1, left⟩ := p2 _ _ _ ha
      obtain ⟨n1, s1⟩ := i1.avail hI
      have hlt1 : ∀ i ∈ av1, i < s.inputs.length := fun i hi => hlt i (s1.subset hi)
      -- the main amounts left
      have hval : ∀ i ∈ s.indices, 0 ≤ ((s.inputs[i]?).bind mainOf).getD 0 := by
        intro i hi
        cases hu : s.inputs[i]? with
        | none => simp
        | some u => simpa using (hen.inRange u (us_mem hus hi hu)).1
      have hsub : ∀ {l l' : List Nat}, (∀ i ∈ l', 0 ≤ ((s.inputs[i]?).bind mainOf).getD 0) → l.Subperm l' →
          sumAmt s.inputs mainOf l ≤ sumAmt s.inputs mainOf l' := by
        intro l l' hpos h
        obtain ⟨m, hm1, hm2⟩ := h
        rw [← sumAmt_perm hm1]
        refine List.Sublist.sum_le_sum (hm2.map _) (fun x hx => ?_)
        obtain ⟨i, hi, rfl⟩ := List.mem_map.1 hx
        exact hpos i hi
      have hleft : ((us.filter (fun u => decide (Untouched outs u))).map (·.value)).sum ≤
          sumAmt s.inputs mainOf av1 := by
        have e1 : ((us.filter (fun u => decide (Untouched outs u))).map (·.value)).sum =
            sumAmt s.inputs mainOf (s.indices.filter (fun i => decide (Untouched outs (utxoAt s.inputs i)))) := by
          rw [atAll_map hus, List.filter_map, List.map_map]
          unfold sumAmt
          congr 1
          refine List.map_congr_left (fun i hi => ?_)
          have hi' := hlt i (List.mem_of_mem_filter hi)
          rw [List.getElem?_eq_getElem hi']
          simp [utxoAt, List.getElem?_eq_getElem hi']
        rw [e1]
        refine hsub (fun i hi => hval i (s1.subset hi)) ?_
        refine (hI.filter _).subperm (fun i hi => ?_)
        obtain ⟨hi1, hi2⟩ := List.mem_filter.1 hi
        have hi' := hlt i hi1
        have hut : utxoAt s.inputs i = s.inputs[i] := by
          unfold utxoAt
          rw [List.getD_eq_getElem _ _ hi']
        have hun : Untouched outs s.inputs[i] := by
          rw [← hut]
          simpa using hi2
        refine left i hi1 s.inputs[i] (List.getElem?_eq_getElem hi') (fun x hx => ?_)
        by_contra hc
        have hc' : (firstOf (fmt x.1 x.2) s.inputs[i].assets).isSome = true := Option.ne_none_iff_isSome.1 hc
        obtain ⟨a, ha, hat⟩ := firstOf_isSome.1 hc'
        obtain ⟨o, ho, b, hb, hbt⟩ := hwt.2 x hx
        exact hun a ha o ho b hb (hat.trans hbt.symm)
      obtain ⟨M, m1, m2, m3⟩ := hen.main
      cases hp : selectPass wraps rnd E s.inputs outs (fun u => some u.value) (fun o => some o.value) av1 k1 b1 with
      | error f =>
        obtain ⟨e, av'⟩ := f
        simp only [hp, Prod.mk.injEq, Except.error.injEq] at h1
        rw [h1.1] at hp
        have := selectPass_noInput n1 hlt1 i1.books (hno _) m1 (by
          intro i hi
          cases hu : s.inputs[i]? with
          | none => simpa using m1
          | some u => simpa using m2 u (us_mem hus (s1.subset hi) hu))
          (fun o ho => by simpa using le_of_lt (hen.outRange o ho).1) hp
        have hask : asking (fun o : Output => some o.value) outs = outs.length := by
          unfold asking
          simp
        rw [hask] at this
        simp only [Option.getD_some] at this
        have e : sumAmt s.inputs (fun u => some u.value) av1 = sumAmt s.inputs mainOf av1 := rfl
        linarith
      | ok y =>
        obtain ⟨av2, k2, b2⟩ := y
        simp only [hp] at h1
        rcases selectPass_spec (wraps := wraps) (rnd := rnd) (outs := outs) (k := k1)
            (amt := fun u => some u.value) (want := fun o => some o.value) n1 hlt1 i1.books with
          ⟨av', k', b', A', g1, g2, g3, g4, g5, _⟩ | ⟨e, av', g1, _⟩
        swap
        · rw [hp] at g1
          cases g1
        rw [hp] at g1
        cases g1
        have i2 := i1.step hI g2 g3 g4 g5
        obtain ⟨n2, s2⟩ := i2.avail hI
        cases ht : topUp rnd E s.inputs (Setup.fromFixed ins outs ch).outputBalance av2.length av2 k2 b2 with
        | error f =>
          obtain ⟨e, av'⟩ := f
          simp only [ht, Prod.mk.injEq, Except.error.injEq] at h1
          rw [h1.1] at ht
          have hlast := topUp_noInput (hno _) _ (fun i hi => hlt i (s2.subset hi)) g2 ht
          -- the books
          obtain ⟨vs, w1, w2, _⟩ := g2
          have hvs : b2.input = (Setup.fromFixed ins outs ch).inputBalance + sumAmt s.inputs mainOf b2.added := by
            rw [w2, sumAmt_us w1]
            simp [Start.inputAfter, startOf]
          have haddpos : ∀ i ∈ b2.added, 0 ≤ ((s.inputs[i]?).bind mainOf).getD 0 := fun i hi =>
            hval i (i2.perm.mem_iff.2 (List.mem_append.2 (.inl (List.mem_dedup.2 hi))))
          have hded := hsub haddpos (List.dedup_sublist b2.added).subperm
          have hall : sumAmt s.inputs mainOf s.indices =
              sumAmt s.inputs mainOf b2.added.dedup + sumAmt s.inputs mainOf av2 := by
            rw [sumAmt_perm i2.perm, sumAmt_append]
          have hav1 : sumAmt s.inputs mainOf av1 ≤ sumAmt s.inputs mainOf s.indices := hsub hval s1
          have hib : 0 ≤ (Setup.fromFixed ins outs ch).inputBalance := by
            rw [hin]
            refine List.sum_nonneg (fun x hx => ?_)
            obtain ⟨u, hu, rfl⟩ := List.mem_map.1 hx
            exact hins u hu
          have hob : (Setup.fromFixed ins outs ch).outputBalance ≤
              ((us.filter (fun u => decide (Untouched outs u))).map (·.value)).sum := by
            rw [hout]
            cases houts : outs with
            | nil =>
              simp only [List.map_nil, List.sum_nil]
              refine List.sum_nonneg (fun x hx => ?_)
              obtain ⟨u, hu, rfl⟩ := List.mem_map.1 hx
              exact (hen.inRange u (List.mem_of_mem_filter hu)).1
            | cons o os =>
              rw [← houts]
              have : (0 : ℚ) ≤ ((outs.length : ℚ) - 1) * M := by
                refine mul_nonneg ?_ m1
                rw [houts]
                simp
              linarith
          linarith
        | ok y =>
          obtain ⟨av3, b3⟩ := y
          simp only [ht] at h1
          rcases topUp_spec (rnd := rnd) (k := k2) (output := (Setup.fromFixed ins outs ch).outputBalance) av2.length n2
              (fun i hi => hlt i (s2.subset hi)) (le_refl _) g2 with
            ⟨av', b', A'', q1, q2, q3, q4, q5⟩ | ⟨e, av', q1, _⟩
          swap
          · rw [ht] at q1
            cases q1
          rw [ht] at q1
          cases q1
          have hA : A''.Nodup := (List.nodup_append.1 (q4.nodup_iff.1 n2)).1
          have i3 := i2.step hI q2 q3 (by rw [List.dedup_eq_self.2 hA]; exact q4) (fun _ => hA)
          have hall := atAll_of_lt (inputs := s.inputs) (l := ord b3.added.dedup) (fun i hi =>
            hlt i (i3.perm.mem_iff.2 (List.mem_append.2 (.inl ((hord _).mem_iff.1 hi)))))
          simp [hall] at h1
  · have h := hen.outRange o ho
    rcases h3 with h3 | ⟨a, ha, h3⟩
    · linarith [h.1]
    · linarith [h.2.2 a ha]
  · have hr : ∀ q : ℚ, 0 ≤ q → q < 2 ^ 64 → ∃ n : Nat, toU64 q = some n ∧ (n : ℚ) ≤ q := by
      intro q h0 h1
      refine ⟨q.floor.toNat, ?_, ?_⟩
      · unfold toU64
        have hlt : q.floor.toNat < 2 ^ 64 := by
          have h2 : 0 ≤ q.floor := Rat.le_floor_iff.2 (by simpa using h0)
          have h3 : (q.floor : ℚ) ≤ q := Rat.floor_le _
          have h4 : (q.floor : ℚ) < ((2 ^ 64 : Int) : ℚ) := lt_of_le_of_lt h3 (by push_cast; exact h1)
          have h5 : q.floor < 2 ^ 64 := by exact_mod_cast h4
          omega
        rw [if_neg (not_lt.2 h0), if_pos hlt]
      · have h2 : 0 ≤ q.floor := Rat.le_floor_iff.2 (by simpa using h0)
        have h3 : (q.floor : ℚ) ≤ q := Rat.floor_le _
        have h4 : ((q.floor.toNat : Int) : ℚ) = (q.floor : ℚ) := by rw [Int.toNat_of_nonneg h2]
        have h5 : ((q.floor.toNat : Nat) : ℚ) = (q.floor : ℚ) := by rw [← h4]; norm_cast
        rw [h5]
        exact h3
    obtain ⟨a1, a2⟩ := hen.inRange a (us_mem hus hi ha)
    obtain ⟨b1, b2⟩ := hen.inRange b (us_mem hus hj hb)
    obtain ⟨o1, o2, _⟩ := hen.outRange o ho
    obtain ⟨x, hx, _⟩ := hr _ a1 a2
    obtain ⟨y, hy, _⟩ := hr _ b1 b2
    obtain ⟨z, hz, hz'⟩ := hr o.value (le_of_lt o1) (by linarith)
    have h7 : (3 * z : ℚ) < 2 ^ 64 := by linarith
    have h8 : 3 * z < 2 ^ 64 := by exact_mod_cast h7
    simp only [shouldImprove, hx, hy, hz, mulU64, if_pos h8, if_pos (show 2 * z < 2 ^ 64 by omega)] at hs'
    cases hs'
  · exact hno e h3

/-! ### Improvement -/

theorem relevantOf_all {inputs : List Utxo} : ∀ {l : List Nat}, (∀ i ∈ l, i < inputs.length) →
    relevantOf inputs mainOf l = .ok l
  | [], _ => rfl
  | i :: is, h => by
    simp only [relevantOf, at'_of_lt (h i (by simp)), relevantOf_all (l := is) (fun j hj => h j (by simp [hj]))]
    rfl

theorem toU64_natCast {n : Nat} (h : n < 2 ^ 64) : toU64 (n : ℚ) = some n := by
  unfold toU64
  have hf : (n : ℚ).floor = (n : Int) := by simpa using Rat.floor_intCast (n : Int)
  rw [if_neg (not_lt.2 (Nat.cast_nonneg n)), hf, Int.toNat_natCast, if_pos h]

/-- C70: one output without assets, at least two UTxOs available, each of which pays it alone: exactly one is
chosen, and there is another one that is no better, that is, no closer to twice the output, or at least three
times the output. So the worst one is never chosen unless there is another as bad or too large. -/
theorem C70_better {o : Output} {ch : Option Nat} {us : List Utxo} {m : Nat} {v : Utxo → Nat}
    (hs : IndicesOk s) (hord : ∀ l, (ord l).Perm l) (hus : s.available = .ok us) (h2 : 2 ≤ us.length)
    (hoa : o.assets = []) (hom : o.value = m) (hm : 0 < m) (hm3 : 3 * m < 2 ^ 64)
    (hv : ∀ u ∈ us, u.value = v u ∧ m ≤ v u ∧ v u < 2 ^ 64)
    (hr : s.select wraps rnd fmt ord E est (Setup.fromFixed [] [o] ch) = (.ok (r, est'), s')) :
    ∃ c d rest, us.Perm (c :: d :: rest) ∧ r.chosen = [c] ∧
      (3 * m ≤ v d ∨ |2 * (m : Int) - v c| ≤ |2 * (m : Int) - v d|) := by
  obtain ⟨hI, hlt⟩ := hs
  unfold RI.available at hus
  have husm := atAll_map hus
  have hlen : us.length = s.indices.length := by rw [husm, List.length_map]
  unfold RI.select at hr
  cases hfee : E.minFee est with
  | error e => simp [hfee] at hr
  | ok fee =>
    simp only [hfee] at hr
    have hw : wanted (Setup.fromFixed [] [o] ch).outputAssets = [] := by
      simp [Setup.fromFixed, hoa, wanted]
    have hob : (Setup.fromFixed [] [o] ch).outputBalance = m := by
      simp [Setup.fromFixed, hom]
    have hib : (Setup.fromFixed [] [o] ch).inputBalance = 0 := rfl
    have hfix : (Setup.fromFixed [] [o] ch).fixedOutputs = [o] := rfl
    rw [hw, hob, hib, hfix] at hr
    simp only [assetPasses] at hr
    generalize hb0 : (⟨est, (Setup.fromFixed [] [o] ch).inputAssets, 0, fee, []⟩ : Books σ) = b0 at hr
    have hb0i : b0.input = 0 := by rw [← hb0]
    have hb0a : b0.added = [] := by rw [← hb0]
    -- the draw
    have hpos : 0 < s.indices.length := by omega
    have hr0 : rnd 0 % s.indices.length < s.indices.length := Nat.mod_lt _ hpos
    have hsw := swapRemove_perm hr0
    have hiI := getD_mem hr0
    have hof : outputsFor (fun o : Output => some o.value) [o] = [o] := by
      simp [outputsFor]
    have hrel := relevantOf_all hlt
    unfold selectPass at hr
    have hrel' : relevantOf s.inputs (fun u => some u.value) s.indices = .ok s.indices := hrel
    simp only [hrel', hof, List.reverse_singleton] at hr
    obtain ⟨f, hf⟩ : ∃ f, s.indices.length = f + 1 := ⟨s.indices.length - 1, by omega⟩
    generalize hr0' : rnd 0 % s.indices.length = r0 at *
    generalize hi : s.indices.getD r0 0 = i at *
    have hvi := hv (utxoAt s.inputs i) (by rw [husm]; exact List.mem_map.2 ⟨i, hiI, rfl⟩)
    have hat : ∀ x ∈ s.indices, at' s.inputs x = .ok (utxoAt s.inputs x) := by
      intro x hx
      rw [at'_of_lt (hlt x hx)]
      simp [utxoAt, List.getElem?_eq_getElem (hlt x hx)]
    have hcov : coverAll rnd s.inputs (fun u => some u.value) (fun o => some o.value) [o]
        ⟨s.indices, s.indices, [], 0⟩ =
        .ok ⟨swapRemove s.indices r0, s.indices.erase i, [(o, [i])], 1⟩ := by
      have hmq : (0 : ℚ) < m := by exact_mod_cast hm
      have hne : s.indices ≠ [] := List.length_pos_iff.1 hpos
      have hge : ¬ (0 + (utxoAt s.inputs i).value < o.value) := by
        rw [hvi.1, hom]
        have : (m : ℚ) ≤ v (utxoAt s.inputs i) := by exact_mod_cast hvi.2.1
        linarith
      simp only [coverAll, hf]
      unfold coverLoop
      simp only [hom, hmq, if_true, hne, if_false, hr0', hi, hat i hiI]
      rw [← hom]
      cases f <;> (unfold coverLoop; rw [if_neg hge]; rfl)
    rw [hcov] at hr
    simp only at hr
    have hrel1 : swapRemove s.indices r0 ≠ [] := by
      intro h
      have := hsw.length_eq
      rw [h] at this
      simp at this
      omega
    rw [if_neg hrel1] at hr
    have hr1 : rnd 1 % (swapRemove s.indices r0).length < (swapRemove s.indices r0).length :=
      Nat.mod_lt _ (List.length_pos_iff.2 hrel1)
    have hjm := getD_mem hr1
    generalize hr1' : rnd 1 % (swapRemove s.indices r0).length = r1 at *
    generalize hj : (swapRemove s.indices r0).getD r1 0 = j at *
    have hjI : j ∈ s.indices := hsw.mem_iff.2 (List.mem_cons_of_mem _ hjm)
    have hvj := hv (utxoAt s.inputs j) (by rw [husm]; exact List.mem_map.2 ⟨j, hjI, rfl⟩)
    have hperm : us.Perm (utxoAt s.inputs i :: utxoAt s.inputs j ::
        ((swapRemove s.indices r0).erase j).map (utxoAt s.inputs)) := by
      rw [husm]
      have := (hsw.trans ((List.perm_cons_erase hjm).cons i)).map (utxoAt s.inputs)
      simpa using this
    -- the end of the selection, once the input is known
    have fin : ∀ (x : Nat) (p2 : Pick), x ∈ s.indices → p2.assoc.get o = some [x] →
        (match (match addAll E s.inputs p2 [o] b0 with
            | .error e => (.error (e, p2.avail) : Except Fail (List Nat × Nat × Books σ))
            | .ok b' => .ok (p2.avail, p2.k, b')) with
          | .error (e, av) => ((.error e : Except SelErr (Result × σ)), ({ s with indices := av } : RI))
          | .ok (av2, k2, b2) =>
            match topUp rnd E s.inputs (m : ℚ) av2.length av2 k2 b2 with
            | .error (e, av) => (.error e, { s with indices := av })
            | .ok (av3, b3) =>
              match atAll s.inputs (ord b3.added.dedup) with
              | .error e => (.error e, { s with indices := av3 })
              | .ok chosen =>
                (.ok ({ inputBalance := b3.input, inputAssets := b3.assets,
                        outputBalance := (m : ℚ), outputAssets := (Setup.fromFixed [] [o] ch).outputAssets,
                        fixedInputs := (Setup.fromFixed [] [o] ch).fixedInputs, fixedOutputs := [o],
                        chosen := chosen, changes := [], fee := b3.fee }, b3.est), { s with indices := av3 })) =
          (.ok (r, est'), s') → r.chosen = [utxoAt s.inputs x] := by
      intro x p2 hx hg h
      simp only [addAll, hg, addInputs] at h
      cases ha : addInput E s.inputs x b0 with
      | error e => simp [ha] at h
      | ok b1 =>
        simp only [ha] at h
        have hbi := addInput_input ha
        have hba : b1.added = [x] := by
          unfold addInput at ha
          simp only [hat x hx] at ha
          cases hfi : E.feeIn b0.est (utxoAt s.inputs x) with
          | error e => simp [hfi] at ha
          | ok f =>
            simp only [hfi] at ha
            cases hai : E.addIn b0.est (utxoAt s.inputs x) with
            | error e => simp [hai] at ha
            | ok e' =>
              simp only [hai] at ha
              cases ha
              simp [hb0a]
        have hvx := hv (utxoAt s.inputs x) (by rw [husm]; exact List.mem_map.2 ⟨x, hx, rfl⟩)
        have hge : ¬ b1.input < (m : ℚ) := by
          rw [hbi, hb0i, at'_ok (hat x hx)]
          simp only [Option.bind_some, Option.getD_some, hvx.1]
          have : (m : ℚ) ≤ v (utxoAt s.inputs x) := by exact_mod_cast hvx.2.1
          linarith
        have htop : topUp rnd E s.inputs (m : ℚ) p2.avail.length p2.avail p2.k b1 = .ok (p2.avail, b1) := by
          cases hl : p2.avail.length <;> (unfold topUp; rw [if_neg hge])
        simp only [htop] at h
        have hx1 : ord b1.added.dedup = [x] := by
          rw [hba]
          exact List.perm_singleton.1 (hord _)
        rw [hx1] at h
        simp only [atAll, hat x hx] at h
        cases h
        rfl
    have himp : shouldImprove wraps (utxoAt s.inputs i) (utxoAt s.inputs j) o =
        .ok (decide ((((2 * m : Nat) : Int) - v (utxoAt s.inputs j)).natAbs <
            (((2 * m : Nat) : Int) - v (utxoAt s.inputs i)).natAbs) &&
          decide (v (utxoAt s.inputs j) < 3 * m)) := by
      unfold shouldImprove
      rw [hvi.1, hvj.1, hom, toU64_natCast hvi.2.2, toU64_natCast hvj.2.2, toU64_natCast (by omega)]
      simp only [mulU64, if_pos hm3, if_pos (show 2 * m < 2 ^ 64 by omega)]
    have hget : AMap.get [(o, [i])] o = some [i] := by simp [AMap.get]
    simp only [improveAll, hget, improveLoop, hr1', hj, hat i hiI, hat j hjI] at hr
    cases hdec : (decide ((((2 * m : Nat) : Int) - v (utxoAt s.inputs j)).natAbs <
            (((2 * m : Nat) : Int) - v (utxoAt s.inputs i)).natAbs) &&
          decide (v (utxoAt s.inputs j) < 3 * m)) with
    | true =>
      rw [hdec] at himp
      simp only [himp] at hr
      have := fin j _ hjI (by rw [AMap.get_insert, if_pos rfl]) hr
      refine ⟨_, _, _, hperm.trans (List.Perm.swap _ _ _), this, .inr ?_⟩
      rw [Bool.and_eq_true, decide_eq_true_iff] at hdec
      have := hdec.1
      push_cast at this
      rw [Int.abs_eq_natAbs, Int.abs_eq_natAbs]
      omega
    | false =>
      rw [hdec] at himp
      simp only [himp] at hr
      have := fin i _ hiI (by rw [AMap.get_insert, if_pos rfl]) hr
      refine ⟨_, _, _, hperm, this, ?_⟩
      rw [Bool.and_eq_false_iff, decide_eq_false_iff_not, decide_eq_false_iff_not] at hdec
      push_cast at hdec
      rw [Int.abs_eq_natAbs, Int.abs_eq_natAbs]
      omega

end

/-! ### Samples -/

/-- Two outputs, the first with asset 7. -/
def rcOuts : List Output := [⟨9, 10, [⟨7, 5, 3, 4⟩]⟩, ⟨8, 12, []⟩]

/-- Asset 7 in two UTxOs, three without assets. -/
def rcAvail : List Utxo :=
  [⟨1, 3, [⟨7, 2, 3, 4⟩], 0⟩, ⟨2, 5, [⟨7, 4, 3, 4⟩], 0⟩, ⟨3, 20, [], 0⟩, ⟨4, 15, [], 0⟩, ⟨5, 16, [], 0⟩]

theorem rc_enough : Enough rcOuts rcAvail where
  distinct := by decide
  outDistinct := by decide
  one := by
    intro u hu a ha b hb _ _
    have : ∀ u ∈ rcAvail, ∀ a ∈ u.assets, ∀ b ∈ u.assets, a.fingerprint = b.fingerprint := by decide
    exact this u hu a ha b hb
  assets := by
    rintro t ⟨o, ho, a, ha, rfl⟩
    have : a.fingerprint = 7 := by
      have : ∀ o ∈ rcOuts, ∀ a ∈ o.assets, a.fingerprint = 7 := by decide
      exact this o ho a ha
    rw [this]
    exact ⟨4, by decide +kernel, by decide +kernel, by decide +kernel⟩
  main := ⟨20, by decide +kernel, by decide +kernel, by decide +kernel⟩
  inRange := by decide +kernel
  outRange := by decide +kernel

/-- A case for `C69_succeeds_partial`. -/
example (wraps : Bool) (rnd : Nat → Nat) : ∃ r est' s', (RI.ofList rcAvail).select wraps rnd riFmt id
    (flatEstimator 1 1 0) () (Setup.fromFixed [] rcOuts none) = (.ok (r, est'), s') :=
  C69_succeeds_partial (IndicesOk.ofList _) (fun _ => List.Perm.refl _) (C44_same_length_partial rfl).2 rc_enough
    (by simp) (by decide) ⟨_, rfl⟩ (fun _ _ => ⟨⟨_, rfl⟩, ⟨_, rfl⟩⟩)

theorem ri_err {x : Except SelErr (Result × Unit) × RI} {l : List Nat} (h : riView x = (none, l)) :
    ¬ ∃ r est' s', x = (.ok (r, est'), s') := by
  rintro ⟨r, est', s', rfl⟩
  simp [riView, Except.toOption] at h

/-- C69 is false for outputs that have to share an input: 10 is available, 5 and 4 are to be paid, the selection is
refused. -/
theorem C69_shared_false : ¬ ∀ (rnd : Nat → Nat) (us : List Utxo) (outs : List Output),
    (∀ u ∈ us, 0 ≤ u.value ∧ u.value < 2 ^ 64) → (∀ o ∈ outs, 0 < o.value ∧ 3 * o.value < 2 ^ 64) →
    (outs.map (·.value)).sum ≤ (us.map (·.value)).sum →
    ∃ r est' s', (RI.ofList us).select false rnd riFmt id (flatEstimator 0 0 0) () (Setup.fromFixed [] outs none) =
      (.ok (r, est'), s') := by
  intro h
  have := h (fun _ => 0) [⟨1, 10, [], 0⟩] [⟨8, 5, []⟩, ⟨9, 4, []⟩] (by decide +kernel) (by decide +kernel)
    (by decide +kernel)
  exact ri_err (l := []) (by decide +kernel) this

/-- C69 is false for a payment that the fixed inputs cover: inputs for each output are drawn all the same, and
if there are none the selection is refused. -/
theorem C69_covered_false : ¬ ∀ (rnd : Nat → Nat) (ins us : List Utxo) (outs : List Output),
    (∀ u ∈ ins ++ us, 0 ≤ u.value ∧ u.value < 2 ^ 64) → (∀ o ∈ outs, 0 < o.value ∧ 3 * o.value < 2 ^ 64) →
    (outs.map (·.value)).sum ≤ (ins.map (·.value)).sum →
    ∃ r est' s', (RI.ofList us).select false rnd riFmt id (flatEstimator 0 0 0) () (Setup.fromFixed ins outs none) =
      (.ok (r, est'), s') := by
  intro h
  have := h (fun _ => 0) [⟨1, 10, [], 0⟩] [] [⟨8, 5, []⟩] (by decide +kernel) (by decide +kernel) (by decide +kernel)
  exact ri_err (l := []) (by decide +kernel) this

/-- C69 is false for UTxOs with several of the assets asked for: the only UTxO, which holds all that is asked, is
used up by the pass for the first asset. -/
theorem C69_bundles_false : ¬ ∀ (rnd : Nat → Nat) (fmt : Nat → Nat → Token) (us : List Utxo) (outs : List Output),
    (∀ u ∈ us, 0 ≤ u.value ∧ u.value < 2 ^ 64) → (∀ o ∈ outs, 0 < o.value ∧ 3 * o.value < 2 ^ 64) →
    (∀ o ∈ outs, ∀ a ∈ o.assets, fmt a.policy a.name = a.fingerprint) →
    (outs.map (·.value)).sum ≤ (us.map (·.value)).sum →
    (∀ t, (outs.map (fun o => assetSum t o.assets)).sum ≤ (us.map (fun u => assetSum t u.assets)).sum) →
    outs.length = 1 →
    ∃ r est' s', (RI.ofList us).select false rnd fmt id (flatEstimator 0 0 0) () (Setup.fromFixed [] outs none) =
      (.ok (r, est'), s') := by
  intro h
  have := h (fun _ => 0) (fun _ n => n) [⟨1, 10, [⟨1, 5, 0, 1⟩, ⟨2, 5, 0, 2⟩], 0⟩, ⟨2, 20, [], 0⟩]
    [⟨8, 5, [⟨1, 5, 0, 1⟩, ⟨2, 5, 0, 2⟩]⟩] (by decide +kernel) (by decide +kernel) (by decide +kernel)
    (by decide +kernel) (by
      intro t
      simp) rfl
  exact ri_err (l := [1]) (by decide +kernel) this

/-- The amounts of `rcImp`. -/
def rcVal (u : Utxo) : Nat := u.value.floor.toNat

/-- Three UTxOs, each of which pays 10. -/
def rcImp : List Utxo := [⟨1, 100, [], 0⟩, ⟨2, 21, [], 0⟩, ⟨3, 12, [], 0⟩]

/-- A case for `C70_better`: whatever is drawn, one UTxO is chosen, and not the one of 100. -/
example (wraps : Bool) (rnd : Nat → Nat) : ∃ r est' s', (RI.ofList rcImp).select wraps rnd riFmt id
    (flatEstimator 1 1 0) () (Setup.fromFixed [] [⟨8, 10, []⟩] none) = (.ok (r, est'), s') ∧
    ∃ c, r.chosen = [c] ∧ c.value ≠ 100 := by
  have hav : (RI.ofList rcImp).available = .ok rcImp := (C44_same_length_partial rfl).2
  have hen : Enough [⟨8, 10, []⟩] rcImp :=
    { distinct := by decide
      outDistinct := by decide
      one := by
        rintro u hu a ha b hb ⟨o, ho, x, hx, _⟩
        simp only [List.mem_singleton] at ho
        subst ho
        simp at hx
      assets := by
        rintro t ⟨o, ho, x, hx, _⟩
        simp only [List.mem_singleton] at ho
        subst ho
        simp at hx
      main := ⟨100, by decide +kernel, by decide +kernel, by decide +kernel⟩
      inRange := by decide +kernel
      outRange := by decide +kernel }
  obtain ⟨r, est', s', h⟩ := C69_succeeds_partial (wraps := wraps) (rnd := rnd) (fmt := riFmt) (ord := id)
    (E := flatEstimator 1 1 0) (est := ()) (ins := []) (ch := none)
    (IndicesOk.ofList rcImp) (fun _ => List.Perm.refl _) hav hen
    (by simp) (by decide) ⟨_, rfl⟩ (fun _ _ => ⟨⟨_, rfl⟩, ⟨_, rfl⟩⟩)
  obtain ⟨c, d, rest, h1, h2, h3⟩ := C70_better (m := 10) (v := rcVal) (IndicesOk.ofList rcImp)
    (fun _ => List.Perm.refl _) hav (by decide) rfl (by norm_num) (by decide) (by decide) (by decide +kernel) h
  refine ⟨r, est', s', h, c, h2, fun hc => ?_⟩
  have hd : ∀ d ∈ rcImp.erase ⟨1, 100, [], 0⟩, ¬ (3 * 10 ≤ rcVal d ∨
      |2 * ((10 : Nat) : Int) - (100 : Nat)| ≤ |2 * ((10 : Nat) : Int) - rcVal d|) := by decide +kernel
  have hcm : c ∈ rcImp := h1.mem_iff.2 (by simp)
  have hc' : c = ⟨1, 100, [], 0⟩ := by
    have : ∀ c ∈ rcImp, c.value = 100 → c = ⟨1, 100, [], 0⟩ := by decide +kernel
    exact this c hcm hc
  subst hc'
  have hp := h1.erase (⟨1, 100, [], 0⟩ : Utxo)
  rw [List.erase_cons_head] at hp
  exact hd d (hp.mem_iff.2 (by simp)) h3

end Verif.Props
