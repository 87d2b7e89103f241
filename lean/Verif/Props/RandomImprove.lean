import Verif.Selection.RandomImproveLemmas
import Verif.Props.LargestFirst

/-!
# Random-improve selection (C42–C44, C59)

`rnd` is the stream of random numbers, `wraps` says whether arithmetic overflow wraps (release build) or panics,
`fmt policy name` is the token identifier written `policy:name`, `ord` the order in which a hash set lists the
chosen indices. All are arbitrary.
-/

namespace Verif.Props

open Verif Verif.Core Verif.Selection Verif.Selection.Random

/-- Every free index names an input, none is listed twice. -/
def IndicesOk (s : RI) : Prop := s.indices.Nodup ∧ ∀ i ∈ s.indices, i < s.inputs.length

section

variable {σ : Type} {wraps : Bool} {rnd : Nat → Nat} {fmt : Nat → Nat → Token} {ord : List Nat → List Nat}
  {E : Estimator σ} {s s' : RI} {est est' : σ} {io : Setup} {r : Result}

/-- Why a selection fails: no input left for an output; an output that asks for zero or less of a token it
names; an amount of the main token that is not a 64-bit number; the estimator. -/
def RandomCause (wraps : Bool) (E : Estimator σ) (s : RI) (outs : List Output) (e : SelErr) : Prop :=
  e = .noInput ∨ (e = .other ∧ ∃ o ∈ outs, o.value ≤ 0 ∨ ∃ a ∈ o.assets, a.quantity ≤ 0) ∨
    (e = .panic ∧ ImproveFails wraps s.inputs s.indices outs) ∨ EstErr E e

theorem firstOf_mem {t : Token} {as : List Asset} {q : ℚ} (h : firstOf t as = some q) :
    ∃ a ∈ as, a.fingerprint = t ∧ a.quantity = q := by
  unfold firstOf at h
  cases hf : as.find? (fun a => a.fingerprint = t) with
  | none => simp [hf] at h
  | some a =>
    rw [hf] at h
    exact ⟨a, List.mem_of_find?_eq_some hf, by simpa using List.find?_some hf, by simpa using h⟩

theorem random_spec (hs : IndicesOk s) (hord : ∀ l, (ord l).Perm l) {fee : ℚ} (hfee : E.minFee est = .ok fee) :
    (∃ b av A chosen, SInv E s.inputs (startOf [] est io fee) io.fixedOutputs s.indices av b ∧
      atAll s.inputs (ord b.added.dedup) = .ok chosen ∧ io.outputBalance ≤ b.input ∧
      (∃ B, b.added = A ++ B) ∧
      (io.fixedOutputs.Nodup → ∀ x ∈ wanted io.outputAssets,
        NoLoss wraps s.inputs (fun u => firstOf (fmt x.1 x.2) u.assets)
          (io.fixedOutputs.filter (fun o => (firstOf (fmt x.1 x.2) o.assets).isSome)) → ∃ A1 A2 A3, A = A1 ++ (A2 ++ A3) ∧
        (io.fixedOutputs.map (fun o => (firstOf (fmt x.1 x.2) o.assets).getD 0)).sum ≤
          sumAmt s.inputs (fun u => firstOf (fmt x.1 x.2) u.assets) A2) ∧
      s.select wraps rnd fmt ord E est io =
        (.ok ({ inputBalance := b.input, inputAssets := b.assets,
                outputBalance := io.outputBalance, outputAssets := io.outputAssets,
                fixedInputs := io.fixedInputs, fixedOutputs := io.fixedOutputs,
                chosen := chosen, changes := [], fee := b.fee }, b.est), { s with indices := av })) ∨
    (∃ e av, s.select wraps rnd fmt ord E est io = (.error e, { s with indices := av }) ∧
      av.Subperm s.indices ∧ RandomCause wraps E s io.fixedOutputs e) := by
  obtain ⟨hI, hlt⟩ := hs
  unfold RI.select
  simp only [hfee]
  have h0 : SInv E s.inputs (startOf [] est io fee) io.fixedOutputs s.indices s.indices
      ⟨est, io.inputAssets, io.inputBalance, fee, []⟩ := by
    refine ⟨⟨[], rfl, ?_, ?_, rfl⟩, by simp, fun _ => by simp⟩
    · simp [Start.inputAfter, startOf]
    · intro t
      simp [Start.assetAfter, startOf]
  rcases assetPasses_spec (wraps := wraps) (rnd := rnd) (fmt := fmt) hI hlt (wanted io.outputAssets) h0 (k := 0) with
    ⟨av1, k1, b1, A, h1, h2, h3, h4⟩ | ⟨e, av1, h1, h2, x, hx, h3⟩
  swap
  · right
    simp only [h1]
    refine ⟨e, av1, rfl, h2, ?_⟩
    rcases h3 with h3 | ⟨he, o, ho, w, hw, hw'⟩ | h3 | h3
    · exact .inl h3
    · obtain ⟨a, ha, _, rfl⟩ := firstOf_mem hw
      exact .inr (.inl ⟨he, o, ho, .inr ⟨a, ha, hw'⟩⟩)
    · exact .inr (.inr (.inl h3))
    · exact .inr (.inr (.inr h3))
  simp only [h1]
  obtain ⟨n1, s1⟩ := h2.avail hI
  rcases selectPass_spec (wraps := wraps) (rnd := rnd) (outs := io.fixedOutputs) (k := k1)
      (amt := fun u => some u.value) (want := fun o => some o.value) n1
      (fun i hi => hlt i (s1.subset hi)) h2.books with
    ⟨av2, k2, b2, A', g1, g2, g3, g4, g5, _⟩ | ⟨e, av2, g1, g2, g3⟩
  swap
  · right
    simp only [g1]
    refine ⟨e, av2, rfl, g2.trans s1, ?_⟩
    rcases g3 with g3 | ⟨he, o, ho, w, hw, hw'⟩ | ⟨he, o, ho, i, hi, j, hj, g3⟩ | g3
    · exact .inl g3
    · cases hw
      exact .inr (.inl ⟨he, o, ho, .inl hw'⟩)
    · exact .inr (.inr (.inl ⟨he, o, ho, i, s1.subset hi, j, s1.subset hj, g3⟩))
    · exact .inr (.inr (.inr g3))
  simp only [g1]
  have i2 := h2.step hI g2 g3 g4 g5
  obtain ⟨n2, s2⟩ := i2.avail hI
  rcases topUp_spec (rnd := rnd) (k := k2) (output := io.outputBalance) av2.length n2
      (fun i hi => hlt i (s2.subset hi)) (le_refl _) g2 with
    ⟨av3, b3, A'', k1, k2, k3, k4, k5⟩ | ⟨e, av3, k1, k2, k3⟩
  swap
  · right
    simp only [k1]
    refine ⟨e, av3, rfl, k2.trans s2, ?_⟩
    rcases k3 with k3 | k3
    · exact .inl k3
    · exact .inr (.inr (.inr k3))
  simp only [k1]
  have hA : A''.Nodup := (List.nodup_append.1 (k4.nodup_iff.1 n2)).1
  have i3 := i2.step hI k2 k3 (by rw [List.dedup_eq_self.2 hA]; exact k4) (fun _ => hA)
  have hall := atAll_of_lt (inputs := s.inputs) (l := ord b3.added.dedup) (fun i hi =>
    hlt i (i3.perm.mem_iff.2 (List.mem_append.2 (.inl ((hord _).mem_iff.1 hi)))))
  simp only [hall]
  left
  refine ⟨b3, av3, A, _, i3, hall, k5, ⟨A' ++ A'', ?_⟩, fun hn hv x hx => h4 hn hv x hx, rfl⟩
  rw [k3, g3, h3]
  simp

/-- Reading a list of indices, as a map. -/
def utxoAt (inputs : List Utxo) (i : Nat) : Utxo := inputs.getD i ⟨0, 0, [], 0⟩

theorem atAll_map {inputs : List Utxo} {l : List Nat} {us : List Utxo} (h : atAll inputs l = .ok us) :
    us = l.map (utxoAt inputs) := by
  rw [atAll_of_lt (atAll_lt h)] at h
  cases h
  rfl

/-- The success case, in terms of the UTxOs. -/
theorem random_ok (hs : IndicesOk s) (hord : ∀ l, (ord l).Perm l)
    (hr : s.select wraps rnd fmt ord E est io = (.ok (r, est'), s')) :
    ∃ fee b av, E.minFee est = .ok fee ∧
      SInv E s.inputs (startOf [] est io fee) io.fixedOutputs s.indices av b ∧
      atAll s.inputs (ord b.added.dedup) = .ok r.chosen ∧ io.outputBalance ≤ b.input ∧
      s' = { s with indices := av } ∧ r.inputBalance = b.input ∧ r.inputAssets = b.assets ∧ r.fee = b.fee ∧
      est' = b.est ∧ r.outputBalance = io.outputBalance ∧ r.outputAssets = io.outputAssets ∧
      r.fixedInputs = io.fixedInputs ∧ r.fixedOutputs = io.fixedOutputs ∧ r.changes = [] := by
  cases hf : E.minFee est with
  | error e => simp [RI.select, hf] at hr
  | ok fee =>
    rcases random_spec (wraps := wraps) (rnd := rnd) (fmt := fmt) (io := io) hs hord hf with
      ⟨b, av, A, chosen, h1, h2, h3, _, _, h5⟩ | ⟨e, av, h1, _⟩
    · rw [h5] at hr
      cases hr
      exact ⟨fee, b, av, rfl, h1, h2, h3, rfl, rfl, rfl, rfl, rfl, rfl, rfl, rfl, rfl, rfl⟩
    · rw [h1] at hr
      cases hr

/-- C42: chosen and remaining inputs are exactly the available ones (as positions of the list), whatever
the random choices. -/
theorem C42_available (hs : IndicesOk s) (hord : ∀ l, (ord l).Perm l)
    (hr : s.select wraps rnd fmt ord E est io = (.ok (r, est'), s')) :
    ∃ before after, s.available = .ok before ∧ s'.available = .ok after ∧
      before.Perm (r.chosen ++ after) ∧ s'.inputs = s.inputs ∧
      r.outputBalance = io.outputBalance ∧ r.outputAssets = io.outputAssets ∧
      r.fixedInputs = io.fixedInputs ∧ r.fixedOutputs = io.fixedOutputs ∧ r.changes = [] := by
  obtain ⟨fee, b, av, _, h1, h2, _, rfl, _, _, _, _, q1, q2, q3, q4, q5⟩ := random_ok hs hord hr
  have e1 := atAll_of_lt (inputs := s.inputs) (l := s.indices) hs.2
  have e2 := atAll_of_lt (inputs := s.inputs) (l := av)
    (fun i hi => hs.2 i (h1.perm.mem_iff.2 (List.mem_append.2 (.inr hi))))
  refine ⟨_, _, e1, e2, ?_, rfl, q1, q2, q3, q4, q5⟩
  rw [atAll_map h2]
  have h3 : s.indices.Perm (ord b.added.dedup ++ av) := h1.perm.trans ((hord _).symm.append_right _)
  have := h3.map (utxoAt s.inputs)
  rw [List.map_append] at this
  exact this

/-- C42, if no output is listed twice: the balances are the given ones plus the sums over the chosen inputs,
and the fee is the estimator's for these inputs in some order. Missing: outputs listed twice, for which it is
false. -/
theorem C42_books_partial (hs : IndicesOk s) (hord : ∀ l, (ord l).Perm l) (hd : io.fixedOutputs.Nodup)
    (hr : s.select wraps rnd fmt ord E est io = (.ok (r, est'), s')) :
    r.inputBalance = io.inputBalance + (r.chosen.map (·.value)).sum ∧
    (∀ t, qty r.inputAssets t = qty io.inputAssets t + (r.chosen.map (fun u => assetSum t u.assets)).sum) ∧
    ∃ min order, E.minFee est = .ok min ∧ order.Perm r.chosen ∧
      runFee E est min order = .ok (r.fee, est') := by
  obtain ⟨fee, b, av, hf, h1, h2, _, rfl, e1, e2, e3, e4, _⟩ := random_ok hs hord hr
  obtain ⟨us, b1, b2, b3, b4⟩ := h1.books
  have hp : us.Perm r.chosen := by
    rw [atAll_map b1, atAll_map h2]
    have := hord b.added.dedup
    rw [List.dedup_eq_self.2 (h1.distinct hd)] at this ⊢
    exact this.symm.map _
  refine ⟨?_, fun t => ?_, fee, us, hf, hp, ?_⟩
  · rw [e1, b2, ← perm_sum _ hp]
    rfl
  · rw [e2, b3, ← perm_sum _ hp]
    rfl
  · rw [e3, e4]
    exact b4

/-! ### C43 -/

/-- C43: the reported main input covers the outputs. Missing: the fee, and (for outputs listed twice) that
the reported amount is the sum of the chosen inputs. -/
theorem C43_main_partial (hs : IndicesOk s) (hord : ∀ l, (ord l).Perm l)
    (hr : s.select wraps rnd fmt ord E est io = (.ok (r, est'), s')) : r.outputBalance ≤ r.inputBalance := by
  obtain ⟨fee, b, av, _, _, _, h3, _, e1, _, _, _, e2, _⟩ := random_ok hs hord hr
  rw [e1, e2]
  exact h3

theorem firstOf_le {t : Token} {as : List Asset} (h : ∀ a ∈ as, 0 ≤ a.quantity) :
    (firstOf t as).getD 0 ≤ assetSum t as := by
  induction as with
  | nil => simp [firstOf]
  | cons a as ih =>
    have h0 : 0 ≤ assetSum t as := assetSum_nonneg (fun b hb => h b (by simp [hb]))
    by_cases ha : a.fingerprint = t
    · simp [firstOf, ha, assetSum_cons, h0]
    · have := ih (fun b hb => h b (by simp [hb]))
      simpa [firstOf, ha, assetSum_cons] using this

theorem firstOf_eq {t : Token} {as : List Asset} (h : (as.map (·.fingerprint)).Nodup) :
    assetSum t as = (firstOf t as).getD 0 := by
  induction as with
  | nil => simp [firstOf]
  | cons a as ih =>
    rw [List.map_cons, List.nodup_cons] at h
    by_cases ha : a.fingerprint = t
    · have h0 : assetSum t as = 0 := by
        unfold assetSum
        rw [List.filter_eq_nil_iff.2]
        · rfl
        · intro b hb
          simp only [decide_eq_true_eq]
          intro hbt
          exact h.1 (List.mem_map.2 ⟨b, hb, hbt.trans ha.symm⟩)
      simp [firstOf, ha, assetSum_cons, h0]
    · have := ih h.2
      simpa [firstOf, ha, assetSum_cons] using this

/-- The assets of the table come from the outputs. -/
theorem fold_origin (outs : List Output) (P : Asset → Prop) (m : AssetMap)
    (hP : ∀ a q, P a → P { a with quantity := q }) (hm : ∀ t a, m.get t = some a → P a)
    (ho : ∀ o ∈ outs, ∀ a ∈ o.assets, P a) :
    ∀ t a, (outs.foldl (fun m o => o.assets.foldl addAsset m) m).get t = some a → P a := by
  have key : ∀ (as : List Asset) (m : AssetMap), (∀ t a, m.get t = some a → P a) → (∀ a ∈ as, P a) →
      ∀ t a, (as.foldl addAsset m).get t = some a → P a := by
    intro as
    induction as with
    | nil => intro m hm _ t a h; exact hm t a h
    | cons b as ih =>
      intro m hm hb
      refine ih (addAsset m b) ?_ (fun a ha => hb a (by simp [ha]))
      intro t a h
      unfold addAsset at h
      simp only [AMap.get_insert] at h
      split at h
      · cases h
        apply hP
        cases hg : m.get b.fingerprint with
        | none =>
          rw [Option.getD_none]
          exact hP b 0 (hb b (by simp))
        | some x =>
          rw [Option.getD_some]
          exact hm _ _ hg
      · exact hm t a h
  induction outs generalizing m with
  | nil => exact hm
  | cons o outs ih =>
    rw [List.foldl_cons]
    exact ih _ (key o.assets m hm (ho o (by simp))) (fun x hx => ho x (by simp [hx]))

theorem covered_of_noLoss {ins : List Utxo} {outs : List Output} {ch : Option Nat} (hs : IndicesOk s)
    (hord : ∀ l, (ord l).Perm l) (hd : outs.Nodup)
    (hq : ∀ u ∈ s.inputs ++ ins, ∀ a ∈ u.assets, 0 ≤ a.quantity)
    (ho : ∀ o ∈ outs, (o.assets.map (·.fingerprint)).Nodup)
    (hfmt : ∀ o ∈ outs, ∀ a ∈ o.assets, fmt a.policy a.name = a.fingerprint)
    (hr : s.select wraps rnd fmt ord E est (Setup.fromFixed ins outs ch) = (.ok (r, est'), s')) (t : Token)
    (hv : NoLoss wraps s.inputs (fun u => firstOf t u.assets) (outs.filter (fun o => (firstOf t o.assets).isSome))) :
    qty r.outputAssets t ≤ qty r.inputAssets t := by
  obtain ⟨hset1, hset2, hset3, hset4, _, _⟩ := C48_setup_totals ins outs ch
  cases hf : E.minFee est with
  | error e => simp [RI.select, hf] at hr
  | ok fee =>
    rcases random_spec (wraps := wraps) (rnd := rnd) (fmt := fmt) (io := Setup.fromFixed ins outs ch) hs hord hf with
      ⟨b, av, A, chosen, h1, h2, h3, ⟨B, hB⟩, h4, h5⟩ | ⟨e, av, h1, _⟩
    swap
    · rw [h1] at hr
      cases hr
    rw [h5] at hr
    cases hr
    show qty (Setup.fromFixed ins outs ch).outputAssets t ≤ qty b.assets t
    obtain ⟨us, b1, b2, b3, b4⟩ := h1.books
    rw [b3]
    show _ ≤ qty (Setup.fromFixed ins outs ch).inputAssets t + _
    -- everything is at least zero
    have hnn : ∀ i ∈ b.added, 0 ≤ assetSum t (utxoAt s.inputs i).assets := by
      intro i hi
      have hi' := atAll_lt b1 i hi
      refine assetSum_nonneg (hq _ ?_)
      unfold utxoAt
      rw [List.getD_eq_getElem _ _ hi']
      simp
    have hin : 0 ≤ qty (Setup.fromFixed ins outs ch).inputAssets t := by
      rw [hset3]
      refine List.sum_nonneg (fun x hx => ?_)
      obtain ⟨u, hu, rfl⟩ := List.mem_map.1 hx
      exact assetSum_nonneg (hq u (by simp [hu]))
    have hus : (us.map (fun u => assetSum t u.assets)).sum =
        (b.added.map (fun i => assetSum t (utxoAt s.inputs i).assets)).sum := by
      rw [atAll_map b1, List.map_map]
      rfl
    rw [hus]
    cases hg : (Setup.fromFixed ins outs ch).outputAssets.get t with
    | none =>
      have h0 : qty (Setup.fromFixed ins outs ch).outputAssets t = 0 := by simp [qty, hg]
      rw [h0]
      have : 0 ≤ (b.added.map (fun i => assetSum t (utxoAt s.inputs i).assets)).sum := by
        refine List.sum_nonneg (fun x hx => ?_)
        obtain ⟨i, hi, rfl⟩ := List.mem_map.1 hx
        exact hnn i hi
      linarith
    | some a =>
      have hk : a.fingerprint = t := by
        have := (foldl_assets (fun o : Output => o.assets) outs [] (by simp) Keyed.nil).2.1
        exact this t a hg
      have hfa : fmt a.policy a.name = t := by
        have := fold_origin outs (fun a => fmt a.policy a.name = a.fingerprint) []
          (fun _ _ h => h) (fun t a h => by simp at h) hfmt t a hg
        rw [this, hk]
      have hx : (a.policy, a.name) ∈ wanted (Setup.fromFixed ins outs ch).outputAssets := by
        unfold wanted
        rw [(List.perm_insertionSort _ _).mem_iff]
        exact List.mem_map.2 ⟨(t, a), AMap.mem_of_get hg, rfl⟩
      obtain ⟨A1, A2, A3, e1, e2⟩ := h4 hd _ hx (by simp only [hfa]; exact hv)
      simp only [hfa] at e2
      rw [hset4]
      have e3 : (outs.map (fun o => assetSum t o.assets)).sum =
          (outs.map (fun o => (firstOf t o.assets).getD 0)).sum := by
        congr 1
        refine List.map_congr_left (fun o hoo => firstOf_eq (ho o hoo))
      have e2' : (outs.map (fun o => (firstOf t o.assets).getD 0)).sum ≤
          sumAmt s.inputs (fun u => firstOf t u.assets) A2 := e2
      have e4 : sumAmt s.inputs (fun u => firstOf t u.assets) A2 ≤
          (A2.map (fun i => assetSum t (utxoAt s.inputs i).assets)).sum := by
        unfold sumAmt
        refine List.sum_le_sum (fun i hi => ?_)
        have hmem : i ∈ b.added := by rw [hB, e1]; simp [hi]
        have hi' := atAll_lt b1 i hmem
        rw [List.getElem?_eq_getElem hi', Option.bind_some]
        have hu : utxoAt s.inputs i = s.inputs[i] := by
          unfold utxoAt
          rw [List.getD_eq_getElem _ _ hi']
        rw [hu]
        exact firstOf_le (hq _ (by simp))
      have e5 : (b.added.map (fun i => assetSum t (utxoAt s.inputs i).assets)).sum =
          (A1.map (fun i => assetSum t (utxoAt s.inputs i).assets)).sum +
          ((A2.map (fun i => assetSum t (utxoAt s.inputs i).assets)).sum +
          (((A3 ++ B).map (fun i => assetSum t (utxoAt s.inputs i).assets)).sum)) := by
        rw [hB, e1]
        simp
      have e6 : 0 ≤ (A1.map (fun i => assetSum t (utxoAt s.inputs i).assets)).sum := by
        refine List.sum_nonneg (fun x hx => ?_)
        obtain ⟨i, hi, rfl⟩ := List.mem_map.1 hx
        exact hnn i (by rw [hB, e1]; simp [hi])
      have e7 : 0 ≤ ((A3 ++ B).map (fun i => assetSum t (utxoAt s.inputs i).assets)).sum := by
        refine List.sum_nonneg (fun x hx => ?_)
        obtain ⟨i, hi, rfl⟩ := List.mem_map.1 hx
        refine hnn i ?_
        rw [hB, e1]
        rcases List.mem_append.1 hi with hi | hi <;> simp [hi]
      rw [e3, e5]
      linarith

/-- C43, assets: an asset is covered if any two available UTxOs that hold different quantities of it hold the same main
amount, so that the improvement does not exchange them, and if the token identifiers are of the form `policy:name`. Missing:
otherwise it is false (`C43_assets_false`, `C43_fingerprint_false`), but see `C43_kept_partial`. -/
theorem C43_assets_partial {ins : List Utxo} {outs : List Output} {ch : Option Nat} (hs : IndicesOk s)
    (hord : ∀ l, (ord l).Perm l) (hd : outs.Nodup)
    (hq : ∀ u ∈ s.inputs ++ ins, ∀ a ∈ u.assets, 0 ≤ a.quantity)
    (ho : ∀ o ∈ outs, (o.assets.map (·.fingerprint)).Nodup)
    (hfmt : ∀ o ∈ outs, ∀ a ∈ o.assets, fmt a.policy a.name = a.fingerprint)
    (hr : s.select wraps rnd fmt ord E est (Setup.fromFixed ins outs ch) = (.ok (r, est'), s')) (t : Token)
    (hv : ∀ u ∈ s.inputs, ∀ w ∈ s.inputs, ∀ a ∈ u.assets, ∀ b ∈ w.assets, a.fingerprint = t → b.fingerprint = t →
      a.quantity ≠ b.quantity → u.value = w.value) :
    qty r.outputAssets t ≤ qty r.inputAssets t := by
  refine covered_of_noLoss hs hord hd hq ho hfmt hr t ?_
  intro u hu w hw a b ha hb hab o _
  obtain ⟨x, hx, hxt, rfl⟩ := firstOf_mem ha
  obtain ⟨y, hy, hyt, rfl⟩ := firstOf_mem hb
  exact shouldImprove_same (hv u hu w hw x hx y hy hxt hyt (ne_of_gt hab))

/-- C43, assets, for whole amounts of 64 bits: an asset is covered if no UTxO with less of it is an improvement over one with
more, that is, nearer to twice the amount of an output with the asset and below three times. Missing: otherwise it is false
(`C43_assets_false`). -/
theorem C43_kept_partial {ins : List Utxo} {outs : List Output} {ch : Option Nat} (hs : IndicesOk s)
    (hord : ∀ l, (ord l).Perm l) (hd : outs.Nodup)
    (hq : ∀ u ∈ s.inputs ++ ins, ∀ a ∈ u.assets, 0 ≤ a.quantity)
    (ho : ∀ o ∈ outs, (o.assets.map (·.fingerprint)).Nodup)
    (hfmt : ∀ o ∈ outs, ∀ a ∈ o.assets, fmt a.policy a.name = a.fingerprint)
    (hr : s.select wraps rnd fmt ord E est (Setup.fromFixed ins outs ch) = (.ok (r, est'), s')) (t : Token)
    {v : Utxo → Nat} (hin : ∀ u ∈ s.inputs, u.value = v u ∧ v u < 2 ^ 64)
    {m : Output → Nat} (hout : ∀ o ∈ outs, o.value = m o ∧ 3 * m o < 2 ^ 64)
    (hv : ∀ u ∈ s.inputs, ∀ w ∈ s.inputs, ∀ a ∈ u.assets, ∀ b ∈ w.assets, a.fingerprint = t → b.fingerprint = t →
      b.quantity < a.quantity → ∀ o ∈ outs, (∃ c ∈ o.assets, c.fingerprint = t) →
      |2 * (m o : Int) - v u| ≤ |2 * (m o : Int) - v w| ∨ 3 * m o ≤ v w) :
    qty r.outputAssets t ≤ qty r.inputAssets t := by
  refine covered_of_noLoss hs hord hd hq ho hfmt hr t ?_
  intro u hu w hw a b ha hb hab o hoo
  obtain ⟨hoo, hsome⟩ := List.mem_filter.1 hoo
  obtain ⟨c, hc⟩ := Option.isSome_iff_exists.1 hsome
  obtain ⟨z, hz, hzt, _⟩ := firstOf_mem hc
  obtain ⟨x, hx, hxt, rfl⟩ := firstOf_mem ha
  obtain ⟨y, hy, hyt, rfl⟩ := firstOf_mem hb
  have h1 := hv u hu w hw x hx y hy hxt hyt hab o hoo ⟨z, hz, hzt⟩
  have e : ∀ n : Nat, n < 2 ^ 64 → toU64 (n : ℚ) = some n := by
    intro n hn
    have h2 : ((n : ℚ).floor) = (n : Int) := by
      have := Rat.floor_intCast (n : Int)
      simpa using this
    have h0 : ¬ (n : ℚ) < 0 := not_lt.2 (Nat.cast_nonneg n)
    unfold toU64
    rw [if_neg h0, h2, Int.toNat_natCast, if_pos hn]
  have h3 : mulU64 wraps 2 (m o) = .ok (2 * m o) := by
    unfold mulU64
    rw [if_pos (by have := (hout o hoo).2; omega)]
  have h4 : mulU64 wraps 3 (m o) = .ok (3 * m o) := by
    unfold mulU64
    rw [if_pos (hout o hoo).2]
  unfold shouldImprove
  rw [(hin u hu).1, (hin w hw).1, (hout o hoo).1, e _ (hin u hu).2, e _ (hin w hw).2,
    e _ (by have := (hout o hoo).2; omega)]
  simp only [h3, h4]
  intro hc
  have hc' := Except.ok.inj hc
  simp only [Bool.and_eq_true, decide_eq_true_eq] at hc'
  push_cast at hc'
  rcases h1 with h1 | h1
  · rw [Int.abs_eq_natAbs, Int.abs_eq_natAbs] at h1
    omega
  · omega

/-! ### Failures, C44 and C59 -/

/-- A failing selection: the cause, and what is left is a part of what was available. -/
theorem random_error {e : SelErr} (hs : IndicesOk s) (hord : ∀ l, (ord l).Perm l)
    (hr : s.select wraps rnd fmt ord E est io = (.error e, s')) :
    (E.minFee est = .error e ∧ s' = s) ∨ ∃ av, s' = { s with indices := av } ∧
      av.Subperm s.indices ∧ RandomCause wraps E s io.fixedOutputs e := by
  cases hf : E.minFee est with
  | error e' =>
    left
    simp only [RI.select, hf] at hr
    cases hr
    exact ⟨rfl, rfl⟩
  | ok fee =>
    right
    rcases random_spec (wraps := wraps) (rnd := rnd) (fmt := fmt) (io := io) hs hord hf with
      ⟨b, av, A, chosen, _, _, _, _, _, h5⟩ | ⟨e', av, h1, h2⟩
    · rw [h5] at hr
      cases hr
    · rw [h1] at hr
      cases hr
      exact ⟨av, rfl, h2⟩

/-- Selections keep the indices in order. -/
theorem IndicesOk.select (hs : IndicesOk s) (hord : ∀ l, (ord l).Perm l) :
    IndicesOk (s.select wraps rnd fmt ord E est io).2 := by
  have sub : ∀ {av : List Nat}, av.Subperm s.indices → IndicesOk { s with indices := av } := by
    intro av h
    obtain ⟨l, h1, h2⟩ := h
    exact ⟨h1.nodup_iff.1 (hs.1.sublist h2), fun i hi => hs.2 i (h2.subset (h1.mem_iff.2 hi))⟩
  cases hr : s.select wraps rnd fmt ord E est io with
  | mk x s1 =>
    cases x with
    | error e =>
      rcases random_error hs hord hr with ⟨_, rfl⟩ | ⟨av, rfl, h, _⟩
      · exact hs
      · exact sub h
    | ok x =>
      obtain ⟨r, est'⟩ := x
      obtain ⟨_, b, av, _, h1, _, _, rfl, _⟩ := random_ok hs hord hr
      exact sub (h1.avail hs.1).2

theorem IndicesOk.ofList (l : List Utxo) : IndicesOk (RI.ofList l) :=
  ⟨List.nodup_range, fun _ hi => List.mem_range.1 hi⟩

/-- C44: a new list at least as long as the old one is accepted: indices stay in range, so by `C42_available`
and `C44_no_panic` selections take inputs of the new list and do not panic. Missing: a shorter list. -/
theorem C44_longer_partial {l : List Utxo} (hs : IndicesOk s) (hl : s.inputs.length ≤ l.length) :
    IndicesOk (s.setAvailable l) ∧ (s.setAvailable l).inputs = l :=
  ⟨⟨hs.1, fun i hi => Nat.lt_of_lt_of_le (hs.2 i hi) hl⟩, rfl⟩

/-- C44: before any selection, a new list of the same length replaces the old one completely. Missing: other
lengths, and after a selection. -/
theorem C44_same_length_partial {l l' : List Utxo} (hl : l.length = l'.length) :
    (RI.ofList l).setAvailable l' = RI.ofList l' ∧ (RI.ofList l').available = .ok l' := by
  refine ⟨by simp [RI.setAvailable, RI.ofList, hl], ?_⟩
  unfold RI.available RI.ofList
  simp only
  rw [atAll_of_lt (fun i hi => List.mem_range.1 hi)]
  congr 1
  refine List.ext_getElem (by simp) (fun i h1 h2 => ?_)
  rw [List.getElem_map, List.getElem_range, List.getD_eq_getElem _ _ h2]

/-- C44: no panic while indices are in range, the main amounts of the inputs are 64-bit numbers and three times
those of the outputs as well (unless the estimator fails that way). -/
theorem C44_no_panic (hs : IndicesOk s) (hord : ∀ l, (ord l).Perm l)
    (hin : ∀ u ∈ s.inputs, 0 ≤ u.value ∧ u.value < 2 ^ 64)
    (hout : ∀ o ∈ io.fixedOutputs, 0 ≤ o.value ∧ 3 * o.value < 2 ^ 64)
    (hE : ∀ e, E.minFee est = .error e ∨ EstErr E e → e ≠ .panic ∧ e ≠ .fuel) :
    ∀ e, (s.select wraps rnd fmt ord E est io).1 = .error e → e ≠ .panic ∧ e ≠ .fuel := by
  have hu : ∀ q : ℚ, 0 ≤ q → q < 2 ^ 64 → ∃ n : Nat, toU64 q = some n ∧ (n : ℚ) ≤ q := by
    intro q h0 h1
    refine ⟨q.floor.toNat, ?_, ?_⟩
    · unfold toU64
      have hlt : q.floor.toNat < 2 ^ 64 := by
        have h2 : 0 ≤ q.floor := Rat.le_floor_iff.2 (by simpa using h0)
        have h3 : (q.floor : ℚ) ≤ q := Rat.floor_le _
        have h4 : (q.floor : ℚ) < ((2 ^ 64 : Int) : ℚ) := lt_of_le_of_lt h3 (by push_cast; exact h1)
        have h5 : q.floor < 2 ^ 64 := by exact_mod_cast h4
        omega
      rw [if_neg (not_lt.2 h0), if_pos hlt]
    · have h2 : 0 ≤ q.floor := Rat.le_floor_iff.2 (by simpa using h0)
      have h3 : (q.floor : ℚ) ≤ q := Rat.floor_le _
      have h4 : ((q.floor.toNat : Int) : ℚ) = (q.floor : ℚ) := by rw [Int.toNat_of_nonneg h2]
      have h5 : ((q.floor.toNat : Nat) : ℚ) = (q.floor : ℚ) := by rw [← h4]; norm_cast
      rw [h5]
      exact h3
  intro e he
  cases hr : s.select wraps rnd fmt ord E est io with
  | mk x s1 =>
    rw [hr] at he
    simp only at he
    subst he
    rcases random_error hs hord hr with ⟨h1, _⟩ | ⟨av, _, _, h | ⟨h, _⟩ | ⟨_, o, ho, i, hi, j, hj, a, b, ha, hb, e', hs'⟩ | h⟩
    · exact hE e (.inl h1)
    · subst h; decide
    · subst h; decide
    · exfalso
      obtain ⟨h1, h2⟩ := hin a (List.mem_of_getElem? ha)
      obtain ⟨h3, h4⟩ := hin b (List.mem_of_getElem? hb)
      obtain ⟨h5, h6⟩ := hout o ho
      obtain ⟨x, hx, _⟩ := hu _ h1 h2
      obtain ⟨y, hy, _⟩ := hu _ h3 h4
      obtain ⟨z, hz, hz'⟩ := hu o.value h5 (by linarith)
      have h7 : (3 * z : ℚ) < 2 ^ 64 := by linarith
      have h8 : 3 * z < 2 ^ 64 := by exact_mod_cast h7
      simp only [shouldImprove, hx, hy, hz, mulU64, if_pos h8, if_pos (show 2 * z < 2 ^ 64 by omega)] at hs'
      cases hs'
    · exact hE e (.inr h)

/-- C59: after a failing selection the available inputs are some of those available before (all of them if
the estimator has no minimum fee). Missing: that they are the same. -/
theorem C59_failure_partial {e : SelErr} (hs : IndicesOk s) (hord : ∀ l, (ord l).Perm l)
    (hr : s.select wraps rnd fmt ord E est io = (.error e, s')) :
    s'.inputs = s.inputs ∧ s'.indices.Subperm s.indices ∧ (E.minFee est = .error e → s' = s) := by
  rcases random_error hs hord hr with ⟨h, rfl⟩ | ⟨av, rfl, h, _⟩
  · exact ⟨rfl, List.Subperm.refl _, fun _ => rfl⟩
  · refine ⟨rfl, h, fun hm => ?_⟩
    simp only [RI.select, hm] at hr
    exact (congrArg Prod.snd hr).symm

end

/-! ### Samples -/

/-- Three UTxOs, two of which hold asset 7. -/
def riAvail : List Utxo := [⟨1, 100, [⟨7, 5, 3, 4⟩], 0⟩, ⟨2, 20, [⟨7, 1, 3, 4⟩], 0⟩, ⟨3, 20, [], 0⟩]

/-- An output with five of asset 7. -/
def riOut : Output := ⟨9, 10, [⟨7, 5, 3, 4⟩]⟩

/-- Asset 7 is the one with policy 3 and name 4. -/
def riFmt (pol name : Nat) : Token := if pol = 3 ∧ name = 4 then 7 else 1000

/-- The parts of a result that can be compared. -/
def riView (x : Except SelErr (Result × Unit) × RI) : Option (ℚ × ℚ × ℚ × List Nat) × List Nat :=
  (x.1.toOption.map (fun y => (y.1.inputBalance, qty y.1.inputAssets 7, y.1.fee, y.1.chosen.map (·.ptr))), x.2.indices)

/-- A selection with improvement: the pass for asset 7 takes input 1 and exchanges it for input 2, the main
pass takes input 3. -/
example : riView ((RI.ofList riAvail).select false (fun _ => 0) riFmt id (flatEstimator 1 1 0) ()
    (Setup.fromFixed [] [riOut] none)) = (some (40, 1, 3, [2, 3]), [0]) := by decide +kernel

theorem ri_ok {x : Except SelErr (Result × Unit) × RI} {v : ℚ × ℚ × ℚ × List Nat} {l : List Nat}
    (h : riView x = (some v, l)) : ∃ r, x = (.ok (r, ()), x.2) ∧
      (r.inputBalance, qty r.inputAssets 7, r.fee, r.chosen.map (·.ptr)) = v ∧ x.2.indices = l := by
  obtain ⟨x, s⟩ := x
  cases x with
  | error e => simp [riView, Except.toOption] at h
  | ok y =>
    obtain ⟨r, u⟩ := y
    simp only [riView, Except.toOption, Option.map_some, Prod.mk.injEq, Option.some.injEq] at h
    exact ⟨r, rfl, h.1, h.2⟩

/-- C42 is false for an output listed twice: its inputs are counted twice. Two outputs of 5, two inputs of 7:
the reported input is 28, the chosen inputs are worth 14. -/
theorem C42_same_output_false : ¬ ∀ (wraps : Bool) (rnd : Nat → Nat) (fmt : Nat → Nat → Token)
    (ord : List Nat → List Nat) (E : Estimator Unit) (s s' : RI) (io : Setup) (r : Result), IndicesOk s →
    (∀ l, (ord l).Perm l) → s.select wraps rnd fmt ord E () io = (.ok (r, ()), s') →
    r.inputBalance = io.inputBalance + (r.chosen.map (·.value)).sum := by
  intro h
  have h1 : riView ((RI.ofList [⟨1, 7, [], 0⟩, ⟨2, 7, [], 0⟩]).select false (fun _ => 0) riFmt id
      (flatEstimator 0 0 0) () (Setup.fromFixed [] [⟨9, 5, []⟩, ⟨9, 5, []⟩] none)) = (some (28, 0, 0, [1, 2]), []) := by
    decide +kernel
  obtain ⟨r, e1, e2, _⟩ := ri_ok h1
  have h2 := h _ _ _ _ _ _ _ _ _ (IndicesOk.ofList _) (fun l => List.Perm.refl l) e1
  obtain ⟨b, a, q1, q2, q3, _⟩ := C42_available (IndicesOk.ofList _) (fun l => List.Perm.refl l) e1
  simp only [Prod.mk.injEq] at e2
  have hb : b = [⟨1, 7, [], 0⟩, ⟨2, 7, [], 0⟩] := by
    have : (RI.ofList [⟨1, 7, [], 0⟩, ⟨2, 7, [], 0⟩]).available = .ok [⟨1, 7, [], 0⟩, ⟨2, 7, [], 0⟩] := rfl
    rw [this] at q1
    cases q1
    rfl
  have h4 : (b.map (·.value)).sum = ((r.chosen ++ a).map (·.value)).sum := perm_sum _ q3
  have ha : a.length = 0 := by
    have h5 := q3.length_eq
    have h6 : r.chosen.length = 2 := by
      have := congrArg List.length e2.2.2.2
      simpa using this
    rw [hb] at h5
    simp [h6] at h5
    simp [h5]
  have ha' : a = [] := List.eq_nil_of_length_eq_zero ha
  rw [hb, ha', List.append_nil] at h4
  rw [e2.1, ← h4] at h2
  revert h2
  decide +kernel

/-- C43 is false for the fee: one input equal to the output is chosen although the fee is 2. -/
theorem C43_fee_false : ¬ ∀ (wraps : Bool) (rnd : Nat → Nat) (fmt : Nat → Nat → Token)
    (ord : List Nat → List Nat) (E : Estimator Unit) (s s' : RI) (ins : List Utxo) (outs : List Output) (r : Result),
    IndicesOk s → (∀ l, (ord l).Perm l) → outs.Nodup →
    s.select wraps rnd fmt ord E () (Setup.fromFixed ins outs none) = (.ok (r, ()), s') →
    r.outputBalance + r.fee ≤ r.inputBalance := by
  intro h
  have h1 : riView ((RI.ofList [⟨1, 7, [], 0⟩, ⟨2, 7, [], 0⟩]).select false (fun _ => 0) riFmt id
      (flatEstimator 1 1 0) () (Setup.fromFixed [] [⟨9, 7, []⟩] none)) = (some (7, 0, 2, [1]), [1]) := by
    decide +kernel
  obtain ⟨r, e1, e2, _⟩ := ri_ok h1
  have h2 := h _ _ _ _ _ _ _ _ _ _ (IndicesOk.ofList _) (fun l => List.Perm.refl l) (by decide +kernel) e1
  obtain ⟨_, _, _, _, _, _, q, _⟩ := C42_available (IndicesOk.ofList _) (fun l => List.Perm.refl l) e1
  simp only [Prod.mk.injEq] at e2
  rw [e2.1, e2.2.2.1, q] at h2
  revert h2
  decide +kernel

/-- C43 is false for assets even if identifiers have the form expected: the improvement looks at the main
token only, and exchanges an input with enough of the asset for one with less. -/
theorem C43_assets_false : ¬ ∀ (wraps : Bool) (rnd : Nat → Nat) (fmt : Nat → Nat → Token)
    (ord : List Nat → List Nat) (E : Estimator Unit) (s s' : RI) (ins : List Utxo) (outs : List Output) (r : Result),
    IndicesOk s → (∀ l, (ord l).Perm l) → outs.Nodup →
    (∀ u ∈ s.inputs ++ ins, ∀ a ∈ u.assets, 0 ≤ a.quantity) →
    (∀ o ∈ outs, ∀ a ∈ o.assets, fmt a.policy a.name = a.fingerprint) →
    s.select wraps rnd fmt ord E () (Setup.fromFixed ins outs none) = (.ok (r, ()), s') →
    ∀ t, qty r.outputAssets t ≤ qty r.inputAssets t := by
  intro h
  have h1 : riView ((RI.ofList riAvail).select false (fun _ => 0) riFmt id
      (flatEstimator 1 1 0) () (Setup.fromFixed [] [riOut] none)) = (some (40, 1, 3, [2, 3]), [0]) := by
    decide +kernel
  obtain ⟨r, e1, e2, _⟩ := ri_ok h1
  have h2 := h _ _ _ _ _ _ _ _ _ _ (IndicesOk.ofList _) (fun l => List.Perm.refl l) (by decide +kernel)
    (by decide +kernel) (by decide +kernel) e1 7
  obtain ⟨_, _, _, _, _, _, _, q, _⟩ := C42_available (IndicesOk.ofList _) (fun l => List.Perm.refl l) e1
  simp only [Prod.mk.injEq] at e2
  rw [e2.2.1, q] at h2
  revert h2
  decide +kernel

/-- C43 is false for assets whose identifier is not of the form `policy:name` (a CIP-14 fingerprint is not):
no input is chosen for them. -/
theorem C43_fingerprint_false : ¬ ∀ (wraps : Bool) (rnd : Nat → Nat) (fmt : Nat → Nat → Token)
    (ord : List Nat → List Nat) (E : Estimator Unit) (s s' : RI) (ins : List Utxo) (outs : List Output) (r : Result),
    IndicesOk s → (∀ l, (ord l).Perm l) → outs.Nodup → (∃ v, ∀ u ∈ s.inputs, u.value = v) →
    (∀ u ∈ s.inputs ++ ins, ∀ a ∈ u.assets, 0 ≤ a.quantity) →
    s.select wraps rnd fmt ord E () (Setup.fromFixed ins outs none) = (.ok (r, ()), s') →
    ∀ t, qty r.outputAssets t ≤ qty r.inputAssets t := by
  intro h
  have h1 : riView ((RI.ofList [⟨1, 20, [], 0⟩, ⟨2, 20, [⟨7, 5, 3, 4⟩], 0⟩]).select false (fun _ => 0)
      (fun _ _ => 1000) id (flatEstimator 1 1 0) () (Setup.fromFixed [] [riOut] none)) =
      (some (20, 0, 2, [1]), [1]) := by
    decide +kernel
  obtain ⟨r, e1, e2, _⟩ := ri_ok h1
  have h2 := h _ _ _ _ _ _ _ _ _ _ (IndicesOk.ofList _) (fun l => List.Perm.refl l) (by decide +kernel)
    ⟨20, by decide +kernel⟩ (by decide +kernel) e1 7
  obtain ⟨_, _, _, _, _, _, _, q, _⟩ := C42_available (IndicesOk.ofList _) (fun l => List.Perm.refl l) e1
  simp only [Prod.mk.injEq] at e2
  rw [e2.2.1, q] at h2
  revert h2
  decide +kernel

/-- A case for `C43_assets_partial`: inputs of equal main amounts. -/
theorem ri_equal : riView ((RI.ofList [⟨1, 20, [⟨7, 3, 3, 4⟩], 0⟩, ⟨2, 20, [⟨7, 4, 3, 4⟩], 0⟩, ⟨3, 20, [], 0⟩]).select false
    (fun _ => 1) riFmt id (flatEstimator 1 1 0) () (Setup.fromFixed [] [riOut] none)) =
    (some (60, 7, 4, [2, 1, 3]), []) := by decide +kernel

/-- Two UTxOs with one of asset 7 each, and different main amounts. -/
def riOnes : List Utxo := [⟨1, 100, [⟨7, 1, 3, 4⟩], 0⟩, ⟨2, 20, [⟨7, 1, 3, 4⟩], 0⟩, ⟨3, 1, [], 0⟩]

/-- A payment of 10 with one of asset 7. -/
def riOne : Output := ⟨9, 10, [⟨7, 1, 3, 4⟩]⟩

/-- The pass for the asset takes the first and exchanges it for the second. -/
theorem ri_ones : riView ((RI.ofList riOnes).select false (fun _ => 0) riFmt id (flatEstimator 1 1 0) ()
    (Setup.fromFixed [] [riOne] none)) = (some (21, 1, 3, [2, 3]), [0]) := by decide +kernel

/-- Two UTxOs with asset 7, the one with more of it nearer to twice the payment. -/
def riMore : List Utxo := [⟨1, 100, [⟨7, 1, 3, 4⟩], 0⟩, ⟨2, 20, [⟨7, 2, 3, 4⟩], 0⟩, ⟨3, 1, [], 0⟩]

/-- The pass for the asset takes the first and exchanges it for the second, which has more. -/
theorem ri_more : riView ((RI.ofList riMore).select false (fun _ => 0) riFmt id (flatEstimator 1 1 0) ()
    (Setup.fromFixed [] [riOne] none)) = (some (21, 2, 3, [2, 3]), [0]) := by decide +kernel

example : ∃ r s', (RI.ofList riOnes).select false (fun _ => 0) riFmt id (flatEstimator 1 1 0) ()
    (Setup.fromFixed [] [riOne] none) = (.ok (r, ()), s') ∧ qty r.outputAssets 7 ≤ qty r.inputAssets 7 := by
  obtain ⟨r, e1, _⟩ := ri_ok ri_ones
  refine ⟨r, _, e1, C43_assets_partial (IndicesOk.ofList _) (fun l => .refl l) (by decide +kernel) (by decide +kernel)
    (by decide +kernel) (by decide +kernel) e1 7 (by decide +kernel)⟩

example : ∃ r s', (RI.ofList riMore).select false (fun _ => 0) riFmt id (flatEstimator 1 1 0) ()
    (Setup.fromFixed [] [riOne] none) = (.ok (r, ()), s') ∧ qty r.outputAssets 7 ≤ qty r.inputAssets 7 := by
  obtain ⟨r, e1, _⟩ := ri_ok ri_more
  refine ⟨r, _, e1, C43_kept_partial (IndicesOk.ofList _) (fun l => .refl l) (by decide +kernel) (by decide +kernel)
    (by decide +kernel) (by decide +kernel) e1 7 (v := fun u => u.value.floor.toNat) (by decide +kernel)
    (m := fun o => o.value.floor.toNat) (by decide +kernel) (by decide +kernel)⟩

/-- C44 is false for a shorter list: listing the available inputs panics. -/
theorem C44_shorter_false : ¬ ∀ (old new : List Utxo), ((RI.ofList old).setAvailable new).available ≠ .error .panic := by
  intro h
  exact h [⟨1, 7, [], 0⟩] [] rfl

/-- C44 is false for a longer list: only a first part of it is offered. -/
theorem C44_longer_false : ¬ ∀ (old new : List Utxo), old.length ≤ new.length →
    ((RI.ofList old).setAvailable new).available = .ok new := by
  intro h
  have h1 := h [] [⟨1, 7, [], 0⟩] (by decide)
  cases h1

/-- C44 is false after a selection: inputs handed over again are not offered. -/
theorem C44_again_false : ¬ ∀ (s : RI) (rnd : Nat → Nat) (io : Setup), IndicesOk s →
    (((s.select false rnd riFmt id (flatEstimator 0 0 0) () io).2.setAvailable s.inputs).available =
      .ok s.inputs) := by
  intro h
  have h1 := h (RI.ofList [⟨1, 7, [], 0⟩]) (fun _ => 0) (Setup.fromFixed [] [⟨9, 5, []⟩] none) (IndicesOk.ofList _)
  have h2 : ((((RI.ofList [⟨1, 7, [], 0⟩]).select false (fun _ => 0) riFmt id (flatEstimator 0 0 0) ()
    (Setup.fromFixed [] [⟨9, 5, []⟩] none)).2.setAvailable [⟨1, 7, [], 0⟩]).available.toOption.map
      (·.map (·.ptr))) = some [] := by decide +kernel
  have h3 := congrArg (fun x => x.toOption.map (·.map (·.ptr))) h1
  rw [show (RI.ofList [⟨1, 7, [], 0⟩]).inputs = [⟨1, 7, [], 0⟩] from rfl] at h3
  rw [h2] at h3
  revert h3
  decide

/-- C59 is false: a selection that fails for lack of inputs takes inputs away. -/
theorem C59_failure_false : ¬ ∀ (s s' : RI) (rnd : Nat → Nat) (io : Setup) (e : SelErr), IndicesOk s →
    s.select false rnd riFmt id (flatEstimator 0 0 0) () io = (.error e, s') → s'.indices = s.indices := by
  intro h
  have h1 : riView ((RI.ofList [⟨1, 7, [], 0⟩]).select false (fun _ => 0) riFmt id (flatEstimator 0 0 0) ()
    (Setup.fromFixed [] [⟨9, 50, []⟩] none)) = (none, []) := by decide +kernel
  generalize hx : (RI.ofList [⟨1, 7, [], 0⟩]).select false (fun _ => 0) riFmt id (flatEstimator 0 0 0) ()
    (Setup.fromFixed [] [⟨9, 50, []⟩] none) = x at h1
  obtain ⟨x, s'⟩ := x
  cases x with
  | ok y => simp [riView, Except.toOption] at h1
  | error e =>
    have h2 := h _ _ _ _ _ (IndicesOk.ofList _) hx
    simp only [riView, Prod.mk.injEq] at h1
    rw [h1.2] at h2
    revert h2
    decide

end Verif.Props
