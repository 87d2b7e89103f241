import Verif.Props.MoreFunds
import Verif.Props.ThermostatChanges
import Verif.Props.ThermostatLedger

/-!
# A smaller payment does not fail where a larger one is made (C119)
-/

namespace Verif.Props

open Verif Verif.Core Verif.Selection Verif.Selection.Thermostat

/-- The second request asks for no more than the first one: no more of the main token and of each asset, after what the fixed
inputs bring. -/
structure AsksLess (io io' : Setup) : Prop where
  main : io'.outputBalance - io'.inputBalance ≤ io.outputBalance - io.inputBalance
  assets : ∀ t o', (t, o') ∈ io'.outputAssets → ∃ o, (t, o) ∈ io.outputAssets ∧
    o'.quantity - qty io'.inputAssets t ≤ o.quantity - qty io.inputAssets t

section

variable {σ : Type} {E : Estimator σ} {ord : List Utxo → List Utxo} {avail : List Utxo}
  {st st1 : UStore} {est est' est1 : σ} {io io' : Setup} {r : Result} {c : ℚ}

/-- What has paid for a request pays for one that asks for less. -/
theorem pays_less (h : LFCase E ord avail st est io) (hc : ∀ s u, E.feeIn s u = .ok c)
    (hr : largestFirst E ord st est io = (.ok (r, est1), st1)) (hless : AsksLess io io') {min' : ℚ}
    (hmin : ∀ min, E.minFee est = .ok min → min' ≤ min) : PaysWith c min' avail io' r.chosen := by
  obtain ⟨b1, b2, b3, b4, _, ⟨min, hm, b5⟩, _⟩ := C39_books h hr
  obtain ⟨c1, c2, _⟩ := C38_covers h hr
  have hfee := runFee_const hc b5
  refine ⟨fun u hu => b3.mem_iff.2 (List.mem_append.2 (.inl hu)), ?_, ?_, ?_⟩
  · have := (b3.map (·.ptr)).nodup_iff.1 b4
    rw [List.map_append] at this
    exact (List.nodup_append.1 this).1
  · intro t o' hto
    obtain ⟨o, h1, h2⟩ := hless.assets t o' hto
    have h3 := c1 t o h1
    rw [b2] at h3
    linarith
  · have h1 := hless.main
    have h2 := hmin min hm
    rw [b1, hfee] at c2
    linarith

/-- C119 without assets: the smaller payment is made too, with no more inputs and no higher fee. The larger one may ask for
assets. -/
theorem C119_less (h : LFCase E ord avail st est io) (h' : LFCase E ord avail st est' io') (ha : E.Answers)
    (hc : ∀ s u, E.feeIn s u = .ok c) (hno : io'.outputAssets = []) (hless : AsksLess io io')
    (hmin : ∀ min min', E.minFee est = .ok min → E.minFee est' = .ok min' → min' ≤ min) {min' : ℚ}
    (hm' : E.minFee est' = .ok min') (hr : largestFirst E ord st est io = (.ok (r, est1), st1)) :
    ∃ r' est2 st2, largestFirst E ord st est' io' = (.ok (r', est2), st2) ∧ r'.chosen.length ≤ r.chosen.length ∧
      r'.fee ≤ r.fee := by
  have hp := pays_less h hc hr hless (fun min hm => hmin min min' hm hm')
  obtain ⟨r', est2, st2, k1, k2, k3⟩ := C113_any_choice h' ha hm' hc hno hp
  refine ⟨r', est2, st2, k1, k2, ?_⟩
  obtain ⟨_, _, _, _, _, ⟨min, hm, b5⟩, _⟩ := C39_books h hr
  rw [k3, runFee_const hc b5]
  have hc0 : 0 ≤ c := h.fees est ⟨0, 0, [], 0⟩ c (hc _ _)
  have h1 : (r'.chosen.length : ℚ) ≤ r.chosen.length := by exact_mod_cast k2
  have h2 := mul_le_mul_of_nonneg_left h1 hc0
  have h3 := hmin min min' hm hm'
  linarith

/-- C119 with assets, if every UTxO is worth what it costs: the smaller payment is made too, with at most as many inputs for
each asset asked for, and once more. -/
theorem C119_less_assets (h : LFCase E ord avail st est io) (h' : LFCase E ord avail st est' io') (ha : E.Answers)
    (hc : ∀ s u, E.feeIn s u = .ok c) (hworth : ∀ u ∈ avail, c ≤ u.value) (hless : AsksLess io io')
    (hmin : ∀ min min', E.minFee est = .ok min → E.minFee est' = .ok min' → min' ≤ min) {min' : ℚ}
    (hm' : E.minFee est' = .ok min') (hr : largestFirst E ord st est io = (.ok (r, est1), st1)) :
    ∃ r' est2 st2, largestFirst E ord st est' io' = (.ok (r', est2), st2) ∧
      r'.chosen.length ≤ (io'.outputAssets.length + 1) * r.chosen.length := by
  have hp := pays_less h hc hr hless (fun min hm => hmin min min' hm hm')
  obtain ⟨_, _, hall, _⟩ := C39_books h hr
  cases hr' : largestFirst E ord st est' io' with
  | mk x st2 =>
  cases x with
  | ok y => exact ⟨y.1, y.2, st2, rfl, C101_bound h' hm' hc hworth hr' hp⟩
  | error e =>
    exfalso
    obtain ⟨hcause, _⟩ := C40_complete h' ha hm' hr'
    rcases hcause with ⟨t, o, hto, hlt⟩ | ⟨order, f, s, o1, o2, o3⟩
    · have k1 := hp.assets t o hto
      rw [perm_sum _ hall, List.map_append, List.sum_append] at hlt
      have : 0 ≤ ((availableInputs st1).map (fun u => assetSum t u.assets)).sum := by
        refine List.sum_nonneg (fun x hx => ?_)
        obtain ⟨u, hu, rfl⟩ := List.mem_map.1 hx
        exact assetSum_nonneg (h'.quantities u (hall.mem_iff.2 (List.mem_append.2 (.inr hu)))) t
      linarith
    · have k1 := hp.main
      have k2 := runFee_const hc o2
      rw [o1.length_eq, hall.length_eq, List.length_append] at k2
      rw [perm_sum _ hall, List.map_append, List.sum_append] at o3
      have k3 : ∀ l : List Utxo, (∀ u ∈ l, c ≤ u.value) → c * (l.length : ℚ) ≤ (l.map (·.value)).sum := by
        intro l hl
        induction l with
        | nil => simp
        | cons u l ih =>
          have q1 := hl u (by simp)
          have q2 := ih (fun w hw => hl w (by simp [hw]))
          rw [List.map_cons, List.sum_cons, List.length_cons]
          push_cast
          linarith
      have k4 := k3 (availableInputs st1) (fun u hu => hworth u (hall.mem_iff.2 (List.mem_append.2 (.inr hu))))
      push_cast at k2
      linarith

end

section

variable {σ : Type} {E : Estimator σ} {W : World} {st st' : UStore} {est est' estS : σ} {ins : List Utxo} {outs outs' : List Output}
  {ch : Option Nat} {r : Result}

/-- The minimum fee after some parts, at constant charges. -/
theorem addParts_fee {cin cout : ℚ} (hl : Linear E cin cout) (ps : List TxPart) : ∀ {s s' : σ} {m : ℚ}, E.minFee s = .ok m →
    addParts E s ps = .ok s' →
    E.minFee s' = .ok (m + cin * (ps.countP (·.isInput) : ℚ) + cout * (ps.countP (·.isOutput) : ℚ)) := by
  induction ps with
  | nil =>
    intro s s' m hm h
    cases h
    simpa using hm
  | cons p ps ih =>
    intro s s' m hm h
    unfold addParts at h
    split at h
    · rename_i s1 h1
      cases p with
      | input u =>
        have := ih (hl.addIn _ _ _ _ h1 hm) h
        rw [this, List.countP_cons_of_pos (by rfl), List.countP_cons_of_neg (by simp [TxPart.isOutput, TxPart.isInput])]
        push_cast
        congr 1
        ring
      | output o =>
        have := ih (hl.addOut _ _ _ _ h1 hm) h
        rw [this, List.countP_cons_of_neg (by simp [TxPart.isInput]), List.countP_cons_of_pos (by rfl)]
        push_cast
        congr 1
        ring
    · cases h

/-- C119 for the thermostat, without assets: a payment that the fixed inputs do not cover is made where a larger one is. Missing:
payments the fixed inputs cover, see `C119_thermostat_false`, and assets, see `C119_exact_false`. -/
theorem C119_thermostat_partial {avail : List Utxo} {cin cout m0 m0' : ℚ} {addr : Nat}
    (hO : Ordinary E W avail st est ins outs cin cout m0) (hO' : Ordinary E W avail st estS ins outs' cin cout m0')
    (hno : requestTokens ins outs = []) (hno' : requestTokens ins outs' = []) (hout : outs' ≠ [])
    (hdiv : ∀ q, W.div q 2 = q / 2) (hmv : ∀ s o v s', E.minValueOut s o = .ok (v, s') → s' = s)
    {m : ℚ} (hm : 0 < m) (hneed : ∀ s o v s', E.minValueOut s o = .ok (v, s') → m ≤ v) (hmin : 0 < W.cfg.min)
    (huncovered : (ins.map (·.value)).sum < (outs'.map (·.value)).sum + m0')
    (hless : (outs'.map (·.value)).sum + m0' ≤ (outs.map (·.value)).sum + m0)
    (h : thermostat E W st est (Setup.fromFixed ins outs ch) = (.ok (r, est'), st')) :
    ∃ r' est2 st2, thermostat E W st estS (Setup.fromFixed ins outs' (some addr)) = (.ok (r', est2), st2) ∧
      ∃ m, E.minFee est2 = .ok m ∧ m ≤ r'.fee := by
  have hl := hO.sure.toLinear
  refine C68_succeeds_partial hO' hout (.inl huncovered) (by simp [hno']) ?_ (by simp [hno'])
  obtain ⟨b1, _⟩ := C49_main hO.case.changeOrder h
  obtain ⟨m1, f1, f2⟩ := C50_fee_partial hO.case hO.max hl hO.worth (by simp [hno]) h
  obtain ⟨ps, p1, p2, p3⟩ := thermostat_parts hO.case.changeOrder hmv h
  have f3 := addParts_fee hl ps hO.fee.1 p1
  rw [f1, p2, p3] at f3
  have f4 := Except.ok.inj f3
  obtain ⟨s1, _, _, s4⟩ := C51_selection hO.case h
  have hch : 0 ≤ (r.changes.map (·.value)).sum := by
    refine List.sum_nonneg (fun x hx => ?_)
    obtain ⟨o, ho, rfl⟩ := List.mem_map.1 hx
    exact le_of_lt (C67_amounts_partial hO.case hO.max hdiv hO.quantities (F := cout)
      (fun s o f hf => by rw [hl.feeOut] at hf; cases hf; exact ⟨hO.feeOut.1, le_refl _⟩) hO.feeOut.1 hneed hm hmin h o ho).1
  have hsp : (r.chosen.map (·.value)).sum - cin * r.chosen.length ≤
      spendable cin (avail.filter (fun u => u.assets.length = 0)) := by
    have q1 : (avail.filter (fun u => u.assets.length = 0)).Perm
        (r.chosen ++ (availableInputs st').filter (fun u => u.assets.length = 0)) := by
      have hc : r.chosen.filter (fun u => decide (u.assets.length = 0)) = r.chosen := List.filter_eq_self.2 (fun u hu => by
        rcases s4 u hu with e | ⟨a, _, ha⟩
        · simp [e]
        · rw [hno] at ha; cases ha)
      have := s1.filter (fun u => decide (u.assets.length = 0))
      rwa [List.filter_append, hc] at this
    unfold spendable
    rw [(q1.map _).sum_eq, List.map_append, List.sum_append]
    have q2 : 0 ≤ (((availableInputs st').filter (fun u => u.assets.length = 0)).map (fun u => u.value - cin)).sum := by
      refine List.sum_nonneg (fun x hx => ?_)
      obtain ⟨u, hu, rfl⟩ := List.mem_map.1 hx
      have := hO.worth u (s1.mem_iff.2 (List.mem_append.2 (.inr (List.mem_filter.1 hu).1)))
      linarith
    have q3 : ∀ l : List Utxo, (l.map (fun u => u.value - cin)).sum = (l.map (·.value)).sum - cin * l.length := by
      intro l
      induction l with
      | nil => simp
      | cons u l ih =>
        rw [List.map_cons, List.sum_cons, ih, List.map_cons, List.sum_cons, List.length_cons]
        push_cast
        ring
    rw [q3 r.chosen]
    linarith
  have hco : 0 ≤ cout * (r.changes.length : ℚ) := mul_nonneg hO.feeOut.1 (Nat.cast_nonneg _)
  rw [hno']
  simp only [List.length_nil, Nat.cast_zero, zero_mul, add_zero]
  linarith

end

/-! ### Concrete cases -/

/-- 11 and one of the asset are paid; so are 10, with no more inputs. -/
example : ∃ r' st2, largestFirst (flatEstimator 1 1 0) id (moreStore moreAvail) () { inputBalance := 0, outputBalance := 10 } =
    (.ok (r', ()), st2) ∧ r'.chosen.length ≤ 2 := by
  obtain ⟨r, st1, h1, h2⟩ := more_ok (l := moreAvail) (io := moreIo) (n := [1, 2]) (by decide +kernel)
  obtain ⟨r', _, st2, h3, h4, _⟩ := C119_less (c := 1) (min' := 1) (io := moreIo) (io' := { inputBalance := 0, outputBalance := 10 })
    (moreCase (by unfold DistinctAssets; decide) (by decide) (by decide) (by decide))
    (moreCase (by unfold DistinctAssets; decide) (by decide) (by decide) (by decide))
    (fun _ _ => ⟨⟨_, rfl⟩, ⟨_, rfl⟩⟩) (fun _ _ => rfl) rfl ⟨by decide +kernel, by simp⟩
    (fun m m' e e' => le_of_eq (Except.ok.inj (e'.symm.trans e))) rfl h1
  refine ⟨r', st2, h3, ?_⟩
  have : r.chosen.length = 2 := by rw [← List.length_map (f := fun u : Utxo => u.ptr), h2]; rfl
  omega

/-- 11 and one of the asset are paid, with every UTxO worth its cost; so are 10 and one of the asset. -/
example : ∃ r' st2, largestFirst (flatEstimator 1 1 0) id (moreStore moreAvail) ()
    { moreIo with outputBalance := 10 } = (.ok (r', ()), st2) ∧ r'.chosen.length ≤ 4 := by
  obtain ⟨r, st1, h1, h2⟩ := more_ok (l := moreAvail) (io := moreIo) (n := [1, 2]) (by decide +kernel)
  obtain ⟨r', _, st2, h3, h4⟩ := C119_less_assets (c := 1) (min' := 1) (io := moreIo)
    (io' := { moreIo with outputBalance := 10 })
    (moreCase (by unfold DistinctAssets; decide) (by decide) (by decide) (by decide))
    (moreCase (by unfold DistinctAssets; decide) (by decide) (by decide) (by decide))
    (fun _ _ => ⟨⟨_, rfl⟩, ⟨_, rfl⟩⟩) (fun _ _ => rfl) (by decide)
    ⟨by decide +kernel, fun t o' ho => ⟨o', ho, le_refl _⟩⟩
    (fun m m' e e' => le_of_eq (Except.ok.inj (e'.symm.trans e))) rfl h1
  refine ⟨r', st2, h3, ?_⟩
  have : r.chosen.length = 2 := by rw [← List.length_map (f := fun u : Utxo => u.ptr), h2]; rfl
  rw [this] at h4
  exact h4

/-- The thermostat pays 510 ada with a fixed input of 500; so it pays 505. -/
example : ∃ r' est2 st2, thermostat thE (thW {}) (thStore (thPlain [])) thEst
    (Setup.fromFixed [⟨3, 500000000, [], 0⟩] [⟨9, 505000000, []⟩] (some 5)) = (.ok (r', est2), st2) := by
  have h1 : thView thE (thermostat thE (thW {}) (thStore (thPlain [])) thEst
      (Setup.fromFixed [⟨3, 500000000, [], 0⟩] [⟨9, 510000000, []⟩] (some 5))) =
      (some ⟨182441, some 182441, [2], [(244908780, []), (244908779, [])]⟩, [1]) := by decide +kernel
  obtain ⟨r, est', e1, _⟩ := th_ok h1
  have hO : ∀ v : Rat, 0 ≤ v → _ := fun v hv => thPlain_ordinary (as := []) (ins := [⟨3, 500000000, [], 0⟩])
    (outs := [⟨9, v, []⟩]) (Or.inl rfl) (by simp [requestTokens]) (by decide +kernel) (by simp [hv])
  obtain ⟨r', est2, st2, e2, _⟩ := C119_thermostat_partial (addr := 5) (m := 1000000) (hO 510000000 (by norm_num))
    (hO 505000000 (by norm_num)) (by simp [requestTokens]) (by simp [requestTokens]) (by simp) (fun _ => rfl)
    (by rintro s o v s' hv; cases hv; rfl) (by norm_num)
    (by
      rintro s o v s' hv
      simp only [thE, linearEstimator, bind, Except.bind, Except.ok.injEq, Prod.mk.injEq] at hv
      rw [← hv.1])
    (by decide +kernel) (by decide +kernel) (by decide +kernel) e1
  exact ⟨r', est2, st2, e2⟩

/-- A UTxO with two assets, and one that holds more of the second but no ada. -/
def lessAvail : List Utxo := [⟨1, 12, [⟨7, 1, 0, 0⟩, ⟨8, 2, 0, 0⟩], 0⟩, ⟨2, 0, [⟨8, 5, 0, 0⟩], 0⟩]

def lessIo (as : List (Nat × Asset)) : Setup := { inputBalance := 0, outputBalance := 10, outputAssets := as }

/-- C119 is false if a UTxO is not worth its cost: 10 with two assets are paid, 10 with one of them are not. -/
theorem C119_dust_false : ¬ ∀ (avail : List Utxo) (io io' : Setup) (r : Result) (st1 : UStore),
    LFCase (flatEstimator 1 1 0) id avail (moreStore avail) () io →
    LFCase (flatEstimator 1 1 0) id avail (moreStore avail) () io' → AsksLess io io' →
    largestFirst (flatEstimator 1 1 0) id (moreStore avail) () io = (.ok (r, ()), st1) →
    ∃ r' st2, largestFirst (flatEstimator 1 1 0) id (moreStore avail) () io' = (.ok (r', ()), st2) := by
  intro h
  obtain ⟨r, st1, h1, _⟩ := more_ok (l := lessAvail) (io := lessIo [(7, ⟨7, 1, 0, 0⟩), (8, ⟨8, 2, 0, 0⟩)]) (n := [1])
    (by decide +kernel)
  refine more_none (by decide +kernel) (h lessAvail (lessIo [(7, ⟨7, 1, 0, 0⟩), (8, ⟨8, 2, 0, 0⟩)])
    (lessIo [(8, ⟨8, 2, 0, 0⟩)]) r st1
    (moreCase (by unfold DistinctAssets; decide) (by decide) (by decide) (by decide))
    (moreCase (by unfold DistinctAssets; decide) (by decide) (by decide) (by decide)) ⟨le_refl _, ?_⟩ h1)
  intro t o' hto
  exact ⟨o', by simp only [lessIo, List.mem_singleton] at hto ⊢; simp [hto], le_refl _⟩

/-- C119 is false for the thermostat: with a fixed input of 500 ada it pays 510 ada, but not 10. -/
theorem C119_thermostat_false : ¬ ∀ (W : World) (avail ins : List Utxo) (est est' : LE) (outs outs' : List Output) (r : Result)
    (st' : UStore), THCase W avail (thStore avail) ins outs → THCase W avail (thStore avail) ins outs' →
    AsksLess (Setup.fromFixed ins outs (some 5)) (Setup.fromFixed ins outs' (some 5)) →
    thermostat thE W (thStore avail) est (Setup.fromFixed ins outs (some 5)) = (.ok (r, est'), st') →
    ∃ r' est2 st2, thermostat thE W (thStore avail) est (Setup.fromFixed ins outs' (some 5)) = (.ok (r', est2), st2) := by
  intro h
  have h1 : thView thE (thermostat thE (thW {}) (thStore (thPlain [])) thEst
      (Setup.fromFixed [⟨3, 500000000, [], 0⟩] [⟨9, 510000000, []⟩] (some 5))) =
      (some ⟨182441, some 182441, [2], [(244908780, []), (244908779, [])]⟩, [1]) := by decide +kernel
  obtain ⟨r, est', e1, _⟩ := th_ok h1
  have hc : ∀ v : Rat, 0 ≤ v → THCase (thW {}) (thPlain []) (thStore (thPlain [])) [⟨3, 500000000, [], 0⟩] [⟨9, v, []⟩] := fun v hv =>
    (thPlain_ordinary (as := []) (ins := [⟨3, 500000000, [], 0⟩]) (outs := [⟨9, v, []⟩]) (Or.inl rfl) (by simp [requestTokens])
      (by decide +kernel) (by simp [hv])).case
  refine th_error (E := thE) (l := [1, 2]) ?_ (h (thW {}) (thPlain []) [⟨3, 500000000, [], 0⟩] thEst est' [⟨9, 510000000, []⟩]
    [⟨9, 10000000, []⟩] r _ (hc _ (by norm_num)) (hc _ (by norm_num)) ⟨by decide +kernel, ?_⟩ e1)
  · decide +kernel
  · intro t o' hto
    have : (Setup.fromFixed [⟨3, 500000000, [], 0⟩] [⟨9, 10000000, []⟩] (some 5)).outputAssets = [] := by decide +kernel
    rw [this] at hto
    cases hto

/-- And with an asset: it pays 11 of the asset, but not 10, which the first UTxO holds exactly. -/
theorem C119_exact_false : ¬ ∀ (W : World) (avail : List Utxo) (est est' : LE) (outs outs' : List Output) (r : Result)
    (st' : UStore), THCase W avail (thStore avail) [] outs → THCase W avail (thStore avail) [] outs' →
    AsksLess (Setup.fromFixed [] outs (some 5)) (Setup.fromFixed [] outs' (some 5)) →
    thermostat thE W (thStore avail) est (Setup.fromFixed [] outs (some 5)) = (.ok (r, est'), st') →
    ∃ r' est2 st2, thermostat thE W (thStore avail) est (Setup.fromFixed [] outs' (some 5)) = (.ok (r', est2), st2) := by
  intro h
  have h1 : thView thE (thermostat thE (thW { accumulators := 1 }) (thStore thMet) thEst
      (Setup.fromFixed [] [⟨9, 10000000, [⟨7, 11, 1, 2⟩]⟩] (some 5))) =
      (some ⟨177469, some 177469, [1, 2], [(2822531, [])]⟩, [3, 4]) := by decide +kernel
  obtain ⟨r, est', e1, _⟩ := th_ok h1
  have hc : ∀ outs, mainToken ∉ requestTokens [] outs →
      THCase (thW { accumulators := 1 }) thMet (thStore thMet) [] outs := by
    intro outs ho
    refine thCase ?_ (by simp [thMet, thExact]) rfl ho
    intro u hu
    simp only [thMet, thExact, List.cons_append, List.nil_append, List.mem_cons, List.not_mem_nil, or_false] at hu
    rcases hu with rfl | rfl | rfl | rfl <;> exact ⟨by simp, by simp [mainToken]⟩
  refine th_error (E := thE) (l := [3, 4]) ?_ (h (thW { accumulators := 1 }) thMet thEst est' [⟨9, 10000000, [⟨7, 11, 1, 2⟩]⟩]
    thOuts r _ (hc _ (by decide +kernel)) (hc _ (by decide +kernel)) ⟨by decide +kernel, ?_⟩ e1)
  · decide +kernel
  · intro t o' hto
    have e : (Setup.fromFixed [] thOuts (some 5)).outputAssets = [(7, ⟨7, 10, 1, 2⟩)] := by decide +kernel
    rw [e, List.mem_singleton] at hto
    cases hto
    exact ⟨⟨7, 11, 1, 2⟩, by decide +kernel, by decide +kernel⟩

end Verif.Props
