import Verif.Selection.Wallet
import Verif.Props.RandomImprove
import Verif.Props.Thermostat

/-!
# Paying again and again (C84)

An algorithm is used for many payments in a row. Histories are lists of what the caller saw, the newest call first:
`offeredLast` are the UTxOs handed over last, `takenSince` those chosen since.
-/

namespace Verif.Props

open Verif Verif.Core Verif.Selection

/-! ### Algorithms with a store -/

theorem noMain_of {ins : List Utxo} {outs : List Output}
    (h : ∀ x ∈ ins.map (·.assets) ++ outs.map (·.assets), ∀ a ∈ x, a.fingerprint ≠ mainToken) :
    mainToken ∉ requestTokens ins outs := by
  intro hm
  unfold requestTokens at hm
  rw [List.mem_dedup, List.mem_map] at hm
  obtain ⟨a, ha, he⟩ := hm
  rcases List.mem_append.mp ha with ha | ha
  · obtain ⟨u, hu, ha⟩ := List.mem_flatMap.mp ha
    exact h u.assets (List.mem_append_left _ (List.mem_map_of_mem hu)) a ha he
  · obtain ⟨u, hu, ha⟩ := List.mem_flatMap.mp ha
    exact h u.assets (List.mem_append_right _ (List.mem_map_of_mem hu)) a ha he

theorem setAvailable_ok {old st : UStore} {l : List Utxo} (hd : ∀ u ∈ l, DistinctAssets u)
    (h : setAvailable old l = (.ok (), st)) : StoreOK l st := by
  unfold setAvailable at h
  cases hg : setAvailable.go l UStore.new with
  | error e => rw [hg] at h; cases h
  | ok st1 =>
    rw [hg] at h
    cases h
    simpa using setAvailable_go StoreOK.new hd hg

theorem setAvailable_refused {old st : UStore} {l : List Utxo} {e : SelErr} (h : setAvailable old l = (.error e, st)) :
    st = old := by
  unfold setAvailable at h
  cases hg : setAvailable.go l UStore.new with
  | ok st1 => rw [hg] at h; cases h
  | error e' => rw [hg] at h; cases h; rfl

theorem thermostat_failed {σ : Type} {E : Estimator σ} {W : Thermostat.World} {st st' : UStore} {est : σ}
    {ins : List Utxo} {outs : List Output} {ch : Option Nat} {e : SelErr} {avail : List Utxo}
    (hC : THCase W avail st ins outs)
    (h : Thermostat.thermostat E W st est (Setup.fromFixed ins outs ch) = (.error e, st')) :
    ∃ lost, avail.Perm (lost ++ availableInputs st') ∧ StoreOK (availableInputs st') st' ∧
      (e ≠ .unbalanced → lost = []) := by
  by_cases he : e = .unbalanced
  swap
  · have := C51_failure_partial h he
    subst this
    rw [availableInputs_eq hC.store]
    exact ⟨[], .refl _, hC.store, fun _ => rfl⟩
  · unfold Thermostat.thermostat at h
    split at h
    · cases h
      rw [availableInputs_eq hC.store]
      exact ⟨[], .refl _, hC.store, fun _ => rfl⟩
    · rename_i s st1 hs
      split at h
      · cases h
        obtain ⟨h1, h2, _⟩ := selected_available hC hs
        exact ⟨s.selected, h1, h2, fun hn => (hn he).elim⟩
      · cases h

/-- No call of the history failed with "Unbalanced ada". -/
def NeverUnbalanced (h : List Event) : Prop := ∀ e, Event.failed e ∈ h → e ≠ .unbalanced

/-- Every UTxO handed over is chosen, still available, or (after a failure "Unbalanced ada") lost, and only one of these. -/
theorem wallet_books {h : List Event} {st : UStore} (hw : Wallet h st) :
    StoreOK (availableInputs st) st ∧ (∀ u ∈ availableInputs st, SoundUtxo u) ∧ ((offeredLast h).map (·.ptr)).Nodup ∧
    ∃ lost, (offeredLast h).Perm (takenSince h ++ lost ++ availableInputs st) ∧ (NeverUnbalanced h → lost = []) := by
  have hfresh : ∀ {l : List Utxo} {st : UStore} {h : List Event}, StoreOK l st → (∀ u ∈ l, SoundUtxo u) →
      StoreOK (availableInputs st) st ∧ (∀ u ∈ availableInputs st, SoundUtxo u) ∧
      ((offeredLast (.offered l :: h)).map (·.ptr)).Nodup ∧
      ∃ lost, (offeredLast (.offered l :: h)).Perm (takenSince (.offered l :: h) ++ lost ++ availableInputs st) ∧
        (NeverUnbalanced (.offered l :: h) → lost = []) := by
    intro l st h h1 h2
    rw [availableInputs_eq h1]
    exact ⟨h1, h2, h1.contents.nodup, [], .refl _, fun _ => rfl⟩
  have htook : ∀ {h : List Event} {st st' : UStore} {c : List Utxo},
      (StoreOK (availableInputs st) st ∧ (∀ u ∈ availableInputs st, SoundUtxo u) ∧
        ((offeredLast h).map (·.ptr)).Nodup ∧
        ∃ lost, (offeredLast h).Perm (takenSince h ++ lost ++ availableInputs st) ∧ (NeverUnbalanced h → lost = [])) →
      (availableInputs st).Perm (c ++ availableInputs st') → StoreOK (availableInputs st') st' →
      StoreOK (availableInputs st') st' ∧ (∀ u ∈ availableInputs st', SoundUtxo u) ∧
      ((offeredLast (.took c :: h)).map (·.ptr)).Nodup ∧
      ∃ lost, (offeredLast (.took c :: h)).Perm (takenSince (.took c :: h) ++ lost ++ availableInputs st') ∧
        (NeverUnbalanced (.took c :: h) → lost = []) := by
    rintro h st st' c ⟨_, h2, h3, lost, h4, h5⟩ hp hs
    refine ⟨hs, fun u hu => h2 u (hp.mem_iff.mpr (List.mem_append_right _ hu)), h3, lost, ?_, fun hn => h5 fun e he => hn e (List.mem_cons_of_mem _ he)⟩
    refine h4.trans ?_
    simp only [takenSince, List.append_assoc]
    refine List.Perm.append_left _ ?_
    refine (List.Perm.append_left _ hp).trans ?_
    rw [← List.append_assoc, ← List.append_assoc]
    exact List.Perm.append_right _ List.perm_append_comm
  have hfailed : ∀ {h : List Event} {st st' : UStore} {e : SelErr} {c : List Utxo},
      (StoreOK (availableInputs st) st ∧ (∀ u ∈ availableInputs st, SoundUtxo u) ∧
        ((offeredLast h).map (·.ptr)).Nodup ∧
        ∃ lost, (offeredLast h).Perm (takenSince h ++ lost ++ availableInputs st) ∧ (NeverUnbalanced h → lost = [])) →
      (availableInputs st).Perm (c ++ availableInputs st') → StoreOK (availableInputs st') st' →
      (e ≠ .unbalanced → c = []) →
      StoreOK (availableInputs st') st' ∧ (∀ u ∈ availableInputs st', SoundUtxo u) ∧
      ((offeredLast (.failed e :: h)).map (·.ptr)).Nodup ∧
      ∃ lost, (offeredLast (.failed e :: h)).Perm (takenSince (.failed e :: h) ++ lost ++ availableInputs st') ∧
        (NeverUnbalanced (.failed e :: h) → lost = []) := by
    rintro h st st' e c ⟨_, h2, h3, lost, h4, h5⟩ hp hs hc
    refine ⟨hs, fun u hu => h2 u (hp.mem_iff.mpr (List.mem_append_right _ hu)), h3, lost ++ c, ?_, fun hn => ?_⟩
    · refine h4.trans ?_
      simp only [takenSince, List.append_assoc]
      exact List.Perm.append_left _ (List.Perm.append_left _ hp)
    · rw [h5 (fun e he => hn e (List.mem_cons_of_mem _ he)), hc (hn e (by simp))]
      rfl
  induction hw with
  | new =>
    rw [availableInputs_eq StoreOK.new]
    exact ⟨StoreOK.new, by simp, by simp [offeredLast], [], .refl _, fun _ => rfl⟩
  | offer l _ hl h1 _ => exact hfresh (setAvailable_ok (fun u hu => (hl u hu).1) h1) hl
  | refuse l e _ h1 ih =>
    rw [setAvailable_refused h1]
    exact hfailed ih (c := []) (.refl _) ih.1 (fun _ => rfl)
  | store l _ hl h1 _ => exact hfresh h1 hl
  | largest E ord est est' io r _ k1 k2 k3 k4 h1 ih =>
    have hc : LFCase E ord _ _ est io := ⟨k1, ih.1, fun u hu => (ih.2.1 u hu).2, k2, k3, k4⟩
    obtain ⟨_, _, b3, _, b5, _⟩ := C39_books hc h1
    exact htook ih b3 b5
  | largestFails E ord est io e _ h1 ih =>
    rw [C40_failure_keeps h1]
    exact hfailed ih (c := []) (.refl _) ih.1 (fun _ => rfl)
  | thermostat E W est est' ins outs ch r _ k1 k2 k3 k4 k5 h1 ih =>
    obtain ⟨b1, b2, _⟩ := C51_selection ⟨k1, k2, k3, ih.1, k4, noMain_of k5⟩ h1
    exact htook ih b1 b2
  | thermostatFails E W est ins outs ch e _ k1 k2 k3 k4 k5 h1 ih =>
    obtain ⟨lost, b1, b2, b3⟩ := thermostat_failed ⟨k1, k2, k3, ih.1, k4, noMain_of k5⟩ h1
    exact hfailed ih b1 b2 b3

/-- No UTxO is chosen twice: over every history of payments with largest-first and thermostat selections in any order,
failed ones included, the UTxOs chosen since the last time UTxOs were handed over are distinct, they are among those
handed over, and none of them is available any more. -/
theorem C84_never_twice {h : List Event} {st : UStore} (hw : Wallet h st) :
    ((takenSince h).map (·.ptr)).Nodup ∧ (∀ u ∈ takenSince h, u ∈ offeredLast h) ∧
    ∀ u ∈ takenSince h, u.ptr ∉ (availableInputs st).map (·.ptr) := by
  obtain ⟨_, _, h3, lost, h4, _⟩ := wallet_books hw
  rw [(h4.map _).nodup_iff, List.append_assoc, List.map_append, List.nodup_append] at h3
  refine ⟨h3.1, fun u hu => h4.mem_iff.mpr (by simp [hu]), fun u hu hm => ?_⟩
  refine h3.2.2 u.ptr (List.mem_map_of_mem hu) u.ptr ?_ rfl
  rw [List.map_append]
  exact List.mem_append_right _ hm

/-- What is available is exactly what was handed over and not chosen, as long as no call failed with "Unbalanced ada".
Missing for C84: `C84_lost_false`. -/
theorem C84_available_partial {h : List Event} {st : UStore} (hw : Wallet h st) (hn : NeverUnbalanced h) :
    (offeredLast h).Perm (takenSince h ++ availableInputs st) := by
  obtain ⟨_, _, _, lost, h4, h5⟩ := wallet_books hw
  rw [h5 hn, List.append_nil] at h4
  exact h4

/-- A UTxO handed over is never both chosen and lost: what is available at least holds no UTxO that was not handed
over, after any failure. -/
theorem C84_available_within {h : List Event} {st : UStore} (hw : Wallet h st) :
    ((availableInputs st).map (·.ptr)).Nodup ∧ ∀ u ∈ availableInputs st, u ∈ offeredLast h := by
  obtain ⟨h1, _, _, lost, h4, _⟩ := wallet_books hw
  exact ⟨h1.contents.nodup, fun u hu => h4.mem_iff.mpr (by simp [hu])⟩

/-- The inputs of a transaction are distinct when the fixed ones are distinct and not available. -/
theorem inputs_distinct {fixed chosen avail rest : List Utxo} (hp : avail.Perm (chosen ++ rest))
    (hn : (avail.map (·.ptr)).Nodup) (hf : (fixed.map (·.ptr)).Nodup)
    (hd : ∀ u ∈ fixed, u.ptr ∉ avail.map (·.ptr)) : ((fixed ++ chosen).map (·.ptr)).Nodup := by
  rw [(hp.map _).nodup_iff, List.map_append] at hn
  rw [List.map_append, List.nodup_append]
  refine ⟨hf, (List.nodup_append.mp hn).1, ?_⟩
  intro a ha b hb he
  obtain ⟨u, hu, rfl⟩ := List.mem_map.mp ha
  apply hd u hu
  rw [(hp.map _).mem_iff, List.map_append]
  exact List.mem_append_left _ (he ▸ hb)

/-- A transaction made from an answer of largest-first names no input twice, if the fixed inputs are distinct and none
of them is available. Missing for C84: fixed inputs that are available (`C84_fixed_false`). -/
theorem C84_inputs_partial {h : List Event} {st st' : UStore} (hw : Wallet h st) {σ : Type} (E : Estimator σ)
    (ord : List Utxo → List Utxo) (est est' : σ) (io : Setup) (r : Result) (k1 : ∀ l, (ord l).Perm l)
    (k2 : ∀ s u f, E.feeIn s u = .ok f → 0 ≤ f) (k3 : ∀ f, E.minFee est = .ok f → 0 ≤ f) (k4 : 0 ≤ io.outputBalance)
    (hr : largestFirst E ord st est io = (.ok (r, est'), st')) (hf : (io.fixedInputs.map (·.ptr)).Nodup)
    (hd : ∀ u ∈ io.fixedInputs, u.ptr ∉ (availableInputs st).map (·.ptr)) :
    ((r.fixedInputs ++ r.chosen).map (·.ptr)).Nodup := by
  obtain ⟨h1, h2, _⟩ := wallet_books hw
  obtain ⟨_, _, b3, b4, _, _, b7, _⟩ := C39_books ⟨k1, h1, fun u hu => (h2 u hu).2, k2, k3, k4⟩ hr
  rw [b7]
  exact inputs_distinct b3 b4 hf hd

/-- The same for the thermostat. -/
theorem C84_thermostat_inputs_partial {h : List Event} {st st' : UStore} (hw : Wallet h st) {σ : Type} (E : Estimator σ)
    (W : Thermostat.World) (est est' : σ) (ins : List Utxo) (outs : List Output) (ch : Option Nat) (r : Result)
    (k1 : ∀ l, (W.ord l).Perm l) (k2 : ∀ l, (W.keyOrder l).Perm l) (k3 : ∀ l, (W.changeOrder l).Perm l)
    (k4 : W.cfg.main = mainToken)
    (k5 : ∀ x ∈ ins.map (·.assets) ++ outs.map (·.assets), ∀ a ∈ x, a.fingerprint ≠ mainToken)
    (hr : Thermostat.thermostat E W st est (Setup.fromFixed ins outs ch) = (.ok (r, est'), st'))
    (hf : (ins.map (·.ptr)).Nodup) (hd : ∀ u ∈ ins, u.ptr ∉ (availableInputs st).map (·.ptr)) :
    ((r.fixedInputs ++ r.chosen).map (·.ptr)).Nodup := by
  obtain ⟨h1, _⟩ := wallet_books hw
  have hC : THCase W _ st ins outs := ⟨k1, k2, k3, h1, k4, noMain_of k5⟩
  obtain ⟨b1, _⟩ := C51_selection hC hr
  obtain ⟨_, _, _, _, _, _, b7, _⟩ := thermostat_ok hr
  rw [b7]
  exact inputs_distinct b1 h1.contents.nodup hf hd

/-! ### Random-improve -/

open Random in
theorem relevantOf_range {inputs : List Utxo} {amt : Utxo → Option ℚ} : ∀ {av l : List Nat},
    relevantOf inputs amt av = .ok l → ∀ i ∈ av, i < inputs.length
  | [], _, _, i, hi => by cases hi
  | a :: av, l, h, i, hi => by
    simp only [relevantOf, at'] at h
    cases ha : inputs[a]? with
    | none => simp [ha] at h
    | some u =>
      simp only [ha] at h
      cases hr : relevantOf inputs amt av with
      | error e => simp [hr] at h
      | ok l' =>
        rcases List.mem_cons.mp hi with rfl | hi
        · exact (List.getElem?_eq_some_iff.mp ha).1
        · exact relevantOf_range hr i hi

open Random in
theorem selectPass_range {σ : Type} {wraps : Bool} {rnd : Nat → Nat} {E : Estimator σ} {inputs : List Utxo}
    {outs : List Output} {amt : Utxo → Option ℚ} {want : Output → Option ℚ} {avail : List Nat} {k : Nat} {b : Books σ}
    (hout : ¬ ∀ i ∈ avail, i < inputs.length) :
    ∃ e, selectPass wraps rnd E inputs outs amt want avail k b = .error (e, avail) := by
  unfold selectPass
  cases hr : relevantOf inputs amt avail with
  | error e => exact ⟨e, rfl⟩
  | ok l => exact (hout (relevantOf_range hr)).elim

open Random in
/-- A position beyond the list makes every selection fail, and nothing is taken. -/
theorem select_range {σ : Type} {wraps : Bool} {rnd : Nat → Nat} {fmt : Nat → Nat → Token} {ord : List Nat → List Nat}
    {E : Estimator σ} {s : RI} {est : σ} {io : Setup} (hout : ¬ ∀ i ∈ s.indices, i < s.inputs.length) :
    ∃ e, s.select wraps rnd fmt ord E est io = (.error e, s) := by
  unfold RI.select
  cases E.minFee est with
  | error e => exact ⟨e, rfl⟩
  | ok fee =>
    simp only
    cases hw : wanted io.outputAssets with
    | nil =>
      obtain ⟨e, he⟩ := selectPass_range (wraps := wraps) (rnd := rnd) (E := E) (outs := io.fixedOutputs)
        (amt := fun u => some u.value) (want := fun o => some o.value) (k := 0)
        (b := ⟨est, io.inputAssets, io.inputBalance, fee, []⟩) hout
      simp only [assetPasses, he]
      exact ⟨e, rfl⟩
    | cons x xs =>
      obtain ⟨e, he⟩ := selectPass_range (wraps := wraps) (rnd := rnd) (E := E) (outs := io.fixedOutputs)
        (amt := fun u => firstOf (fmt x.1 x.2) u.assets) (want := fun o => firstOf (fmt x.1 x.2) o.assets) (k := 0)
        (b := ⟨est, io.inputAssets, io.inputBalance, fee, []⟩) hout
      simp only [assetPasses, he]
      exact ⟨e, rfl⟩

/-- The positions taken since the last hand-over. -/
theorem random_positions {h : List Event} {s : Random.RI} (hw : RandomWallet h s) :
    offeredLast h = s.inputs ∧ ∃ ix : List Nat, (ix ++ s.indices).Nodup ∧ (∀ i ∈ ix, i < s.inputs.length) ∧
      (takenSince h).Perm (ix.map (utxoAt s.inputs)) := by
  induction hw with
  | new l => exact ⟨rfl, [], by simpa [Random.RI.ofList] using List.nodup_range, by simp, .refl _⟩
  | offer l _ ih =>
    obtain ⟨_, ix, h1, _⟩ := ih
    exact ⟨rfl, [], by simpa [Random.RI.setAvailable] using (List.nodup_append.mp h1).2.1, by simp, .refl _⟩
  | @select h s s' σ wraps rnd fmt ord E est est' io r _ hord hr ih =>
    obtain ⟨h0, ix, h1, h2, h3⟩ := ih
    by_cases hin : ∀ i ∈ s.indices, i < s.inputs.length
    swap
    · obtain ⟨e, he⟩ := select_range (wraps := wraps) (rnd := rnd) (fmt := fmt) (ord := ord) (E := E) (est := est)
        (io := io) hin
      rw [he] at hr
      cases hr
    · have hs : IndicesOk s := ⟨(List.nodup_append.mp h1).2.1, hin⟩
      obtain ⟨fee, b, av, _, g1, g2, _, rfl, _⟩ := random_ok hs hord hr
      have hp : s.indices.Perm (ord b.added.dedup ++ av) := g1.perm.trans ((hord _).symm.append_right _)
      refine ⟨h0, ix ++ ord b.added.dedup, ?_, ?_, ?_⟩
      · rw [List.append_assoc]
        exact (List.Perm.append_left ix hp).nodup_iff.mp h1
      · intro i hi
        rcases List.mem_append.mp hi with hi | hi
        · exact h2 i hi
        · exact hin i (hp.mem_iff.mpr (List.mem_append_left _ hi))
      · simp only [takenSince, List.map_append]
        rw [atAll_map g2]
        exact h3.append_right _
  | @fail h s s' σ wraps rnd fmt ord E est io e _ hord hr ih =>
    obtain ⟨h0, ix, h1, h2, h3⟩ := ih
    have hkeep : ∀ av : List Nat, av.Subperm s.indices → (ix ++ av).Nodup := by
      intro av hav
      obtain ⟨q, hq1, hq2⟩ := hav
      have := (List.Sublist.append_left hq2 ix).nodup h1
      exact (List.Perm.append_left ix hq1).nodup_iff.mp this
    by_cases hin : ∀ i ∈ s.indices, i < s.inputs.length
    swap
    · obtain ⟨e, he⟩ := select_range (wraps := wraps) (rnd := rnd) (fmt := fmt) (ord := ord) (E := E) (est := est)
        (io := io) hin
      rw [he] at hr
      cases hr
      exact ⟨h0, ix, h1, h2, h3⟩
    · have hs : IndicesOk s := ⟨(List.nodup_append.mp h1).2.1, hin⟩
      cases hf : E.minFee est with
      | error e' =>
        simp only [Random.RI.select, hf] at hr
        cases hr
        exact ⟨h0, ix, h1, h2, h3⟩
      | ok fee =>
        rcases random_spec (wraps := wraps) (rnd := rnd) (fmt := fmt) (io := io) hs hord hf with
          ⟨b, av, A, chosen, _, _, _, _, _, g5⟩ | ⟨e', av, g1, g2, _⟩
        · rw [g5] at hr; cases hr
        · rw [g1] at hr
          cases hr
          exact ⟨h0, ix, hkeep av g2, h2, h3⟩

theorem subperm_map {α β : Type} (f : α → β) {l m : List α} (h : l.Subperm m) : (l.map f).Subperm (m.map f) := by
  obtain ⟨q, h1, h2⟩ := h
  exact ⟨q.map f, h1.map f, h2.map f⟩

/-- Random-improve: over every history of calls, with hand-overs and failures, the UTxOs chosen since the last
hand-over are some of those handed over, each entry of the list at most once; so with distinct UTxOs none is chosen
twice. -/
theorem C84_random_never_twice {h : List Event} {s : Random.RI} (hw : RandomWallet h s) :
    (takenSince h).Subperm (offeredLast h) ∧
    (((offeredLast h).map (·.ptr)).Nodup → ((takenSince h).map (·.ptr)).Nodup) := by
  obtain ⟨h0, ix, h1, h2, h3⟩ := random_positions hw
  have hsub : (takenSince h).Subperm (offeredLast h) := by
    rw [h0]
    refine h3.subperm.trans ?_
    have hix : ix.Subperm (List.range s.inputs.length) :=
      List.subperm_of_subset (List.nodup_append.mp h1).1 fun i hi => List.mem_range.mpr (h2 i hi)
    have hall : (List.range s.inputs.length).map (utxoAt s.inputs) = s.inputs := by
      refine List.ext_getElem (by simp) (fun i g1 g2 => ?_)
      simp [utxoAt, g2]
    have := subperm_map (utxoAt s.inputs) hix
    rwa [hall] at this
  refine ⟨hsub, fun hn => ?_⟩
  obtain ⟨q, q1, q2⟩ := subperm_map (·.ptr) hsub
  exact q1.nodup_iff.mp (q2.nodup hn)

/-! ### Cases -/

/-- Two payments in a row from the UTxOs of the example of C39, with a failed one between: `C84_never_twice` and
`C84_available_partial` apply, two UTxOs are taken by the first payment and one by the second. -/
theorem wallet_example : ∃ h st, Wallet h st ∧ NeverUnbalanced h ∧ (takenSince h).map (·.ptr) = [3, 2, 1] ∧
    h.length = 4 ∧ availableInputs st = [] := by
  have hd : ∀ u ∈ lfAvail, SoundUtxo u := by unfold SoundUtxo DistinctAssets lfAvail; decide +kernel
  have hE1 : ∀ (s : Unit) u f, (flatEstimator 1 (1/2) 0).feeIn s u = .ok f → 0 ≤ f := by
    intro s u f h; simp only [flatEstimator] at h; cases h; norm_num
  have hE2 : ∀ f, (flatEstimator 1 (1/2) 0).minFee () = .ok f → 0 ≤ f := by
    intro f h; simp only [flatEstimator] at h; cases h; norm_num
  obtain ⟨st, h1, _, _⟩ := C39_set_available UStore.new lfAvail (fun u hu => (hd u hu).1) (by unfold lfAvail; decide)
  have hst : lfStore = st := by unfold lfStore; rw [h1]
  rw [← hst] at h1
  have w1 := Wallet.offer lfAvail .new hd h1
  -- the first payment
  have v1 : (match largestFirst (flatEstimator 1 (1/2) 0) id lfStore () lfIo with
      | (.ok (r, _), st') => (some (r.chosen.map (·.ptr)),
          match largestFirst (flatEstimator 1 (1/2) 0) id st' () { lfIo with outputBalance := 100 } with
          | (.ok _, _) => false
          | (.error e, _) => decide (e = .noInput),
          match largestFirst (flatEstimator 1 (1/2) 0) id st' () { lfIo with outputBalance := 2, outputAssets := [] } with
          | (.ok (r2, _), st2) => some (r2.chosen.map (·.ptr), (availableInputs st2).length)
          | (.error _, _) => none)
      | (.error _, _) => (none, false, none)) = (some [3, 2], true, some ([1], 0)) := by
    decide +kernel
  generalize hx : largestFirst (flatEstimator 1 (1/2) 0) id lfStore () lfIo = x at v1
  obtain ⟨x, st1⟩ := x
  cases x with
  | error e => simp at v1
  | ok y =>
    obtain ⟨r, u⟩ := y
    simp only [Prod.mk.injEq, Option.some.injEq] at v1
    obtain ⟨v1, v2, v3⟩ := v1
    have w2 := Wallet.largest _ id () u lfIo r w1 (fun l => .refl l) hE1 hE2 (by norm_num [lfIo]) hx
    generalize hy : largestFirst (flatEstimator 1 (1/2) 0) id st1 () { lfIo with outputBalance := 100 } = y at v2
    obtain ⟨y, st2⟩ := y
    cases y with
    | ok y => simp at v2
    | error e =>
      simp only [decide_eq_true_eq] at v2
      have w3 := Wallet.largestFails _ id () _ e w2 hy
      rw [C40_failure_keeps hy] at w3
      generalize hz : largestFirst (flatEstimator 1 (1/2) 0) id st1 ()
        { lfIo with outputBalance := 2, outputAssets := [] } = z at v3
      obtain ⟨z, st3⟩ := z
      cases z with
      | error e => simp at v3
      | ok z =>
        obtain ⟨r2, u2⟩ := z
        simp only [Option.some.injEq, Prod.mk.injEq] at v3
        have w4 := Wallet.largest _ id () u2 _ r2 w3 (fun l => .refl l) hE1 hE2 (by norm_num) hz
        refine ⟨_, _, w4, ?_, ?_, rfl, List.length_eq_zero_iff.mp v3.2⟩
        · intro e' he'
          simp only [List.mem_cons, List.not_mem_nil, or_false, reduceCtorEq, false_or, Event.failed.injEq] at he'
          rw [he', v2]
          decide
        · simp only [takenSince, List.nil_append, List.map_append, v1, v3.1]
          rfl

/-- After a thermostat selection that failed with "Unbalanced ada" UTxOs that were never chosen are not available. -/
theorem C84_lost_false : ¬ ∀ (h : List Event) (st : UStore), Wallet h st →
    (offeredLast h).Perm (takenSince h ++ availableInputs st) := by
  intro hall
  have h1 : thView thE (Thermostat.thermostat thE (thW { accumulators := 1 }) (thStore (thExact 12000000 1000000)) thEst
      (Setup.fromFixed [] thOuts (some 5))) = (none, [3]) := by
    decide +kernel
  generalize hx : Thermostat.thermostat thE (thW { accumulators := 1 }) (thStore (thExact 12000000 1000000)) thEst
      (Setup.fromFixed [] thOuts (some 5)) = x at h1
  obtain ⟨x, st'⟩ := x
  cases x with
  | ok y => simp [thView, Except.toOption] at h1
  | error e =>
    have hC := thExact_case (cfg := { accumulators := 1 }) rfl 12000000 1000000
    have hw := Wallet.thermostatFails thE _ thEst [] thOuts (some 5) e
      (Wallet.store (thExact 12000000 1000000) .new (fun u hu => ⟨hC.store.distinct u hu, ?_⟩) hC.store)
      hC.ord hC.keyOrder hC.changeOrder hC.main ?_ hx
    · have h2 := ((hall _ _ hw).map (·.ptr)).length_eq
      simp only [thView, Prod.mk.injEq] at h1
      simp only [offeredLast, takenSince, List.nil_append] at h2
      rw [h1.2] at h2
      revert h2
      decide +kernel
    · revert u
      decide +kernel
    · decide +kernel

/-- The hypotheses of `C84_inputs_partial` hold for a payment with a fixed input that is not available. -/
example : ∃ h st st' r, Wallet h st ∧ largestFirst (flatEstimator 1 (1/2) 0) id st ()
      (Setup.fromFixed [⟨8, 3, [], 0⟩] [⟨9, 15, []⟩] none) = (.ok (r, ()), st') ∧
    (r.fixedInputs ++ r.chosen).map (·.ptr) = [8, 2, 1] ∧ ((r.fixedInputs ++ r.chosen).map (·.ptr)).Nodup := by
  have hd : ∀ u ∈ lfAvail, SoundUtxo u := by unfold SoundUtxo DistinctAssets lfAvail; decide +kernel
  obtain ⟨st, h1, _, h3⟩ := C39_set_available UStore.new lfAvail (fun u hu => (hd u hu).1) (by unfold lfAvail; decide)
  have hst : lfStore = st := by unfold lfStore; rw [h1]
  rw [← hst] at h1 h3
  have v : (match largestFirst (flatEstimator 1 (1/2) 0) id lfStore ()
        (Setup.fromFixed [⟨8, 3, [], 0⟩] [⟨9, 15, []⟩] none) with
      | (.ok (r, _), _) => (r.fixedInputs ++ r.chosen).map (·.ptr)
      | (.error _, _) => []) = [8, 2, 1] := by decide +kernel
  generalize hx : largestFirst (flatEstimator 1 (1/2) 0) id lfStore ()
        (Setup.fromFixed [⟨8, 3, [], 0⟩] [⟨9, 15, []⟩] none) = x at v
  obtain ⟨x, st1⟩ := x
  cases x with
  | error e => simp at v
  | ok y =>
    obtain ⟨r, u⟩ := y
    have hw := Wallet.offer lfAvail .new hd h1
    refine ⟨_, _, _, r, hw, hx, v, ?_⟩
    refine C84_inputs_partial hw _ id () u _ r (fun l => .refl l) ?_ ?_ (by decide +kernel) hx (by decide +kernel) ?_
    · intro s u f h; simp only [flatEstimator] at h; cases h; norm_num
    · intro f h; simp only [flatEstimator] at h; cases h; norm_num
    · rw [h3]; decide +kernel

/-- A fixed input that is also available can be chosen again: the transaction names it twice. -/
theorem C84_fixed_false : ¬ ∀ (h : List Event) (st st' : UStore) (ord : List Utxo → List Utxo) (io : Setup) (r : Result),
    Wallet h st → (∀ l, (ord l).Perm l) → 0 ≤ io.outputBalance → (io.fixedInputs.map (·.ptr)).Nodup →
    largestFirst (flatEstimator 1 (1/2) 0) ord st () io = (.ok (r, ()), st') →
    ((r.fixedInputs ++ r.chosen).map (·.ptr)).Nodup := by
  intro hall
  have hd : ∀ u ∈ lfAvail, SoundUtxo u := by unfold SoundUtxo DistinctAssets lfAvail; decide +kernel
  obtain ⟨st, h1, _, _⟩ := C39_set_available UStore.new lfAvail (fun u hu => (hd u hu).1) (by unfold lfAvail; decide)
  have hst : lfStore = st := by unfold lfStore; rw [h1]
  rw [← hst] at h1
  have v : (match largestFirst (flatEstimator 1 (1/2) 0) id lfStore ()
        (Setup.fromFixed [⟨2, 9, [], 0⟩] [⟨9, 15, []⟩] none) with
      | (.ok (r, _), _) => (r.fixedInputs ++ r.chosen).map (·.ptr)
      | (.error _, _) => []) = [2, 2] := by decide +kernel
  generalize hx : largestFirst (flatEstimator 1 (1/2) 0) id lfStore ()
        (Setup.fromFixed [⟨2, 9, [], 0⟩] [⟨9, 15, []⟩] none) = x at v
  obtain ⟨x, st1⟩ := x
  cases x with
  | error e => simp at v
  | ok y =>
    obtain ⟨r, u⟩ := y
    have := hall _ _ _ id _ r (Wallet.offer lfAvail .new hd h1) (fun l => .refl l) (by decide +kernel) (by decide +kernel) hx
    simp only at v
    rw [v] at this
    simp at this

/-- Random-improve: while nothing fails and no other list is handed over, what is available is exactly what was handed
over and not chosen. Missing for C84: `C84_random_lost_false`, and C44. -/
theorem C84_random_available_partial {h : List Event} {s : Random.RI} (hw : RandomWallet h s)
    (hf : ∀ e, Event.failed e ∉ h) (ho : ∀ l, Event.offered l ∉ h.dropLast) :
    ∃ left, s.available = .ok left ∧ (offeredLast h).Perm (takenSince h ++ left) := by
  have hne : ∀ {h : List Event} {s : Random.RI}, RandomWallet h s → h ≠ [] := by
    intro h s hw
    cases hw <;> simp
  have key : IndicesOk s ∧ ∃ left, s.available = .ok left ∧ (offeredLast h).Perm (takenSince h ++ left) := by
    induction hw with
    | new l => exact ⟨IndicesOk.ofList l, l, (C44_same_length_partial rfl).2, .refl _⟩
    | offer l hw _ =>
      obtain ⟨x, xs, rfl⟩ := List.exists_cons_of_ne_nil (hne hw)
      exact (ho l (by simp)).elim
    | @select h s s' σ wraps rnd fmt ord E est est' io r hw hord hr ih =>
      obtain ⟨x, xs, rfl⟩ := List.exists_cons_of_ne_nil (hne hw)
      obtain ⟨hs, left, h1, h2⟩ := ih (fun e he => hf e (by simp [he])) (fun l hl => ho l (by simp [hl]))
      obtain ⟨before, after, g1, g2, g3, g4, _⟩ := C42_available hs hord hr
      rw [g1] at h1
      cases h1
      refine ⟨?_, after, g2, ?_⟩
      · obtain ⟨_, b, av, _, k1, _, _, rfl, _⟩ := random_ok hs hord hr
        exact ⟨(List.nodup_append.mp (k1.perm.nodup_iff.mp hs.1)).2.1,
          fun i hi => hs.2 i (k1.perm.mem_iff.mpr (List.mem_append_right _ hi))⟩
      · refine h2.trans ?_
        rw [show takenSince (Event.took r.chosen :: x :: xs) = takenSince (x :: xs) ++ r.chosen from rfl, List.append_assoc]
        exact List.Perm.append_left _ g3
    | fail wraps rnd fmt ord E est io e hw hord hr ih => exact (hf e (by simp)).elim
  exact key.2

/-- A failed selection of random-improve can lose UTxOs: they are neither chosen nor available afterwards. -/
theorem C84_random_lost_false : ¬ ∀ (h : List Event) (s : Random.RI), RandomWallet h s →
    (∀ l, Event.offered l ∉ h.dropLast) →
    ∃ left, s.available = .ok left ∧ (offeredLast h).Perm (takenSince h ++ left) := by
  intro hall
  have v : (match (Random.RI.ofList [⟨1, 7, [], 0⟩]).select false (fun _ => 0) riFmt id (flatEstimator 0 0 0) ()
        (Setup.fromFixed [] [⟨9, 8, []⟩] none) with
      | (.error e, s) => (decide (e = .noInput), s.indices)
      | (.ok _, _) => (false, [])) = (true, []) := by decide +kernel
  generalize hx : (Random.RI.ofList [⟨1, 7, [], 0⟩]).select false (fun _ => 0) riFmt id (flatEstimator 0 0 0) ()
        (Setup.fromFixed [] [⟨9, 8, []⟩] none) = x at v
  obtain ⟨x, s⟩ := x
  cases x with
  | ok y => simp at v
  | error e =>
    simp only [Prod.mk.injEq] at v
    obtain ⟨left, h1, h2⟩ := hall _ _ (.fail false _ _ id _ () _ e (.new _) (fun l => .refl l) hx) (by
      intro l hl
      simp [List.dropLast] at hl)
    unfold Random.RI.available at h1
    rw [v.2] at h1
    cases h1
    have := h2.length_eq
    simp [offeredLast, takenSince] at this

/-- Two payments in a row with random-improve: the hypotheses of `C84_random_available_partial` are met. -/
example : ∃ h s, RandomWallet h s ∧ (∀ e, Event.failed e ∉ h) ∧ (∀ l, Event.offered l ∉ h.dropLast) ∧
    (takenSince h).length = 2 := by
  have v : (match (Random.RI.ofList [⟨1, 7, [], 0⟩, ⟨2, 7, [], 0⟩]).select false (fun _ => 0) riFmt id
        (flatEstimator 0 0 0) () (Setup.fromFixed [] [⟨9, 5, []⟩] none) with
      | (.error _, _) => (0, 0)
      | (.ok (r, _), s) => (r.chosen.length,
          match s.select false (fun _ => 0) riFmt id (flatEstimator 0 0 0) () (Setup.fromFixed [] [⟨9, 5, []⟩] none) with
          | (.error _, _) => 0
          | (.ok (r, _), _) => r.chosen.length)) = (1, 1) := by decide +kernel
  generalize hx : (Random.RI.ofList [⟨1, 7, [], 0⟩, ⟨2, 7, [], 0⟩]).select false (fun _ => 0) riFmt id
        (flatEstimator 0 0 0) () (Setup.fromFixed [] [⟨9, 5, []⟩] none) = x at v
  obtain ⟨x, s⟩ := x
  cases x with
  | error e => simp at v
  | ok y =>
    obtain ⟨r, u⟩ := y
    simp only [Prod.mk.injEq] at v
    obtain ⟨v1, v2⟩ := v
    have w1 := RandomWallet.select false (fun _ => 0) riFmt id _ () u _ r (.new _) (fun l => .refl l) hx
    generalize hy : s.select false (fun _ => 0) riFmt id (flatEstimator 0 0 0) ()
      (Setup.fromFixed [] [⟨9, 5, []⟩] none) = y at v2
    obtain ⟨y, s2⟩ := y
    cases y with
    | error e => simp at v2
    | ok y =>
      obtain ⟨r2, u2⟩ := y
      have w2 := RandomWallet.select false (fun _ => 0) riFmt id _ () u2 _ r2 w1 (fun l => .refl l) hy
      refine ⟨_, _, w2, by simp, by simp [List.dropLast], ?_⟩
      simp only at v2
      simp [takenSince, v1, v2]

end Verif.Props
