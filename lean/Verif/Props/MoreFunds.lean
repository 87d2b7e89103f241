import Verif.Props.LargestFewest
import Verif.Props.ThermostatComplete

/-!
# More UTxOs do not make a payment fail (C113)

A payment that is made from some UTxOs is made as well, at no higher price, when there are more.
-/

namespace Verif.Props

open Verif Verif.Core Verif.Selection Verif.Selection.Thermostat

section

variable {σ : Type} {E : Estimator σ} {ord : List Utxo → List Utxo} {avail avail' more : List Utxo}
  {st st1 st' : UStore} {est est1 : σ} {io : Setup} {r : Result} {c min : ℚ}

/-- A request without assets is answered if any choice of UTxOs pays for it. -/
theorem C113_any_choice (h : LFCase E ord avail st est io) (ha : E.Answers) (hm : E.minFee est = .ok min)
    (hc : ∀ s u, E.feeIn s u = .ok c) (hno : io.outputAssets = []) {alt : List Utxo} (hp : PaysWith c min avail io alt) :
    ∃ r est' st', largestFirst E ord st est io = (.ok (r, est'), st') ∧ r.chosen.length ≤ alt.length ∧
      r.fee = min + c * r.chosen.length := by
  rcases largestFirst_spec h hm with ⟨s, L, i, m, cov, e1⟩ | ⟨e, e1, he⟩
  · refine ⟨_, _, _, e1, C101_fewest h hm hc hno e1 hp, ?_⟩
    exact runFee_const hc i.fee
  exfalso
  obtain ⟨h1, -⟩ := he ha
  rcases h1 with ⟨t, o, h3, _⟩ | ⟨order, f, s, h3, h4, h5, h6⟩
  · have : (t, o) ∈ io.outputAssets := h3
    rw [hno] at this
    cases this
  have hperm : order.Perm avail := h3
  have hnd : order.Nodup := hperm.nodup_iff.2 (nodup_of_ptr h.store.contents.nodup)
  have halt := nodup_of_ptr hp.distinct
  have hlen : alt.length ≤ order.length := by
    have : alt.Subperm avail := halt.subperm hp.available
    rw [hperm.length_eq]
    exact this.length_le
  have hpre : (order.take alt.length).Nodup := hnd.sublist (List.take_sublist _ _)
  have hlt : (order.take alt.length).length = alt.length := by
    rw [List.length_take]
    omega
  -- at every moment the main amount is short
  have hneed : ∀ j, (hj : j < order.length) → ∃ t, Start.Needs E (startOf avail est io min) (order.take j) t ∧
      (∀ w ∈ avail, w ∉ order.take j → (amountOf t w).getD 0 ≤ (amountOf t order[j]).getD 0 ∨ amountOf t w = none) := by
    intro j hj
    obtain ⟨t, k1, _, k3⟩ := h6 (order.take j) order[j] (order.drop (j + 1)) (by
      rw [← List.drop_eq_getElem_cons hj, List.take_append_drop])
    exact ⟨t, k1, k3⟩
  have hshort : io.inputBalance + ((order.take alt.length).map (·.value)).sum <
      io.outputBalance + (min + c * alt.length) := by
    by_cases hj : alt.length < order.length
    · obtain ⟨t, k1, _⟩ := hneed _ hj
      rcases k1 with ⟨o, ho, _⟩ | ⟨_, _, f', s', k2, k3⟩
      · have : (t, o) ∈ io.outputAssets := ho
        rw [hno] at this
        cases this
      · have := runFee_const hc k2
        rw [hlt] at this
        have e : (startOf avail est io min).fee = min := rfl
        rw [e] at this
        rw [← this]
        exact k3
    · have he : order.take alt.length = order := List.take_of_length_le (by omega)
      rw [he]
      have h7 := runFee_const hc h4
      have e : (startOf avail est io min).fee = min := rfl
      rw [e] at h7
      have h8 : order.length = alt.length := by omega
      rw [h8] at h7
      rw [← h7, perm_sum _ hperm]
      exact h5
  have hcard : alt.toFinset.card = (order.take alt.length).toFinset.card := by
    rw [List.toFinset_card_of_nodup halt, List.toFinset_card_of_nodup hpre, hlt]
  have := exchange (f := fun u => u.value) (pre := (order.take alt.length).toFinset)
    (P := (order.take alt.length).toFinset) (alt := alt.toFinset) (Finset.Subset.refl _) hcard.le
    (by
      intro p hp' w hw hwn
      rw [List.mem_toFinset] at hp' hw hwn
      obtain ⟨j, hj, rfl⟩ := List.mem_take_iff_getElem.1 hp'
      have hj' : j < order.length := by omega
      obtain ⟨t, k1, k2⟩ := hneed j hj'
      rcases k1 with ⟨o, ho, _⟩ | ⟨rfl, _⟩
      · have : (t, o) ∈ io.outputAssets := ho
        rw [hno] at this
        cases this
      · have hsub : w ∉ order.take j := fun hx =>
          hwn (List.Sublist.subset (List.take_sublist_take_left (by omega)) hx)
        have := k2 w (hp.available w hw) hsub
        simpa [amountOf] using this)
    (.inr hcard)
  rw [sum_toFinset halt, sum_toFinset hpre] at this
  have := hp.main
  linarith

/-- C113: a request without assets, a fixed price for an input: with more UTxOs the payment is made too, with no more inputs and
no higher fee. -/
theorem C113_more (h : LFCase E ord avail st est io) (h' : LFCase E ord avail' st' est io) (ha : E.Answers)
    (hc : ∀ s u, E.feeIn s u = .ok c) (hno : io.outputAssets = []) (hmore : avail'.Perm (avail ++ more))
    (hr : largestFirst E ord st est io = (.ok (r, est1), st1)) :
    ∃ r' est2 st2, largestFirst E ord st' est io = (.ok (r', est2), st2) ∧ r'.chosen.length ≤ r.chosen.length ∧
      r'.fee ≤ r.fee := by
  obtain ⟨b1, b2, b3, b4, _, ⟨min, hm, b5⟩, _⟩ := C39_books h hr
  obtain ⟨c1, c2, _⟩ := C38_covers h hr
  have hfee := runFee_const hc b5
  have hp : PaysWith c min avail' io r.chosen := by
    refine ⟨fun u hu => hmore.mem_iff.2 (List.mem_append.2 (.inl (b3.mem_iff.2 (List.mem_append.2 (.inl hu))))), ?_, ?_, ?_⟩
    · have := (b3.map (·.ptr)).nodup_iff.1 b4
      rw [List.map_append] at this
      exact (List.nodup_append.1 this).1
    · intro t o hto
      rw [hno] at hto
      cases hto
    · rw [← hfee, ← b1]
      exact c2
  obtain ⟨r', est2, st2, k1, k2, k3⟩ := C113_any_choice h' ha hm hc hno hp
  refine ⟨r', est2, st2, k1, k2, ?_⟩
  rw [k3, hfee]
  have hc0 : 0 ≤ c := h.fees est ⟨0, 0, [], 0⟩ c (hc _ _)
  have : (r'.chosen.length : ℚ) ≤ r.chosen.length := by exact_mod_cast k2
  have := mul_le_mul_of_nonneg_left this hc0
  linarith

/-- C113, with assets, if every UTxO is worth what it costs: with more UTxOs the payment is made too, with at most as many
inputs for each asset asked for, and once more. -/
theorem C113_more_assets (h : LFCase E ord avail st est io) (h' : LFCase E ord avail' st' est io) (ha : E.Answers)
    (hc : ∀ s u, E.feeIn s u = .ok c) (hworth : ∀ u ∈ avail', c ≤ u.value) (hmore : avail'.Perm (avail ++ more))
    (hr : largestFirst E ord st est io = (.ok (r, est1), st1)) :
    ∃ r' est2 st2, largestFirst E ord st' est io = (.ok (r', est2), st2) ∧
      r'.chosen.length ≤ (io.outputAssets.length + 1) * r.chosen.length := by
  obtain ⟨b1, b2, b3, b4, _, ⟨min, hm, b5⟩, _⟩ := C39_books h hr
  obtain ⟨c1, c2, _⟩ := C38_covers h hr
  have hfee := runFee_const hc b5
  have hall : avail'.Perm (r.chosen ++ (availableInputs st1 ++ more)) := by
    rw [← List.append_assoc]
    exact hmore.trans (b3.append_right _)
  have hp : PaysWith c min avail' io r.chosen := by
    refine ⟨fun u hu => hall.mem_iff.2 (List.mem_append.2 (.inl hu)), ?_, ?_, ?_⟩
    · have := (b3.map (·.ptr)).nodup_iff.1 b4
      rw [List.map_append] at this
      exact (List.nodup_append.1 this).1
    · intro t o hto
      rw [← b2]
      exact c1 t o hto
    · rw [← hfee, ← b1]
      exact c2
  cases hr' : largestFirst E ord st' est io with
  | mk x st2 =>
  cases x with
  | ok y => exact ⟨y.1, y.2, st2, rfl, C101_bound h' hm hc hworth hr' hp⟩
  | error e =>
    exfalso
    obtain ⟨hcause, _⟩ := C40_complete h' ha hm hr'
    rcases hcause with ⟨t, o, hto, hlt⟩ | ⟨order, f, s, o1, o2, o3⟩
    · have k1 := hp.assets t o hto
      rw [perm_sum _ hall, List.map_append, List.sum_append] at hlt
      have : 0 ≤ ((availableInputs st1 ++ more).map (fun u => assetSum t u.assets)).sum := by
        refine List.sum_nonneg (fun x hx => ?_)
        obtain ⟨u, hu, rfl⟩ := List.mem_map.1 hx
        exact assetSum_nonneg (h'.quantities u (hall.mem_iff.2 (List.mem_append.2 (.inr hu)))) t
      linarith
    · have k1 := hp.main
      have k2 := runFee_const hc o2
      rw [o1.length_eq, hall.length_eq, List.length_append] at k2
      rw [perm_sum _ hall, List.map_append, List.sum_append] at o3
      have k3 : ∀ l : List Utxo, (∀ u ∈ l, c ≤ u.value) → c * (l.length : ℚ) ≤ (l.map (·.value)).sum := by
        intro l hl
        induction l with
        | nil => simp
        | cons u l ih =>
          have q1 := hl u (by simp)
          have q2 := ih (fun w hw => hl w (by simp [hw]))
          rw [List.map_cons, List.sum_cons, List.length_cons]
          push_cast
          linarith
      have k4 := k3 (availableInputs st1 ++ more) (fun u hu => hworth u (hall.mem_iff.2 (List.mem_append.2 (.inr hu))))
      push_cast at k2
      linarith

end

/-! ### Concrete cases -/

/-- A UTxO with an asset, one without, and one of less than its cost. -/
def moreAvail : List Utxo := [⟨1, 5, [⟨7, 2, 0, 0⟩], 0⟩, ⟨2, 9, [], 0⟩]

def moreStore (l : List Utxo) : UStore := (setAvailable UStore.new l).2

theorem moreCase {l : List Utxo} {io : Setup} (hd : ∀ u ∈ l, DistinctAssets u) (hn : (l.map (·.ptr)).Nodup)
    (hq : ∀ u ∈ l, ∀ a ∈ u.assets, 0 ≤ a.quantity) (ho : 0 ≤ io.outputBalance) :
    LFCase (flatEstimator 1 1 0) id l (moreStore l) () io := by
  obtain ⟨st, h1, h2, _⟩ := C39_set_available UStore.new l hd hn
  refine ⟨fun _ => .refl _, ?_, hq, ?_, ?_, ho⟩
  · unfold moreStore
    rw [h1]
    exact h2
  · intro s u f hf
    cases hf
    decide
  · intro f hf
    cases hf
    decide

/-- What a selection chooses. -/
def moreView (l : List Utxo) (io : Setup) : Option (List Nat) :=
  match (largestFirst (flatEstimator 1 1 0) id (moreStore l) () io).1 with
  | .ok (r, _) => some (r.chosen.map (·.ptr))
  | .error _ => none

theorem more_ok {l : List Utxo} {io : Setup} {n : List Nat} (h : moreView l io = some n) :
    ∃ r st', largestFirst (flatEstimator 1 1 0) id (moreStore l) () io = (.ok (r, ()), st') ∧ r.chosen.map (·.ptr) = n := by
  unfold moreView at h
  generalize largestFirst (flatEstimator 1 1 0) id (moreStore l) () io = x at h
  obtain ⟨x, st'⟩ := x
  cases x with
  | error e => cases h
  | ok p => exact ⟨p.1, st', rfl, by simpa using h⟩

theorem more_none {l : List Utxo} {io : Setup} (h : moreView l io = none) :
    ¬ ∃ r st', largestFirst (flatEstimator 1 1 0) id (moreStore l) () io = (.ok (r, ()), st') := by
  rintro ⟨r, st', e⟩
  unfold moreView at h
  rw [e] at h
  cases h

/-- 11 are paid with both UTxOs; with a larger one and one that is worth nothing, with one. -/
example : moreView moreAvail { inputBalance := 0, outputBalance := 11 } = some [2, 1] ∧
    moreView (moreAvail ++ [⟨3, 20, [], 0⟩, ⟨4, 0, [], 0⟩]) { inputBalance := 0, outputBalance := 11 } = some [3] := by
  decide +kernel

example : ∃ r' st2, largestFirst (flatEstimator 1 1 0) id (moreStore (moreAvail ++ [⟨3, 20, [], 0⟩, ⟨4, 0, [], 0⟩])) ()
    { inputBalance := 0, outputBalance := 11 } = (.ok (r', ()), st2) ∧ r'.chosen.length ≤ 2 := by
  obtain ⟨r, st1, h1, h2⟩ := more_ok (l := moreAvail) (io := { inputBalance := 0, outputBalance := 11 }) (n := [2, 1])
    (by decide +kernel)
  obtain ⟨r', _, st2, h3, h4, _⟩ := C113_more (c := 1) (more := [⟨3, 20, [], 0⟩, ⟨4, 0, [], 0⟩])
    (moreCase (by unfold DistinctAssets; decide) (by decide) (by decide) (by decide))
    (moreCase (l := moreAvail ++ [⟨3, 20, [], 0⟩, ⟨4, 0, [], 0⟩]) (by unfold DistinctAssets; decide) (by decide) (by decide)
      (by decide))
    (fun _ _ => ⟨⟨_, rfl⟩, ⟨_, rfl⟩⟩) (fun _ _ => rfl) rfl (.refl _) h1
  refine ⟨r', st2, h3, ?_⟩
  have : r.chosen.length = 2 := by rw [← List.length_map (f := fun u : Utxo => u.ptr), h2]; rfl
  omega

/-- 11 and one of the asset. -/
def moreIo : Setup := { inputBalance := 0, outputBalance := 11, outputAssets := [(7, ⟨7, 1, 0, 0⟩)] }

example : ∃ r' st2, largestFirst (flatEstimator 1 1 0) id (moreStore (moreAvail ++ [⟨3, 1, [⟨7, 3, 0, 0⟩], 0⟩])) () moreIo =
    (.ok (r', ()), st2) ∧ r'.chosen.length ≤ 4 := by
  obtain ⟨r, st1, h1, h2⟩ := more_ok (l := moreAvail) (io := moreIo) (n := [1, 2]) (by decide +kernel)
  obtain ⟨r', _, st2, h3, h4⟩ := C113_more_assets (c := 1) (more := [⟨3, 1, [⟨7, 3, 0, 0⟩], 0⟩])
    (moreCase (by unfold DistinctAssets; decide) (by decide) (by decide) (by decide))
    (moreCase (l := moreAvail ++ [⟨3, 1, [⟨7, 3, 0, 0⟩], 0⟩]) (by unfold DistinctAssets; decide) (by decide) (by decide)
      (by decide))
    (fun _ _ => ⟨⟨_, rfl⟩, ⟨_, rfl⟩⟩) (fun _ _ => rfl) (by decide) (.refl _) h1
  refine ⟨r', st2, h3, ?_⟩
  have : r.chosen.length = 2 := by rw [← List.length_map (f := fun u : Utxo => u.ptr), h2]; rfl
  rw [this] at h4
  exact h4

/-- C113 is false for a UTxO that holds an asset and is not worth its own cost: it is taken for the asset, and then the rest does
not pay. -/
theorem C113_dust_false : ¬ ∀ (avail more : List Utxo) (io : Setup) (r : Result) (st1 : UStore),
    LFCase (flatEstimator 1 1 0) id avail (moreStore avail) () io →
    LFCase (flatEstimator 1 1 0) id (avail ++ more) (moreStore (avail ++ more)) () io →
    largestFirst (flatEstimator 1 1 0) id (moreStore avail) () io = (.ok (r, ()), st1) →
    ∃ r' st2, largestFirst (flatEstimator 1 1 0) id (moreStore (avail ++ more)) () io = (.ok (r', ()), st2) := by
  intro h
  obtain ⟨r, st1, h1, _⟩ := more_ok (l := moreAvail) (io := moreIo) (n := [1, 2]) (by decide +kernel)
  exact more_none (by decide +kernel) (h moreAvail [⟨3, 0, [⟨7, 3, 0, 0⟩], 0⟩] moreIo r st1
    (moreCase (by unfold DistinctAssets; decide) (by decide) (by decide) (by decide))
    (moreCase (by unfold DistinctAssets; decide) (by decide) (by decide) (by decide)) h1)

/-- C113 is false for the thermostat: it pays with one UTxO, but not when there are two more of the asset and one of 500 ada. -/
theorem C113_thermostat_false : ¬ ∀ (W : World) (avail more : List Utxo) (est est' : LE) (outs : List Output) (r : Result)
    (st' : UStore), THCase W (avail ++ more) (thStore (avail ++ more)) [] outs →
    thermostat thE W (thStore avail) est (Setup.fromFixed [] outs (some 5)) = (.ok (r, est'), st') →
    ∃ r' est2 st2, thermostat thE W (thStore (avail ++ more)) est (Setup.fromFixed [] outs (some 5)) = (.ok (r', est2), st2) := by
  intro h
  have h1 : thView thE (thermostat thE (thW { accumulators := 1 }) (thStore (thMet.take 1)) thEst
      (Setup.fromFixed [] thOuts (some 5))) = (some ⟨175797, some 175797, [1], [(1824203, [])]⟩, []) := by decide +kernel
  obtain ⟨r, est', e1, _⟩ := th_ok h1
  refine th_error (E := thE) (l := [3, 4]) ?_ (h (thW { accumulators := 1 }) (thMet.take 1) (thMet.drop 1) thEst est' thOuts r _
    ?_ e1)
  · decide +kernel
  · refine thCase ?_ (by simp [thMet, thExact]) rfl (by decide +kernel)
    intro u hu
    simp only [thMet, thExact, List.cons_append, List.nil_append, List.take_append_drop, List.mem_cons, List.not_mem_nil,
      or_false] at hu
    rcases hu with rfl | rfl | rfl | rfl <;> exact ⟨by simp, by simp [mainToken]⟩

end Verif.Props
