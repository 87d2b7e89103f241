import Verif.Props.LargestFirst
import Mathlib.Algebra.Order.BigOperators.Group.Finset
import Mathlib.Algebra.BigOperators.Ring.Finset
import Mathlib.Data.Finset.Max
import Mathlib.Tactic.Push

/-!
# The number of inputs largest-first selection takes (C101)

`PaysWith` says that a choice of available UTxOs pays for a request when each input costs `c`.
-/

namespace Verif.Props

open Verif Verif.Core Verif.Selection

/-- Distinct available UTxOs that cover every asset asked for, the output, the fee `min` and `c` for each of them. -/
structure PaysWith (c min : ℚ) (avail : List Utxo) (io : Setup) (alt : List Utxo) : Prop where
  available : ∀ u ∈ alt, u ∈ avail
  distinct : (alt.map (·.ptr)).Nodup
  assets : ∀ t o, (t, o) ∈ io.outputAssets →
    o.quantity ≤ qty io.inputAssets t + (alt.map (fun u => assetSum t u.assets)).sum
  main : io.outputBalance + (min + c * alt.length) ≤ io.inputBalance + (alt.map (·.value)).sum

/-! ### Exchanging inputs -/

theorem exchange_aux {f : Utxo → ℚ} {pre P alt : Finset Utxo} (hP : P ⊆ pre) (hc : alt.card ≤ P.card)
    (hmax : ∀ p ∈ P, ∀ w ∈ alt, w ∉ pre → f w ≤ f p) :
    ∃ Q ⊆ pre \ alt, Q.card = (alt \ pre).card ∧ (alt \ pre).sum f ≤ Q.sum f := by
  have h1 : (alt \ pre).card ≤ (P \ alt).card := by
    have e1 := Finset.card_sdiff_add_card_inter alt pre
    have e2 := Finset.card_sdiff_add_card_inter P alt
    have e3 : (P ∩ alt).card ≤ (alt ∩ pre).card :=
      Finset.card_le_card fun x hx => by
        simp only [Finset.mem_inter] at hx ⊢
        exact ⟨hx.2, hP hx.1⟩
    omega
  obtain ⟨Q, hQ, hQc⟩ := Finset.exists_subset_card_eq h1
  refine ⟨Q, fun x hx => ?_, hQc, ?_⟩
  · have := hQ hx
    simp only [Finset.mem_sdiff] at this ⊢
    exact ⟨hP this.1, this.2⟩
  · rcases (alt \ pre).eq_empty_or_nonempty with he | hne
    · rw [he] at hQc ⊢
      rw [Finset.card_empty, Finset.card_eq_zero] at hQc
      rw [hQc]
    · obtain ⟨w, hw, hwm⟩ := Finset.exists_max_image (alt \ pre) f hne
      have h2 := Finset.sum_le_card_nsmul (alt \ pre) f (f w) (fun x hx => hwm x hx)
      have h3 := Finset.card_nsmul_le_sum Q f (f w) (fun x hx => by
        have := hQ hx
        simp only [Finset.mem_sdiff] at this hw
        exact hmax x this.1 w hw.1 hw.2)
      rw [hQc] at h3
      exact h2.trans h3

/-- A choice is worth no more than the inputs taken before if among these are as many that are worth at least what
is left of the choice. -/
theorem exchange {f : Utxo → ℚ} {pre P alt : Finset Utxo} (hP : P ⊆ pre) (hc : alt.card ≤ P.card)
    (hmax : ∀ p ∈ P, ∀ w ∈ alt, w ∉ pre → f w ≤ f p)
    (hn : (∀ u ∈ pre, 0 ≤ f u) ∨ alt.card = pre.card) : alt.sum f ≤ pre.sum f := by
  obtain ⟨Q, hQ, hQc, hs⟩ := exchange_aux hP hc hmax
  have e1 := Finset.sum_inter_add_sum_sdiff alt pre f
  have e2 := Finset.sum_inter_add_sum_sdiff pre alt f
  rw [Finset.inter_comm] at e2
  have h1 : Q.sum f ≤ (pre \ alt).sum f := by
    rcases hn with hn | hn
    · exact Finset.sum_le_sum_of_subset_of_nonneg hQ (fun u hu _ => hn u (Finset.mem_sdiff.1 hu).1)
    · have c1 := Finset.card_sdiff_add_card_inter alt pre
      have c2 := Finset.card_sdiff_add_card_inter pre alt
      rw [Finset.inter_comm] at c2
      rw [Finset.eq_of_subset_of_card_le hQ (by omega)]
  linarith

theorem sum_toFinset {f : Utxo → ℚ} {l : List Utxo} (h : l.Nodup) : l.toFinset.sum f = (l.map f).sum :=
  List.sum_toFinset f h

theorem runFee_const {σ : Type} {E : Estimator σ} {c : ℚ} (hc : ∀ s u, E.feeIn s u = .ok c) :
    ∀ {us : List Utxo} {s s' : σ} {f g : ℚ}, runFee E s f us = .ok (g, s') → g = f + c * us.length
  | [], s, s', f, g, h => by simp only [runFee] at h; cases h; simp
  | u :: us, s, s', f, g, h => by
    simp only [runFee, hc] at h
    cases ha : E.addIn s u with
    | error e => simp [ha] at h
    | ok s1 =>
      simp only [ha] at h
      rw [runFee_const hc h]
      push_cast [List.length_cons]
      ring

theorem amountOf_assetSum {u : Utxo} (hd : DistinctAssets u) {t : Token} (ht : t ≠ mainToken) :
    (amountOf t u).getD 0 = assetSum t u.assets := by
  unfold amountOf
  rw [if_neg ht]
  have : ∀ as : List Asset, (as.map (·.fingerprint)).Nodup →
      ((as.find? (fun a => a.fingerprint = t)).map (·.quantity)).getD 0 = assetSum t as := by
    intro as
    induction as with
    | nil => intro _; rfl
    | cons a as ih =>
      intro hn
      simp only [List.map_cons, List.nodup_cons] at hn
      rw [assetSum_cons, List.find?_cons]
      by_cases ha : a.fingerprint = t
      · have h0 : assetSum t as = 0 := by
          unfold assetSum
          rw [List.filter_eq_nil_iff.2]
          · rfl
          · intro b hb hbt
            simp only [decide_eq_true_eq] at hbt
            exact hn.1 (List.mem_map.2 ⟨b, hb, hbt.trans ha.symm⟩)
        simp [ha, h0]
      · simp only [ha, decide_false, if_false]
        rw [ih hn.2]
        simp
  exact this _ hd.1

theorem assetSum_main {u : Utxo} (hd : DistinctAssets u) : assetSum mainToken u.assets = 0 := by
  unfold assetSum
  rw [List.filter_eq_nil_iff.2]
  · rfl
  · intro b hb hbt
    simp only [decide_eq_true_eq] at hbt
    exact hd.2 (List.mem_map.2 ⟨b, hb, hbt⟩)

theorem nodup_of_ptr {l : List Utxo} (h : (l.map (·.ptr)).Nodup) : l.Nodup := List.Nodup.of_map _ h

theorem getElem_mem_take {l : List Utxo} {i j : Nat} (hi : i < l.length) (hij : i < j) : l[i] ∈ l.take j := by
  rw [List.mem_take_iff_getElem]
  exact ⟨i, by omega, rfl⟩

variable {σ : Type} {E : Estimator σ} {ord : List Utxo → List Utxo} {avail : List Utxo} {st st' : UStore} {est est' : σ}
  {io : Setup} {r : Result} {c min : ℚ}

/-- The tokens for which the inputs are taken. -/
theorem labels (h : LFCase E ord avail st est io) (hm : E.minFee est = .ok min) (hc : ∀ s u, E.feeIn s u = .ok c)
    (hr : largestFirst E ord st est io = (.ok (r, est'), st')) (i : Nat) (hi : i < r.chosen.length) :
    ∃ t a, amountOf t r.chosen[i] = some a ∧
      (∀ w b, w ∈ avail → w ∉ r.chosen.take i → amountOf t w = some b → b ≤ a) ∧
      ((∃ o, (t, o) ∈ io.outputAssets ∧
          qty io.inputAssets t + ((r.chosen.take i).map (fun u => assetSum t u.assets)).sum < o.quantity) ∨
       (t = mainToken ∧
          io.inputBalance + ((r.chosen.take i).map (·.value)).sum < io.outputBalance + (min + c * i))) := by
  have hs : r.chosen = r.chosen.take i ++ r.chosen[i] :: r.chosen.drop (i + 1) := by
    rw [← List.drop_eq_getElem_cons hi, List.take_append_drop]
  obtain ⟨t, a, h1, h2, h3⟩ := C41_takes_largest h hm hr _ _ _ hs
  refine ⟨t, a, h1, h2, ?_⟩
  rcases h3 with h3 | ⟨h3, _, f, s, h4, h5⟩
  · exact .inl h3
  · refine .inr ⟨h3, ?_⟩
    have := runFee_const hc h4
    rw [List.length_take, Nat.min_eq_left (by omega)] at this
    rw [← this]
    exact h5

/-- C101: for a request without assets, with an estimator that charges the same for every input, no choice of fewer
inputs pays. -/
theorem C101_fewest (h : LFCase E ord avail st est io) (hm : E.minFee est = .ok min)
    (hc : ∀ s u, E.feeIn s u = .ok c) (hno : io.outputAssets = [])
    (hr : largestFirst E ord st est io = (.ok (r, est'), st')) {alt : List Utxo} (hp : PaysWith c min avail io alt) :
    r.chosen.length ≤ alt.length := by
  by_contra hlt
  push Not at hlt
  have hnd : r.chosen.Nodup := by
    obtain ⟨_, _, hperm, hn, _⟩ := C39_books h hr
    exact ((hperm.nodup_iff.1 (nodup_of_ptr hn)).sublist (List.sublist_append_left _ _))
  have halt := nodup_of_ptr hp.distinct
  have hpre : (r.chosen.take alt.length).Nodup := hnd.sublist (List.take_sublist _ _)
  obtain ⟨t, a, h1, h2, h3⟩ := labels h hm hc hr alt.length hlt
  rcases h3 with ⟨o, ho, _⟩ | ⟨_, h3⟩
  · rw [hno] at ho; cases ho
  · have hcard : alt.toFinset.card = (r.chosen.take alt.length).toFinset.card := by
      rw [List.toFinset_card_of_nodup halt, List.toFinset_card_of_nodup hpre, List.length_take]
      omega
    have := exchange (f := fun u => u.value) (pre := (r.chosen.take alt.length).toFinset)
      (P := (r.chosen.take alt.length).toFinset) (alt := alt.toFinset) (Finset.Subset.refl _) hcard.le
      (by
        intro p hp' w hw hwn
        rw [List.mem_toFinset] at hp' hw hwn
        obtain ⟨i, hi, rfl⟩ := List.mem_take_iff_getElem.1 hp'
        obtain ⟨t, a, k1, k2, k3⟩ := labels h hm hc hr i (by omega)
        rcases k3 with ⟨o, ho, _⟩ | ⟨rfl, _⟩
        · rw [hno] at ho; cases ho
        · have hsub : w ∉ r.chosen.take i := fun hx =>
            hwn (List.Sublist.subset (List.take_sublist_take_left (by omega)) hx)
          have := k2 w w.value (hp.available w hw) hsub (by simp [amountOf])
          simp only [amountOf, if_true, Option.some.injEq] at k1
          rw [k1]
          exact this)
      (.inr hcard)
    rw [sum_toFinset halt, sum_toFinset hpre] at this
    have := hp.main
    linarith

/-- The number of inputs taken for one token. -/
theorem taken_for (h : LFCase E ord avail st est io) (hr : largestFirst E ord st est io = (.ok (r, est'), st'))
    (hm : E.minFee est = .ok min) (hc : ∀ s u, E.feeIn s u = .ok c) (hw : ∀ u ∈ avail, c ≤ u.value)
    {alt : List Utxo} (hp : PaysWith c min avail io alt) {t : Token} {K : Finset Nat}
    (hK : ∀ i ∈ K, ∃ hi : i < r.chosen.length, ∃ a, amountOf t r.chosen[i] = some a ∧
      (∀ w b, w ∈ avail → w ∉ r.chosen.take i → amountOf t w = some b → b ≤ a) ∧
      ((∃ o, (t, o) ∈ io.outputAssets ∧
          qty io.inputAssets t + ((r.chosen.take i).map (fun u => assetSum t u.assets)).sum < o.quantity) ∨
       (t = mainToken ∧
          io.inputBalance + ((r.chosen.take i).map (·.value)).sum < io.outputBalance + (min + c * i)))) :
    K.card ≤ alt.length := by
  by_contra hlt
  push Not at hlt
  obtain ⟨_, _, hperm, hn, _⟩ := C39_books h hr
  have hnd : r.chosen.Nodup := (hperm.nodup_iff.1 (nodup_of_ptr hn)).sublist (List.sublist_append_left _ _)
  have hin : ∀ u ∈ r.chosen, u ∈ avail := fun u hu => hperm.mem_iff.2 (by simp [hu])
  have halt := nodup_of_ptr hp.distinct
  have hne : K.Nonempty := Finset.card_pos.1 (by omega)
  obtain ⟨i, hmem, hle⟩ : ∃ i ∈ K, ∀ j ∈ K, j ≤ i := ⟨_, Finset.max'_mem K hne, Finset.le_max' K⟩
  obtain ⟨hi, a, h1, h2, h3⟩ := hK i hmem
  have hpre : (r.chosen.take i).Nodup := hnd.sublist (List.take_sublist _ _)
  have hlt' : ∀ j ∈ K.erase i, j < i := fun j hj => by
    have e1 := Finset.mem_erase.1 hj
    have := hle j e1.2
    omega
  have key : ∀ f : Utxo → ℚ, (∀ u ∈ avail, 0 ≤ f u) →
      (∀ j ∈ K, ∀ hj : j < r.chosen.length, ∀ w ∈ avail, w ∉ r.chosen.take j → f w ≤ f r.chosen[j]) →
      (alt.map f).sum ≤ ((r.chosen.take i).map f).sum := by
    intro f hf hmax
    rw [← sum_toFinset halt, ← sum_toFinset hpre]
    have hinj : Set.InjOn (fun j => r.chosen.getD j ⟨0, 0, [], 0⟩) (K.erase i : Finset Nat) := by
      intro x hx y hy hxy
      have hx' := hlt' x hx
      have hy' := hlt' y hy
      simp only [List.getD_eq_getElem?_getD, List.getElem?_eq_getElem (show x < r.chosen.length by omega),
        List.getElem?_eq_getElem (show y < r.chosen.length by omega), Option.getD_some] at hxy
      exact (hnd.getElem_inj_iff).1 hxy
    refine exchange (P := (K.erase i).image (fun j => r.chosen.getD j ⟨0, 0, [], 0⟩)) ?_ ?_ ?_ (.inl ?_)
    · intro x hx
      obtain ⟨j, hj, rfl⟩ := Finset.mem_image.1 hx
      have hj' := hlt' j hj
      rw [List.mem_toFinset, List.getD_eq_getElem?_getD, List.getElem?_eq_getElem (by omega), Option.getD_some]
      exact getElem_mem_take (by omega) hj'
    · rw [Finset.card_image_of_injOn hinj, Finset.card_erase_of_mem hmem, List.toFinset_card_of_nodup halt]
      omega
    · intro p hp' w hw' hwn
      obtain ⟨j, hj, rfl⟩ := Finset.mem_image.1 hp'
      have hj' := hlt' j hj
      rw [List.mem_toFinset] at hw' hwn
      rw [List.getD_eq_getElem?_getD, List.getElem?_eq_getElem (by omega), Option.getD_some]
      exact hmax j (Finset.mem_erase.1 hj).2 (by omega) w (hp.available w hw')
        (fun hx => hwn (List.Sublist.subset (List.take_sublist_take_left (by omega)) hx))
    · intro u hu
      rw [List.mem_toFinset] at hu
      exact hf u (hin u (List.mem_of_mem_take hu))
  by_cases ht : t = mainToken
  · subst ht
    rcases h3 with ⟨o, ho, h3⟩ | ⟨_, h3⟩
    · have h4 := hp.assets _ _ ho
      have z : ∀ l : List Utxo, (∀ u ∈ l, u ∈ avail) → (l.map (fun u => assetSum mainToken u.assets)).sum = 0 := by
        intro l hl
        apply List.sum_eq_zero
        intro x hx
        obtain ⟨u, hu, rfl⟩ := List.mem_map.1 hx
        exact assetSum_main (h.store.distinct u (hl u hu))
      rw [z alt hp.available] at h4
      rw [z _ (fun u hu => hin u (List.mem_of_mem_take hu))] at h3
      linarith
    · have h4 := key (fun u => u.value - c) (fun u hu => by have := hw u hu; linarith) (by
        intro j hj hj' w hw' hwn
        obtain ⟨_, a, k1, k2, _⟩ := hK j hj
        have := k2 w w.value hw' hwn (by simp [amountOf])
        simp only [amountOf, if_true, Option.some.injEq] at k1
        rw [k1]
        linarith)
      have e : ∀ l : List Utxo, (l.map (fun u => u.value - c)).sum = (l.map (·.value)).sum - c * l.length := by
        intro l
        induction l with
        | nil => simp
        | cons u l ih => simp only [List.map_cons, List.sum_cons, ih, List.length_cons]; push_cast; ring
      rw [e, e, List.length_take, Nat.min_eq_left (by omega)] at h4
      have := hp.main
      linarith
  · rcases h3 with ⟨o, ho, h3⟩ | ⟨h3, _⟩
    · have h4 := key (fun u => assetSum t u.assets)
        (fun u hu => assetSum_nonneg (h.quantities u hu)) (by
        intro j hj hj' w hw' hwn
        obtain ⟨_, a, k1, k2, _⟩ := hK j hj
        have e1 := amountOf_assetSum (h.store.distinct _ (hin _ (List.getElem_mem hj'))) ht
        have e2 := amountOf_assetSum (h.store.distinct w hw') ht
        rw [k1, Option.getD_some] at e1
        rw [← e1, ← e2]
        cases hb : amountOf t w with
        | none =>
          rw [Option.getD_none, e1]
          exact assetSum_nonneg (h.quantities _ (hin _ (List.getElem_mem hj')))
        | some b => exact k2 w b hw' hwn hb)
      have := hp.assets _ _ ho
      linarith
    · exact ht h3

/-- C101: with assets, if every available UTxO is worth what it costs, at most as many inputs are taken as any choice
that pays has, for each asset asked for and once more. -/
theorem C101_bound (h : LFCase E ord avail st est io) (hm : E.minFee est = .ok min)
    (hc : ∀ s u, E.feeIn s u = .ok c) (hw : ∀ u ∈ avail, c ≤ u.value)
    (hr : largestFirst E ord st est io = (.ok (r, est'), st')) {alt : List Utxo} (hp : PaysWith c min avail io alt) :
    r.chosen.length ≤ (io.outputAssets.length + 1) * alt.length := by
  choose lab ha hl using fun i : Fin r.chosen.length => labels h hm hc hr i.1 i.2
  let tag : Nat → Token := fun i => if hi : i < r.chosen.length then lab ⟨i, hi⟩ else mainToken
  let T : Finset Token := insert mainToken (io.outputAssets.map (·.1)).toFinset
  have hT : T.card ≤ io.outputAssets.length + 1 := by
    refine (Finset.card_insert_le _ _).trans ?_
    have := List.toFinset_card_le (io.outputAssets.map (·.1))
    rw [List.length_map] at this
    omega
  have hmaps : ∀ i ∈ Finset.range r.chosen.length, tag i ∈ T := by
    intro i hi
    have hi' := Finset.mem_range.1 hi
    have e : tag i = lab ⟨i, hi'⟩ := dif_pos hi'
    rw [e]
    rcases (hl ⟨i, hi'⟩).2.2 with ⟨o, ho, _⟩ | ⟨h1, _⟩
    · exact Finset.mem_insert_of_mem (List.mem_toFinset.2 (List.mem_map.2 ⟨_, ho, rfl⟩))
    · rw [h1]; exact Finset.mem_insert_self _ _
  have := Finset.card_le_mul_card_image_of_maps_to (s := Finset.range r.chosen.length) (t := T) (f := tag) hmaps
    alt.length (by
      intro t _
      refine taken_for h hr hm hc hw hp (t := t) ?_
      intro i hi
      obtain ⟨hi1, hi2⟩ := Finset.mem_filter.1 hi
      have hi' := Finset.mem_range.1 hi1
      have e : tag i = lab ⟨i, hi'⟩ := dif_pos hi'
      rw [e] at hi2
      subst hi2
      exact ⟨hi', _, (hl ⟨i, hi'⟩).1, (hl ⟨i, hi'⟩).2.1, (hl ⟨i, hi'⟩).2.2⟩)
  rw [Finset.card_range] at this
  exact this.trans (by rw [Nat.mul_comm]; exact Nat.mul_le_mul_right _ hT)

/-! ### Concrete cases -/

/-- A payment of 12 with UTxOs of 5, 9 and 4: two inputs are taken and no single one pays. -/
def fewIo : Setup := { inputBalance := 0, outputBalance := 12 }

theorem fewCase {io : Setup} (ho : 0 ≤ io.outputBalance) :
    LFCase (flatEstimator 1 (1/2) 0) id lfAvail lfStore () io :=
  ⟨lfCase.ord, lfCase.store, lfCase.quantities, lfCase.fees, lfCase.minFee, ho⟩

theorem few_ok {io : Setup} {n : Nat} (h : (match (largestFirst (flatEstimator 1 (1/2) 0) id lfStore () io).1 with
    | .ok (r, _) => some (r.chosen.map (·.ptr)).length
    | .error _ => none) = some n) : ∃ r st', largestFirst (flatEstimator 1 (1/2) 0) id lfStore () io = (.ok (r, ()), st') ∧
      r.chosen.length = n := by
  generalize largestFirst (flatEstimator 1 (1/2) 0) id lfStore () io = x at h
  obtain ⟨x, st'⟩ := x
  cases x with
  | error e => cases h
  | ok p => exact ⟨p.1, st', rfl, by simpa using h⟩

example : ∃ r st', largestFirst (flatEstimator 1 (1/2) 0) id lfStore () fewIo = (.ok (r, ()), st') ∧
    r.chosen.length = 2 ∧ PaysWith (1/2) 1 lfAvail fewIo (lfAvail.take 2) ∧
    ∀ alt, PaysWith (1/2) 1 lfAvail fewIo alt → 2 ≤ alt.length := by
  obtain ⟨r, st', h1, h2⟩ := few_ok (io := fewIo) (n := 2) (by decide +kernel)
  refine ⟨r, st', h1, h2, ⟨by decide +kernel, by decide +kernel, by simp [fewIo], by decide +kernel⟩, fun alt ha => ?_⟩
  rw [← h2]
  exact C101_fewest (fewCase (by norm_num [fewIo])) rfl (fun _ _ => rfl) rfl h1 ha

/-- C101 with assets is false: the UTxO with most of the asset is taken, then one that could have paid all. -/
def bothIo : Setup := { inputBalance := 0, outputBalance := 3, outputAssets := [(7, ⟨7, 2, 0, 0⟩)] }

theorem C101_assets_false : ¬ ∀ (avail : List Utxo) (st st' : UStore) (io : Setup) (r : Result) (c min : ℚ)
    (alt : List Utxo), LFCase (flatEstimator min c 0) id avail st () io → (∀ u ∈ avail, c ≤ u.value) →
    largestFirst (flatEstimator min c 0) id st () io = (.ok (r, ()), st') → PaysWith c min avail io alt →
    r.chosen.length ≤ alt.length := by
  intro h
  obtain ⟨r, st', h1, h2⟩ := few_ok (io := bothIo) (n := 2) (by decide +kernel)
  have := h lfAvail lfStore st' bothIo r (1/2) 1 (lfAvail.take 1) (fewCase (by norm_num [bothIo])) (by decide +kernel) h1
    ⟨by decide +kernel, by decide +kernel, by
      intro t o hto
      simp only [bothIo, List.mem_singleton, Prod.mk.injEq] at hto
      obtain ⟨rfl, rfl⟩ := hto
      decide +kernel, by decide +kernel⟩
  rw [h2] at this
  exact absurd this (by decide)

/-- The bound for this request, which is met. -/
example : ∃ r st', largestFirst (flatEstimator 1 (1/2) 0) id lfStore () bothIo = (.ok (r, ()), st') ∧
    r.chosen.length = 2 ∧ ∀ alt, PaysWith (1/2) 1 lfAvail bothIo alt → 2 ≤ 2 * alt.length := by
  obtain ⟨r, st', h1, h2⟩ := few_ok (io := bothIo) (n := 2) (by decide +kernel)
  refine ⟨r, st', h1, h2, fun alt ha => ?_⟩
  have := C101_bound (fewCase (by norm_num [bothIo])) rfl (fun _ _ => rfl) (by decide +kernel) h1 ha
  rw [h2] at this
  exact this

end Verif.Props
