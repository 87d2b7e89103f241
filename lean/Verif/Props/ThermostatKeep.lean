import Verif.Props.ThermostatComplete
import Verif.Props.Store
import Verif.Selection.ThermostatKeep

/-!
# C102: the thermostat consolidates down to the configured number of UTxOs

`l ++ u :: l'` is the list of the UTxOs chosen, in the order in which they were chosen: `u` was chosen after `l`.
-/

namespace Verif.Props

open Verif Verif.Core Verif.Selection Verif.Selection.Thermostat

section

variable {σ : Type} {E : Estimator σ} {W : Thermostat.World} {st st' : UStore} {est est' : σ} {ins : List Utxo}
  {outs : List Output} {ch : Option Nat} {r : Result}

/-- The number of UTxOs that hold a token. -/
def countWith (t : Token) (us : List Utxo) : Nat := (us.filter (Holds t)).length

theorem countWith_eq (t : Token) (us : List Utxo) : (holders t us).length = countWith t us := by
  unfold countWith
  rw [holders_eq_filter]

/-- C102, assets: a UTxO with an asset is chosen because the asset was not yet paid for by what was chosen before, or it
leaves at least the configured number of UTxOs with the asset in the wallet. -/
theorem C102_assets {avail : List Utxo} (hC : THCase W avail st ins outs) (hadd : ∀ s u, ∃ s', E.addIn s u = .ok s')
    (hq : ∀ o ∈ outs, ∀ a ∈ o.assets, 0 ≤ a.quantity)
    (h : thermostat E W st est (Setup.fromFixed ins outs ch) = (.ok (r, est'), st'))
    {l l' : List Utxo} {u : Utxo} (hl : r.chosen = l ++ u :: l') {t : Token} (ht : t ≠ mainToken) (hu : Holds t u) :
    assetIn t ins + assetIn t l < assetOut t outs ∨
      W.cfg.accumulators + countWith t (l ++ [u]) ≤ countWith t avail := by
  obtain ⟨s, hs, _, _, hsel, _⟩ := thermostat_ok h
  have h1 := select_reason hC.ord hadd hC.main hC.keyOrder (base := fun t => assetIn t ins - assetOut t outs) hs hC.inv
    initial_assets.1 rfl (fun x _ => ⟨fun b hb => initial_debts hq x b hb, by
      rw [initial_assets.2.2]; simp [initial]⟩)
  rw [hsel] at hl
  have hheld : (amountOf t u).isSome := by
    have : u ∈ holders t [u] := by rw [holders_eq_filter]; simpa using hu
    exact (mem_holders.mp this).2
  rcases h1 l u l' hl t ht hheld with h2 | h2
  · left
    unfold owed at h2
    unfold assetIn at *
    linarith
  · right
    rw [countWith_eq, countWith_eq] at h2
    have : countWith t (l ++ [u]) = countWith t l + 1 := by simp [countWith, hu]
    omega

/-- C102, requests without assets: a UTxO is chosen because what was chosen before did not pay for the outputs and for the
fee with these inputs, or it leaves at least the configured number of UTxOs in the wallet. -/
theorem C102_main {avail : List Utxo} (hC : THCase W avail st ins outs) (hadd : ∀ s u, ∃ s', E.addIn s u = .ok s')
    (hfee : ∀ (l : List Utxo) e f, l.foldlM E.addIn est = .ok e → E.minFee e = .ok f → 0 ≤ f) (hq : ∀ o ∈ outs, 0 ≤ o.value) (hno : requestTokens ins outs = [])
    (h : thermostat E W st est (Setup.fromFixed ins outs ch) = (.ok (r, est'), st'))
    {l l' : List Utxo} {u : Utxo} (hl : r.chosen = l ++ u :: l') :
    (∃ e f, l.foldlM E.addIn est = .ok e ∧ E.minFee e = .ok f ∧
      (ins.map (·.value)).sum + (l.map (·.value)).sum < (outs.map (·.value)).sum + f) ∨
    W.cfg.accumulators + (l ++ [u]).length ≤ avail.length := by
  obtain ⟨s, hs, _, _, hsel, _⟩ := thermostat_ok h
  have hempty : (initial est (Setup.fromFixed ins outs ch)).assets = [] := by
    have : (initial est (Setup.fromFixed ins outs ch)).assets.keys.length = 0 := by
      rw [← requestTokens_length, hno]; rfl
    simpa [AMap.keys] using this
  obtain ⟨_, v2, _⟩ := C48_setup_totals ins outs ch
  have hd : DebtPos (initial est (Setup.fromFixed ins outs ch)).balance := by
    simp only [initial]
    refine DebtPos.sub (DebtPos.add (fun v hv => by cases hv) _) ?_
    rw [v2]
    apply List.sum_nonneg
    intro x hx
    obtain ⟨o, ho, rfl⟩ := List.mem_map.mp hx
    exact hq o ho
  have hb : (initial est (Setup.fromFixed ins outs ch)).balance.net =
      (ins.map (·.value)).sum - (outs.map (·.value)).sum := by
    have := (initial_main (est := est) (ins := ins) (outs := outs) (ch := ch)).net
    rw [this]
    simp [initial, changeValue, mapSum]
  have h1 := select_reason_main hC.ord hadd hC.main hC.keyOrder hfee hs hC.inv hempty rfl hd hb
  rw [hsel] at hl
  have hall : ∀ us : List Utxo, holders mainToken us = us := by
    intro us
    unfold holders
    rw [List.filter_eq_self]
    intro w _
    simp [amountOf]
  rcases h1 l u l' hl mainToken rfl (by simp [amountOf]) with ⟨e, f, h2, h3, h4⟩ | h2
  · exact Or.inl ⟨e, f, h2, h3, by linarith⟩
  · right
    rw [hall, hall] at h2
    simp only [List.length_append, List.length_singleton]
    omega

/-- C102, requests with assets: a UTxO without assets is chosen only if the main token of what was chosen before did not
pay for the outputs, the fee, and one change with the configured maximum for each asset. -/
theorem C102_plain {avail : List Utxo} {cin cout m0 : ℚ} (hO : Ordinary E W avail st est ins outs cin cout m0)
    (hsome : requestTokens ins outs ≠ [])
    (h : thermostat E W st est (Setup.fromFixed ins outs ch) = (.ok (r, est'), st'))
    {l l' : List Utxo} {u : Utxo} (hl : r.chosen = l ++ u :: l') (hu : u.assets = []) :
    (ins.map (·.value)).sum + (l.map (·.value)).sum <
      (outs.map (·.value)).sum + m0 + cin * l.length + (requestTokens ins outs).length * (W.cfg.max + cout) := by
  have hC := hO.case
  obtain ⟨s, hs, _, _, hsel, _⟩ := thermostat_ok h
  have hlen : (initial est (Setup.fromFixed ins outs ch)).assets.keys.length = (requestTokens ins outs).length :=
    requestTokens_length.symm
  have h1 := select_adaNeeded hC.ord hC.keyOrder hO.sure hC.main hO.max hO.min (by linarith [hO.feeIn.1]) hO.feeOut.1
    hO.fee.2 (fun u hu => hO.quantities u (by simp [hu])) hC.main_not (fun e => hsome (by
      rw [e] at hlen
      exact List.length_eq_zero_iff.mp hlen.symm)) initial_assets.1 rfl rfl hC.inv (initial_going hO) hs
  rw [hsel] at hl
  have h2 := h1 l u l' hl hu
  rw [hlen] at h2
  linarith

end

section

variable {W : Thermostat.World} {st st' : UStore} {est est' : LE} {ins : List Utxo} {outs : List Output}
  {ch : Option Nat} {r : Result}

/-- C102: if the transaction has room for another input in the end, by the fees the code takes for sizes, then for every
asset of the request, and for the main token if there is none, the wallet has at most the configured number of UTxOs with
it outside the transaction, or all of these hold another asset. -/
theorem C102_consolidated {c : Costs} {minAda : Output → Except SelErr ℚ} {avail L : List Utxo}
    (hC : THCase W avail st ins outs)
    (hroom : c.costOutput.floor.toNat * (requestTokens ins outs).length * 2 < 2 ^ 64)
    (h : thermostat (linearEstimator c minAda) W st est (Setup.fromFixed ins outs ch) = (.ok (r, est'), st'))
    (hspace : est'.currentSize + c.costOutput.floor.toNat * (requestTokens ins outs).length * 2 +
      c.costInput.floor.toNat ≤ c.maxSize)
    (hL : avail.Perm (r.chosen ++ L)) {t : Token}
    (ht : t ∈ requestTokens ins outs ∨ requestTokens ins outs = [] ∧ t = mainToken) :
    countWith t L ≤ W.cfg.accumulators ∨ ∀ u ∈ L, Holds t u → ∃ a ∈ u.assets, a.fingerprint ≠ t := by
  obtain ⟨s, hs, _, rfl, hsel, _⟩ := thermostat_ok h
  have hlen : (initial est (Setup.fromFixed ins outs ch)).assets.keys.length = (requestTokens ins outs).length :=
    requestTokens_length.symm
  obtain ⟨L', i1, i2⟩ := select_done hC.ord hC.main hC.keyOrder hs hC.inv initial_assets.1 (by rw [hlen]; exact hroom)
    (by rw [hlen]; exact hspace)
  have hp : L.Perm L' := by
    rw [hsel] at hL
    exact (List.perm_append_left_iff _).mp (hL.symm.trans i1.perm)
  have hd := i2 t (by
    rcases ht with ht | ⟨e, rfl⟩
    · exact Or.inl ((initial_assets.2.1 t).mpr ht)
    · refine Or.inr ⟨?_, rfl⟩
      rw [e] at hlen
      exact List.length_eq_zero_iff.mp hlen)
  have hh : (holders t L).Perm (holders t L') := hp.filter _
  rcases hd with hd | hd
  · left
    rw [← countWith_eq, hh.length_eq]
    exact hd
  · right
    intro u hu hheld
    have hmem : u ∈ holders t L := by rw [holders_eq_filter]; simpa using ⟨hu, hheld⟩
    have h1 := hd u (hh.mem_iff.mp hmem)
    by_contra hn
    push Not at hn
    apply h1
    refine ⟨?_, fun a ha => hn a ha⟩
    have hdist := (i1.store.distinct u (hp.mem_iff.mp hu)).1
    match hu : u.assets with
    | [] => simp
    | [a] => simp
    | a :: b :: rest =>
      rw [hu] at hdist hn
      have e1 := hn a (by simp)
      have e2 := hn b (by simp)
      simp [e1, e2] at hdist

/-! ### Samples -/

/-- Four UTxOs with 100 of an asset, and three without assets. -/
def keepAvail : List Utxo := [⟨1, 500000000, [⟨7, 100, 1, 2⟩], 0⟩, ⟨2, 500000000, [⟨7, 100, 1, 2⟩], 0⟩,
  ⟨3, 500000000, [⟨7, 100, 1, 2⟩], 0⟩, ⟨4, 500000000, [⟨7, 100, 1, 2⟩], 0⟩, ⟨5, 9000000, [], 0⟩, ⟨6, 8000000, [], 0⟩,
  ⟨7, 7000000, [], 0⟩]

theorem keep_case {cfg : Config} (hm : cfg.main = mainToken) {outs : List Output}
    (hno : mainToken ∉ requestTokens [] outs) : THCase (thW cfg) keepAvail (thStore keepAvail) [] outs := by
  refine thCase ?_ (by decide +kernel) hm hno
  intro u hu
  simp only [keepAvail, List.mem_cons, List.not_mem_nil, or_false] at hu
  rcases hu with rfl | rfl | rfl | rfl | rfl | rfl | rfl <;> exact ⟨by decide, by decide⟩

/-- What the samples look at: the UTxOs chosen and the size of the transaction. -/
def keepView (cfg : Config) (outs : List Output) : Option (List Nat × Nat) :=
  (thermostat thE (thW cfg) (thStore keepAvail) thEst (Setup.fromFixed [] outs (some 5))).1.toOption.map
    (fun x => (x.1.chosen.map (·.ptr), x.2.currentSize))

/-- A UTxO of the sample is found by its pointer. -/
def keepBy (p : Nat) : Utxo := (keepAvail.find? (fun u => u.ptr = p)).getD ⟨0, 0, [], 0⟩

theorem keep_ok {cfg : Config} {outs : List Output} {ps : List Nat} {n : Nat} (hm : cfg.main = mainToken)
    (hno : mainToken ∉ requestTokens [] outs) (h : keepView cfg outs = some (ps, n)) :
    ∃ r est' st', thermostat thE (thW cfg) (thStore keepAvail) thEst (Setup.fromFixed [] outs (some 5)) =
      (.ok (r, est'), st') ∧ r.chosen = ps.map keepBy ∧ est'.currentSize = n := by
  unfold keepView at h
  cases hx : thermostat thE (thW cfg) (thStore keepAvail) thEst (Setup.fromFixed [] outs (some 5)) with
  | mk a st' =>
    rw [hx] at h
    cases a with
    | error e => cases h
    | ok y =>
      obtain ⟨r, est'⟩ := y
      simp only [Except.toOption, Option.map_some, Option.some.injEq, Prod.mk.injEq] at h
      refine ⟨r, est', st', rfl, ?_, h.2⟩
      rw [← h.1, List.map_map]
      have hsel := (C51_selection (keep_case hm hno) hx).1
      conv_lhs => rw [← List.map_id r.chosen]
      apply List.map_congr_left
      intro u hu
      have hu : u ∈ keepAvail := hsel.mem_iff.mpr (by simp [hu])
      have key : ∀ u ∈ keepAvail, u = keepBy u.ptr := by decide +kernel
      exact key u hu

theorem keep_noMain : mainToken ∉ requestTokens [] thOuts := by decide +kernel

/-- Two UTxOs with the asset are kept, as configured, so that a second one is taken; none without assets is. -/
theorem keep_sample : keepView { accumulators := 2 } thOuts = some ([1, 2], 854) := by decide +kernel

/-- The hypotheses of `C102_assets` hold, and it says why the second UTxO was taken. -/
example : ∃ r est' st', thermostat thE (thW { accumulators := 2 }) (thStore keepAvail) thEst
      (Setup.fromFixed [] thOuts (some 5)) = (.ok (r, est'), st') ∧
    (assetIn 7 [] + assetIn 7 [keepBy 1] < assetOut 7 thOuts ∨
      2 + countWith 7 ([keepBy 1] ++ [keepBy 2]) ≤ countWith 7 keepAvail) := by
  obtain ⟨r, est', st', h1, h2, _⟩ := keep_ok rfl keep_noMain keep_sample
  exact ⟨r, est', st', h1, C102_assets (l' := []) (keep_case rfl keep_noMain) thE_sure.addInOk (by decide +kernel) h1 h2
    (by decide) (by decide +kernel)⟩

/-- The hypotheses of `C102_consolidated` hold. -/
example : countWith 7 [keepBy 3, keepBy 4, keepBy 5, keepBy 6, keepBy 7] ≤ 2 := by
  obtain ⟨r, est', st', h1, h2, h3⟩ := keep_ok rfl keep_noMain keep_sample
  rcases C102_consolidated (L := [keepBy 3, keepBy 4, keepBy 5, keepBy 6, keepBy 7]) (t := 7) (keep_case rfl keep_noMain)
    (by decide +kernel) h1 (by rw [h3]; decide +kernel) (by rw [h2]; decide +kernel) (Or.inl (by decide +kernel)) with h | h
  · exact h
  · exact absurd (h (keepBy 3) (by simp) (by decide +kernel)) (by decide +kernel)

/-- A payment without assets. -/
def keepOuts : List Output := [⟨9, 10000000, []⟩]

theorem keepOuts_noMain : mainToken ∉ requestTokens [] keepOuts := by decide +kernel

/-- The first two UTxOs are needed. The third is not, it leaves four where two are to be kept; these hold assets, and
are not taken. -/
theorem keepOuts_sample : keepView { accumulators := 2 } keepOuts = some ([5, 6, 7], 590) := by decide +kernel

theorem thE_fee (l : List Utxo) (e : LE) (f : ℚ) (h : l.foldlM thE.addIn thEst = .ok e) (hf : thE.minFee e = .ok f) :
    0 ≤ f := by
  have key : ∀ (l : List Utxo) (a e : LE), l.foldlM thE.addIn a = .ok e → e.costMetadata = a.costMetadata := by
    intro l
    induction l with
    | nil => intro a e h; cases h; rfl
    | cons u l ih =>
      intro a e h
      rw [List.foldlM_cons, bind_ok] at h
      obtain ⟨b, h1, h2⟩ := h
      rw [ih b e h2]
      cases h1
      rfl
  have h1 : e.costMetadata = 0 := key l _ e h
  have h2 := Except.ok.inj hf
  rw [← h2, h1]
  simp only [thCosts]
  positivity

/-- The hypotheses of `C102_main` hold, for the second UTxO and for the third. -/
example : ∃ r est' st', thermostat thE (thW { accumulators := 2 }) (thStore keepAvail) thEst
      (Setup.fromFixed [] keepOuts (some 5)) = (.ok (r, est'), st') ∧
    ∀ l u l', r.chosen = l ++ u :: l' →
      (∃ e f, l.foldlM thE.addIn thEst = .ok e ∧ thE.minFee e = .ok f ∧
        (([] : List Utxo).map (·.value)).sum + (l.map (·.value)).sum < (keepOuts.map (·.value)).sum + f) ∨
      2 + (l ++ [u]).length ≤ keepAvail.length := by
  obtain ⟨r, est', st', h1, _, _⟩ := keep_ok rfl keepOuts_noMain keepOuts_sample
  refine ⟨r, est', st', h1, fun l u l' h => ?_⟩
  exact C102_main (keep_case rfl keepOuts_noMain) thE_sure.addInOk thE_fee (by decide +kernel) (by decide +kernel) h1 h

/-- The hypotheses of `C102_plain` hold: a payment of an asset held with little of the main token. -/
example : ∃ r est' st', thermostat thE (thW {}) (thStore (thPlain [])) thEst (Setup.fromFixed [] thOuts (some 5)) =
      (.ok (r, est'), st') ∧ ∀ l u l', r.chosen = l ++ u :: l' → u.assets = [] →
      (([] : List Utxo).map (·.value)).sum + (l.map (·.value)).sum <
        (thOuts.map (·.value)).sum + 167481 + thCosts.costInput * l.length +
          (requestTokens [] thOuts).length * (200000000 + thCosts.costOutput) := by
  have hO := thPlain_ordinary (ins := []) (Or.inl rfl) thOuts_tokens (by simp) (by decide +kernel)
  have hx : (thView thE (thermostat thE (thW {}) (thStore (thPlain [])) thEst
      (Setup.fromFixed [] thOuts (some 5)))).1.map (·.chosen) = some [1, 2] := by decide +kernel
  cases hy : thermostat thE (thW {}) (thStore (thPlain [])) thEst (Setup.fromFixed [] thOuts (some 5)) with
  | mk a st' =>
    rw [hy] at hx
    cases a with
    | error e => cases hx
    | ok y => exact ⟨y.1, y.2, st', rfl, fun l u l' h1 h2 => C102_plain hO (by decide +kernel) hy h1 h2⟩

/-- The number configured for assets is not used here: with one UTxO for each asset configured, three are left. -/
theorem C102_config_false : ¬ ∀ (W : Thermostat.World) (avail L : List Utxo) (st st' : UStore) (est est' : LE)
    (ins : List Utxo) (outs : List Output) (ch : Option Nat) (r : Result), THCase W avail st ins outs →
    thCosts.costOutput.floor.toNat * (requestTokens ins outs).length * 2 < 2 ^ 64 →
    thermostat thE W st est (Setup.fromFixed ins outs ch) = (.ok (r, est'), st') →
    est'.currentSize + thCosts.costOutput.floor.toNat * (requestTokens ins outs).length * 2 +
      thCosts.costInput.floor.toNat ≤ thCosts.maxSize →
    avail.Perm (r.chosen ++ L) → ∀ t ∈ requestTokens ins outs,
    countWith t L ≤ W.cfg.accumulatorsAssets ∨ ∀ u ∈ L, Holds t u → ∃ a ∈ u.assets, a.fingerprint ≠ t := by
  intro hall
  obtain ⟨r, est', st', h1, h2, h3⟩ := keep_ok (cfg := { accumulatorsAssets := 1 }) (outs := thOuts) (ps := [1]) (n := 816)
    rfl keep_noMain (by decide +kernel)
  rcases hall _ _ [keepBy 2, keepBy 3, keepBy 4, keepBy 5, keepBy 6, keepBy 7] _ _ _ _ _ _ _ _ (keep_case rfl keep_noMain)
    (by decide +kernel) h1 (by rw [h3]; decide +kernel) (by rw [h2]; decide +kernel) 7 (by decide +kernel) with h | h
  · revert h; decide +kernel
  · exact absurd (h (keepBy 2) (by simp) (by decide +kernel)) (by decide +kernel)

/-- The main token is not consolidated by a request with assets: three UTxOs without assets are left where two are to be
kept, although there is room. -/
theorem C102_main_false : ¬ ∀ (W : Thermostat.World) (avail L : List Utxo) (st st' : UStore) (est est' : LE)
    (ins : List Utxo) (outs : List Output) (ch : Option Nat) (r : Result), THCase W avail st ins outs →
    thCosts.costOutput.floor.toNat * (requestTokens ins outs).length * 2 < 2 ^ 64 →
    thermostat thE W st est (Setup.fromFixed ins outs ch) = (.ok (r, est'), st') →
    est'.currentSize + thCosts.costOutput.floor.toNat * (requestTokens ins outs).length * 2 +
      thCosts.costInput.floor.toNat ≤ thCosts.maxSize →
    avail.Perm (r.chosen ++ L) → countWith mainToken L ≤ W.cfg.accumulators ∨ ∀ u ∈ L, u.assets ≠ [] := by
  intro hall
  obtain ⟨r, est', st', h1, h2, h3⟩ := keep_ok rfl keep_noMain keep_sample
  rcases hall _ _ [keepBy 3, keepBy 4, keepBy 5, keepBy 6, keepBy 7] _ _ _ _ _ _ _ _ (keep_case rfl keep_noMain)
    (by decide +kernel) h1 (by rw [h3]; decide +kernel) (by rw [h2]; decide +kernel) with h | h
  · revert h; decide +kernel
  · exact absurd (h (keepBy 5) (by simp)) (by decide +kernel)

end

end Verif.Props
