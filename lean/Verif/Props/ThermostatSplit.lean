import Verif.Selection.ThermostatSplit
import Verif.Props.ThermostatChanges
import Verif.Props.Store

/-!
# When the thermostat splits a change (C77)

The notation is that of `Verif.Props.Thermostat`.
-/

namespace Verif.Props

open Verif Verif.Core Verif.Selection Verif.Selection.Thermostat

variable {σ : Type} {E : Estimator σ} {W : Thermostat.World} {st st' : UStore} {est est' : σ} {ins : List Utxo}
  {outs : List Output} {ch : Option Nat} {r : Result}

/-- The assets an output holds, by name. -/
def kindOf (o : Output) : List Token := o.assets.map (·.fingerprint)

theorem trunc_nonneg {q : ℚ} (hq : 0 ≤ q) : trunc q = (q.floor : ℚ) := by
  unfold trunc
  split
  · rename_i h1
    have : q.floor = 0 := by
      apply le_antisymm
      · have : q.floor < 1 := by rw [Rat.floor_lt_iff]; simpa using h1
        omega
      · rw [Rat.le_floor_iff]; simpa using hq
    rw [this]; simp
  · rfl

/-- What the store says about what is left. -/
theorem balanceOf_left {L : List Utxo} (h : StoreOK L st) (t : Token) :
    st.balanceOf t = if ∃ u ∈ L, Holds t u then some (L.map (held t)).sum else none := by
  have hsum : (L.map (fun u => (amountOf t u).getD 0)).sum = (L.map (held t)).sum := by
    congr 1
    apply List.map_congr_left
    intro u hu
    exact amountOf_held (h.distinct u hu) t
  have hex : (∃ u ∈ L, Holds t u) ↔ holders t L ≠ [] := by
    rw [holders_eq_filter, ne_eq, List.filter_eq_nil_iff]
    push Not
    simp
  by_cases he : holders t L = []
  · rw [if_neg (by rw [hex]; simpa using he)]
    simp [UStore.balanceOf, (h.token t).1 he]
  · rw [if_pos (hex.mpr he)]
    obtain ⟨s, hs, hok⟩ := (h.token t).2 he
    simp [UStore.balanceOf, hs, hok.balance_eq, hsum]

/-- The output made for a token among those made for all. -/
theorem filter_kind {ks : List Token} (hn : ks.Nodup) {f : Token → Option Output} (k : Token → List Token)
    (hinj : ∀ t t', k t = k t' → t = t') (hk : ∀ t ∈ ks, ∀ o, f t = some o → kindOf o = k t) (t : Token) :
    (ks.filterMap f).filter (fun o => kindOf o = k t) = if t ∈ ks then (f t).toList else [] := by
  induction ks with
  | nil => simp
  | cons t' ks ih =>
    rw [List.nodup_cons] at hn
    have ih := ih hn.2 (fun x hx => hk x (by simp [hx]))
    by_cases e : t' = t
    · subst e
      rw [if_neg hn.1] at ih
      cases hf : f t' with
      | none => rw [List.filterMap_cons_none hf, ih]; simp
      | some o =>
        rw [List.filterMap_cons_some hf, List.filter_cons, if_pos (by simpa using hk t' (by simp) o hf), ih]
        simp
    · have hmem : t ∈ t' :: ks ↔ t ∈ ks := by simp [Ne.symm e]
      simp only [hmem]
      cases hf : f t' with
      | none => rw [List.filterMap_cons_none hf, ih]
      | some o =>
        rw [List.filterMap_cons_some hf, List.filter_cons, if_neg, ih]
        simp only [decide_eq_true_eq]
        rw [hk t' (by simp) o hf]
        exact fun h => e (hinj _ _ h)

/-- The assets of an output made for `t`. -/
def kindFor (t : Token) : List Token := if t = mainToken then [] else [t]

theorem kindFor_inj (t t' : Token) (h : kindFor t = kindFor t') : t = t' := by
  unfold kindFor at h
  split at h <;> split at h <;> simp_all

theorem outcome_kind {ids : Token → Option (Nat × Nat)} {toks : List Token} {req : Request} {t : Token} {c o : Output}
    {x : Option Output} {bal : Option ℚ} (hm : W.cfg.main = mainToken) (h : Unsplit E W req ids toks t c)
    (ho : Outcome E W bal t c o x) : kindOf o = kindFor t ∧ ∀ y, x = some y → kindOf y = kindFor t := by
  have key : kindOf c = kindFor t := by
    unfold kindOf kindFor
    rw [← hm]
    rcases h with ⟨_, hm, ha⟩ | ⟨hm, ha⟩
    · obtain ⟨a, h1, h2, _⟩ := ha.asset
      rw [if_neg hm, h1]; simp [h2]
    · rw [if_pos hm, ha.assets]; rfl
  rw [← key]
  cases ho with
  | kept => exact ⟨rfl, by simp⟩
  | dropped h => exact ⟨by simp [kindOf, h], by simp⟩
  | asset h => exact ⟨by simp [kindOf, h], by rintro y ⟨⟩; simp [kindOf, h]⟩
  | main h => exact ⟨by simp [kindOf], by rintro y ⟨⟩; simp [kindOf]⟩

/-- The changes of a token: none, or the outcome of the one before the split. -/
theorem outcomes_of {avail : List Utxo} (hC : THCase W avail st ins outs) (hmm : W.cfg.min ≤ W.cfg.max)
    (hq : ∀ u ∈ avail ++ ins, ∀ a ∈ u.assets, 0 ≤ a.quantity)
    (h : thermostat E W st est (Setup.fromFixed ins outs ch) = (.ok (r, est'), st')) {L : List Utxo}
    (hL : avail.Perm (r.chosen ++ L)) (t : Token) :
    (∀ o ∈ r.changes, ∃ t', kindOf o = kindFor t') ∧
    ((r.changes.filter (fun o => kindOf o = kindFor t) = [] ∧
      assetIn t ins + assetIn t r.chosen = assetOut t outs) ∨
    ∃ c o x, r.changes.filter (fun o => kindOf o = kindFor t) = o :: x.toList ∧
      Unsplit E W ⟨ch, outs⟩ st.getAssetIds (requestTokens ins outs) t c ∧
      Outcome E W (if ∃ u ∈ L, Holds t u then some (L.map (held t)).sum else none) t c o x ∧
      assetIn t ins + assetIn t r.chosen = assetOut t outs + assetSum t c.assets) := by
  obtain ⟨s, hs, _, _, hsel, hch, _⟩ := thermostat_ok h
  obtain ⟨⟨L', hL'⟩, ks, ks', f, x, hn, hperm, h1, h2, h3⟩ := select_outcomes hC.ord hC.keyOrder hC.changeOrder hmm hs hC.inv
    (by rw [hC.main]; exact hC.main_not) rfl rfl (initial_pos (fun u hu => hq u (by simp [hu])))
    (fun u hu => hq u (by simp [hu])) hC.main (base := fun t => assetIn t ins - assetOut t outs)
    (fun t => by rw [initial_assets.2.2]; simp [initial, changeAsset, mapSum])
  have hp : L'.Perm L := by
    have := hL'.perm.symm.trans hL
    rw [hsel] at this
    exact (List.perm_append_left_iff _).mp this
  have hbal : st'.balanceOf t = if ∃ u ∈ L, Holds t u then some (L.map (held t)).sum else none := by
    rw [balanceOf_left hL'.store, (hp.map (held t)).sum_eq]
    have : (∃ u ∈ L', Holds t u) ↔ ∃ u ∈ L, Holds t u := by simp only [hp.mem_iff]
    simp only [this]
  have hkind : ∀ t ∈ ks, (∀ o, f t = some o → kindOf o = kindFor t) ∧ ∀ o, x t = some o → kindOf o = kindFor t := by
    intro t ht
    obtain ⟨c, o, hf, hu, ho, _⟩ := h2 t ht
    have := outcome_kind hC.main hu ho
    exact ⟨fun o' ho' => by rw [hf] at ho'; cases ho'; exact this.1, this.2⟩
  constructor
  · intro o ho
    rw [hch, h1] at ho
    rcases List.mem_append.mp ho with ho | ho
    · obtain ⟨t, ht, hf⟩ := List.mem_filterMap.mp ho
      exact ⟨t, (hkind t ht).1 o hf⟩
    · obtain ⟨t, ht, hf⟩ := List.mem_filterMap.mp ho
      exact ⟨t, (hkind t (hperm.mem_iff.mp ht)).2 o hf⟩
  rw [hch, h1, List.filter_append,
    filter_kind hn kindFor kindFor_inj (fun t ht => (hkind t ht).1) t,
    filter_kind (hperm.nodup_iff.mpr hn) kindFor kindFor_inj (fun t ht => (hkind t (hperm.mem_iff.mp ht)).2) t]
  by_cases ht : t ∈ ks
  · right
    obtain ⟨c, o, hf, hu, ho, hdue⟩ := h2 t ht
    rw [hbal] at ho
    refine ⟨c, o, x t, ?_, ?_, ho, by rw [hsel, ← hdue]; unfold assetIn; ring⟩
    · rw [if_pos ht, if_pos (hperm.mem_iff.mpr ht), hf]; rfl
    · rcases hu with ⟨a, b⟩ | b
      · exact Or.inl ⟨initial_assets.2.1 _ |>.mp a, b⟩
      · exact Or.inr b
  · left
    refine ⟨by rw [if_neg ht, if_neg (fun e => ht (hperm.mem_iff.mp e))]; rfl, ?_⟩
    have := h3 t ht
    rw [hsel]
    unfold assetIn at *
    linarith

/-- Other changes hold nothing of an asset. -/
theorem assetOut_kind {t : Token} (ht : t ≠ mainToken) {os : List Output} (hk : ∀ o ∈ os, ∃ t', kindOf o = kindFor t') :
    assetOut t os = assetOut t (os.filter (fun o => kindOf o = kindFor t)) := by
  unfold assetOut
  induction os with
  | nil => rfl
  | cons o os ih =>
    rw [List.map_cons, List.sum_cons, List.filter_cons, ih (fun x hx => hk x (by simp [hx]))]
    split
    · rfl
    · rename_i hne
      obtain ⟨t', ht'⟩ := hk o (by simp)
      have : assetSum t o.assets = 0 := by
        unfold assetSum
        rw [List.filter_eq_nil_iff.mpr]
        · rfl
        · intro a ha
          simp only [decide_eq_true_eq]
          rintro rfl
          simp only [decide_eq_true_eq] at hne
          have hmem : a.fingerprint ∈ kindOf o := List.mem_map.mpr ⟨a, ha, rfl⟩
          rw [ht'] at hmem hne
          unfold kindFor at hmem hne
          split at hmem
          · simp at hmem
          · rename_i hm
            simp only [List.mem_singleton] at hmem
            rw [if_neg hm, if_neg ht, hmem] at hne
            exact hne rfl
      rw [this, zero_add]

/-- C77, assets, for every configuration: let `Q` be what goes in of an asset and is not paid, and `left` what the
wallet keeps of it outside the transaction. If nothing is due there is no change. If some UTxO left holds the asset, the
change is in one output when `Q` is at most the share `(left + Q) / n` of one accumulator; if it is more, it is in two
halves when half of the ada of the change exceeds the fee of an output, and otherwise one half is kept and the other
lost. If no UTxO left holds the asset, it is in one output. -/
theorem C77_asset_exact {avail L : List Utxo} (hC : THCase W avail st ins outs) (hmm : W.cfg.min ≤ W.cfg.max)
    (hdiv : ∀ q n, W.div q n = q / n) (hn : 0 < W.cfg.accumulatorsAssets)
    (hq : ∀ u ∈ avail ++ ins, ∀ a ∈ u.assets, 0 ≤ a.quantity)
    (hfee : ∀ s o f, E.feeOut s o = .ok f → 0 ≤ f)
    (h : thermostat E W st est (Setup.fromFixed ins outs ch) = (.ok (r, est'), st'))
    (hL : avail.Perm (r.chosen ++ L)) {t : Token} (ht : t ≠ mainToken) :
    let cs := r.changes.filter (fun o => o.assets.map (·.fingerprint) = [t])
    let Q := assetIn t ins + assetIn t r.chosen - assetOut t outs
    let left := (L.map (held t)).sum
    assetOut t r.changes = assetOut t cs ∧
    ((cs = [] ∧ Q = 0) ∨
    (∃ o, cs = [o] ∧ 0 < Q ∧ W.cfg.min ≤ o.value ∧ assetSum t o.assets = Q ∧
      ((∃ u ∈ L, Holds t u) → W.cfg.accumulatorsAssets * Q ≤ left + Q)) ∨
    (∃ o x e y fee, cs = [o, x] ∧ 0 < Q ∧ (∃ u ∈ L, Holds t u) ∧ left + Q < W.cfg.accumulatorsAssets * Q ∧
      assetSum t x.assets = ((Q / 2).floor : ℚ) ∧ assetSum t o.assets = Q - ((Q / 2).floor : ℚ) ∧
      E.feeOut e y = .ok fee ∧ W.cfg.min ≤ o.value + x.value + fee ∧
      fee < trunc ((o.value + x.value + fee) / 2)) ∨
    (∃ o e y fee, cs = [o] ∧ 0 < Q ∧ (∃ u ∈ L, Holds t u) ∧ left + Q < W.cfg.accumulatorsAssets * Q ∧
      assetSum t o.assets = Q - ((Q / 2).floor : ℚ) ∧ W.cfg.min ≤ o.value ∧
      E.feeOut e y = .ok fee ∧ trunc (o.value / 2) ≤ fee)) := by
  intro cs Q left
  have hn' : (0 : ℚ) < W.cfg.accumulatorsAssets := by exact_mod_cast hn
  have hkt : kindFor t = [t] := if_neg ht
  obtain ⟨hk, hcs⟩ := outcomes_of hC hmm hq h hL t
  refine ⟨by
    have := assetOut_kind ht hk
    rw [hkt] at this
    exact this, ?_⟩
  rw [hkt] at hcs
  change (cs = [] ∧ _) ∨ ∃ c o x, cs = _ ∧ _ at hcs
  rcases hcs with ⟨hcs, hdue⟩ | ⟨c, o, x, hcs, hu, ho, hdue⟩
  · left
    exact ⟨hcs, by change _ - _ = _; rw [hdue]; ring⟩
  · right
    obtain ⟨a, ha, haf, _, hpos⟩ : ∃ a, c.assets = [a] ∧ a.fingerprint = t ∧ True ∧ 0 < a.quantity := by
      rcases hu with ⟨_, _, b⟩ | ⟨b, _⟩
      · obtain ⟨a, h1, h2, _, h3⟩ := b.asset
        exact ⟨a, h1, h2, trivial, h3⟩
      · exact absurd (b.trans hC.main) ht
    have hlow : W.cfg.min ≤ c.value := by
      rcases hu with ⟨_, _, b⟩ | ⟨b, _⟩
      · exact b.low
      · exact absurd (b.trans hC.main) ht
    have hsum1 : ∀ q, assetSum t [{ a with quantity := q }] = q := by
      intro q; simp [assetSum, haf]
    have hsum : assetSum t c.assets = a.quantity := by rw [ha]; exact hsum1 a.quantity
    have hQa : Q = a.quantity := by
      change _ - _ = _
      rw [hdue, hsum]; ring
    have hlarge : ∀ b, Large W b c 0 ↔ b + a.quantity < W.cfg.accumulatorsAssets * a.quantity := by
      intro b
      unfold Large
      rw [ha]
      simp only
      rw [hdiv, div_lt_iff₀ hn', mul_comm]
    have hdiv2 : ∀ q, W.div q 2 = q / 2 := by
      intro q
      have := hdiv q 2
      push_cast at this
      exact this
    have hpoor : ∀ {e o' fee}, E.feeOut e o' = .ok fee → (Poor W c fee ↔ trunc (c.value / 2) ≤ fee) := by
      intro e o' fee hf
      have f0 := hfee _ _ _ hf
      have hfl : trunc (W.div fee 2) ≤ fee := by
        rw [hdiv2]
        exact (trunc_le (by linarith)).trans (by linarith)
      unfold Poor
      rw [hdiv2 c.value]
      constructor
      · rintro (hp | hp) <;> linarith
      · exact Or.inr
    have hhalf : trunc (W.div a.quantity 2) = ((a.quantity / 2).floor : ℚ) := by
      rw [hdiv2, trunc_nonneg (by linarith)]
    rw [hQa]
    cases ho with
    | kept hkeep =>
      refine Or.inl ⟨c, by simpa using hcs, hpos, hlow, hsum, fun hex => ?_⟩
      rw [if_pos hex] at hkeep
      have := (hkeep _ rfl).1 (by rw [ha]; simp)
      rw [hlarge] at this
      exact not_lt.mp this
    | dropped ha' hb hl hf hp =>
      rename_i a' rest b fee e o'
      rw [ha] at ha'
      cases ha'
      have hex : ∃ u ∈ L, Holds t u := by
        by_contra hne
        rw [if_neg hne] at hb
        cases hb
      rw [if_pos hex] at hb
      cases hb
      rw [Option.toList_none] at hcs
      refine Or.inr (Or.inr ⟨_, _, _, fee, hcs, hpos, hex, (hlarge _).mp hl, ?_, hlow, hf, (hpoor hf).mp hp⟩)
      simp only [hsum1, hhalf]
    | asset ha' hb hl hf hp =>
      rename_i a' rest b fee e o'
      rw [ha] at ha'
      cases ha'
      have hex : ∃ u ∈ L, Holds t u := by
        by_contra hne
        rw [if_neg hne] at hb
        cases hb
      rw [if_pos hex] at hb
      cases hb
      have hv : c.value - (trunc (W.div c.value 2) - trunc (W.div fee 2)) - fee +
          (trunc (W.div c.value 2) - trunc (W.div fee 2)) + fee = c.value := by ring
      refine Or.inr (Or.inl ⟨_, _, _, _, fee, hcs, hpos, hex, (hlarge _).mp hl, ?_, ?_, hf, ?_, ?_⟩)
      · simp only [hsum1, hhalf]
      · simp only [hsum1, hhalf]
      · simp only; rw [hv]; exact hlow
      · simp only; rw [hv]
        rw [hpoor hf] at hp
        exact not_le.mp hp
    | main h' => rw [ha] at h'; cases h'

/-- C77, assets: let `Q` be what the changes return of an asset, and `left` what the wallet keeps of it outside the
transaction. If some UTxO left holds the asset, the change is in one output when `Q` is at most the share
`(left + Q) / n` of one accumulator and in two halves when it is more; if none is left, it is in one output. Missing:
configurations with a minimum so small that half of it does not pay for an output, see `C49_assets_false`. -/
theorem C77_asset_partial {avail L : List Utxo} (hC : THCase W avail st ins outs) (hmm : W.cfg.min ≤ W.cfg.max)
    (hdiv : ∀ q n, W.div q n = q / n) (hn : 0 < W.cfg.accumulatorsAssets)
    (hq : ∀ u ∈ avail ++ ins, ∀ a ∈ u.assets, 0 ≤ a.quantity)
    (hfee : ∀ s o f, E.feeOut s o = .ok f → 0 ≤ f ∧ f < ((W.cfg.min / 2).floor : ℚ))
    (h : thermostat E W st est (Setup.fromFixed ins outs ch) = (.ok (r, est'), st'))
    (hL : avail.Perm (r.chosen ++ L)) {t : Token} (ht : t ≠ mainToken) :
    let cs := r.changes.filter (fun o => o.assets.map (·.fingerprint) = [t])
    let Q := assetOut t r.changes
    let left := (L.map (held t)).sum
    (cs = [] ∧ Q = 0) ∨
    (∃ o, cs = [o] ∧ 0 < Q ∧ assetSum t o.assets = Q ∧
      ((∃ u ∈ L, Holds t u) → W.cfg.accumulatorsAssets * Q ≤ left + Q)) ∨
    (∃ o x, cs = [o, x] ∧ 0 < Q ∧ (∃ u ∈ L, Holds t u) ∧ left + Q < W.cfg.accumulatorsAssets * Q ∧
      assetSum t x.assets = ((Q / 2).floor : ℚ) ∧ assetSum t o.assets = Q - ((Q / 2).floor : ℚ)) := by
  obtain ⟨hsum, hex⟩ := C77_asset_exact hC hmm hdiv hn hq (fun s o f hf => (hfee s o f hf).1) h hL ht
  intro cs Q left
  change Q = assetOut t cs at hsum
  rcases hex with ⟨h1, h2⟩ | ⟨o, h1, h2, _, h4, h5⟩ | ⟨o, x, e, y, fee, h1, h2, h3, h4, h5, h6, _⟩ |
    ⟨o, e, y, fee, h1, h2, h3, h4, h5, h6, h7, h8⟩
  · exact Or.inl ⟨h1, by rw [hsum]; change cs = _ at h1; rw [h1]; rfl⟩
  · change cs = _ at h1
    have hQ : Q = assetIn t ins + assetIn t r.chosen - assetOut t outs := by
      rw [hsum, h1, ← h4]; simp [assetOut]
    rw [← hQ] at h2 h4 h5
    exact Or.inr (Or.inl ⟨o, h1, h2, h4, h5⟩)
  · change cs = _ at h1
    have hQ : Q = assetIn t ins + assetIn t r.chosen - assetOut t outs := by
      have : Q = assetSum t o.assets + assetSum t x.assets := by
        rw [hsum, h1]; simp [assetOut]
      rw [this, h5, h6]; ring
    rw [← hQ] at h2 h4 h5 h6
    exact Or.inr (Or.inr ⟨o, x, h1, h2, h3, h4, h5, h6⟩)
  · exfalso
    obtain ⟨f0, f1⟩ := hfee _ _ _ h7
    have hmle : ((W.cfg.min / 2).floor : ℚ) ≤ W.cfg.min / 2 := Rat.floor_le _
    have hmono : ((W.cfg.min / 2).floor : ℚ) ≤ trunc (o.value / 2) := by
      rw [← trunc_nonneg (by linarith)]
      exact trunc_mono (by linarith)
    linarith

/-- Assets, for every configuration and every estimator with non-negative fees: what goes in and is not paid comes back,
or exactly the rounded half of it is lost. It is lost only when a UTxO left holds the asset, more than the share of one
accumulator is due, and half of the ada of its single change does not exceed the fee of an output. So nothing of an
asset is ever created, and more is returned than lost. -/
theorem C49_assets_exact {avail L : List Utxo} (hC : THCase W avail st ins outs) (hmm : W.cfg.min ≤ W.cfg.max)
    (hdiv : ∀ q n, W.div q n = q / n) (hn : 0 < W.cfg.accumulatorsAssets)
    (hq : ∀ u ∈ avail ++ ins, ∀ a ∈ u.assets, 0 ≤ a.quantity)
    (hfee : ∀ s o f, E.feeOut s o = .ok f → 0 ≤ f)
    (h : thermostat E W st est (Setup.fromFixed ins outs ch) = (.ok (r, est'), st'))
    (hL : avail.Perm (r.chosen ++ L)) {t : Token} (ht : t ≠ mainToken) :
    let Q := assetIn t ins + assetIn t r.chosen - assetOut t outs
    0 ≤ Q ∧ (assetOut t r.changes = Q ∨
      (assetOut t r.changes = Q - ((Q / 2).floor : ℚ) ∧ (∃ u ∈ L, Holds t u) ∧
        (L.map (held t)).sum + Q < W.cfg.accumulatorsAssets * Q ∧
        ∃ o e y fee, r.changes.filter (fun o => o.assets.map (·.fingerprint) = [t]) = [o] ∧
          W.cfg.min ≤ o.value ∧ E.feeOut e y = .ok fee ∧ trunc (o.value / 2) ≤ fee)) ∧
    assetOut t r.changes ≤ Q ∧ Q ≤ 2 * assetOut t r.changes := by
  obtain ⟨hsum, hex⟩ := C77_asset_exact hC hmm hdiv hn hq hfee h hL ht
  intro Q
  have hfl : ((Q / 2).floor : ℚ) ≤ Q / 2 := Rat.floor_le _
  have hfl0 : 0 < Q → 0 ≤ ((Q / 2).floor : ℚ) := by
    intro hQ
    have : 0 ≤ (Q / 2).floor := by rw [Rat.le_floor_iff]; simpa using by linarith
    exact_mod_cast this
  have hone : ∀ o, assetOut t [o] = assetSum t o.assets := by intro o; simp [assetOut]
  rcases hex with ⟨h1, h2⟩ | ⟨o, h1, h2, _, h4, h5⟩ | ⟨o, x, e, y, fee, h1, h2, h3, h4, h5, h6, _⟩ |
    ⟨o, e, y, fee, h1, h2, h3, h4, h5, h6, h7, h8⟩
  · have e1 : assetOut t r.changes = 0 := by rw [hsum, h1]; rfl
    change Q = 0 at h2
    rw [e1, h2]
    simp
  · have e1 : assetOut t r.changes = Q := by rw [hsum, h1, hone]; exact h4
    change 0 < Q at h2
    exact ⟨by linarith, Or.inl e1, by linarith, by linarith⟩
  · have e1 : assetOut t r.changes = Q := by
      have htwo : assetOut t [o, x] = assetSum t o.assets + assetSum t x.assets := by simp [assetOut]
      rw [hsum, h1, htwo, h5, h6]
      change Q - ((Q / 2).floor : ℚ) + ((Q / 2).floor : ℚ) = Q
      ring
    change 0 < Q at h2
    exact ⟨by linarith, Or.inl e1, by linarith, by linarith⟩
  · have e1 : assetOut t r.changes = Q - ((Q / 2).floor : ℚ) := by rw [hsum, h1, hone]; exact h5
    change 0 < Q at h2
    have := hfl0 h2
    exact ⟨by linarith, Or.inr ⟨e1, h3, h4, o, e, y, fee, h1, h6, h7, h8⟩, by linarith, by linarith⟩

/-- C77, the main token: let `V` be what the changes without assets hold and `left` the main token in the UTxOs left. If
any is left, a single such change is at most the share `(left + V) / n` of one accumulator plus the fee of an output, or
too small to pay for a second output with half of it; two such changes are more than a share, and the halves of what the
change held before the fee of the second was taken. -/
theorem C77_main {avail L : List Utxo} (hC : THCase W avail st ins outs) (hmm : W.cfg.min ≤ W.cfg.max)
    (hdiv : ∀ q n, W.div q n = q / n) (hn : 0 < W.cfg.accumulators)
    (hq : ∀ u ∈ avail ++ ins, ∀ a ∈ u.assets, 0 ≤ a.quantity)
    (hfee : ∀ s o f, E.feeOut s o = .ok f → 0 ≤ f)
    (h : thermostat E W st est (Setup.fromFixed ins outs ch) = (.ok (r, est'), st'))
    (hL : avail.Perm (r.chosen ++ L)) :
    let cs := r.changes.filter (fun o => o.assets = [])
    let left := (L.map (·.value)).sum
    cs = [] ∨
    (∃ o, cs = [o] ∧ (L ≠ [] → ∃ e fee, E.feeOut e o = .ok fee ∧
      (o.value / 2 < fee + 1 ∨ W.cfg.accumulators * (o.value - fee) ≤ left + o.value))) ∨
    (∃ o x e c fee, cs = [o, x] ∧ L ≠ [] ∧ E.feeOut e c = .ok fee ∧
      c.value = o.value + x.value + fee ∧ c.assets = [] ∧ left + c.value < W.cfg.accumulators * (c.value - fee) ∧
      fee < x.value + ((fee / 2).floor : ℚ) ∧
      x.value = ((c.value / 2).floor : ℚ) - ((fee / 2).floor : ℚ)) := by
  intro cs left
  have hn' : (0 : ℚ) < W.cfg.accumulators := by exact_mod_cast hn
  have hkt : kindFor mainToken = [] := if_pos rfl
  obtain ⟨_, hcs⟩ := outcomes_of hC hmm hq h hL mainToken
  have hcs' : cs = r.changes.filter (fun o => kindOf o = kindFor mainToken) := by
    apply List.filter_congr
    intro o _
    rw [hkt]
    simp [kindOf]
  rw [← hcs'] at hcs
  have hex : (∃ u ∈ L, Holds mainToken u) ↔ L ≠ [] := by
    constructor
    · rintro ⟨u, hu, _⟩ e
      rw [e] at hu; cases hu
    · intro e
      obtain ⟨u, hu⟩ := List.exists_mem_of_ne_nil _ e
      exact ⟨u, hu, Or.inl rfl⟩
  have hleft : (L.map (held mainToken)).sum = left := by
    have : held mainToken = fun u => u.value := by funext u; simp [held]
    rw [this]
  rw [hleft] at hcs
  simp only [hex] at hcs
  rcases hcs with ⟨hcs, _⟩ | ⟨c, o, x, hcs, hu, ho, _⟩
  · exact Or.inl hcs
  · right
    have ha : c.assets = [] := by
      rcases hu with ⟨_, b, _⟩ | ⟨_, b⟩
      · exact absurd hC.main.symm b
      · exact b.assets
    have hlarge : ∀ b fee, Large W b c fee ↔ b + c.value < W.cfg.accumulators * (c.value - fee) := by
      intro b fee
      unfold Large
      rw [ha]
      simp only
      rw [hdiv, div_lt_iff₀ hn', mul_comm]
    have d2 : ∀ q, W.div q 2 = q / 2 := by
      intro q
      have := hdiv q 2
      push_cast at this
      exact this
    have hpoor : ∀ {fee : ℚ}, 0 ≤ fee → (Poor W c fee ↔ trunc (c.value / 2) ≤ fee) := by
      intro fee f0
      unfold Poor
      rw [d2, d2]
      refine ⟨?_, Or.inr⟩
      rintro (hp | hp)
      · exact hp.trans ((trunc_le (by linarith)).trans (by linarith))
      · exact hp
    cases ho with
    | kept hkeep =>
      refine Or.inl ⟨c, by simpa using hcs, fun hne => ?_⟩
      rw [if_pos hne] at hkeep
      obtain ⟨e, fee, hf, hor⟩ := (hkeep _ rfl).2 ha hC.main.symm
      refine ⟨e, fee, hf, ?_⟩
      rcases hor with hp | hp
      · left
        rw [hpoor (hfee _ _ _ hf)] at hp
        have f0 := hfee _ _ _ hf
        by_cases h1 : c.value / 2 < 1
        · linarith
        · rw [trunc_nonneg (by linarith)] at hp
          have : c.value / 2 < ((c.value / 2).floor : ℚ) + 1 := by exact_mod_cast Rat.lt_floor_add_one (c.value / 2)
          linarith
      · right
        rw [hlarge] at hp
        exact not_lt.mp hp
    | dropped h' => rw [ha] at h'; cases h'
    | asset h' => rw [ha] at h'; cases h'
    | main _h1 _h2 hb hl hf hp =>
      rename_i b fee e
      have f0 := hfee _ _ _ hf
      have hne : L ≠ [] := by
        intro e
        rw [if_neg (by simpa using e)] at hb
        cases hb
      rw [if_pos hne] at hb
      cases hb
      rw [hpoor f0] at hp
      have hpos : 0 ≤ c.value / 2 := by
        by_contra hneg
        apply hp
        unfold trunc
        rw [if_pos (by linarith)]
        exact f0
      refine Or.inr ⟨_, _, e, c, fee, hcs, hne, hf, ?_, ha, (hlarge _ _).mp hl, ?_, ?_⟩
      · simp only; ring
      · simp only [d2]
        rw [trunc_nonneg (by linarith : (0:ℚ) ≤ fee / 2)]
        linarith [not_le.mp hp]
      · simp only [d2]
        rw [trunc_nonneg hpos, trunc_nonneg (by linarith)]

/-! ### A case, and a counterexample -/

/-- The amount of an asset in the outputs of a view. -/
theorem assetOut_view (t : Token) {os : List Output} {vs : List (ℚ × List (Token × ℚ))}
    (h : os.map (fun o => (o.value, o.assets.map (fun a => (a.fingerprint, a.quantity)))) = vs) :
    assetOut t os = (vs.map (fun v => ((v.2.filter (fun x => x.1 = t)).map (·.2)).sum)).sum := by
  subst h
  unfold assetOut
  rw [List.map_map]
  congr 1
  apply List.map_congr_left
  intro o _
  simp only [Function.comp_apply, assetSum]
  rw [List.filter_map, List.map_map]
  rfl

/-- What `th_sample` leaves. -/
theorem th_sample_left {r : Result} {est' : LE} {st' : UStore}
    (e : thermostat thE (thW {}) (thStore thAvail) thEst (Setup.fromFixed [] thOuts (some 5)) = (.ok (r, est'), st'))
    (e3 : r.chosen.map (·.ptr) = [1]) : thAvail.Perm (r.chosen ++ [⟨2, 500000000, [⟨7, 100, 1, 2⟩], 0⟩]) := by
  obtain ⟨q1, _, q3, q4⟩ := C51_selection th_sample_case e
  have hr : r.chosen = [⟨1, 500000000, [⟨7, 100, 1, 2⟩], 0⟩] := by
    match hc : r.chosen with
    | [] => rw [hc] at e3; simp at e3
    | _ :: _ :: _ => rw [hc] at e3; simp at e3
    | [u] =>
      rw [hc] at e3 q1
      simp only [List.map_cons, List.map_nil, List.cons.injEq, and_true] at e3
      have hu : u ∈ thAvail := q1.mem_iff.mpr (by simp)
      simp only [thAvail, List.mem_cons, List.not_mem_nil, or_false] at hu
      rcases hu with rfl | rfl
      · rfl
      · simp at e3
  rw [hr]
  exact List.Perm.refl _

/-- The hypotheses hold in the case `th_sample`, in which both changes are split: one UTxO with 100 of the asset is left,
90 are returned, and twenty accumulators are wanted. -/
example : ∃ r est' st', thermostat thE (thW {}) (thStore thAvail) thEst (Setup.fromFixed [] thOuts (some 5)) =
      (.ok (r, est'), st') ∧
    (∃ o x, r.changes.filter (fun o => o.assets.map (·.fingerprint) = [7]) = [o, x] ∧ assetSum 7 x.assets = 45 ∧
      assetSum 7 o.assets = 45) ∧
    (∃ o x, r.changes.filter (fun o => o.assets = []) = [o, x]) := by
  obtain ⟨r, est', e1, _, _, e2, e3⟩ := th_ok th_sample
  have hQ : assetOut 7 r.changes = 90 := by rw [assetOut_view 7 e2]; decide +kernel
  have hlen : ∀ k : List Token, (r.changes.filter (fun o => o.assets.map (·.fingerprint) = k)).length =
      (([(99996678, [(7, 45)]), (144905458, []), (99996678, [(7, 45)]), (144905457, [])] :
        List (ℚ × List (Token × ℚ))).filter (fun v => v.2.map (·.1) = k)).length := by
    intro k
    simp only at e2
    rw [← e2, List.filter_map, List.length_map]
    congr 2
    funext o
    simp [List.map_map, Function.comp_def]
  have hfee : ∀ s o f, thE.feeOut s o = .ok f → 0 ≤ f ∧ f < (((thW {}).cfg.min / 2).floor : ℚ) := by
    intro s o f h
    simp only [thE, linearEstimator, Except.ok.injEq] at h
    subst h
    exact ⟨by decide +kernel, by decide +kernel⟩
  refine ⟨r, est', _, e1, ?_, ?_⟩
  · rcases C77_asset_partial th_sample_case (by decide +kernel) (fun _ _ => rfl) (by decide) (by decide +kernel) hfee e1
      (th_sample_left e1 e3) (t := 7) (by decide) with ⟨_, h⟩ | ⟨o, h, _⟩ | ⟨o, x, h, _, _, _, h1, h2⟩
    · rw [hQ] at h; exact absurd h (by decide +kernel)
    · have := hlen [7]
      rw [h, List.length_singleton] at this
      exact absurd this (by decide +kernel)
    · rw [hQ] at h1 h2
      exact ⟨o, x, h, h1.trans (by decide +kernel), h2.trans (by decide +kernel)⟩
  · have hlen := hlen []
    simp only [List.map_eq_nil_iff] at hlen
    rcases C77_main th_sample_case (by decide +kernel) (fun _ _ => rfl) (by decide) (by decide +kernel)
      (fun s o f h => (hfee s o f h).1) e1 (th_sample_left e1 e3) with h | ⟨o, h, _⟩ | ⟨o, x, _, _, _, h, _⟩
    · rw [h] at hlen
      exact absurd hlen (by decide +kernel)
    · rw [h, List.length_singleton] at hlen
      exact absurd hlen (by decide +kernel)
    · exact ⟨o, x, h⟩

/-- The hypotheses of `C49_assets_exact` and `C77_asset_exact` hold where half of the asset is lost: 45 of 90 come back. -/
example : ∃ r est' st', thermostat thE (thW { min := 0, max := 10000 }) (thStore thAvail) thEst
      (Setup.fromFixed [] thOuts (some 5)) = (.ok (r, est'), st') ∧ assetOut 7 r.changes = 45 ∧
    assetIn 7 [] + assetIn 7 r.chosen - assetOut 7 thOuts ≤ 90 := by
  have h1 : thView thE (thermostat thE (thW { min := 0, max := 10000 }) (thStore thAvail) thEst
      (Setup.fromFixed [] thOuts (some 5))) =
      (some ⟨189085, some 189085, [1], [(10000, [(7, 45)]), (244900458, []), (244900457, [])]⟩, [2]) := by
    decide +kernel
  obtain ⟨r, est', e1, _, _, e2, e3⟩ := th_ok h1
  have hC : THCase (thW { min := 0, max := 10000 }) thAvail (thStore thAvail) [] thOuts :=
    ⟨fun l => List.Perm.refl l, fun l => List.Perm.refl l, fun l => List.Perm.refl l, th_sample_case.store, rfl,
      by decide +kernel⟩
  have hQ : assetOut 7 r.changes = 45 := by rw [assetOut_view 7 e2]; decide +kernel
  obtain ⟨_, _, _, h4⟩ := C49_assets_exact hC (by decide +kernel) (fun _ _ => rfl) (by decide) (by decide +kernel)
    (by
      intro s o f h
      simp only [thE, linearEstimator, Except.ok.injEq] at h
      subst h
      decide +kernel) e1 (C51_selection hC e1).1 (t := 7) (by decide)
  refine ⟨r, est', _, e1, hQ, ?_⟩
  rw [hQ] at h4
  linarith

/-- A change may be larger than the share of one accumulator, since it is split at most once: of 190 of an asset with
twenty accumulators wanted, two changes hold 45 each. -/
theorem C77_share_false : ¬ ∀ (W : Thermostat.World) (avail L : List Utxo) (st st' : UStore) (est est' : LE)
    (ins : List Utxo) (outs : List Output) (ch : Option Nat) (r : Result), THCase W avail st ins outs →
    W.cfg.min ≤ W.cfg.max → (∀ q n, W.div q n = q / n) → (∀ u ∈ avail ++ ins, ∀ a ∈ u.assets, 0 ≤ a.quantity) →
    thermostat thE W st est (Setup.fromFixed ins outs ch) = (.ok (r, est'), st') → avail.Perm (r.chosen ++ L) →
    ∀ t, t ≠ mainToken → (∃ u ∈ L, Holds t u) → ∀ o ∈ r.changes,
      W.cfg.accumulatorsAssets * assetSum t o.assets ≤ (L.map (held t)).sum + assetOut t r.changes := by
  intro h
  obtain ⟨r, est', e1, _, _, e2, e3⟩ := th_ok th_sample
  have h2 := h _ _ _ _ _ _ _ _ _ _ _ th_sample_case (by decide +kernel) (fun _ _ => rfl) (by decide +kernel) e1
    (th_sample_left e1 e3) 7 (by decide) ⟨⟨2, 500000000, [⟨7, 100, 1, 2⟩], 0⟩, by simp, Or.inr ⟨⟨7, 100, 1, 2⟩, by simp, rfl⟩⟩
  rw [assetOut_view 7 e2] at h2
  match hc : r.changes with
  | [] => rw [hc] at e2; simp at e2
  | o :: _ =>
    rw [hc] at e2
    simp only [List.map_cons, List.cons.injEq, Prod.mk.injEq] at e2
    have h3 := h2 o (by rw [hc]; simp)
    have h4 : assetSum 7 o.assets = 45 := by
      have : assetOut 7 [o] = assetSum 7 o.assets := by simp [assetOut]
      rw [← this, assetOut_view 7 (vs := [(o.value, [(7, 45)])]) (by simp [e2.1.2])]
      simp
    rw [h4] at h3
    revert h3
    decide +kernel

end Verif.Props
