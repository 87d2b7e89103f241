import Verif.Selection.ThermostatAssets

/-!
# Whole runs of the thermostat: assets and fee
-/

namespace Verif.Selection.Thermostat

open Verif Verif.Core

section

variable {σ : Type} {E : Estimator σ} {W : World} {req : Request}

theorem trunc_mono {p q : ℚ} (h : p ≤ q) : trunc p ≤ trunc q := by
  unfold trunc
  split
  · split
    · exact le_refl _
    · rename_i h2
      have : (0 : ℤ) ≤ q.floor := by
        rw [Rat.le_floor_iff]
        push_cast
        linarith [not_lt.mp h2]
      exact_mod_cast this
  · rename_i h1
    rw [if_neg (by linarith)]
    have : p.floor ≤ q.floor := Rat.floor_monotone h
    exact_mod_cast this

theorem trunc_le {q : ℚ} (h : 0 ≤ q) : trunc q ≤ q := by
  unfold trunc
  split
  · exact h
  · exact Rat.floor_le q

/-- With a charge below half of the amount nothing is dropped. -/
theorem not_drops (hdiv : ∀ q, W.div q 2 = q / 2) {value fee m : ℚ} (hm : m ≤ value) (h0 : 0 ≤ fee)
    (hf : fee < trunc (m / 2)) : ¬ Drops W value fee := by
  unfold Drops
  rw [hdiv, hdiv, not_or, not_le, not_le]
  have h1 : trunc (m / 2) ≤ trunc (value / 2) := trunc_mono (by linarith)
  have h2 : trunc (fee / 2) ≤ fee / 2 := trunc_le (by linarith)
  constructor <;> linarith

theorem splits_asset {toks : List Token} {base : Token → ℚ} {st : UStore} {ts : List Token} {s s' : TS σ}
    (hdiv : ∀ q, W.div q 2 = q / 2)
    (hfee : ∀ s o f, E.feeOut s o = .ok f → 0 ≤ f ∧ f < trunc (W.cfg.min / 2))
    (hn : ts.Nodup) (h : forTokens (splitOne E W st) ts s = .ok s') (ha : AssetOK W toks base s)
    (hw : ∀ t ∈ ts, ∀ o, s.changes.get t = some o → t ≠ W.cfg.main → W.cfg.min ≤ o.value) :
    AssetOK W toks base s' := by
  induction ts generalizing s with
  | nil => cases h; exact ha
  | cons t ts ih =>
    simp only [forTokens] at h
    split at h
    · cases h
    · rename_i s1 h1
      rw [List.nodup_cons] at hn
      refine ih hn.2 h (splitOne_asset ?_ h1 ha) ?_
      · rintro ch a rest fee hg _ hm ⟨o, ho⟩
        exact not_drops hdiv (hw t (by simp) ch hg hm) (hfee _ _ _ ho).1 (hfee _ _ _ ho).2
      · intro t' ht' o ho hm
        have : t' ≠ t := fun e => hn.1 (e ▸ ht')
        rw [(splitOne_keeps h1).2.2 t' this] at ho
        exact hw t' (by simp [ht']) o ho hm

theorem StoreOK.fingerprints {L : List Utxo} {st : UStore} (h : StoreOK L st) {u : Utxo} (hu : u ∈ L) :
    ∀ a ∈ u.assets, a.fingerprint ≠ mainToken := by
  intro a ha e
  exact (h.distinct u hu).2 (List.mem_map.mpr ⟨a, ha, e⟩)

theorem splits_keeps {st : UStore} {ts : List Token} {s s' : TS σ}
    (h : forTokens (splitOne E W st) ts s = .ok s') :
    s'.selected = s.selected ∧ s'.assets = s.assets :=
  forTokens_inv (fun x => x.selected = s.selected ∧ x.assets = s.assets)
    (fun _ _ _ hb ⟨h1, h2⟩ => ⟨(splitOne_keeps hb).1.trans h1, (splitOne_keeps hb).2.1.trans h2⟩) h
    ⟨rfl, rfl⟩

/-- The assets of a finished run. -/
theorem select_assets (ho : ∀ l, (W.ord l).Perm l) (hk : ∀ l, (W.keyOrder l).Perm l)
    (hc : ∀ l, (W.changeOrder l).Perm l) (hmt : W.cfg.main = mainToken)
    (hmm : W.cfg.min ≤ W.cfg.max) (hdiv : ∀ q, W.div q 2 = q / 2)
    (hfee : ∀ s o f, E.feeOut s o = .ok f → 0 ≤ f ∧ f < trunc (W.cfg.min / 2))
    {avail L : List Utxo} {s s' : TS σ} {st st' : UStore} {base : Token → ℚ}
    (h : select E W req st s = .ok (s', st')) (hi : SelInv avail L s st)
    (hmain : W.cfg.main ∉ s.assets.keys) (hch : s.changes = [])
    (hnet : ∀ t, assetNet s.assets t =
      base t + (s.selected.map (fun u => assetSum t u.assets)).sum - changeAsset t s) (t : Token) :
    base t + (s'.selected.map (fun u => assetSum t u.assets)).sum = changeAsset t s' := by
  have hp0 : AssetOK W (W.keyOrder s.assets.keys) base s :=
    ⟨hnet, by intro t o h; rw [hch] at h; simp at h, fun t ht => (hk _).mem_iff.mpr ht,
      by intro t o h; rw [hch] at h; simp at h, by rw [hch]; simp⟩
  obtain ⟨s2, st2, s3, L3, s4, s5, b, p2, d2, hb1, hb2, _, ht, p3, d3, i3, h4, p4, h5, h6⟩ :=
    select_phases (E := E) (req := req) ho (toks := W.keyOrder s.assets.keys)
      (fun x => AssetOK W (W.keyOrder s.assets.keys) base x ∧ Warm W x) (fun _ => True) (fun _ _ _ _ _ => trivial)
      (fun L s st t u est' hi hp ht hu hh hpl ha =>
        ⟨addInput_asset hp.1 ht hpl (by rw [hmt]; exact StoreOK.fingerprints hi.store hu), hp.2⟩)
      (fun t a b st _ ht he hp =>
        ⟨balanceExcessOf_asset ht (fun e => hmain ((hk _).mem_iff.mp (e ▸ ht))) he hp.1,
          balanceExcessOf_warm hmm he hp.2⟩)
      NoDebt (fun t s u est' h => h.addInput u est') (fun t t' s s' st h hn => NoDebt.excess h hn)
      (fun L t s s' st b ht hi hp hcur hb he => NoDebt.excess he ⟨b, currentOf_ok hcur, hb⟩)
      h rfl (hk _) hmain hi trivial ⟨hp0, by intro t o h; rw [hch] at h; simp at h⟩
  -- balanced after round two
  obtain ⟨_, d4, _⟩ := round2_induct (toks := W.keyOrder s.assets.keys)
    (fun x => ∀ t ∈ W.keyOrder s.assets.keys, NoDebt t x)
    (fun t x => x.assets.get t = some .balanced)
    (fun t a b _ he hp t' ht' => NoDebt.excess he (hp t' ht'))
    (fun t t' a b he hb => balanced_keep he hb)
    (fun t a b ht hp he => balanceExcessOf_balanced he (hp t ht)) (fun t h => h) h4 d3
  have p5 : AssetOK W (W.keyOrder s.assets.keys) base s5 := balanceExcess_asset h5 p4.1
  have k5 := balanceExcess_keeps h5
  have p6 := splits_asset hdiv hfee ((hc _).nodup_iff.mpr p5.nodup) h6 p5 (by
    intro t' _ o ho hm
    rw [k5.2.2.2 t' hm] at ho
    exact p4.2 t' o ho hm)
  have e6 := splits_keeps h6
  have hz : assetNet s'.assets t = 0 := by
    rw [e6.2, k5.2.2.1]
    unfold assetNet
    by_cases hm : t ∈ W.keyOrder s.assets.keys
    · rw [d4 t hm]; rfl
    · have : t ∉ s4.assets.keys := fun h => hm (p4.1.keys t h)
      rw [(AMap.get_eq_none_iff _ _).mpr this]; rfl
  have := p6.net t
  rw [hz] at this
  linarith

/-! ### The fee -/

/-- An estimator that charges a constant for each input and each output. -/
structure Linear (E : Estimator σ) (cin cout : ℚ) : Prop where
  feeIn : ∀ s u, E.feeIn s u = .ok cin
  feeOut : ∀ s o, E.feeOut s o = .ok cout
  addIn : ∀ s u s' m, E.addIn s u = .ok s' → E.minFee s = .ok m → E.minFee s' = .ok (m + cin)
  addOut : ∀ s o s' m, E.addOut s o = .ok s' → E.minFee s = .ok m → E.minFee s' = .ok (m + cout)
  minValue : ∀ s o v s', E.minValueOut s o = .ok (v, s') → E.minFee s' = E.minFee s

/-- The balance covers the minimum fee. -/
def FeeOK (E : Estimator σ) (s : TS σ) : Prop := ∃ m, E.minFee s.est = .ok m ∧ m ≤ s.balance.net

theorem currentBalance_ok {s : TS σ} {b : Balance} (h : currentBalance E s = .ok b) :
    ∃ m, E.minFee s.est = .ok m ∧ b = s.balance.subValue m := by
  unfold currentBalance at h
  rw [bind_ok] at h
  obtain ⟨m, h1, h2⟩ := h
  cases h2
  exact ⟨m, h1, rfl⟩

theorem subValue_pos (b : Balance) (r : ℚ) {x : ℚ} (h : b.subValue r = .excess x) : 0 < x := by
  cases b with
  | debt l => simp [Balance.subValue] at h
  | balanced => simp only [Balance.subValue] at h; split at h <;> cases h
  | excess l =>
    simp only [Balance.subValue] at h
    split at h
    · cases h
    · split at h
      · cases h
      · rename_i h1 h2
        cases h
        exact sub_pos.mpr (lt_of_le_of_ne (not_lt.mp h1) (Ne.symm h2))

theorem feeOK_of_noDebt {s : TS σ} {b : Balance} (h : currentBalance E s = .ok b) (hb : b.inDebt = false) :
    FeeOK E s := by
  obtain ⟨m, h1, rfl⟩ := currentBalance_ok h
  refine ⟨m, h1, ?_⟩
  have hn := net_subValue s.balance m
  have : 0 ≤ (s.balance.subValue m).net := by
    cases hx : s.balance.subValue m with
    | debt v => rw [hx] at hb; simp [Balance.inDebt] at hb
    | balanced => simp [Balance.net]
    | excess v => simp only [Balance.net]; exact le_of_lt (subValue_pos _ _ hx)
  linarith

/-- What is passed on to a change is positive and leaves the fee untouched. -/
theorem excessOr0_spec {s : TS σ} {b : Balance} {m : ℚ} (hm : E.minFee s.est = .ok m)
    (h : currentBalance E s = .ok b) (hf : m ≤ s.balance.net) :
    0 ≤ excessOr0 b ∧ m ≤ s.balance.net - excessOr0 b := by
  obtain ⟨m', h1, rfl⟩ := currentBalance_ok h
  rw [hm] at h1; cases h1
  have hn := net_subValue s.balance m
  cases hx : s.balance.subValue m with
  | debt v => simp only [excessOr0]; exact ⟨le_refl _, by linarith⟩
  | balanced => simp only [excessOr0]; exact ⟨le_refl _, by linarith⟩
  | excess v =>
    simp only [excessOr0]
    rw [hx] at hn
    have hv : (Balance.excess v).net = v := rfl
    rw [hv] at hn
    exact ⟨le_of_lt (subValue_pos _ _ hx), by linarith⟩

theorem clamp_warm {o : Output} {b : Balance} (h : W.cfg.min ≤ o.value) : b.net ≤ (clamp W o b).2.net := by
  unfold clamp
  rw [if_neg (not_lt.mpr h)]
  split
  · rw [net_addValue]; linarith
  · exact le_refl _

theorem Plain.other {t t' : Token} {u : Utxo} (h : Plain t u) (hne : t' ≠ t) : assetSum t' u.assets = 0 := by
  have : u.assets.filter (fun a => a.fingerprint = t') = [] := by
    rw [List.filter_eq_nil_iff]
    intro a ha
    rw [h.2 a ha]
    simpa using hne.symm
  unfold assetSum
  rw [this]; rfl

/-- What the UTxOs lack of their own cost. -/
def lacking (cin : ℚ) (us : List Utxo) : ℚ := (us.map (fun u => max 0 (cin - u.value))).sum

theorem lacking_nonneg (cin : ℚ) (us : List Utxo) : 0 ≤ lacking cin us := by
  apply List.sum_nonneg
  intro x hx
  obtain ⟨u, _, rfl⟩ := List.mem_map.mp hx
  exact le_max_left _ _

/-- The balance covers the minimum fee but for `δ`. -/
def FeeBut (E : Estimator σ) (δ : ℚ) (s : TS σ) : Prop := ∃ m, E.minFee s.est = .ok m ∧ m ≤ s.balance.net + δ

theorem excessOr0_but {s : TS σ} {b : Balance} {m δ : ℚ} (hδ : 0 ≤ δ) (hm : E.minFee s.est = .ok m)
    (h : currentBalance E s = .ok b) (hf : m ≤ s.balance.net + δ) :
    0 ≤ excessOr0 b ∧ m ≤ s.balance.net - excessOr0 b + δ := by
  by_cases h0 : m ≤ s.balance.net
  · obtain ⟨h1, h2⟩ := excessOr0_spec hm h h0
    exact ⟨h1, by linarith⟩
  · obtain ⟨m', h1, rfl⟩ := currentBalance_ok h
    rw [hm] at h1; cases h1
    have hn := net_subValue s.balance m
    cases hx : s.balance.subValue m with
    | debt v => simp only [excessOr0]; exact ⟨le_refl _, by linarith⟩
    | balanced => simp only [excessOr0]; exact ⟨le_refl _, by linarith⟩
    | excess v =>
      exfalso
      rw [hx] at hn
      have hv : (Balance.excess v).net = v := rfl
      rw [hv] at hn
      have := subValue_pos _ _ hx
      linarith

theorem addInput_but {cin cout : ℚ} (hl : Linear E cin cout) {s : TS σ} {u : Utxo} {est' : σ}
    (ha : E.addIn s.est u = .ok est') (h : FeeBut E (lacking cin s.selected) s) :
    FeeBut E (lacking cin (addInput { s with est := est' } u).selected) (addInput { s with est := est' } u) := by
  obtain ⟨m, h1, h2⟩ := h
  refine ⟨m + cin, hl.addIn _ _ _ _ ha h1, ?_⟩
  simp only [addInput, net_addValue, lacking, List.map_append, List.sum_append, List.map_cons, List.map_nil,
    List.sum_cons, List.sum_nil]
  have := le_max_right 0 (cin - u.value)
  unfold lacking at h2
  linarith

/-- An asset that already has its change does not make the fee smaller. -/
theorem balanceExcessOf_but {δ : ℚ} (hδ : 0 ≤ δ) {st : UStore} {t : Token} {s s' : TS σ} (hm : t ≠ W.cfg.main)
    (h : balanceExcessOf E W req st t s = .ok s') (hs : (s.changes.get t).isSome) (hw : Warm W s)
    (hf : FeeBut E δ s) : FeeBut E δ s' := by
  rcases balanceExcessOf_ok h with ⟨rfl, _⟩ | ⟨x, addr, b, s1, o, o1, hc, _, hb, h2, h3, rfl⟩
  · exact hf
  · obtain ⟨m, h4, h5⟩ := hf
    obtain ⟨h6, h7⟩ := excessOr0_but hδ h4 hb h5
    obtain ⟨o0, ho0⟩ := Option.isSome_iff_exists.mp hs
    unfold openChange at h2
    simp only [ho0] at h2
    cases h2
    refine ⟨m, h4, ?_⟩
    have h8 := addToChange_value h3
    have h9 : W.cfg.min ≤ o1.value := by
      rw [h8]
      have := hw t o0 ho0 hm
      simp only
      linarith
    have := clamp_warm (W := W) (b := s.balance.subValue (excessOr0 b)) h9
    rw [net_subValue] at this
    exact le_trans h7 (by linarith)

theorem balanceExcess_but {cin cout δ : ℚ} (hδ : 0 ≤ δ) (hl : Linear E cin cout) {s s' : TS σ}
    (h : balanceExcess E W req s = .ok s') (hf : FeeBut E δ s) : FeeBut E δ s' := by
  obtain ⟨m, h1, h2⟩ := hf
  obtain ⟨b, hb, ⟨rfl, _⟩ | ⟨x, addr, rfl, _, ⟨o, ho, rfl⟩ |
    ⟨hg, need, est, hv, rfl | ⟨fee, est', hfo, _, hao, rfl⟩⟩⟩⟩ := balanceExcess_ok h
  · exact ⟨m, h1, h2⟩
  · have := (excessOr0_but hδ h1 hb h2).2
    refine ⟨m, h1, ?_⟩
    simp only [net_subValue]
    exact this
  · exact ⟨m, by rw [hl.minValue _ _ _ _ hv]; exact h1, h2⟩
  · have := (excessOr0_but hδ h1 hb h2).2
    rw [hl.feeOut] at hfo
    cases hfo
    refine ⟨m + cout, hl.addOut _ _ _ _ hao (by rw [hl.minValue _ _ _ _ hv]; exact h1), ?_⟩
    simp only [net_subValue]
    simp only [excessOr0] at this
    linarith

theorem splitOne_but {cin cout δ : ℚ} (hl : Linear E cin cout) {st : UStore} {t : Token} {s s' : TS σ}
    (h : splitOne E W st t s = .ok s') (hf : FeeBut E δ s) : FeeBut E δ s' := by
  obtain ⟨m, h1, h2⟩ := hf
  rcases splitOne_ok h with rfl | ⟨ch, a, rest, fee, hg, has, _, _, rfl⟩ |
    ⟨ch, as, as', fee, est', hg, _, hfo, _, _, hao, rfl⟩
  · exact ⟨m, h1, h2⟩
  · exact ⟨m, h1, h2⟩
  · rw [hl.feeOut] at hfo
    cases hfo
    refine ⟨m + cout, hl.addOut _ _ _ _ hao h1, ?_⟩
    simp only [splitState, net_addValue]
    linarith

/-- A run in which no asset is met exactly covers the minimum fee, but for what the chosen UTxOs lack of their own cost. -/
theorem select_but (ho : ∀ l, (W.ord l).Perm l) (hk : ∀ l, (W.keyOrder l).Perm l)
    (hmt : W.cfg.main = mainToken) (hmm : W.cfg.min ≤ W.cfg.max) {cin cout : ℚ} (hl : Linear E cin cout)
    {avail L : List Utxo} {s s' : TS σ} {st st' : UStore} {base : Token → ℚ}
    (h : select E W req st s = .ok (s', st')) (hi : SelInv avail L s st)
    (hmain : W.cfg.main ∉ s.assets.keys) (hch : s.changes = []) (hex : s.extra = [])
    (hnet : ∀ t, assetNet s.assets t =
      base t + (s.selected.map (fun u => assetSum t u.assets)).sum - changeAsset t s)
    (hexact : ∀ t ∈ s.assets.keys, ∀ used rest, avail.Perm (used ++ rest) →
      base t + (used.map (fun u => assetSum t u.assets)).sum ≠ 0) :
    FeeBut E (lacking cin s'.selected) s' ∧ ∀ u ∈ s'.selected, u ∈ avail := by
  have hp0 : AssetOK W (W.keyOrder s.assets.keys) base s :=
    ⟨hnet, by intro t o h; rw [hch] at h; simp at h, fun t ht => (hk _).mem_iff.mpr ht,
      by intro t o h; rw [hch] at h; simp at h, by rw [hch]; simp⟩
  obtain ⟨s2, st2, s3, L3, s4, s5, b, p2, d2, hb1, hb2, ⟨L2, i2⟩, ht, p3, d3, i3, h4, p4, h5, h6⟩ :=
    select_phases (E := E) (req := req) ho (toks := W.keyOrder s.assets.keys)
      (fun x => AssetOK W (W.keyOrder s.assets.keys) base x ∧ Warm W x ∧ x.extra = [])
      (fun _ => True) (fun _ _ _ _ _ => trivial)
      (fun L s st t u est' hi hp ht hu hh hpl ha =>
        ⟨addInput_asset hp.1 ht hpl (by rw [hmt]; exact StoreOK.fingerprints hi.store hu), hp.2.1, hp.2.2⟩)
      (fun t a b st _ ht he hp =>
        ⟨balanceExcessOf_asset ht (fun e => hmain ((hk _).mem_iff.mp (e ▸ ht))) he hp.1,
          balanceExcessOf_warm hmm he hp.2.1, by rw [(balanceExcessOf_keeps he).2.1]; exact hp.2.2⟩)
      (fun t x => (x.changes.get t).isSome) (fun t s u est' h => h)
      (fun t t' s s' st h hn => (balanceExcessOf_keeps h).2.2.2.1 t hn)
      (fun L t a a' st b ht hi hp hcur hb he => by
        by_cases hs : (a.changes.get t).isSome
        · exact (balanceExcessOf_keeps he).2.2.2.1 t hs
        · rcases balanceExcessOf_ok he with ⟨rfl, b', hb', hx⟩ |
            ⟨x, addr, b', s1, o, o1, _, _, _, h2, h3, rfl⟩
          · exfalso
            rw [hcur] at hb'; cases hb'
            have hbal : b = .balanced := by
              cases b with
              | debt v => simp [Balance.inDebt] at hb
              | balanced => rfl
              | excess v => exact absurd rfl (hx v)
            have hn := hp.1.net t
            rw [assetNet, currentOf_ok hcur, hbal] at hn
            simp only [Option.getD_some, Balance.net] at hn
            have hz : changeAsset t a' = 0 := by
              unfold changeAsset
              rw [hp.2.2]
              simp only [List.map_nil, List.sum_nil, add_zero]
              unfold mapSum
              apply List.sum_eq_zero
              intro y hy
              obtain ⟨⟨k, o⟩, hko, rfl⟩ := List.mem_map.mp hy
              have hget := AMap.get_of_mem hp.1.nodup hko
              rcases hp.1.shape k o hget with ⟨_, h0⟩ | ⟨_, c, h0, h1⟩
              · simp [h0]
              · have : k ≠ t := by
                  rintro rfl
                  exact hs (by rw [hget]; rfl)
                simp [h0, assetSum_cons, h1, this]
            have := hexact t ((hk _).mem_iff.mp ht) a'.selected L hi.perm
            apply this
            linarith
          · simp [AMap.get_insert])
      h rfl (hk _) hmain hi trivial ⟨hp0, by intro t o h; rw [hch] at h; simp at h, hex⟩
  have f2 : FeeBut E (lacking cin s2.selected) s2 := by
    obtain ⟨m, h1, h2⟩ := feeOK_of_noDebt hb1 hb2
    exact ⟨m, h1, by have := lacking_nonneg cin s2.selected; linarith⟩
  obtain ⟨f3, _⟩ := Takes.induct ho (fun x _ => FeeBut E (lacking cin x.selected) x)
    (fun L s st t u est' _ hi hp _ hu hh hpl ha _ => addInput_but hl ha hp) ht i2 f2
  have hδ := lacking_nonneg cin s3.selected
  obtain ⟨⟨f4, _⟩, _⟩ := round2_induct (toks := W.keyOrder s.assets.keys)
    (fun x => (FeeBut E (lacking cin s3.selected) x ∧ x.selected = s3.selected) ∧ Warm W x ∧
      ∀ t ∈ W.keyOrder s.assets.keys, (x.changes.get t).isSome)
    (fun _ _ => True)
    (fun t a b ht he hp => ⟨⟨balanceExcessOf_but hδ (fun e => hmain ((hk _).mem_iff.mp (e ▸ ht))) he
      (hp.2.2 t ht) hp.2.1 hp.1.1, (balanceExcessOf_keeps he).1.trans hp.1.2⟩, balanceExcessOf_warm hmm he hp.2.1,
      fun t' ht' => (balanceExcessOf_keeps he).2.2.2.1 t' (hp.2.2 t' ht')⟩)
    (fun _ _ _ _ _ _ => trivial) (fun _ _ _ _ _ _ => trivial) (fun t h => h) h4 ⟨⟨f3, rfl⟩, p3.2.1, d3⟩
  have f5 := balanceExcess_but hδ hl h5 f4.1
  have f6 := forTokens_inv (FeeBut E (lacking cin s3.selected)) (fun t a b => splitOne_but hl) h6 f5
  rw [(splits_keeps h6).1, (balanceExcess_keeps h5).1, f4.2]
  exact ⟨f6, fun u hu => i3.perm.mem_iff.mpr (by simp [hu])⟩

/-- A run in which no asset is met exactly covers the minimum fee. -/
theorem select_fee (ho : ∀ l, (W.ord l).Perm l) (hk : ∀ l, (W.keyOrder l).Perm l)
    (hmt : W.cfg.main = mainToken) (hmm : W.cfg.min ≤ W.cfg.max) {cin cout : ℚ} (hl : Linear E cin cout)
    {avail L : List Utxo} {s s' : TS σ} {st st' : UStore} {base : Token → ℚ}
    (h : select E W req st s = .ok (s', st')) (hi : SelInv avail L s st)
    (hworth : ∀ u ∈ avail, cin ≤ u.value)
    (hmain : W.cfg.main ∉ s.assets.keys) (hch : s.changes = []) (hex : s.extra = [])
    (hnet : ∀ t, assetNet s.assets t =
      base t + (s.selected.map (fun u => assetSum t u.assets)).sum - changeAsset t s)
    (hexact : ∀ t ∈ s.assets.keys, ∀ used rest, avail.Perm (used ++ rest) →
      base t + (used.map (fun u => assetSum t u.assets)).sum ≠ 0) :
    FeeOK E s' := by
  obtain ⟨⟨m, h1, h2⟩, hsel⟩ := select_but ho hk hmt hmm hl h hi hmain hch hex hnet hexact
  refine ⟨m, h1, ?_⟩
  have h3 : lacking cin s'.selected = 0 := by
    apply List.sum_eq_zero
    intro x hx
    obtain ⟨u, hu, rfl⟩ := List.mem_map.mp hx
    have := hworth u (hsel u hu)
    exact max_eq_left (by linarith)
  linarith

end

end Verif.Selection.Thermostat
