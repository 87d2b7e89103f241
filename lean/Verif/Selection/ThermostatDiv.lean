import Verif.Selection.ThermostatSplit

/-!
# The thermostat with a division that is right for whole numbers

The split is the only phase that divides. If the amounts are whole numbers it only asks on which side of a whole number a
quotient lies, and for its integer part, so a division that rounds late gives the same run as the exact one.
-/

namespace Verif.Selection.Thermostat

open Verif Verif.Core

/-- A division that is on the right side of every whole number, for whole numbers below `B`. -/
def RightDiv (B : ℚ) (d : ℚ → Nat → ℚ) : Prop := ∀ q, Whole q → 0 ≤ q → q < B → ∀ n, n ≠ 0 → ∀ c, Whole c →
  (c ≤ d q n ↔ c ≤ q / n) ∧ (d q n ≤ c ↔ q / n ≤ c)

/-- The world with exact division. -/
def World.exact (W : World) : World := { W with div := fun q n => q / n }

section

variable {σ : Type} {E : Estimator σ} {W : World} {req : Request} {B : ℚ}

theorem RightDiv.lt {d : ℚ → Nat → ℚ} (h : RightDiv B d) {q c : ℚ} {n : Nat} (hq : Whole q) (h0 : 0 ≤ q) (hB : q < B)
    (hn : n ≠ 0) (hc : Whole c) : d q n < c ↔ q / n < c := by
  rw [← not_le, ← not_le, (h q hq h0 hB n hn c hc).1]

theorem RightDiv.trunc {d : ℚ → Nat → ℚ} (h : RightDiv B d) {q : ℚ} (hq : Whole q) (h0 : 0 ≤ q) (hB : q < B) :
    trunc (d q 2) = trunc (q / 2) := by
  have key := fun c hc => (h q hq h0 hB 2 (by decide) c hc).1
  have h1 : d q 2 < 1 ↔ q / 2 < 1 := by
    rw [← not_le, ← not_le]
    have := key 1 ⟨1, by simp⟩
    push_cast at this
    rw [this]
  have h2 : (d q 2).floor = (q / 2).floor := by
    apply le_antisymm
    · rw [Rat.le_floor_iff]
      have := (key (((d q 2).floor : ℤ) : ℚ) ⟨_, rfl⟩).1 (Rat.le_floor_iff.1 le_rfl)
      push_cast at this
      exact this
    · rw [Rat.le_floor_iff]
      have := (key (((q / 2).floor : ℤ) : ℚ) ⟨_, rfl⟩).2 (by push_cast; exact Rat.le_floor_iff.1 le_rfl)
      exact this
  unfold Thermostat.trunc
  simp only [h1, h2]

/-- What a change must satisfy for its split not to depend on the rounding. -/
structure Splittable (B : ℚ) (st : UStore) (t : Token) (o : Output) : Prop where
  whole : WholeOut o
  value0 : 0 ≤ o.value
  valueB : o.value < B
  pos : ∀ a ∈ o.assets, 0 ≤ a.quantity ∧ a.quantity < B
  asset : ∀ total, st.balanceOf t = some total → Whole total ∧ 0 ≤ total ∧
    (∀ a ∈ o.assets, total + a.quantity < B) ∧ (o.assets = [] → total + o.value < B)

/-- Fees are whole numbers below `B` in the states with `I`. -/
def FeesBelow (E : Estimator σ) (I : σ → Prop) (B : ℚ) : Prop :=
  ∀ s o f, I s → E.feeOut s o = .ok f → Whole f ∧ 0 ≤ f ∧ f < B

variable {I : σ → Prop}

theorem splitOne_exact (hd : RightDiv B W.div) (hE : FeesBelow E I B) {st : UStore} {t : Token} {s : TS σ} (hI : I s.est)
    (hs : ∀ o, s.changes.get t = some o → Splittable B st t o) :
    splitOne E W st t s = splitOne E W.exact st t s := by
  unfold splitOne
  cases hg : s.changes.get t with
  | none => rfl
  | some ch =>
    have hp := hs ch hg
    cases hb : st.balanceOf t with
    | none => rfl
    | some total =>
      obtain ⟨w1, w2, w3, w4⟩ := hp.asset total hb
      simp only
      rcases ha : ch.assets with _ | ⟨a, rest⟩
      · simp only
        by_cases hm : t = W.cfg.main
        · have hm' : t = W.exact.cfg.main := hm
          rw [if_pos hm, if_pos hm']
          clear hg
          unfold splitMain divBy
          by_cases hn : W.cfg.accumulators = 0
          · have hn' : W.exact.cfg.accumulators = 0 := hn
            rw [if_pos hn, if_pos hn']; rfl
          · have hn' : ¬ W.exact.cfg.accumulators = 0 := hn
            rw [if_neg hn, if_neg hn']
            cases hf : E.feeOut s.est ch with
            | error e => rfl
            | ok fee =>
              obtain ⟨f1, f2, f3⟩ := hE _ _ _ hI hf
              have e1 := hd.trunc f1 f2 f3
              have e2 := hd.trunc hp.whole.1 hp.value0 hp.valueB
              have e3 := hd.lt (w1.add hp.whole.1) (by linarith [hp.value0]) (w4 ha) hn (hp.whole.1.sub f1)
              simp only [bind, Except.bind, World.exact, e1, e2, e3]
              rfl
        · have hm' : ¬ t = W.exact.cfg.main := hm
          rw [if_neg hm, if_neg hm']
      · simp only
        have hmem : a ∈ ch.assets := by rw [ha]; simp
        unfold splitAsset divBy
        by_cases hn : W.cfg.accumulatorsAssets = 0
        · have hn' : W.exact.cfg.accumulatorsAssets = 0 := hn
          rw [if_pos hn, if_pos hn']; rfl
        · have hn' : ¬ W.exact.cfg.accumulatorsAssets = 0 := hn
          rw [if_neg hn, if_neg hn']
          have e0 := hd.trunc (hp.whole.2 a hmem) (hp.pos a hmem).1 (hp.pos a hmem).2
          have e2 := hd.trunc hp.whole.1 hp.value0 hp.valueB
          have e3 := hd.lt (w1.add (hp.whole.2 a hmem)) (by linarith [(hp.pos a hmem).1]) (w3 a hmem) hn
            (hp.whole.2 a hmem)
          simp only [bind, Except.bind, World.exact, e0, e2, e3]
          by_cases hlt : (total + a.quantity) / (W.cfg.accumulatorsAssets : ℚ) < a.quantity
          · simp only [hlt, if_true]
            cases hf : E.feeOut s.est { ch with assets := { a with quantity := Thermostat.trunc (a.quantity / 2) } :: rest } with
            | error e => rfl
            | ok fee =>
              obtain ⟨f1, f2, f3⟩ := hE _ _ _ hI hf
              have e1 := hd.trunc f1 f2 f3
              simp only [Nat.cast_ofNat, e1]
              rfl
          · simp only [hlt, if_false]

theorem splits_exact (hd : RightDiv B W.div) (hE : FeesBelow E I B) (hk : Keeps E I) {st : UStore} {ts : List Token}
    (hn : ts.Nodup) {s : TS σ} (hI : I s.est) (hs : ∀ t ∈ ts, ∀ o, s.changes.get t = some o → Splittable B st t o) :
    forTokens (splitOne E W st) ts s = forTokens (splitOne E W.exact st) ts s := by
  induction ts generalizing s with
  | nil => rfl
  | cons t ts ih =>
    rw [List.nodup_cons] at hn
    simp only [forTokens]
    rw [← splitOne_exact hd hE hI (hs t (by simp))]
    cases h : splitOne E W st t s with
    | error e => rfl
    | ok s1 =>
      simp only
      have hI1 : I s1.est := by
        rcases splitOne_ok h with rfl | ⟨ch, a, rest, fee, _, _, _, _, rfl⟩ | ⟨ch, as, as', fee, est', _, _, _, _, _, ha, rfl⟩
        · exact hI
        · exact hI
        · exact hk.addOut _ _ _ hI ha
      refine ih hn.2 hI1 ?_
      intro t' ht' o ho
      have : t' ≠ t := fun e => hn.1 (e ▸ ht')
      rw [(splitOne_keeps h).2.2 t' this] at ho
      exact hs t' (by simp [ht']) o ho

/-- The world without the split. -/
def World.noSplit (W : World) : World := { W with div := fun _ _ => 0, changeOrder := fun _ => [] }

theorem untilAsset_noSplit (t : Token) (fuel : Nat) (s : TS σ) (st : UStore) :
    untilAsset E W.noSplit t fuel s st = untilAsset E W t fuel s st := by
  induction fuel generalizing s st with
  | zero => unfold untilAsset; rfl
  | succ n ih =>
    unfold untilAsset
    have r1 : currentOf W.noSplit s t = currentOf W s t := rfl
    have r2 : selectInput E W.noSplit st t s = selectInput E W st t s := rfl
    rw [r1, r2]
    simp only [ih]

theorem untilMain_noSplit (fuel : Nat) (s : TS σ) (st : UStore) :
    untilMain E W.noSplit fuel s st = untilMain E W fuel s st := by
  induction fuel generalizing s st with
  | zero => unfold untilMain; rfl
  | succ n ih =>
    unfold untilMain
    have r2 : selectInput E W.noSplit st W.noSplit.cfg.main s = selectInput E W st W.cfg.main s := rfl
    rw [r2]
    simp only [ih]

theorem round1_noSplit (fuel : Nat) (ts : List Token) (s : TS σ) (st : UStore) :
    round1 E W.noSplit req fuel ts s st = round1 E W req fuel ts s st := by
  induction ts generalizing s st with
  | nil => rfl
  | cons t ts ih =>
    have r4 : balanceExcessOf E W.noSplit req = balanceExcessOf E W req := rfl
    simp only [round1, untilAsset_noSplit, r4, ih]

theorem fill_noSplit (toks : List Token) (fuel : Nat) (empty : List Bool) (ix : Nat) (s : TS σ) (st : UStore) :
    fill E W.noSplit req toks fuel empty ix s st = fill E W req toks fuel empty ix s st := by
  induction fuel generalizing empty ix s st with
  | zero => unfold fill; rfl
  | succ n ih =>
    unfold fill
    have r1 : remaining E W.noSplit req s = remaining E W req s := rfl
    have r2 : ∀ t, selectInput E W.noSplit st t s = selectInput E W st t s := fun _ => rfl
    have r3 : W.noSplit.cfg = W.cfg := rfl
    rw [r1]
    simp only [ih, r2, r3]

theorem select_noSplit (st : UStore) (s : TS σ) :
    select E W req st s = (select E W.noSplit req st s).bind (fun x =>
      (forTokens (splitOne E W x.2) (W.changeOrder x.1.changes.keys) x.1).map (fun s6 => (s6, x.2))) := by
  have r0 : W.noSplit.cfg = W.cfg := rfl
  have r1 : W.noSplit.keyOrder = W.keyOrder := rfl
  have r2 : ∀ l, W.noSplit.changeOrder l = [] := fun _ => rfl
  have r4 : balanceExcessOf E W.noSplit req = balanceExcessOf E W req := rfl
  have r5 : balanceExcess E W.noSplit req = balanceExcess E W req := rfl
  unfold select
  simp only [round1_noSplit, untilMain_noSplit, fill_noSplit, r0, r1, r2, r4, r5, forTokens, bind, Except.bind]
  repeat' split
  all_goals first | rfl | (rename_i h; simp only [h]; rfl)

/-- The state before the split: what the changes hold. -/
theorem select_unsplit (ho : ∀ l, (W.ord l).Perm l) (hk : ∀ l, (W.keyOrder l).Perm l)
    (hc : ∀ l, W.changeOrder l = []) (hmm : W.cfg.min ≤ W.cfg.max) (hmin : 0 ≤ W.cfg.min) (hE : WholeFees E I)
    (hf0 : ∀ s f, I s → E.minFee s = .ok f → 0 ≤ f) (ho0 : ∀ s o f, I s → E.feeOut s o = .ok f → 0 ≤ f)
    (hn0 : ∀ s o v s', I s → E.minValueOut s o = .ok (v, s') → 0 ≤ v)
    (hmax : Whole W.cfg.max) {avail L : List Utxo} {s s' : TS σ} {st st' : UStore}
    (h : select E W req st s = .ok (s', st')) (hi : SelInv avail L s st)
    (hmain : W.cfg.main ∉ s.assets.keys) (hch : s.changes = []) (hex : s.extra = []) (hpos : PosExcess s.assets)
    (hu : ∀ u ∈ avail, Whole u.value ∧ ∀ a ∈ u.assets, Whole a.quantity) (hs : WholeState I s)
    (hq : ∀ u ∈ avail, ∀ a ∈ u.assets, 0 ≤ a.quantity) (hmt : W.cfg.main = mainToken) {base : Token → ℚ} {bm : ℚ}
    (hm : MainOK bm s) (hnet : ∀ t, assetNet s.assets t =
      base t + (s.selected.map (fun u => assetSum t u.assets)).sum - changeAsset t s) :
    (∃ L', SelInv avail L' s' st') ∧ s'.changes.keys.Nodup ∧ WholeState I s' ∧
    ∀ t o, s'.changes.get t = some o →
      (t ≠ W.cfg.main ∧ AssetChange W req st.getAssetIds t o ∧
        base t + (s'.selected.map (fun u => assetSum t u.assets)).sum = assetSum t o.assets) ∨
      (t = W.cfg.main ∧ o.assets = [] ∧ 0 ≤ o.value ∧ o.value ≤ bm + (s'.selected.map (·.value)).sum) := by
  have hmem : ∀ t, t ∈ W.keyOrder s.assets.keys ↔ t ∈ s.assets.keys := fun t => (hk _).mem_iff
  obtain ⟨s2, st2, s3, L3, s4, s5, b, p2, d2, hb1, hb2, _, ht, p3, d3, i3, h4, p4, h5, h6⟩ :=
    select_phases (E := E) (req := req) ho (toks := W.keyOrder s.assets.keys)
      (fun x => Opened W req st.getAssetIds (W.keyOrder s.assets.keys) x ∧
        AssetOK W (W.keyOrder s.assets.keys) base x ∧ MainOK bm x ∧ WholeState I x) (fun x => x.dictionary = st.dictionary)
      (fun a b p hr he => (remove_dictionary hr).trans he)
      (fun L s st t u est' hi hp ht hu' hh hpl ha =>
        ⟨hp.1.take (hq u (hi.perm.mem_iff.mpr (by simp [hu']))),
          addInput_asset hp.2.1 ht hpl (by rw [hmt]; exact StoreOK.fingerprints hi.store hu'),
          addInput_main hp.2.2.1 est',
          hp.2.2.2.take (hE.keeps.addIn _ _ _ hp.2.2.2.est ha) (hu u (hi.perm.mem_iff.mpr (by simp [hu']))).1
            (hu u (hi.perm.mem_iff.mpr (by simp [hu']))).2⟩)
      (fun t a b st hd ht he hp => ⟨hp.1.excess hmm (fun t => by unfold UStore.getAssetIds; rw [hd]) ht he,
        balanceExcessOf_asset ht (fun e => hmain ((hk _).mem_iff.mp (e ▸ ht))) he hp.2.1,
        balanceExcessOf_main he hp.2.2.1, hp.2.2.2.excess hE hmax he⟩)
      NoDebt (fun t s u est' h => h.addInput u est') (fun t t' s s' st h hn => NoDebt.excess h hn)
      (fun L t s s' st b ht hi hp hcur hb he => NoDebt.excess he ⟨b, currentOf_ok hcur, hb⟩)
      h rfl (hk _) hmain hi rfl ⟨⟨by intro t o h; rw [hch] at h; simp at h, hex, by rw [hch]; simp, hpos⟩,
        ⟨hnet, by intro t o h; rw [hch] at h; simp at h, fun t ht => (hk _).mem_iff.mpr ht,
          by intro t o h; rw [hch] at h; simp at h, by rw [hch]; simp⟩, hm, hs⟩
  obtain ⟨p4, q4, m4, w4⟩ := p4
  rw [hc] at h6
  simp only [forTokens, Except.ok.injEq] at h6
  subst h6
  obtain ⟨_, d4, _⟩ := round2_induct (toks := W.keyOrder s.assets.keys)
    (fun x => ∀ t ∈ W.keyOrder s.assets.keys, NoDebt t x)
    (fun t x => x.assets.get t = some .balanced)
    (fun t a b _ he hp t' ht' => NoDebt.excess he (hp t' ht'))
    (fun t t' a b he hb => balanced_keep he hb)
    (fun t a b ht hp he => balanceExcessOf_balanced he (hp t ht)) (fun t h => h) h4 d3
  have p5 : AssetOK W (W.keyOrder s.assets.keys) base s5 := balanceExcess_asset h5 q4
  have k5 := balanceExcess_keeps h5
  have hdue : ∀ t, base t + (s5.selected.map (fun u => assetSum t u.assets)).sum =
      ((s5.changes.get t).map (fun o => assetSum t o.assets)).getD 0 := by
    intro t
    have hz : assetNet s5.assets t = 0 := by
      rw [k5.2.2.1]
      unfold assetNet
      by_cases hm : t ∈ W.keyOrder s.assets.keys
      · rw [d4 t hm]; rfl
      · have : t ∉ s4.assets.keys := fun h => hm (q4.keys t h)
        rw [(AMap.get_eq_none_iff _ _).mpr this]; rfl
    have := p5.net t
    rw [hz, p5.changeAsset_eq (by rw [k5.2.1, p4.extra])] at this
    linarith
  have hsel : s5.selected = s3.selected := by
    rw [k5.1]
    exact forTokens_inv (fun x => x.selected = s3.selected)
      (fun _ _ _ hb e => (balanceExcessOf_keeps hb).1.trans e) h4 rfl
  obtain ⟨r1, r2, r3⟩ := p4.last (fun hm => hmain ((hmem _).mp hm)) h5
  refine ⟨⟨L3, i3.store, by rw [hsel]; exact i3.perm⟩, r3, w4.last hE h5, ?_⟩
  intro t o hg
  rcases r1 t o hg with ⟨_, e1, e2⟩ | ⟨rfl, e2⟩
  · exact Or.inl ⟨e1, e2, by rw [hdue, hg]; rfl⟩
  · have hnone : s4.changes.get W.cfg.main = none := by
      cases hx : s4.changes.get W.cfg.main with
      | none => rfl
      | some o => exact absurd ((hmem _).mp (p4.changes _ o hx).1) hmain
    refine Or.inr ⟨rfl, e2.assets, ?_, ?_⟩
    · obtain ⟨b, hcur, ⟨rfl, _⟩ | ⟨x, addr, hb, hr, ⟨o', ho', rfl⟩ |
        ⟨_, need, est, hneed, rfl | ⟨fee, est', hfee, hge, _, rfl⟩⟩⟩⟩ := balanceExcess_ok h5
      · rw [hnone] at hg; cases hg
      · rw [hnone] at ho'; cases ho'
      · rw [hnone] at hg; cases hg
      · simp only [AMap.get_insert, if_true, Option.some.injEq] at hg
        subst hg
        have := hn0 _ _ _ _ w4.est hneed
        simp only
        linarith
    · have hv : 0 ≤ changeValue s4 := by
        unfold changeValue
        rw [p4.extra]
        simp only [List.map_nil, List.sum_nil, add_zero]
        rw [← mapSum_keys (fun o : Output => o.value) p4.nodup (List.Perm.refl _)]
        apply List.sum_nonneg
        intro x hx
        obtain ⟨o, ho, rfl⟩ := List.mem_map.mp hx
        obtain ⟨t', _, ht'⟩ := List.mem_filterMap.mp ho
        exact le_trans hmin (p4.changes t' o ht').2.low
      obtain ⟨b, hcur, ⟨rfl, _⟩ | ⟨x, addr, hb, hr, ⟨o', ho', rfl⟩ |
        ⟨_, need, est, hneed, rfl | ⟨fee, est', hfee, hge, _, rfl⟩⟩⟩⟩ := balanceExcess_ok h5
      · rw [hnone] at hg; cases hg
      · rw [hnone] at ho'; cases ho'
      · rw [hnone] at hg; cases hg
      · simp only [AMap.get_insert, if_true, Option.some.injEq] at hg
        subst hg
        unfold currentBalance at hcur
        rw [bind_ok] at hcur
        obtain ⟨f, hf, hcur⟩ := hcur
        have hx : x = s4.balance.net - f := by
          rw [← net_subValue, Except.ok.inj hcur, hb]; rfl
        have := m4.net
        have := hf0 _ _ w4.est hf
        have := ho0 _ _ _ (hE.keeps.minValue _ _ _ _ w4.est hneed) hfee
        simp only
        linarith

end

end Verif.Selection.Thermostat
