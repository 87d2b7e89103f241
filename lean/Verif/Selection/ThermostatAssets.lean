import Verif.Selection.ThermostatInv

/-!
# The books of the assets in the thermostat
-/

namespace Verif.Selection.Thermostat

open Verif Verif.Core

section

variable {σ : Type} {E : Estimator σ} {W : World} {req : Request}

/-- The tracked balance of an asset. -/
def assetNet (m : AMap Token Balance) (t : Token) : ℚ := ((m.get t).getD .balanced).net

theorem assetNet_adjust (f : Balance → Balance) (m : AMap Token Balance) (t t' : Token) :
    assetNet (adjust f m t) t' = if t = t' then (f ((m.get t).getD .balanced)).net else assetNet m t' := by
  unfold assetNet adjust
  rw [AMap.get_insert]
  by_cases h : t = t' <;> simp [h]

theorem adjustAll_net (as : List Asset) (m : AMap Token Balance) (t : Token) :
    assetNet (as.foldl (fun m a => adjust (·.addValue a.quantity) m a.fingerprint) m) t =
      assetNet m t + assetSum t as := by
  induction as generalizing m with
  | nil => simp
  | cons a as ih =>
    rw [List.foldl_cons, ih, assetNet_adjust, assetSum_cons]
    by_cases h : a.fingerprint = t
    · subst h
      simp only [if_true, net_addValue]
      unfold assetNet; ring
    · simp [h]

/-- The books of the assets. -/
structure AssetOK (W : World) (toks : List Token) (base : Token → ℚ) (s : TS σ) : Prop where
  net : ∀ t, assetNet s.assets t =
    base t + (s.selected.map (fun u => assetSum t u.assets)).sum - changeAsset t s
  shape : ∀ t o, s.changes.get t = some o →
    (t = W.cfg.main ∧ o.assets = []) ∨ (t ≠ W.cfg.main ∧ ∃ a, o.assets = [a] ∧ a.fingerprint = t)
  keys : ∀ t ∈ s.assets.keys, t ∈ toks
  changes : ∀ t o, s.changes.get t = some o → t ∈ toks ∨ t = W.cfg.main
  nodup : s.changes.keys.Nodup

theorem addInput_asset {toks : List Token} {base : Token → ℚ} {s : TS σ} {u : Utxo} {t : Token} {est' : σ}
    (h : AssetOK W toks base s) (ht : t ∈ toks ∨ t = W.cfg.main) (hpl : Plain t u)
    (hm : ∀ a ∈ u.assets, a.fingerprint ≠ W.cfg.main) :
    AssetOK W toks base (addInput { s with est := est' } u) := by
  refine ⟨?_, h.shape, ?_, h.changes, h.nodup⟩
  · intro t'
    have := h.net t'
    simp only [addInput, adjustAll_net, changeAsset] at *
    rw [this]
    simp only [List.map_append, List.sum_append, List.map_cons, List.map_nil, List.sum_cons, List.sum_nil]
    ring
  · intro t' ht'
    rcases (addInput_keys _ _ _ _).mp ht' with h1 | ⟨a, ha, rfl⟩
    · exact h.keys _ h1
    · rw [hpl.2 a ha]
      rcases ht with ht | rfl
      · exact ht
      · exact absurd (hpl.2 a ha) (hm a ha)

theorem currentOf_ok {s : TS σ} {t : Token} {b : Balance} (h : currentOf W s t = .ok b) :
    s.assets.get t = some b := by
  unfold currentOf at h
  split at h
  · cases h
  · split at h
    · rename_i b' hb; cases h; exact hb
    · cases h

theorem addToChange_assets {st : UStore} {t : Token} {x : ℚ} {o o1 : Output}
    (h : addToChange st t x o = .ok o1) (ho : o.assets = [] ∨ ∃ a, o.assets = [a] ∧ a.fingerprint = t) :
    (∃ a, o1.assets = [a] ∧ a.fingerprint = t) ∧
    ∀ t', assetSum t' o1.assets = assetSum t' o.assets + if t = t' then x else 0 := by
  unfold addToChange at h
  rcases ho with ho | ⟨a, ho, ha⟩
  · simp only [ho] at h
    split at h
    · cases h
    · cases h
      refine ⟨⟨_, rfl, rfl⟩, ?_⟩
      intro t'
      simp only [ho, assetSum_cons, assetSum_nil]; ring
  · simp only [ho] at h
    cases h
    refine ⟨⟨_, rfl, ha⟩, ?_⟩
    intro t'
    simp only [ho, assetSum_cons, assetSum_nil, ha]
    split <;> ring

theorem balanceExcessOf_asset {toks : List Token} {base : Token → ℚ} {st : UStore} {t : Token} {s s' : TS σ}
    (ht : t ∈ toks) (hmain : t ≠ W.cfg.main)
    (h : balanceExcessOf E W req st t s = .ok s') (ha : AssetOK W toks base s) :
    AssetOK W toks base s' := by
  have hkeep := balanceExcessOf_keeps h
  rcases balanceExcessOf_ok h with ⟨rfl, _⟩ | ⟨x, addr, b, s1, o, o1, hc, _, _, h2, h3, rfl⟩
  · exact ha
  · obtain ⟨_, h5, h6, h7, h8, h9⟩ := openChange_main h2
    have hcur := currentOf_ok hc
    have hsh : o.assets = [] ∨ ∃ a, o.assets = [a] ∧ a.fingerprint = t := by
      rw [h9]
      cases hg : s.changes.get t with
      | none => exact Or.inl rfl
      | some o0 =>
        rcases ha.shape t o0 hg with ⟨h, _⟩ | ⟨_, h⟩
        · exact absurd h hmain
        · exact Or.inr h
    obtain ⟨h10, h11⟩ := addToChange_assets h3 hsh
    refine ⟨?_, ?_, ?_, ?_, by simp only [h5]; exact AMap.nodup_insert ha.nodup _ _⟩
    · intro t'
      have := ha.net t'
      have hold : ((s.changes.get t).map (fun o => assetSum t' o.assets)).getD 0 = assetSum t' o.assets := by
        rw [h9]; cases s.changes.get t <;> simp
      simp only [changeAsset, h5, h6, h7, h8, mapSum_insert, assetNet_adjust, clamp_assets, h11, hold] at *
      by_cases e : t = t'
      · subst e
        have hn : assetNet s.assets t = x := by simp [assetNet, hcur, Balance.net]
        simp only [if_true, hcur, Option.getD_some]
        rw [net_subValue]
        simp only [Balance.net]
        rw [hn] at this
        linarith
      · simp only [if_neg e]
        rw [this]; ring
    · intro t' o' ho'
      simp only [AMap.get_insert] at ho'
      split at ho'
      · rename_i e
        subst e
        cases ho'
        rw [clamp_assets]
        exact Or.inr ⟨hmain, h10⟩
      · rw [h5] at ho'; exact ha.shape t' o' ho'
    · intro t' ht'
      exact ha.keys t' ((hkeep.2.2.2.2 t').mp ht')
    · intro t' o' ho'
      simp only [AMap.get_insert] at ho'
      split at ho'
      · rename_i e; subst e; exact Or.inl ht
      · rw [h5] at ho'; exact ha.changes t' o' ho'

theorem balanceExcess_asset {toks : List Token} {base : Token → ℚ} {s s' : TS σ}
    (h : balanceExcess E W req s = .ok s') (ha : AssetOK W toks base s) : AssetOK W toks base s' := by
  obtain ⟨b, _, ⟨rfl, _⟩ | ⟨x, addr, _, _, ⟨o, ho, rfl⟩ |
    ⟨hg, need, est, _, rfl | ⟨fee, est', _, _, _, rfl⟩⟩⟩⟩ := balanceExcess_ok h
  · exact ha
  · refine ⟨?_, ?_, ha.keys, ?_, AMap.nodup_insert ha.nodup _ _⟩
    · intro t
      have := ha.net t
      simp only [changeAsset, mapSum_insert, ho, Option.map_some, Option.getD_some] at *
      rw [this]; ring
    · intro t' o' ho'
      simp only [AMap.get_insert] at ho'
      split at ho'
      · rename_i e; subst e; cases ho'; exact ha.shape _ o ho
      · exact ha.shape _ _ ho'
    · intro t' o' ho'
      simp only [AMap.get_insert] at ho'
      split at ho'
      · rename_i e; exact Or.inr e.symm
      · exact ha.changes _ _ ho'
  · exact ⟨ha.net, ha.shape, ha.keys, ha.changes, ha.nodup⟩
  · refine ⟨?_, ?_, ha.keys, ?_, AMap.nodup_insert ha.nodup _ _⟩
    · intro t
      have := ha.net t
      simp only [changeAsset, mapSum_insert, hg, Option.map_none, Option.getD_none, assetSum_nil] at *
      rw [this]; ring
    · intro t' o' ho'
      simp only [AMap.get_insert] at ho'
      split at ho'
      · rename_i e; subst e; cases ho'; exact Or.inl ⟨rfl, rfl⟩
      · exact ha.shape _ _ ho'
    · intro t' o' ho'
      simp only [AMap.get_insert] at ho'
      split at ho'
      · rename_i e; exact Or.inr e.symm
      · exact ha.changes _ _ ho'

/-- The branch of the split that drops half of the asset. -/
def Drops (W : World) (value fee : ℚ) : Prop :=
  trunc (W.div value 2) ≤ trunc (W.div fee 2) ∨ trunc (W.div value 2) ≤ fee

theorem splitOne_asset {toks : List Token} {base : Token → ℚ} {st : UStore} {t : Token} {s s' : TS σ}
    (hd : ∀ ch a rest fee, s.changes.get t = some ch → ch.assets = a :: rest → t ≠ W.cfg.main →
      (∃ o, E.feeOut s.est o = .ok fee) → ¬ Drops W ch.value fee)
    (h : splitOne E W st t s = .ok s') (ha : AssetOK W toks base s) : AssetOK W toks base s' := by
  rcases splitOne_ok h with rfl | ⟨ch, a, rest, fee, hg, has, hf, hdrop, rfl⟩ |
    ⟨ch, as, as', fee, est', hg, hcase, _, _, _, _, rfl⟩
  · exact ha
  · exfalso
    rcases ha.shape _ _ hg with ⟨_, h2⟩ | ⟨h1, _⟩
    · rw [has] at h2; cases h2
    · exact hd ch a rest fee hg has h1 ⟨_, hf⟩ hdrop
  · have hsum : ∀ t', assetSum t' ch.assets = assetSum t' as + assetSum t' as' := by
      intro t'
      rcases hcase with ⟨a, rest, h1, h2, h3⟩ | ⟨h1, h2, h3⟩
      · have hr : rest = [] := by
          rcases ha.shape _ _ hg with ⟨_, h4⟩ | ⟨_, b, h4, _⟩
          · rw [h1] at h4; cases h4
          · rw [h1] at h4; cases h4; rfl
        subst hr
        rw [h1, h2, h3]
        simp only [assetSum_cons, assetSum_nil]
        split <;> ring
      · rw [h1, h2, h3]; simp
    refine ⟨?_, ?_, ha.keys, ?_, AMap.nodup_insert ha.nodup _ _⟩
    · intro t'
      have := ha.net t'
      simp only [changeAsset, splitState, mapSum_insert, hg, Option.map_some, Option.getD_some,
        List.map_append, List.sum_append, List.map_cons, List.map_nil, List.sum_cons, List.sum_nil] at *
      rw [this, hsum t']; ring
    · intro t' o' ho'
      simp only [splitState, AMap.get_insert] at ho'
      split at ho'
      · rename_i e
        subst e
        cases ho'
        rcases hcase with ⟨a, rest, h1, h2, h3⟩ | ⟨h1, h2, h3⟩
        · rcases ha.shape _ _ hg with ⟨_, h4⟩ | ⟨h5, b, h4, h6⟩
          · rw [h1] at h4; cases h4
          · rw [h1] at h4; cases h4
            exact Or.inr ⟨h5, _, h2, h6⟩
        · rcases ha.shape _ _ hg with ⟨h4, _⟩ | ⟨_, b, h4, _⟩
          · exact Or.inl ⟨h4, h2⟩
          · rw [h1] at h4; cases h4
      · exact ha.shape _ _ ho'
    · intro t' o' ho'
      simp only [splitState, AMap.get_insert] at ho'
      split at ho'
      · rename_i e; subst e; exact ha.changes _ _ hg
      · exact ha.changes _ _ ho'

/-! ### Never in debt after round one, balanced after round two -/

/-- The balance of the asset is tracked and not a debt. -/
def NoDebt (t : Token) (s : TS σ) : Prop := ∃ b, s.assets.get t = some b ∧ b.inDebt = false

theorem addValue_noDebt {b : Balance} (h : b.inDebt = false) (x : ℚ) : (b.addValue x).inDebt = false := by
  cases b with
  | debt v => simp [Balance.inDebt] at h
  | balanced => simp only [Balance.addValue]; split <;> rfl
  | excess v => rfl

theorem adjustAll_noDebt (as : List Asset) (m : AMap Token Balance) (t : Token)
    (h : ∃ b, m.get t = some b ∧ b.inDebt = false) :
    ∃ b, (as.foldl (fun m a => adjust (·.addValue a.quantity) m a.fingerprint) m).get t = some b ∧
      b.inDebt = false := by
  induction as generalizing m with
  | nil => exact h
  | cons a as ih =>
    rw [List.foldl_cons]
    apply ih
    obtain ⟨b, hb1, hb2⟩ := h
    unfold adjust
    rw [AMap.get_insert]
    by_cases e : a.fingerprint = t
    · rw [if_pos e, e, hb1]
      exact ⟨_, rfl, addValue_noDebt hb2 _⟩
    · rw [if_neg e]; exact ⟨b, hb1, hb2⟩

theorem NoDebt.addInput {t : Token} {s : TS σ} (h : NoDebt t s) (u : Utxo) (est' : σ) :
    NoDebt t (addInput { s with est := est' } u) := adjustAll_noDebt _ _ _ h

theorem balanceExcessOf_get {st : UStore} {t : Token} {s s' : TS σ}
    (h : balanceExcessOf E W req st t s = .ok s') :
    s'.assets.get t = s.assets.get t ∨ s'.assets.get t = some .balanced := by
  rcases balanceExcessOf_ok h with ⟨rfl, _⟩ | ⟨x, addr, b, s1, o, o1, hc, _, _, h2, h3, rfl⟩
  · exact Or.inl rfl
  · right
    obtain ⟨_, _, _, h8⟩ := openChange_keeps h2
    simp [adjust, AMap.get_insert, h8, currentOf_ok hc, Balance.subValue]

theorem NoDebt.excess {t t' : Token} {s s' : TS σ} {st : UStore}
    (h : balanceExcessOf E W req st t' s = .ok s') (hn : NoDebt t s) : NoDebt t s' := by
  by_cases e : t = t'
  · subst e
    rcases balanceExcessOf_get h with h1 | h1
    · unfold NoDebt; rw [h1]; exact hn
    · exact ⟨_, h1, rfl⟩
  · unfold NoDebt
    rw [((balanceExcessOf_keeps h).2.2.1 t e).1]; exact hn

/-- After its turn in round two an asset that was not in debt is balanced. -/
theorem balanceExcessOf_balanced {st : UStore} {t : Token} {s s' : TS σ}
    (h : balanceExcessOf E W req st t s = .ok s') (hn : NoDebt t s) :
    s'.assets.get t = some .balanced := by
  have hg := balanceExcessOf_get h
  rcases balanceExcessOf_ok h with ⟨rfl, b, hb, hx⟩ | ⟨x, addr, b, s1, o, o1, hc, _, _, h2, h3, he⟩
  · have hb := currentOf_ok hb
    obtain ⟨b', hb1, hb2⟩ := hn
    rw [hb] at hb1; cases hb1
    cases b with
    | debt v => simp [Balance.inDebt] at hb2
    | balanced => exact hb
    | excess v => exact absurd rfl (hx v)
  · rcases hg with h1 | h1
    · have hcur := currentOf_ok hc
      obtain ⟨_, _, _, h8⟩ := openChange_keeps h2
      rw [he]
      simp [adjust, AMap.get_insert, h8, hcur, Balance.subValue]
    · exact h1

theorem balanced_keep {st : UStore} {t t' : Token} {s s' : TS σ}
    (h : balanceExcessOf E W req st t' s = .ok s') (hn : s.assets.get t = some .balanced) :
    s'.assets.get t = some .balanced := by
  by_cases e : t = t'
  · subst e
    rcases balanceExcessOf_get h with h1 | h1
    · rw [h1]; exact hn
    · exact h1
  · rw [((balanceExcessOf_keeps h).2.2.1 t e).1]; exact hn

/-! ### The thermostat keeps the main amount of the changes within bounds -/

/-- Each change made for an asset holds at least the configured minimum. -/
def Warm (W : World) (s : TS σ) : Prop :=
  ∀ t o, s.changes.get t = some o → t ≠ W.cfg.main → W.cfg.min ≤ o.value

theorem clamp_min (hmm : W.cfg.min ≤ W.cfg.max) (o : Output) (b : Balance) :
    W.cfg.min ≤ (clamp W o b).1.value ∧ (clamp W o b).1.value ≤ W.cfg.max := by
  unfold clamp
  split
  · exact ⟨hmm, le_refl _⟩
  · split
    · exact ⟨hmm, le_refl _⟩
    · exact ⟨by linarith, by linarith⟩

theorem balanceExcessOf_warm (hmm : W.cfg.min ≤ W.cfg.max) {st : UStore} {t : Token} {s s' : TS σ}
    (h : balanceExcessOf E W req st t s = .ok s') (hw : Warm W s) : Warm W s' := by
  rcases balanceExcessOf_ok h with ⟨rfl, _⟩ | ⟨x, addr, b, s1, o, o1, hc, _, _, h2, h3, rfl⟩
  · exact hw
  · obtain ⟨h5, _⟩ := openChange_keeps h2
    intro t' o' ho' hm
    simp only [AMap.get_insert] at ho'
    split at ho'
    · cases ho'; exact (clamp_min hmm _ _).1
    · rw [h5] at ho'; exact hw t' o' ho' hm

end

end Verif.Selection.Thermostat
