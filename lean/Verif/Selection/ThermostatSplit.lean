import Verif.Selection.ThermostatChanges

/-!
# When the thermostat splits a change

Model: `Verif.Selection.Thermostat`, `splitOne` (thermostat.rs:401-474).
-/

namespace Verif.Selection.Thermostat

open Verif Verif.Core Verif.Selection

variable {σ : Type} {E : Estimator σ} {W : World} {req : Request}

/-- The change `c` of token `t` is larger than its share, when `bal` of the token is left in the store and an output costs
`fee`. -/
def Large (W : World) (bal : ℚ) (c : Output) (fee : ℚ) : Prop :=
  match c.assets with
  | a :: _ => W.div (bal + a.quantity) W.cfg.accumulatorsAssets < a.quantity
  | [] => W.div (bal + c.value) W.cfg.accumulators < c.value - fee

/-- Half of the change cannot pay for an output. -/
def Poor (W : World) (c : Output) (fee : ℚ) : Prop :=
  trunc (W.div c.value 2) ≤ trunc (W.div fee 2) ∨ trunc (W.div c.value 2) ≤ fee

/-- What becomes of the change `c` of a token of which `bal` is left in the store: the change in its place and the second
one. -/
inductive Outcome (E : Estimator σ) (W : World) (bal : Option ℚ) (t : Token) (c : Output) : Output → Option Output → Prop
  | kept (h : ∀ b, bal = some b → (c.assets ≠ [] → ¬ Large W b c 0) ∧ (c.assets = [] → t = W.cfg.main →
      ∃ e fee, E.feeOut e c = .ok fee ∧ (Poor W c fee ∨ ¬ Large W b c fee))) : Outcome E W bal t c c none
  | dropped {a : Asset} {rest : List Asset} {b fee : ℚ} {e : σ} {o : Output} (h : c.assets = a :: rest)
      (hb : bal = some b) (hl : Large W b c 0) (hf : E.feeOut e o = .ok fee) (hp : Poor W c fee) :
      Outcome E W bal t c
        { c with assets := { a with quantity := a.quantity - trunc (W.div a.quantity 2) } :: rest } none
  | asset {a : Asset} {rest : List Asset} {b fee : ℚ} {e : σ} {o : Output} (h : c.assets = a :: rest)
      (hb : bal = some b) (hl : Large W b c 0) (hf : E.feeOut e o = .ok fee) (hp : ¬ Poor W c fee) :
      Outcome E W bal t c
        { c with assets := { a with quantity := a.quantity - trunc (W.div a.quantity 2) } :: rest
                 value := c.value - (trunc (W.div c.value 2) - trunc (W.div fee 2)) - fee }
        (some { c with assets := { a with quantity := trunc (W.div a.quantity 2) } :: rest
                       value := trunc (W.div c.value 2) - trunc (W.div fee 2) })
  | main {b fee : ℚ} {e : σ} (h : c.assets = []) (ht : t = W.cfg.main)
      (hb : bal = some b) (hl : Large W b c fee) (hf : E.feeOut e c = .ok fee) (hp : ¬ Poor W c fee) :
      Outcome E W bal t c
        { c with value := c.value - (trunc (W.div c.value 2) - trunc (W.div fee 2)) - fee }
        (some { c with value := trunc (W.div c.value 2) - trunc (W.div fee 2) })

/-- One iteration of `split_accumulators`. -/
theorem splitOne_outcome {st : UStore} {t : Token} {s s' : TS σ} (h : splitOne E W st t s = .ok s') :
    (s.changes.get t = none ∧ s' = s) ∨
    ∃ c o x, s.changes.get t = some c ∧ Outcome E W (st.balanceOf t) t c o x ∧ s'.changes.get t = some o ∧
      s'.extra = s.extra ++ x.toList := by
  unfold splitOne at h
  split at h
  · rename_i c total hg hb
    refine Or.inr ?_
    split at h
    · rename_i a rest has
      unfold splitAsset at h
      rw [bind_ok] at h
      obtain ⟨pivot, hpiv, h⟩ := h
      have hpiv : W.div (total + a.quantity) W.cfg.accumulatorsAssets = pivot := by
        unfold divBy at hpiv
        split at hpiv
        · cases hpiv
        · cases hpiv; rfl
      simp only at h
      split at h
      · rename_i hlt
        have hlarge : Large W total c 0 := by unfold Large; rw [has]; simp only; rw [hpiv]; exact hlt
        rw [bind_ok] at h
        obtain ⟨fee, h1, h⟩ := h
        split at h
        · rename_i hle
          cases h
          exact ⟨c, _, none, hg, .dropped has hb hlarge h1 hle, by simp [AMap.get_insert], by simp⟩
        · rename_i hle
          rw [bind_ok] at h
          obtain ⟨est', h2, h⟩ := h
          cases h
          exact ⟨c, _, _, hg, .asset has hb hlarge h1 hle, by simp [AMap.get_insert], by simp⟩
      · rename_i hlt
        cases h
        refine ⟨c, c, none, hg, .kept ?_, hg, by simp⟩
        intro b hb'
        rw [hb] at hb'
        cases hb'
        refine ⟨fun _ => ?_, fun e => by rw [has] at e; cases e⟩
        unfold Large; rw [has]; simp only; rw [hpiv]; exact hlt
    · rename_i has
      split at h
      · rename_i ht
        unfold splitMain at h
        rw [bind_ok] at h
        obtain ⟨pivot, hpiv, h⟩ := h
        have hpiv : W.div (total + c.value) W.cfg.accumulators = pivot := by
          unfold divBy at hpiv
          split at hpiv
          · cases hpiv
          · cases hpiv; rfl
        rw [bind_ok] at h
        obtain ⟨fee, h1, h⟩ := h
        simp only at h
        split at h
        · rename_i hle
          cases h
          refine ⟨c, c, none, hg, .kept ?_, hg, by simp⟩
          exact fun b hb' => ⟨fun e => absurd has e, fun _ _ => ⟨_, fee, h1, Or.inl hle⟩⟩
        · rename_i hle
          split at h
          · rename_i hlt
            rw [bind_ok] at h
            obtain ⟨est', h2, h⟩ := h
            cases h
            refine ⟨c, _, _, hg, .main has ht hb ?_ h1 hle, by simp [AMap.get_insert], by simp⟩
            unfold Large; rw [has]; simp only; rw [hpiv]; exact hlt
          · rename_i hlt
            cases h
            refine ⟨c, c, none, hg, .kept ?_, hg, by simp⟩
            intro b hb'
            rw [hb] at hb'
            cases hb'
            refine ⟨fun e => absurd has e, fun _ _ => ⟨_, fee, h1, Or.inr ?_⟩⟩
            unfold Large; rw [has]; simp only; rw [hpiv]; exact hlt
      · rename_i ht
        cases h
        exact ⟨c, c, none, hg, .kept (fun b _ => ⟨fun e => absurd has e, fun _ e => absurd e ht⟩), hg, by simp⟩
  · rename_i hno
    cases h
    cases hg : s.changes.get t with
    | none => exact Or.inl ⟨rfl, rfl⟩
    | some c =>
      refine Or.inr ⟨c, c, none, rfl, .kept ?_, rfl, by simp⟩
      intro b hb
      exact absurd hb (hno c b hg)

/-- `split_accumulators`: each change has its outcome, and the second changes come in the order of the tokens. -/
theorem splits_outcome {st : UStore} {ts : List Token} {s s' : TS σ} (hn : ts.Nodup)
    (h : forTokens (splitOne E W st) ts s = .ok s') :
    ∃ x : Token → Option Output, s'.extra = s.extra ++ ts.filterMap x ∧
      (∀ t ∈ ts, (s.changes.get t = none ∧ s'.changes.get t = none ∧ x t = none) ∨
        ∃ c o, s.changes.get t = some c ∧ s'.changes.get t = some o ∧ Outcome E W (st.balanceOf t) t c o (x t)) ∧
      (∀ t, t ∉ ts → s'.changes.get t = s.changes.get t) := by
  induction ts generalizing s with
  | nil => cases h; exact ⟨fun _ => none, by simp, by simp, fun _ _ => rfl⟩
  | cons t ts ih =>
    simp only [forTokens] at h
    split at h
    · cases h
    · rename_i s1 h1
      rw [List.nodup_cons] at hn
      obtain ⟨x, hx1, hx2, hx3⟩ := ih hn.2 h
      have hk := (splitOne_keeps h1).2.2
      have hne : ∀ t' ∈ ts, t' ≠ t := fun t' ht' e => hn.1 (e ▸ ht')
      have hcongr : ∀ y : Option Output, ts.filterMap (Function.update x t y) = ts.filterMap x := fun y =>
        List.filterMap_congr (fun t' ht' => Function.update_of_ne (hne t' ht') _ _)
      have hrest : ∀ y : Option Output, ∀ t' ∈ ts, (s.changes.get t' = none ∧ s'.changes.get t' = none ∧
          Function.update x t y t' = none) ∨ ∃ c o, s.changes.get t' = some c ∧ s'.changes.get t' = some o ∧
            Outcome E W (st.balanceOf t') t' c o (Function.update x t y t') := by
        intro y t' ht'
        rw [Function.update_of_ne (hne t' ht'), ← hk t' (hne t' ht')]
        exact hx2 t' ht'
      have hout : ∀ t', t' ∉ t :: ts → s'.changes.get t' = s.changes.get t' := by
        intro t' ht'
        rw [hx3 t' (fun e => ht' (by simp [e])), hk t' (fun e => ht' (by simp [e]))]
      rcases splitOne_outcome h1 with ⟨hg, rfl⟩ | ⟨c, o, y, hg, ho, hg', he⟩
      · refine ⟨Function.update x t none, ?_, ?_, hout⟩
        · rw [List.filterMap_cons_none (by simp), hcongr, hx1]
        · intro t' ht'
          rcases List.mem_cons.mp ht' with rfl | ht'
          · exact Or.inl ⟨hg, by rw [hx3 _ hn.1, hg], by simp⟩
          · exact hrest none t' ht'
      · refine ⟨Function.update x t y, ?_, ?_, hout⟩
        · rw [hx1, he, List.append_assoc]
          congr 1
          cases y with
          | none => rw [List.filterMap_cons_none (by simp), hcongr]; simp
          | some y => rw [List.filterMap_cons_some (b := y) (by simp), hcongr]; simp
        · intro t' ht'
          rcases List.mem_cons.mp ht' with rfl | ht'
          · exact Or.inr ⟨c, o, hg, by rw [hx3 _ hn.1, hg'], by simpa using ho⟩
          · exact hrest y t' ht'

/-- What the changes opened for assets hold of an asset is in the one opened for it. -/
theorem AssetOK.changeAsset_eq {toks : List Token} {base : Token → ℚ} {s : TS σ} (h : AssetOK W toks base s)
    (hex : s.extra = []) {t : Token} :
    changeAsset t s = ((s.changes.get t).map (fun o => assetSum t o.assets)).getD 0 := by
  unfold changeAsset
  rw [hex, List.map_nil, List.sum_nil, add_zero]
  have hz : ∀ t' o, s.changes.get t' = some o → t' ≠ t → assetSum t o.assets = 0 := by
    intro t' o ho hne
    rcases h.shape t' o ho with ⟨_, h2⟩ | ⟨_, a, h2, h3⟩
    · rw [h2]; rfl
    · rw [h2]
      simp [assetSum_cons, h3, hne]
  have key : ∀ m : AMap Token Output, m.keys.Nodup →
      (∀ t' o, m.get t' = some o → t' ≠ t → assetSum t o.assets = 0) →
      mapSum (fun o => assetSum t o.assets) m = ((m.get t).map (fun o => assetSum t o.assets)).getD 0 := by
    intro m
    induction m with
    | nil => intro _ _; simp [mapSum]
    | cons kv m ih =>
      obtain ⟨k, o⟩ := kv
      intro hn hz
      simp only [AMap.keys_cons, List.nodup_cons] at hn
      have hz' : ∀ t' o, AMap.get m t' = some o → t' ≠ t → assetSum t o.assets = 0 := by
        intro t' o' ho' hne
        refine hz t' o' ?_ hne
        rw [AMap.get_cons, if_neg]
        · exact ho'
        · rintro rfl
          rw [(AMap.get_eq_none_iff _ _).mpr hn.1] at ho'
          cases ho'
      have ih := ih hn.2 hz'
      have hc : mapSum (fun o => assetSum t o.assets) ((k, o) :: m) =
          assetSum t o.assets + mapSum (fun o => assetSum t o.assets) m := by simp [mapSum]
      rw [hc, ih, AMap.get_cons]
      by_cases e : k = t
      · subst e
        rw [if_pos rfl, (AMap.get_eq_none_iff _ _).mpr hn.1]
        simp
      · rw [if_neg e, hz k o (by rw [AMap.get_cons, if_pos rfl]) e, zero_add]
  exact key _ h.nodup hz

/-- The changes of a run, each with the change before the split and what is left in the store. -/
theorem select_outcomes (ho : ∀ l, (W.ord l).Perm l) (hk : ∀ l, (W.keyOrder l).Perm l)
    (hc : ∀ l, (W.changeOrder l).Perm l) (hmm : W.cfg.min ≤ W.cfg.max)
    {avail L : List Utxo} {s s' : TS σ} {st st' : UStore}
    (h : select E W req st s = .ok (s', st')) (hi : SelInv avail L s st)
    (hmain : W.cfg.main ∉ s.assets.keys) (hch : s.changes = []) (hex : s.extra = []) (hpos : PosExcess s.assets)
    (hq : ∀ u ∈ avail, ∀ a ∈ u.assets, 0 ≤ a.quantity) (hmt : W.cfg.main = mainToken) {base : Token → ℚ}
    (hnet : ∀ t, assetNet s.assets t =
      base t + (s.selected.map (fun u => assetSum t u.assets)).sum - changeAsset t s) :
    (∃ L', SelInv avail L' s' st') ∧
    ∃ (ks ks' : List Token) (f x : Token → Option Output), ks.Nodup ∧ ks'.Perm ks ∧
      allChanges W s' = ks.filterMap f ++ ks'.filterMap x ∧
      (∀ t ∈ ks, ∃ c o, f t = some o ∧ Unsplit E W req st.getAssetIds s.assets.keys t c ∧
        Outcome E W (st'.balanceOf t) t c o (x t) ∧
        base t + (s'.selected.map (fun u => assetSum t u.assets)).sum = assetSum t c.assets) ∧
      ∀ t, t ∉ ks → base t + (s'.selected.map (fun u => assetSum t u.assets)).sum = 0 := by
  have hmem : ∀ t, t ∈ W.keyOrder s.assets.keys ↔ t ∈ s.assets.keys := fun t => (hk _).mem_iff
  obtain ⟨s2, st2, s3, L3, s4, s5, b, p2, d2, hb1, hb2, _, ht, p3, d3, i3, h4, p4, h5, h6⟩ :=
    select_phases (E := E) (req := req) ho (toks := W.keyOrder s.assets.keys)
      (fun x => Opened W req st.getAssetIds (W.keyOrder s.assets.keys) x ∧
        AssetOK W (W.keyOrder s.assets.keys) base x) (fun x => x.dictionary = st.dictionary)
      (fun a b p hr he => (remove_dictionary hr).trans he)
      (fun L s st t u est' hi hp ht hu hh hpl ha =>
        ⟨hp.1.take (hq u (hi.perm.mem_iff.mpr (by simp [hu]))),
          addInput_asset hp.2 ht hpl (by rw [hmt]; exact StoreOK.fingerprints hi.store hu)⟩)
      (fun t a b st hd ht he hp => ⟨hp.1.excess hmm (fun t => by unfold UStore.getAssetIds; rw [hd]) ht he,
        balanceExcessOf_asset ht (fun e => hmain ((hk _).mem_iff.mp (e ▸ ht))) he hp.2⟩)
      NoDebt (fun t s u est' h => h.addInput u est') (fun t t' s s' st h hn => NoDebt.excess h hn)
      (fun L t s s' st b ht hi hp hcur hb he => NoDebt.excess he ⟨b, currentOf_ok hcur, hb⟩)
      h rfl (hk _) hmain hi rfl ⟨⟨by intro t o h; rw [hch] at h; simp at h, hex, by rw [hch]; simp, hpos⟩,
        ⟨hnet, by intro t o h; rw [hch] at h; simp at h, fun t ht => (hk _).mem_iff.mpr ht,
          by intro t o h; rw [hch] at h; simp at h, by rw [hch]; simp⟩⟩
  obtain ⟨p4, q4⟩ := p4
  obtain ⟨_, d4, _⟩ := round2_induct (toks := W.keyOrder s.assets.keys)
    (fun x => ∀ t ∈ W.keyOrder s.assets.keys, NoDebt t x)
    (fun t x => x.assets.get t = some .balanced)
    (fun t a b _ he hp t' ht' => NoDebt.excess he (hp t' ht'))
    (fun t t' a b he hb => balanced_keep he hb)
    (fun t a b ht hp he => balanceExcessOf_balanced he (hp t ht)) (fun t h => h) h4 d3
  have p5 : AssetOK W (W.keyOrder s.assets.keys) base s5 := balanceExcess_asset h5 q4
  have k5 := balanceExcess_keeps h5
  have hdue : ∀ t, base t + (s'.selected.map (fun u => assetSum t u.assets)).sum =
      ((s5.changes.get t).map (fun o => assetSum t o.assets)).getD 0 := by
    intro t
    have hz : assetNet s5.assets t = 0 := by
      rw [k5.2.2.1]
      unfold assetNet
      by_cases hm : t ∈ W.keyOrder s.assets.keys
      · rw [d4 t hm]; rfl
      · have : t ∉ s4.assets.keys := fun h => hm (q4.keys t h)
        rw [(AMap.get_eq_none_iff _ _).mpr this]; rfl
    have := p5.net t
    rw [hz, p5.changeAsset_eq (by rw [k5.2.1, p4.extra])] at this
    rw [(splits_keeps h6).1]
    linarith
  obtain ⟨r1, r2, r3⟩ := p4.last (fun hm => hmain ((hmem _).mp hm)) h5
  have hnd := (hc s5.changes.keys).nodup_iff.mpr r3
  obtain ⟨x, hx1, hx2, hx3⟩ := splits_outcome hnd h6
  have hkeys : s'.changes.keys.Nodup := (splits_pieces (Pre := fun _ _ => True) hnd h6 (fun _ _ _ _ => trivial)
    (fun t o _ => ⟨o, trivial, .whole⟩) r3).2.1
  have hsel : s'.selected = s3.selected := by
    rw [(splits_keeps h6).1, (balanceExcess_keeps h5).1]
    exact forTokens_inv (fun x => x.selected = s3.selected)
      (fun _ _ _ hb e => (balanceExcessOf_keeps hb).1.trans e) h4 rfl
  have hget : ∀ t, t ∈ s'.changes.keys ↔ t ∈ s5.changes.keys := by
    intro t
    by_cases ht : t ∈ s5.changes.keys
    · rcases hx2 t ((hc _).mem_iff.mpr ht) with ⟨e, _, _⟩ | ⟨c, o, _, e, _⟩
      · exact absurd ht ((AMap.get_eq_none_iff _ _).mp e)
      · refine iff_of_true ?_ ht
        by_contra hn
        rw [(AMap.get_eq_none_iff _ _).mpr hn] at e
        cases e
    · refine iff_of_false ?_ ht
      rw [← AMap.get_eq_none_iff, hx3 t (fun e => ht ((hc _).mem_iff.mp e))]
      exact (AMap.get_eq_none_iff _ _).mpr ht
  refine ⟨⟨L3, i3.store, by rw [hsel]; exact i3.perm⟩, W.changeOrder s'.changes.keys, W.changeOrder s5.changes.keys,
    s'.changes.get, x, (hc _).nodup_iff.mpr hkeys, ?_, ?_, ?_, ?_⟩
  · refine (hc _).trans (List.Perm.trans ?_ (hc _).symm)
    exact (List.perm_ext_iff_of_nodup r3 hkeys).mpr (fun t => (hget t).symm)
  · unfold allChanges
    rw [hx1, (balanceExcess_keeps h5).2.1, p4.extra, List.nil_append]
  · intro t ht
    have ht5 : t ∈ W.changeOrder s5.changes.keys := (hc _).mem_iff.mpr ((hget t).mp ((hc _).mem_iff.mp ht))
    rcases hx2 t ht5 with ⟨e, _, _⟩ | ⟨c, o, e1, e2, e3⟩
    · exact absurd ((hget t).mp ((hc _).mem_iff.mp ht)) ((AMap.get_eq_none_iff _ _).mp e)
    · refine ⟨c, o, e2, ?_, e3, by rw [hdue, e1]; rfl⟩
      rcases r1 t c e1 with ⟨a, b⟩ | b
      · exact Or.inl ⟨(hmem t).mp a, b⟩
      · exact Or.inr b
  · intro t ht
    rw [hdue, (AMap.get_eq_none_iff _ _).mpr (fun e => ht ((hc _).mem_iff.mpr ((hget t).mpr e)))]
    rfl

end Verif.Selection.Thermostat
