import Verif.Selection.ThermostatChanges
import Verif.Props.Thermostat

/-!
# The changes of the thermostat (C67)

The notation is that of `Verif.Props.Thermostat`.
-/

namespace Verif.Props

open Verif Verif.Core Verif.Selection Verif.Selection.Thermostat

variable {σ : Type} {E : Estimator σ} {W : World} {st st' : UStore} {est est' : σ} {ins : List Utxo}
  {outs : List Output} {ch : Option Nat} {r : Result}

/-! ### The starting state -/

theorem assetSum_nonneg {as : List Asset} (h : ∀ a ∈ as, 0 ≤ a.quantity) (t : Token) : 0 ≤ assetSum t as := by
  unfold assetSum
  apply List.sum_nonneg
  intro x hx
  obtain ⟨a, ha, rfl⟩ := List.mem_map.mp hx
  exact h a (List.mem_of_mem_filter ha)

theorem initial_pos (hq : ∀ u ∈ ins, ∀ a ∈ u.assets, 0 ≤ a.quantity) :
    PosExcess (initial est (Setup.fromFixed ins outs ch)).assets := by
  obtain ⟨_, _, q1, q2, k1, k2, n1, n2, _⟩ := C48_setup_totals ins outs ch
  have hin : ∀ kv ∈ (Setup.fromFixed ins outs ch).inputAssets, 0 ≤ kv.2.quantity := by
    intro kv hkv
    have h1 := AMap.get_of_mem n1 hkv
    have h2 := q1 kv.1
    unfold qty at h2
    rw [h1] at h2
    simp only [Option.map_some, Option.getD_some] at h2
    rw [h2]
    apply List.sum_nonneg
    intro x hx
    obtain ⟨u, hu, rfl⟩ := List.mem_map.mp hx
    exact assetSum_nonneg (hq u hu) _
  have step1 : ∀ (l : AssetMap) (m : AMap Token Balance), (∀ kv ∈ l, 0 ≤ kv.2.quantity) → PosExcess m →
      PosExcess (l.foldl (fun m kv => adjust (·.addValue kv.2.quantity) m kv.1) m) := by
    intro l
    induction l with
    | nil => intro m _ h; exact h
    | cons kv l ih =>
      intro m hl h
      exact ih _ (fun x hx => hl x (by simp [hx]))
        (h.adjust (fun b x hb hx => addValue_pos (hl kv (by simp)) hb hx) _)
  have step2 : ∀ (l : AssetMap) (m : AMap Token Balance), PosExcess m →
      PosExcess (l.foldl (fun m kv => adjust (·.subValue kv.2.quantity) m kv.1) m) := by
    intro l
    induction l with
    | nil => intro m h; exact h
    | cons kv l ih =>
      intro m h
      exact ih _ (h.adjust (fun b x _ hx => subValue_pos b _ hx) _)
  exact step2 _ _ (step1 _ _ hin (by intro t x h; simp at h))

theorem changes_of {avail : List Utxo} (hC : THCase W avail st ins outs) (hmm : W.cfg.min ≤ W.cfg.max)
    (hq : ∀ u ∈ avail ++ ins, ∀ a ∈ u.assets, 0 ≤ a.quantity)
    (h : thermostat E W st est (Setup.fromFixed ins outs ch) = (.ok (r, est'), st')) :
    ∃ l1 l2 : List (Token × Output), r.changes = l1.map (·.2) ++ l2.map (·.2) ∧
      (l1.map (·.1)).Nodup ∧ (l2.map (·.1)).Nodup ∧
      ∀ x ∈ l1 ++ l2, ∃ c, Unsplit E W ⟨ch, outs⟩ st.getAssetIds (requestTokens ins outs) x.1 c ∧
        Piece E W c x.2 := by
  obtain ⟨s, hs, _, _, _, hch, _⟩ := thermostat_ok h
  obtain ⟨l1, l2, h1, h2, h3, h4⟩ := select_changes hC.ord hC.keyOrder hC.changeOrder hmm hs hC.inv
    (by rw [hC.main]; exact hC.main_not) rfl rfl (initial_pos (fun u hu => hq u (by simp [hu])))
    (fun u hu => hq u (by simp [hu]))
  refine ⟨l1, l2, by rw [hch, h1], h2, h3, ?_⟩
  intro x hx
  obtain ⟨c, hc, hp⟩ := h4 x hx
  refine ⟨c, ?_, hp⟩
  rcases hc with ⟨a, b⟩ | b
  · exact Or.inl ⟨initial_assets.2.1 _ |>.mp a, b⟩
  · exact Or.inr b

/-- The assets named by what a change was made for. -/
theorem unsplit_kind {ids : Token → Option (Nat × Nat)} {toks : List Token} {req : Request} {t : Token} {c o : Output}
    (h : Unsplit E W req ids toks t c) (hp : Piece E W c o) :
    o.assets.map (·.fingerprint) = if t = W.cfg.main then [] else [t] := by
  have key : c.assets.map (·.fingerprint) = if t = W.cfg.main then [] else [t] := by
    rcases h with ⟨_, hm, ha⟩ | ⟨hm, ha⟩
    · obtain ⟨a, h1, h2, _⟩ := ha.asset
      rw [if_neg hm, h1]; simp [h2]
    · rw [if_pos hm, ha.assets]; rfl
  rw [← key]
  cases hp with
  | whole => rfl
  | dropped h => rw [h]; rfl
  | first hcase => rcases hcase with ⟨a, rest, h1, rfl, rfl⟩ | ⟨h1, rfl, rfl⟩ <;> simp [h1]
  | second hcase => rcases hcase with ⟨a, rest, h1, rfl, rfl⟩ | ⟨h1, rfl, rfl⟩ <;> simp [h1]

/-- At most one of the changes of a list goes with each choice of assets. -/
theorem kind_once {l : List (Token × Output)} (hn : (l.map (·.1)).Nodup)
    (hk : ∀ x ∈ l, x.2.assets.map (·.fingerprint) = if x.1 = W.cfg.main then [] else [x.1]) (k : List Token) :
    ((l.map (·.2)).filter (fun o => o.assets.map (·.fingerprint) = k)).length ≤ 1 := by
  induction l with
  | nil => simp
  | cons x l ih =>
    simp only [List.map_cons, List.nodup_cons] at hn
    rw [List.map_cons, List.filter_cons]
    split
    · rename_i hx
      simp only [decide_eq_true_eq] at hx
      rw [hk x (by simp)] at hx
      have : (l.map (·.2)).filter (fun o => decide (o.assets.map (·.fingerprint) = k)) = [] := by
        rw [List.filter_eq_nil_iff]
        intro o ho
        obtain ⟨y, hy, rfl⟩ := List.mem_map.mp ho
        simp only [decide_eq_true_eq]
        rw [hk y (by simp [hy]), ← hx]
        have hne : y.1 ≠ x.1 := fun e => hn.1 (List.mem_map.mpr ⟨y, hy, e⟩)
        split <;> split
        · rename_i h1 h2; exact absurd (h1.trans h2.symm) hne
        · simp
        · simp
        · simpa using hne
      rw [this]; simp
    · exact ih hn.2 (fun y hy => hk y (by simp [hy]))

/-! ## C67: the changes -/

/-- Every change goes to the change address given and holds no asset, or one asset of the request, with the policy and
the name the store knows for it and an amount that is not negative; at most two changes hold the same assets. -/
theorem C67_shape {avail : List Utxo} (hC : THCase W avail st ins outs) (hmm : W.cfg.min ≤ W.cfg.max)
    (hdiv : ∀ q, W.div q 2 = q / 2) (hq : ∀ u ∈ avail ++ ins, ∀ a ∈ u.assets, 0 ≤ a.quantity)
    (h : thermostat E W st est (Setup.fromFixed ins outs ch) = (.ok (r, est'), st')) :
    (∀ o ∈ r.changes, ch = some o.address ∧
      (o.assets = [] ∨ ∃ a, o.assets = [a] ∧ a.fingerprint ∈ requestTokens ins outs ∧
        st.getAssetIds a.fingerprint = some (a.policy, a.name) ∧ 0 ≤ a.quantity)) ∧
    ∀ k : List Token, (r.changes.filter (fun o => o.assets.map (·.fingerprint) = k)).length ≤ 2 := by
  obtain ⟨l1, l2, h1, h2, h3, h4⟩ := changes_of hC hmm hq h
  rw [h1]
  constructor
  · intro o ho
    have : ∃ x ∈ l1 ++ l2, x.2 = o := by
      rw [← List.map_append] at ho
      obtain ⟨x, hx, rfl⟩ := List.mem_map.mp ho
      exact ⟨x, hx, rfl⟩
    obtain ⟨x, hx, rfl⟩ := this
    obtain ⟨c, hc, hp⟩ := h4 x hx
    have haddr : ch = some c.address := by
      rcases hc with ⟨_, _, ha⟩ | ⟨_, ha⟩ <;> exact ha.address
    have hass : c.assets = [] ∨ ∃ a, c.assets = [a] ∧ a.fingerprint ∈ requestTokens ins outs ∧
        st.getAssetIds a.fingerprint = some (a.policy, a.name) ∧ 0 < a.quantity := by
      rcases hc with ⟨ht, _, ha⟩ | ⟨_, ha⟩
      · obtain ⟨a, h1, h2, h3, h4⟩ := ha.asset
        exact Or.inr ⟨a, h1, h2 ▸ ht, h2 ▸ h3, h4⟩
      · exact Or.inl ha.assets
    have half : ∀ a : Asset, 0 < a.quantity → 0 ≤ trunc (W.div a.quantity 2) ∧
        0 ≤ a.quantity - trunc (W.div a.quantity 2) := by
      intro a ha
      rw [hdiv]
      have : trunc (a.quantity / 2) ≤ a.quantity / 2 := trunc_le (by linarith)
      refine ⟨?_, by linarith⟩
      unfold trunc
      split
      · exact le_refl _
      · have : (0 : ℤ) ≤ (a.quantity / 2).floor := by rw [Rat.le_floor_iff]; push_cast; linarith
        exact_mod_cast this
    generalize hxo : x.2 = o at hp
    cases hp with
    | whole =>
      refine ⟨haddr, ?_⟩
      rcases hass with h | ⟨a, h1, h2, h3, h4⟩
      · exact Or.inl h
      · exact Or.inr ⟨a, h1, h2, h3, le_of_lt h4⟩
    | dropped h =>
      refine ⟨haddr, Or.inr ?_⟩
      rcases hass with h' | ⟨a, h1, h2, h3, h4⟩
      · rw [h] at h'; cases h'
      · rw [h] at h1
        cases h1
        exact ⟨_, rfl, h2, h3, (half _ h4).2⟩
    | first hcase =>
      refine ⟨haddr, ?_⟩
      rcases hcase with ⟨a, rest, h, rfl, rfl⟩ | ⟨h, rfl, rfl⟩
      · rcases hass with h' | ⟨a, h1, h2, h3, h4⟩
        · rw [h] at h'; cases h'
        · rw [h] at h1
          cases h1
          exact Or.inr ⟨_, rfl, h2, h3, (half _ h4).2⟩
      · exact Or.inl rfl
    | second hcase =>
      refine ⟨haddr, ?_⟩
      rcases hcase with ⟨a, rest, h, rfl, rfl⟩ | ⟨h, rfl, rfl⟩
      · rcases hass with h' | ⟨a, h1, h2, h3, h4⟩
        · rw [h] at h'; cases h'
        · rw [h] at h1
          cases h1
          exact Or.inr ⟨_, rfl, h2, h3, (half _ h4).1⟩
      · exact Or.inl rfl
  · intro k
    rw [List.filter_append, List.length_append]
    have kind : ∀ x ∈ l1 ++ l2, x.2.assets.map (·.fingerprint) = if x.1 = W.cfg.main then [] else [x.1] := by
      intro x hx
      obtain ⟨c, hc, hp⟩ := h4 x hx
      exact unsplit_kind hc hp
    have a := kind_once h2 (fun x hx => kind x (by simp [hx])) k
    have b := kind_once h3 (fun x hx => kind x (by simp [hx])) k
    omega

/-- The parts of a change of at least `m`, when a part costs at most `F`. -/
theorem piece_value {c o : Output} {m F : ℚ} (hdiv : ∀ q, W.div q 2 = q / 2)
    (hfee : ∀ s o f, E.feeOut s o = .ok f → 0 ≤ f ∧ f ≤ F) (hF : 0 ≤ F) (hm : 0 ≤ m) (hc : m ≤ c.value)
    (hp : Piece E W c o) :
    ((m / 2).floor : ℚ) - F ≤ o.value ∧ o.value ≤ c.value ∧ (0 < m → 0 < o.value) := by
  have tf : ∀ q : ℚ, 0 ≤ q → trunc q = (q.floor : ℚ) := by
    intro q hq
    unfold trunc
    split
    · rename_i h1
      have : q.floor = 0 := by
        apply le_antisymm
        · have : q.floor < 1 := by rw [Rat.floor_lt_iff]; simpa using h1
          omega
        · rw [Rat.le_floor_iff]; simpa using hq
      rw [this]; simp
    · rfl
  have hfl : ((m / 2).floor : ℚ) ≤ m / 2 := Rat.floor_le _
  have hv := trunc_le (q := c.value / 2) (by linarith)
  have hmono : ((m / 2).floor : ℚ) ≤ trunc (c.value / 2) := by
    rw [← tf _ (by linarith)]; exact trunc_mono (by linarith)
  cases hp with
  | whole => exact ⟨by linarith, le_refl _, fun h => by linarith⟩
  | dropped _ => exact ⟨by simp only; linarith, le_refl _, fun h => by simp only; linarith⟩
  | first _ hf h1 h2 =>
    rename_i as as' fee e o' _
    obtain ⟨f0, f1⟩ := hfee _ _ _ hf
    rw [hdiv] at h1 h2
    rw [hdiv] at h1
    have ht : 0 ≤ trunc (fee / 2) := by
      rw [tf _ (by linarith)]
      have : (0 : ℤ) ≤ (fee / 2).floor := by rw [Rat.le_floor_iff]; push_cast; linarith
      exact_mod_cast this
    simp only [hdiv]
    exact ⟨by linarith, by linarith, fun h => by linarith⟩
  | second _ hf h1 h2 =>
    rename_i as as' fee e o' _
    obtain ⟨f0, f1⟩ := hfee _ _ _ hf
    rw [hdiv] at h1 h2
    rw [hdiv] at h1
    have hu := trunc_le (q := fee / 2) (by linarith)
    have ht : 0 ≤ trunc (fee / 2) := by
      rw [tf _ (by linarith)]
      have : (0 : ℤ) ≤ (fee / 2).floor := by rw [Rat.le_floor_iff]; push_cast; linarith
      exact_mod_cast this
    simp only [hdiv]
    exact ⟨by linarith, by linarith, fun h => by linarith⟩

/-- The main token amounts of the changes. A change with an asset holds at most the configured maximum and at least half
of the configured minimum, less the cost of an output; one without holds at least half of the minimum `m` the estimator
demands, less the cost of an output. No change is empty. Half, because a change may be split in two: that the minimum
itself is respected is refuted below. -/
theorem C67_amounts_partial {avail : List Utxo} (hC : THCase W avail st ins outs) (hmm : W.cfg.min ≤ W.cfg.max)
    (hdiv : ∀ q, W.div q 2 = q / 2) (hq : ∀ u ∈ avail ++ ins, ∀ a ∈ u.assets, 0 ≤ a.quantity)
    {m F : ℚ} (hfee : ∀ s o f, E.feeOut s o = .ok f → 0 ≤ f ∧ f ≤ F) (hF : 0 ≤ F)
    (hneed : ∀ s o v s', E.minValueOut s o = .ok (v, s') → m ≤ v) (hm : 0 < m) (hmin : 0 < W.cfg.min)
    (h : thermostat E W st est (Setup.fromFixed ins outs ch) = (.ok (r, est'), st')) :
    ∀ o ∈ r.changes, 0 < o.value ∧
      (o.assets ≠ [] → ((W.cfg.min / 2).floor : ℚ) - F ≤ o.value ∧ o.value ≤ W.cfg.max) ∧
      (o.assets = [] → ((m / 2).floor : ℚ) - F ≤ o.value) := by
  obtain ⟨l1, l2, h1, h2, h3, h4⟩ := changes_of hC hmm hq h
  intro o ho
  rw [h1, ← List.map_append] at ho
  obtain ⟨x, hx, rfl⟩ := List.mem_map.mp ho
  obtain ⟨c, hc, hp⟩ := h4 x hx
  have hk := unsplit_kind hc hp
  rcases hc with ⟨_, ht, ha⟩ | ⟨ht, ha⟩
  · obtain ⟨v1, v2, v3⟩ := piece_value hdiv hfee hF (le_of_lt hmin) ha.low hp
    rw [if_neg ht] at hk
    exact ⟨v3 hmin, fun _ => ⟨v1, v2.trans ha.high⟩, fun e => by rw [e] at hk; simp at hk⟩
  · obtain ⟨e, e', o', need, fee, hn, _, _, _, _, hle⟩ := ha.need
    obtain ⟨v1, v2, v3⟩ := piece_value hdiv hfee hF (le_of_lt hm) ((hneed _ _ _ _ hn).trans hle) hp
    rw [if_pos ht] at hk
    exact ⟨v3 hm, fun e => absurd (by simpa using hk) e, fun _ => v1⟩

/-- Whole amounts in the store, the request, the configuration and the fees give whole amounts in the changes and a whole
fee, although the code divides. The fees need be whole only in the states `I` the estimator can get to. -/
theorem C67_whole {avail : List Utxo} (hC : THCase W avail st ins outs)
    (hstore : ∀ u ∈ avail ++ ins, (∃ z : ℤ, u.value = z) ∧ ∀ a ∈ u.assets, ∃ z : ℤ, a.quantity = z)
    (houts : ∀ o ∈ outs, (∃ z : ℤ, o.value = z) ∧ ∀ a ∈ o.assets, ∃ z : ℤ, a.quantity = z)
    (hmax : ∃ z : ℤ, W.cfg.max = z) {I : σ → Prop} (hI : Keeps E I) (hest : I est)
    (hfee : ∀ s f, I s → E.minFee s = .ok f → ∃ z : ℤ, f = z)
    (hout : ∀ s o f, I s → E.feeOut s o = .ok f → ∃ z : ℤ, f = z)
    (hneed : ∀ s o v s', I s → E.minValueOut s o = .ok (v, s') → ∃ z : ℤ, v = z)
    (h : thermostat E W st est (Setup.fromFixed ins outs ch) = (.ok (r, est'), st')) :
    (∃ z : ℤ, r.fee = z) ∧
    ∀ o ∈ r.changes, (∃ z : ℤ, o.value = z) ∧ ∀ a ∈ o.assets, ∃ z : ℤ, a.quantity = z := by
  obtain ⟨s, hs, hf, _, _, hch, _⟩ := thermostat_ok h
  have sumW : ∀ l : List ℚ, (∀ x ∈ l, Whole x) → Whole l.sum := by
    intro l
    induction l with
    | nil => intro _; exact whole_zero
    | cons x l ih => intro hl; rw [List.sum_cons]; exact (hl x (by simp)).add (ih (fun y hy => hl y (by simp [hy])))
  have sumA : ∀ (t : Token) (as : List Asset), (∀ a ∈ as, Whole a.quantity) → Whole (assetSum t as) := by
    intro t as ha
    apply sumW
    intro x hx
    obtain ⟨a, h1, rfl⟩ := List.mem_map.mp hx
    exact ha a (List.mem_of_mem_filter h1)
  have hinit : WholeState I (initial est (Setup.fromFixed ins outs ch)) := by
    refine ⟨hest, ?_, ?_, by intro t o h; simp [initial] at h, by simp [initial]⟩
    · rw [initial_main.net]
      have : changeValue (initial est (Setup.fromFixed ins outs ch)) = 0 := by simp [initial, changeValue, mapSum]
      rw [this]
      refine Whole.sub (Whole.add (Whole.sub (sumW _ ?_) (sumW _ ?_)) ?_) whole_zero
      · intro x hx
        obtain ⟨u, hu, rfl⟩ := List.mem_map.mp hx
        exact (hstore u (by simp [hu])).1
      · intro x hx
        obtain ⟨o, ho, rfl⟩ := List.mem_map.mp hx
        exact (houts o ho).1
      · simp [initial]; exact whole_zero
    · intro t b hb
      have := (initial_assets (est := est) (ins := ins) (outs := outs) (ch := ch)).2.2 t
      unfold assetNet at this
      rw [hb] at this
      simp only [Option.getD_some] at this
      rw [this]
      refine Whole.sub (sumW _ ?_) (sumW _ ?_)
      · intro x hx
        obtain ⟨u, hu, rfl⟩ := List.mem_map.mp hx
        exact sumA t _ (hstore u (by simp [hu])).2
      · intro x hx
        obtain ⟨o, ho, rfl⟩ := List.mem_map.mp hx
        exact sumA t _ (houts o ho).2
  have hw := select_whole hC.ord hC.keyOrder ⟨hI, hfee, hout, hneed⟩ hmax hs hC.inv (by rw [hC.main]; exact hC.main_not)
    (fun u hu => hstore u (by simp [hu])) hinit
  refine ⟨by rw [hf]; exact hw.balance, ?_⟩
  intro o ho
  rw [hch] at ho
  unfold allChanges at ho
  rcases List.mem_append.mp ho with ho | ho
  · obtain ⟨t, _, ht⟩ := List.mem_filterMap.mp ho
    exact hw.changes t o ht
  · exact hw.extra o ho

/-! ### A case, and counterexamples -/

/-- The hypotheses hold in the case `th_sample`, in which both changes are split. -/
example : ∃ r est' st', thermostat thE (thW {}) (thStore thAvail) thEst (Setup.fromFixed [] thOuts (some 5)) =
      (.ok (r, est'), st') ∧ r.changes.length = 4 ∧ (∀ o ∈ r.changes, some 5 = some o.address) ∧
      (∀ o ∈ r.changes, o.assets = [] → ((1000000 / 2 : ℚ).floor : ℚ) - 6644 ≤ o.value) ∧
      ∃ z : ℤ, r.fee = z := by
  obtain ⟨r, est', e1, e2, e3, e4, e5⟩ := th_ok th_sample
  refine ⟨r, est', _, e1, ?_, ?_, ?_, ?_⟩
  · have := congrArg List.length e4
    simpa using this
  · intro o ho
    exact ((C67_shape th_sample_case (by decide +kernel) (fun _ => rfl)
      (by decide +kernel) e1).1 o ho).1
  · intro o ho
    refine (C67_amounts_partial (m := 1000000) (F := 6644) th_sample_case (by decide +kernel) (fun _ => rfl)
      (by decide +kernel) ?_ (by norm_num) ?_ (by norm_num) (by decide +kernel) e1 o ho).2.2
    · rintro s o f hf; cases hf; decide +kernel
    · rintro s o v s' hv
      simp only [thE, linearEstimator, bind, Except.bind, Except.ok.injEq, Prod.mk.injEq] at hv
      rw [← hv.1]
  · refine (C67_whole (I := fun s => s.costMetadata = 0) th_sample_case ?_ ?_ ⟨_, rfl⟩
      ⟨?_, ?_, ?_⟩ rfl ?_ ?_ ?_ e1).1
    · intro u hu
      simp only [thAvail, List.append_nil, List.mem_cons, List.not_mem_nil, or_false] at hu
      rcases hu with rfl | rfl
      all_goals
        refine ⟨⟨500000000, by norm_num⟩, ?_⟩
        intro a ha
        simp only [List.mem_singleton] at ha
        subst ha
        exact ⟨100, by norm_num⟩
    · intro o ho
      simp only [thOuts, List.mem_singleton] at ho
      subst ho
      refine ⟨⟨10000000, by norm_num⟩, ?_⟩
      intro a ha
      simp only [List.mem_singleton] at ha
      subst ha
      exact ⟨10, by norm_num⟩
    · rintro s u s' hs he; cases he; exact hs
    · rintro s o s' hs he; cases he; exact hs
    · rintro s o v s' hs he; cases he; exact hs
    · rintro s f hs he
      cases he
      simp only [hs, thCosts]
      exact ⟨167481 + 6644 * s.outputs.length + 1672 * s.inputs.length, by push_cast; ring⟩
    · rintro s o f hs he; cases he; exact ⟨6644, by norm_num [thCosts]⟩
    · rintro s o v s' hs he; cases he; exact ⟨1000000, by norm_num⟩

/-- The amount the estimator demands of each output is not respected: a change of 1824203 is split into two of less than
a million each. -/
theorem C67_minimum_false : ¬ ∀ (W : World) (avail : List Utxo) (st st' : UStore) (est est' : LE)
    (ins : List Utxo) (outs : List Output) (ch : Option Nat) (r : Result), THCase W avail st ins outs →
    W.cfg.min ≤ W.cfg.max → (∀ q n, W.div q n = q / n) → (∀ u ∈ avail ++ ins, ∀ a ∈ u.assets, 0 ≤ a.quantity) →
    thermostat thE W st est (Setup.fromFixed ins outs ch) = (.ok (r, est'), st') →
    ∀ o ∈ r.changes, 1000000 ≤ o.value := by
  intro h
  have h1 : thView thE (thermostat thE (thW {}) (thStore [⟨1, 12000000, [], 0⟩, ⟨2, 12000000, [], 0⟩]) thEst
      (Setup.fromFixed [] [⟨9, 10000000, []⟩] (some 5))) =
      (some ⟨182441, some 182441, [1], [(908780, []), (908779, [])]⟩, [2]) := by decide +kernel
  obtain ⟨r, est', e1, _, _, e4, _⟩ := th_ok h1
  have hC : THCase (thW {}) [⟨1, 12000000, [], 0⟩, ⟨2, 12000000, [], 0⟩]
      (thStore [⟨1, 12000000, [], 0⟩, ⟨2, 12000000, [], 0⟩]) [] [⟨9, 10000000, []⟩] := by
    refine thCase ?_ (by decide +kernel) rfl (by decide +kernel)
    intro u hu
    simp only [List.mem_cons, List.not_mem_nil, or_false] at hu
    rcases hu with rfl | rfl <;> exact ⟨by decide, by decide⟩
  have h2 := h _ _ _ _ _ _ _ _ _ _ hC (by decide +kernel) (fun _ _ => rfl) (by decide +kernel) e1
  simp only at e4
  match hc : r.changes with
  | [] => rw [hc] at e4; simp at e4
  | o :: _ =>
    rw [hc] at e4
    simp only [List.map_cons, List.cons.injEq, Prod.mk.injEq] at e4
    have := h2 o (by rw [hc]; simp)
    rw [e4.1.1] at this
    norm_num at this

/-- A change may hold none of the asset it was made for: one unit is split into one and none. -/
theorem C67_empty_false : ¬ ∀ (W : World) (avail : List Utxo) (st st' : UStore) (est est' : LE)
    (ins : List Utxo) (outs : List Output) (ch : Option Nat) (r : Result), THCase W avail st ins outs →
    W.cfg.min ≤ W.cfg.max → (∀ q n, W.div q n = q / n) → (∀ u ∈ avail ++ ins, ∀ a ∈ u.assets, 0 < a.quantity) →
    thermostat thE W st est (Setup.fromFixed ins outs ch) = (.ok (r, est'), st') →
    ∀ o ∈ r.changes, ∀ a ∈ o.assets, 0 < a.quantity := by
  intro h
  have h1 : thView thE (thermostat thE (thW { accumulators := 1, min := 0 }) (thStore (thExact 10900000 200000)) thEst
      (Setup.fromFixed [] thOuts (some 5))) =
      (some ⟨106644, some 184113, [1, 2], [(496678, [(7, 1)]), (496678, [(7, 0)])]⟩, [3]) := by
    decide +kernel
  obtain ⟨r, est', e1, _, _, e4, _⟩ := th_ok h1
  have h2 := h _ _ _ _ _ _ _ _ _ _ (thExact_case rfl _ _) (by decide +kernel) (fun _ _ => rfl)
    (by decide +kernel) e1
  simp only at e4
  match hc : r.changes with
  | [] => rw [hc] at e4; simp at e4
  | [_] => rw [hc] at e4; simp at e4
  | _ :: _ :: _ :: _ => rw [hc] at e4; simp at e4
  | [_, o] =>
    rw [hc] at e4
    simp only [List.map_cons, List.map_nil, List.cons.injEq, Prod.mk.injEq, and_true] at e4
    obtain ⟨_, _, e⟩ := e4
    match ha : o.assets with
    | [] => rw [ha] at e; simp at e
    | a :: _ =>
      rw [ha] at e
      simp only [List.map_cons, List.cons.injEq, Prod.mk.injEq] at e
      have := h2 o (by rw [hc]; simp) a (by rw [ha]; simp)
      rw [e.1.2] at this
      norm_num at this

end Verif.Props
