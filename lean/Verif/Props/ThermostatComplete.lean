import Verif.Selection.ThermostatComplete
import Verif.Props.ThermostatChanges

/-!
# An affordable payment is made (C68)

The notation is that of `Verif.Props.Thermostat`.
-/

namespace Verif.Props

open Verif Verif.Core Verif.Selection Verif.Selection.Thermostat

variable {σ : Type} {E : Estimator σ} {W : World} {st st' : UStore} {est est' : σ} {ins : List Utxo}
  {outs : List Output} {ch : Option Nat} {r : Result}

/-- An ordinary request: a sensible configuration, an estimator that always answers and charges the constants `cin`
and `cout` for an input and an output, no negative amounts, UTxOs worth their own cost, assets the store knows, and
sizes far from the largest number in a debug build. `m0` is the fee of the transaction without selected parts. -/
structure Ordinary (E : Estimator σ) (W : World) (avail : List Utxo) (st : UStore) (est : σ) (ins : List Utxo)
    (outs : List Output) (cin cout m0 : ℚ) : Prop where
  case : THCase W avail st ins outs
  min : 0 ≤ W.cfg.min
  max : W.cfg.min ≤ W.cfg.max
  accumulators : W.cfg.accumulators ≠ 0
  accumulatorsAssets : W.cfg.accumulatorsAssets ≠ 0
  sure : Sure E cin cout
  feeIn : 1 ≤ cin ∧ cin < 2 ^ 64
  feeOut : 0 ≤ cout ∧ cout < 2 ^ 64
  fee : E.minFee est = .ok m0 ∧ 0 ≤ m0
  quantities : ∀ u ∈ avail ++ ins, ∀ a ∈ u.assets, 0 ≤ a.quantity
  outputs : ∀ o ∈ outs, 0 ≤ o.value ∧ ∀ a ∈ o.assets, 0 ≤ a.quantity
  worth : ∀ u ∈ avail, cin ≤ u.value
  known : ∀ t ∈ requestTokens ins outs, (st.getAssetIds t).isSome
  room : W.debug = true → cout.floor.toNat * (requestTokens ins outs).length * 2 < 2 ^ 64

/-- The main token of a list of UTxOs, after the cost of spending them. -/
def spendable (cin : ℚ) (us : List Utxo) : ℚ := (us.map (fun u => u.value - cin)).sum

/-! ### The starting state -/

theorem initial_debts (hq : ∀ o ∈ outs, ∀ a ∈ o.assets, 0 ≤ a.quantity) :
    ∀ t b, (initial est (Setup.fromFixed ins outs ch)).assets.get t = some b → DebtPos b := by
  obtain ⟨_, _, q1, q2, k1, k2, n1, n2, _⟩ := C48_setup_totals ins outs ch
  have hout : ∀ kv ∈ (Setup.fromFixed ins outs ch).outputAssets, 0 ≤ kv.2.quantity := by
    intro kv hkv
    have h1 := AMap.get_of_mem n2 hkv
    have h2 := q2 kv.1
    unfold qty at h2
    rw [h1] at h2
    simp only [Option.map_some, Option.getD_some] at h2
    rw [h2]
    apply List.sum_nonneg
    intro x hx
    obtain ⟨o, ho, rfl⟩ := List.mem_map.mp hx
    exact assetSum_nonneg (hq o ho) _
  have getd : ∀ (m : AMap Token Balance) t, (∀ t b, m.get t = some b → DebtPos b) →
      DebtPos ((m.get t).getD .balanced) := by
    intro m t h
    cases hg : m.get t with
    | none => intro v hv; cases hv
    | some b => exact h _ _ hg
  have step1 : ∀ (l : AssetMap) (m : AMap Token Balance), (∀ t b, m.get t = some b → DebtPos b) →
      ∀ t b, (l.foldl (fun m kv => adjust (·.addValue kv.2.quantity) m kv.1) m).get t = some b → DebtPos b := by
    intro l
    induction l with
    | nil => intro m h; exact h
    | cons kv l ih => intro m h; exact ih _ (debts_adjust h ((getd _ _ h).add _))
  have step2 : ∀ (l : AssetMap) (m : AMap Token Balance), (∀ kv ∈ l, 0 ≤ kv.2.quantity) →
      (∀ t b, m.get t = some b → DebtPos b) →
      ∀ t b, (l.foldl (fun m kv => adjust (·.subValue kv.2.quantity) m kv.1) m).get t = some b → DebtPos b := by
    intro l
    induction l with
    | nil => intro m _ h; exact h
    | cons kv l ih =>
      intro m hl h
      exact ih _ (fun x hx => hl x (by simp [hx])) (debts_adjust h ((getd _ _ h).sub (hl kv (by simp))))
  exact step2 _ _ hout (step1 _ _ (by intro t b h; simp at h))

theorem initial_going {avail : List Utxo} {cin cout m0 : ℚ} (h : Ordinary E W avail st est ins outs cin cout m0) :
    Going E W ⟨ch, outs⟩ st.getAssetIds (W.keyOrder (initial est (Setup.fromFixed ins outs ch)).assets.keys)
      (fun t => assetIn t ins - assetOut t outs) ((ins.map (·.value)).sum - (outs.map (·.value)).sum) cin cout m0
      (initial est (Setup.fromFixed ins outs ch)) := by
  have hno : ∀ t, (initial est (Setup.fromFixed ins outs ch)).changes.get t = none := fun t => rfl
  refine ⟨⟨?_, ?_, fun t ht => (h.case.keyOrder _).mem_iff.mpr ht, ?_, by simp [initial]⟩,
    ⟨?_, rfl, by simp [initial], initial_pos (fun u hu => h.quantities u (by simp [hu]))⟩, initial_main, ?_, ?_,
    initial_debts (fun o ho => (h.outputs o ho).2)⟩
  · intro t
    rw [initial_assets.2.2]
    simp [initial, changeAsset, mapSum]
  · intro t o ho; rw [hno] at ho; cases ho
  · intro t o ho; rw [hno] at ho; cases ho
  · intro t o ho; rw [hno] at ho; cases ho
  · simp only [initial, List.length_nil, Nat.cast_zero, mul_zero, add_zero]
    exact h.fee.1
  · obtain ⟨_, v2, _⟩ := C48_setup_totals ins outs ch
    simp only [initial]
    refine DebtPos.sub (DebtPos.add (fun v hv => by cases hv) _) ?_
    rw [v2]
    apply List.sum_nonneg
    intro x hx
    obtain ⟨o, ho, rfl⟩ := List.mem_map.mp hx
    exact (h.outputs o ho).1

theorem sure_calm {cin cout : ℚ} (h : Sure E cin cout) : Calm E := by
  obtain ⟨c1, c2, c3, c4, c5, c6, c7, c8⟩ := h.no_error
  exact ⟨fun s e h => absurd h (c1 s e), fun s u e h => absurd h (c4 s u e), fun s u e h => absurd h (c2 s u e),
    fun s u e h => absurd h (c5 s u e), fun s u e h => absurd h (c3 s u e), fun s u e h => absurd h (c6 s u e),
    fun s e h => absurd h (c7 s e), fun s e h => absurd h (c8 s e)⟩

/-! ## C68: an affordable payment is made -/

/-- The selection answers a request with a change address and at least one fixed output, if the fixed inputs do not
already cover it, the UTxOs of a single asset hold enough of each asset, the UTxOs without assets are worth what is
missing with one change of the largest size for each asset, and no asset is met exactly. The fee then reaches the
minimum. Missing for C68: requests already covered (`C68_covered_false`), requests without outputs
(`C68_outputs_false`), UTxOs with several assets (`C68_bundles_false`), amounts met exactly (`C68_exact_false`). -/
theorem C68_succeeds_partial {avail : List Utxo} {cin cout m0 : ℚ} {addr : Nat}
    (h : Ordinary E W avail st est ins outs cin cout m0) (hout : outs ≠ [])
    (hneed : (ins.map (·.value)).sum < (outs.map (·.value)).sum + m0 ∨
      ∃ t ∈ requestTokens ins outs, assetIn t ins < assetOut t outs)
    (hassets : ∀ t ∈ requestTokens ins outs,
      assetOut t outs ≤ assetIn t ins + assetIn t (avail.filter (fun u => u.assets.length = 1)))
    (hada : (outs.map (·.value)).sum + m0 + (requestTokens ins outs).length * (W.cfg.max + cout) ≤
      (ins.map (·.value)).sum + spendable cin (avail.filter (fun u => u.assets.length = 0)))
    (hexact : ∀ t ∈ requestTokens ins outs, ∀ used rest, avail.Perm (used ++ rest) →
      assetIn t ins + assetIn t used ≠ assetOut t outs) :
    ∃ r est' st', thermostat E W st est (Setup.fromFixed ins outs (some addr)) = (.ok (r, est'), st') ∧
      ∃ m, E.minFee est' = .ok m ∧ m ≤ r.fee := by
  have hkeys := (initial_assets (est := est) (ins := ins) (outs := outs) (ch := some addr)).2.1
  have hg := initial_going (ch := some addr) h
  have hans : ∃ r est' st', thermostat E W st est (Setup.fromFixed ins outs (some addr)) = (.ok (r, est'), st') := by
    cases hs : select E W ⟨some addr, outs⟩ st (initial est (Setup.fromFixed ins outs (some addr))) with
    | error e =>
      exfalso
      have hbad := select_sure h.case.ord h.case.keyOrder h.sure (by linarith [h.feeIn.1]) h.feeIn.2 h.feeOut.1 h.feeOut.2
        h.fee.2 h.case.main h.max h.min rfl hout (fun u hu => h.quantities u (by simp [hu])) h.worth
        h.case.main_not initial_assets.1
        (fun t ht => by
          have := hassets t ((hkeys t).mp ht)
          have e1 : assetIn t (avail.filter (fun u => u.assets.length = 1)) =
            ((avail.filter (fun u => u.assets.length = 1)).map (fun u => assetSum t u.assets)).sum := rfl
          linarith)
        (by
          rw [← requestTokens_length]
          unfold spendable at hada
          linarith)
        (by
          rcases hneed with hlt | ⟨t, ht, hlt⟩
          · exact Or.inl (by linarith)
          · exact Or.inr ⟨t, (hkeys t).mpr ht, by linarith⟩)
        rfl h.case.inv hg hs
      refine Benign.not_bad ?_ hbad
      refine select_benign h.case.ord h.case.keyOrder (sure_calm h.sure)
        ⟨h.case.main, h.accumulators, h.accumulatorsAssets, ?_, ?_⟩ h.case.inv h.case.main_not initial_assets.1
        (fun t ht => h.known t ((hkeys t).mp ht)) hs
      · intro s u f hf
        rw [h.sure.feeIn] at hf
        cases hf
        exact Or.inr h.feeIn.1
      · intro hd s o f hf
        rw [h.sure.feeOut] at hf
        cases hf
        rw [(h.case.keyOrder _).length_eq, ← requestTokens_length]
        exact h.room hd
    | ok x =>
      obtain ⟨s, st1⟩ := x
      have hfee := select_fee h.case.ord h.case.keyOrder h.case.main h.max h.sure.toLinear hs h.case.inv h.worth
        (by rw [h.case.main]; exact h.case.main_not) rfl rfl (base := fun t => assetIn t ins - assetOut t outs)
        (fun t => by rw [initial_assets.2.2]; simp [initial, changeAsset, mapSum])
        (fun t ht used rest hp he => hexact t ((hkeys t).mp ht) used rest hp (by
          have : assetIn t used = (used.map (fun u => assetSum t u.assets)).sum := rfl
          linarith))
      have hnd := select_no_debt h.case.ord h.case.keyOrder h.sure (by linarith [h.feeIn.1]) h.feeOut.1 h.fee.2 h.case.main
        h.max (fun u hu => h.quantities u (by simp [hu])) h.case.main_not h.case.inv hg hs hfee
      have hs' : select E W ⟨(Setup.fromFixed ins outs (some addr)).changeAddress,
          (Setup.fromFixed ins outs (some addr)).fixedOutputs⟩ st
          (initial est (Setup.fromFixed ins outs (some addr))) = .ok (s, st1) := hs
      unfold thermostat
      rw [hs']
      simp only
      unfold answer
      cases hb : s.balance with
      | debt v => exact absurd hb (hnd v)
      | balanced => exact ⟨_, _, _, rfl⟩
      | excess v => exact ⟨_, _, _, rfl⟩
  obtain ⟨r, est', st', e1⟩ := hans
  exact ⟨r, est', st', e1, C50_fee_partial h.case h.max h.sure.toLinear h.worth hexact e1⟩

/-! ### Cases -/

/-- The estimator of the thermostat always answers. -/
theorem thE_sure : Sure thE thCosts.costInput thCosts.costOutput where
  toLinear := linearEstimator_linear _ _
  minFee _ := ⟨_, rfl⟩
  addInOk _ _ := ⟨_, rfl⟩
  addOutOk _ _ := ⟨_, rfl⟩
  minValueOut _ _ := ⟨_, _, rfl, by norm_num⟩
  currentSize _ := ⟨_, rfl⟩
  maxSize _ := ⟨_, rfl⟩

/-- The available UTxOs of the cases: one with assets, one without. -/
def thPlain (as : List Asset) : List Utxo := [⟨1, 2000000, ⟨7, 100, 1, 2⟩ :: as, 0⟩, ⟨2, 500000000, [], 0⟩]

theorem thPlain_ordinary {as : List Asset} {ins : List Utxo} {outs : List Output} (has : as = [] ∨ as = [⟨8, 5, 1, 3⟩])
    (hr : ∀ t ∈ requestTokens ins outs, t = 7)
    (hins : ∀ u ∈ ins, ∀ a ∈ u.assets, 0 ≤ a.quantity)
    (houts : ∀ o ∈ outs, 0 ≤ o.value ∧ ∀ a ∈ o.assets, 0 ≤ a.quantity) :
    Ordinary thE (thW {}) (thPlain as) (thStore (thPlain as)) thEst ins outs thCosts.costInput thCosts.costOutput
      167481 := by
  have hlen : (requestTokens ins outs).length ≤ 1 := by
    have hn : (requestTokens ins outs).Nodup := List.nodup_dedup _
    have := (List.subperm_of_subset hn (l₂ := [7]) (fun t ht => by simp [hr t ht])).length_le
    simpa using this
  refine ⟨thCase ?_ (by simp [thPlain]) rfl ?_, by decide +kernel, by decide +kernel, by decide, by decide, thE_sure,
    by decide +kernel, by decide +kernel, ⟨by decide +kernel, by norm_num⟩, ?_, houts, ?_, ?_, ?_⟩
  · intro u hu
    simp only [thPlain, List.mem_cons, List.not_mem_nil, or_false] at hu
    rcases has with rfl | rfl <;> rcases hu with rfl | rfl <;> exact ⟨by decide, by decide⟩
  · intro hm
    have := hr _ hm
    simp [mainToken] at this
  · intro u hu
    rcases List.mem_append.mp hu with hu | hu
    · clear * - has hu
      revert u
      rcases has with rfl | rfl <;> decide +kernel
    · exact hins u hu
  · rcases has with rfl | rfl <;> decide +kernel
  · intro t ht
    rw [hr t ht]
    rcases has with rfl | rfl <;> decide +kernel
  · intro _
    have h6 : thCosts.costOutput.floor.toNat = 6644 := by decide +kernel
    rw [h6]
    omega

/-- No choice among these UTxOs meets an amount of the asset below 100 exactly. -/
theorem thPlain_exact {as : List Asset} (has : as = [] ∨ as = [⟨8, 5, 1, 3⟩]) {used rest : List Utxo}
    (hp : (thPlain as).Perm (used ++ rest)) : assetIn 7 used = 0 ∨ assetIn 7 used = 100 := by
  have hall : assetIn 7 used + assetIn 7 rest = 100 := by
    have h1 : assetIn 7 (thPlain as) = assetIn 7 (used ++ rest) := perm_sum _ hp
    have h2 : assetIn 7 (thPlain as) = 100 := by rcases has with rfl | rfl <;> decide +kernel
    have h3 : assetIn 7 (used ++ rest) = assetIn 7 used + assetIn 7 rest := by simp [assetIn]
    linarith
  have hone : ∀ w ∈ used ++ rest, assetSum 7 w.assets = 0 ∨ assetSum 7 w.assets = 100 := by
    intro w hw
    have : w ∈ thPlain as := hp.mem_iff.mpr hw
    simp only [thPlain, List.mem_cons, List.not_mem_nil, or_false] at this
    rcases has with rfl | rfl <;> rcases this with rfl | rfl <;> decide +kernel
  have hge : ∀ l : List Utxo, (∀ w ∈ l, assetSum 7 w.assets = 0 ∨ assetSum 7 w.assets = 100) →
      assetIn 7 l = 0 ∨ 100 ≤ assetIn 7 l := by
    intro l hl
    induction l with
    | nil => exact Or.inl rfl
    | cons u l ih =>
      have h1 : assetIn 7 (u :: l) = assetSum 7 u.assets + assetIn 7 l := by simp [assetIn]
      rcases hl u (by simp) with h2 | h2 <;> rcases ih (fun w hw => hl w (by simp [hw])) with h3 | h3
      · left; linarith
      · right; linarith
      · right; linarith
      · right; linarith
  rcases hge used (fun w hw => hone w (by simp [hw])) with h1 | h1
  · exact Or.inl h1
  · rcases hge rest (fun w hw => hone w (by simp [hw])) with h2 | h2
    · right; linarith
    · right; linarith

theorem thOuts_tokens : ∀ t ∈ requestTokens [] thOuts, t = 7 := by decide +kernel

/-- The hypotheses hold for a payment of 10 of the asset. -/
example : ∃ r est' st', thermostat thE (thW {}) (thStore (thPlain [])) thEst (Setup.fromFixed [] thOuts (some 5)) =
      (.ok (r, est'), st') ∧ ∃ m, thE.minFee est' = .ok m ∧ m ≤ r.fee := by
  refine C68_succeeds_partial (thPlain_ordinary (Or.inl rfl) thOuts_tokens (by simp) (by decide +kernel))
    (by decide) (Or.inl (by decide +kernel)) (by decide +kernel) (by decide +kernel) ?_
  intro t ht used rest hp
  rw [thOuts_tokens t ht]
  have h1 : assetOut 7 thOuts = 10 := by decide +kernel
  have h2 : assetIn 7 [] = 0 := rfl
  rw [h1, h2, zero_add]
  rcases thPlain_exact (Or.inl rfl) hp with h | h <;> rw [h] <;> norm_num

theorem th_error {x : Except SelErr (Result × σ) × UStore} {l : List Nat} (h : thView E x = (none, l)) :
    ¬ ∃ r est' st', x = (.ok (r, est'), st') := by
  rintro ⟨r, est', st', rfl⟩
  simp [thView, Except.toOption] at h

/-- A request that its fixed inputs already pay, fee included, is refused: the room left is computed from the first
selected input, and there is none. -/
theorem C68_covered_false : ¬ ∀ (W : World) (avail : List Utxo) (st : UStore) (est : LE) (ins : List Utxo)
    (outs : List Output) (cin cout m0 : ℚ) (addr : Nat), Ordinary thE W avail st est ins outs cin cout m0 →
    outs ≠ [] → requestTokens ins outs = [] →
    (outs.map (·.value)).sum + m0 + thCosts.costInput + thCosts.costOutput ≤ (ins.map (·.value)).sum →
    ∃ r est' st', thermostat thE W st est (Setup.fromFixed ins outs (some addr)) = (.ok (r, est'), st') := by
  intro h
  refine th_error (E := thE) (l := [1, 2]) ?_ (h _ _ _ _ [⟨3, 500000000, [], 0⟩] [⟨9, 10000000, []⟩] _ _ _ 5
    (thPlain_ordinary (as := []) (Or.inl rfl) (by decide +kernel) (by decide +kernel) (by decide +kernel)) (by decide)
    (by decide +kernel) (by decide +kernel))
  decide +kernel

/-- A request without fixed outputs is refused, although the available UTxOs could pay its fee. -/
theorem C68_outputs_false : ¬ ∀ (W : World) (avail : List Utxo) (st : UStore) (est : LE) (ins : List Utxo)
    (outs : List Output) (cin cout m0 : ℚ) (addr : Nat), Ordinary thE W avail st est ins outs cin cout m0 →
    requestTokens ins outs = [] → (ins.map (·.value)).sum < (outs.map (·.value)).sum + m0 →
    (outs.map (·.value)).sum + m0 ≤
      (ins.map (·.value)).sum + spendable cin (avail.filter (fun u => u.assets.length = 0)) →
    ∃ r est' st', thermostat thE W st est (Setup.fromFixed ins outs (some addr)) = (.ok (r, est'), st') := by
  intro h
  refine th_error (E := thE) (l := [1, 2]) ?_ (h _ _ _ _ [] [] _ _ _ 5
    (thPlain_ordinary (as := []) (Or.inl rfl) (by decide +kernel) (by decide +kernel) (by decide +kernel))
    (by decide +kernel) (by decide +kernel) (by decide +kernel))
  decide +kernel

/-- A payment is refused if the asset is available only together with another one: a UTxO with two assets is never
spent. -/
theorem C68_bundles_false : ¬ ∀ (W : World) (avail : List Utxo) (st : UStore) (est : LE) (ins : List Utxo)
    (outs : List Output) (cin cout m0 : ℚ) (addr : Nat), Ordinary thE W avail st est ins outs cin cout m0 →
    outs ≠ [] → (∃ t ∈ requestTokens ins outs, assetIn t ins < assetOut t outs) →
    (∀ t ∈ requestTokens ins outs, assetOut t outs ≤ assetIn t ins + assetIn t avail) →
    (outs.map (·.value)).sum + m0 + (requestTokens ins outs).length * (W.cfg.max + cout) ≤
      (ins.map (·.value)).sum + spendable cin (avail.filter (fun u => u.assets.length = 0)) →
    (∀ t ∈ requestTokens ins outs, ∀ used rest, avail.Perm (used ++ rest) →
      assetIn t ins + assetIn t used ≠ assetOut t outs) →
    ∃ r est' st', thermostat thE W st est (Setup.fromFixed ins outs (some addr)) = (.ok (r, est'), st') := by
  intro h
  refine th_error (E := thE) (l := [1, 2]) ?_ (h _ _ _ _ [] thOuts _ _ _ 5
    (thPlain_ordinary (Or.inr rfl) thOuts_tokens (by simp) (by decide +kernel)) (by decide)
    ⟨7, by decide +kernel, by decide +kernel⟩ (by decide +kernel) (by decide +kernel) ?_)
  · decide +kernel
  · intro t ht used rest hp
    rw [thOuts_tokens t ht]
    have h1 : assetOut 7 thOuts = 10 := by decide +kernel
    have h2 : assetIn 7 [] = 0 := rfl
    rw [h1, h2, zero_add]
    rcases thPlain_exact (Or.inr rfl) hp with h | h <;> rw [h] <;> norm_num

/-- UTxOs of which the first holds exactly the asset wanted and pays the request, and the last one could pay for every
change. -/
def thMet : List Utxo := thExact 12000000 1000000 ++ [⟨4, 500000000, [], 0⟩]

/-- A payment is refused if the amount of an asset is met exactly: the change opened for the UTxOs beyond the wanted
number is then paid with what is left, and no further UTxO is taken for it, although there are enough. -/
theorem C68_exact_false : ¬ ∀ (W : World) (avail : List Utxo) (st : UStore) (est : LE) (ins : List Utxo)
    (outs : List Output) (cin cout m0 : ℚ) (addr : Nat), Ordinary thE W avail st est ins outs cin cout m0 →
    outs ≠ [] → (∃ t ∈ requestTokens ins outs, assetIn t ins < assetOut t outs) →
    (∀ t ∈ requestTokens ins outs,
      assetOut t outs ≤ assetIn t ins + assetIn t (avail.filter (fun u => u.assets.length = 1))) →
    (outs.map (·.value)).sum + m0 + (requestTokens ins outs).length * (W.cfg.max + cout) ≤
      (ins.map (·.value)).sum + spendable cin (avail.filter (fun u => u.assets.length = 0)) →
    ∃ r est' st', thermostat thE W st est (Setup.fromFixed ins outs (some addr)) = (.ok (r, est'), st') := by
  intro h
  refine th_error (E := thE) (l := [3, 4]) ?_ (h (thW { accumulators := 1 }) thMet (thStore thMet) thEst [] thOuts
    thCosts.costInput thCosts.costOutput 167481 5 ?_ (by decide) ⟨7, by decide +kernel, by decide +kernel⟩
    (by decide +kernel) (by decide +kernel))
  · decide +kernel
  · refine ⟨thCase ?_ (by simp [thMet, thExact]) rfl (by decide +kernel), by decide +kernel, by decide +kernel, by decide,
      by decide, thE_sure, by decide +kernel, by decide +kernel, ⟨by decide +kernel, by norm_num⟩, by decide +kernel,
      by decide +kernel, by decide +kernel, by decide +kernel, by decide +kernel⟩
    intro u hu
    simp only [thMet, thExact, List.cons_append, List.nil_append, List.mem_cons, List.not_mem_nil, or_false] at hu
    rcases hu with rfl | rfl | rfl | rfl <;> exact ⟨by simp, by simp [mainToken]⟩

end Verif.Props
