import Verif.Selection.ThermostatRun
import Verif.Selection.ThermostatErrors
import Verif.Selection.LinearEstimator
import Verif.Props.LargestFirst

/-!
# Thermostat selection (C49–C51, C60)

The request is given by the fixed inputs `ins`, the fixed outputs `outs` and a change address. The orders in which
hash maps list their entries are any permutations. `assetSum t as` is the amount of `t` in a list of assets.
-/

namespace Verif.Props

open Verif Verif.Core Verif.Selection Verif.Selection.Thermostat

variable {σ : Type} {E : Estimator σ} {W : World} {st st' : UStore} {est est' : σ} {ins : List Utxo}
  {outs : List Output} {ch : Option Nat} {r : Result}

/-- The amount of an asset in a list of inputs. -/
def assetIn (t : Token) (us : List Utxo) : ℚ := (us.map (fun u => assetSum t u.assets)).sum

/-- The amount of an asset in a list of outputs. -/
def assetOut (t : Token) (os : List Output) : ℚ := (os.map (fun o => assetSum t o.assets)).sum

/-- The assets a request mentions, each once. -/
def requestTokens (ins : List Utxo) (outs : List Output) : List Token :=
  ((ins.flatMap (·.assets) ++ outs.flatMap (·.assets)).map (·.fingerprint)).dedup

/-! ### The starting state -/

theorem initial_assets : (initial est (Setup.fromFixed ins outs ch)).assets.keys.Nodup ∧
    (∀ t, t ∈ (initial est (Setup.fromFixed ins outs ch)).assets.keys ↔ t ∈ requestTokens ins outs) ∧
    ∀ t, assetNet (initial est (Setup.fromFixed ins outs ch)).assets t = assetIn t ins - assetOut t outs := by
  obtain ⟨_, _, q1, q2, k1, k2, n1, n2, _⟩ := C48_setup_totals ins outs ch
  obtain ⟨h1, h2⟩ := insNet _ n1 [] (by simp) (by simp)
  obtain ⟨h3, h4⟩ := outsNet _ n2 _ h1
  have hg : ∀ t, (initial est (Setup.fromFixed ins outs ch)).assets.get t = _ := h4
  refine ⟨h3, ?_, ?_⟩
  · intro t
    have hk : t ∈ (initial est (Setup.fromFixed ins outs ch)).assets.keys ↔
        (initial est (Setup.fromFixed ins outs ch)).assets.get t ≠ none := by
      rw [Ne, AMap.get_eq_none_iff, not_not]
    have hr : t ∈ requestTokens ins outs ↔
        t ∈ (Setup.fromFixed ins outs ch).inputAssets.keys ∨ t ∈ (Setup.fromFixed ins outs ch).outputAssets.keys := by
      rw [k1, k2]
      unfold requestTokens
      simp only [List.mem_dedup, List.map_append, List.mem_append, List.mem_map, List.mem_flatMap]
      constructor
      · rintro (⟨a, ⟨u, hu, ha⟩, rfl⟩ | ⟨a, ⟨u, hu, ha⟩, rfl⟩)
        · exact Or.inl ⟨u, hu, a, ha, rfl⟩
        · exact Or.inr ⟨u, hu, a, ha, rfl⟩
      · rintro (⟨u, hu, a, ha, rfl⟩ | ⟨u, hu, a, ha, rfl⟩)
        · exact Or.inl ⟨a, ⟨u, hu, ha⟩, rfl⟩
        · exact Or.inr ⟨a, ⟨u, hu, ha⟩, rfl⟩
    rw [hk, hr, hg, h2]
    by_cases a : t ∈ (Setup.fromFixed ins outs ch).inputAssets.keys <;>
      by_cases b : t ∈ (Setup.fromFixed ins outs ch).outputAssets.keys <;> simp [a, b]
  · intro t
    have e1 : assetIn t ins = qty (Setup.fromFixed ins outs ch).inputAssets t := (q1 t).symm
    have e2 : assetOut t outs = qty (Setup.fromFixed ins outs ch).outputAssets t := (q2 t).symm
    rw [e1, e2]
    unfold assetNet
    have hz : ∀ m : AssetMap, t ∉ m.keys → qty m t = 0 := by
      intro m hm
      have := (AMap.get_eq_none_iff m t).mpr hm
      simp [qty, this]
    have z : Balance.zero.net = 0 := rfl
    have z' : Balance.balanced.net = 0 := rfl
    rw [hg, h2]
    by_cases a : t ∈ (Setup.fromFixed ins outs ch).inputAssets.keys <;>
      by_cases b : t ∈ (Setup.fromFixed ins outs ch).outputAssets.keys
    · simp only [a, b, if_true, Option.getD_some]
      rw [net_subValue, net_addValue, z, zero_add]
    · simp only [a, b, if_true, if_false, Option.getD_some]
      rw [net_addValue, z, zero_add, hz _ b, sub_zero]
    · simp only [a, b, if_true, if_false, Option.getD_some, AMap.get_nil, Option.getD_none]
      rw [net_subValue, z', hz _ a]
    · simp only [a, b, if_false, AMap.get_nil, Option.getD_none]
      rw [hz _ a, hz _ b, z', sub_zero]

theorem requestTokens_length :
    (requestTokens ins outs).length = (initial est (Setup.fromFixed ins outs ch)).assets.keys.length := by
  obtain ⟨h1, h2, _⟩ := initial_assets (est := est) (ins := ins) (outs := outs) (ch := ch)
  exact ((List.perm_ext_iff_of_nodup (List.nodup_dedup _) h1).mpr (fun t => (h2 t).symm)).length_eq

/-- A success is a run of `select` whose remaining balance, not in debt, is the fee. -/
theorem thermostat_ok (h : thermostat E W st est (Setup.fromFixed ins outs ch) = (.ok (r, est'), st')) :
    ∃ s, select E W ⟨ch, outs⟩ st (initial est (Setup.fromFixed ins outs ch)) = .ok (s, st') ∧
      r.fee = s.balance.net ∧ est' = s.est ∧ r.chosen = s.selected ∧ r.changes = allChanges W s ∧
      r.fixedInputs = ins ∧ r.fixedOutputs = outs ∧
      r.inputBalance = (s.selected.map (·.value)).sum + (ins.map (·.value)).sum ∧
      r.outputBalance = ((allChanges W s).map (·.value)).sum + (outs.map (·.value)).sum ∧
      (∀ t, qty r.inputAssets t = assetIn t s.selected + assetIn t ins) ∧
      (∀ t, qty r.outputAssets t = assetOut t (allChanges W s) + assetOut t outs) := by
  unfold thermostat at h
  cases hs : select E W ⟨(Setup.fromFixed ins outs ch).changeAddress, (Setup.fromFixed ins outs ch).fixedOutputs⟩ st
    (initial est (Setup.fromFixed ins outs ch)) with
  | error e => simp [hs] at h
  | ok x =>
    obtain ⟨s, st1⟩ := x
    simp only [hs] at h
    cases ha : answer W (Setup.fromFixed ins outs ch) s with
    | error e => simp [ha] at h
    | ok r1 =>
      simp only [ha, Prod.mk.injEq, Except.ok.injEq] at h
      obtain ⟨⟨rfl, rfl⟩, rfl⟩ := h
      refine ⟨s, hs, ?_⟩
      unfold answer at ha
      cases hb : s.balance with
      | debt v => simp [hb] at ha
      | balanced =>
        simp only [hb, Except.ok.injEq] at ha
        subst ha
        refine ⟨rfl, rfl, rfl, rfl, rfl, rfl, ?_, ?_, ?_, ?_⟩
        · simp only [Setup.fromFixed]; rw [foldl_value_sum]; simp
        · simp only [Setup.fromFixed]; rw [foldl_value_sum]; simp
        · intro t
          have := (foldl_assets (fun u : Utxo => u.assets) (s.selected ++ ins) [] (by simp) Keyed.nil).2.2.1 t
          simpa [assetIn, qty, Setup.fromFixed] using this
        · intro t
          have := (foldl_assets (fun u : Output => u.assets) (allChanges W s ++ outs) [] (by simp) Keyed.nil).2.2.1 t
          simpa [assetOut, qty, Setup.fromFixed] using this
      | excess v =>
        simp only [hb, Except.ok.injEq] at ha
        subst ha
        refine ⟨rfl, rfl, rfl, rfl, rfl, rfl, ?_, ?_, ?_, ?_⟩
        · simp only [Setup.fromFixed]; rw [foldl_value_sum]; simp
        · simp only [Setup.fromFixed]; rw [foldl_value_sum]; simp
        · intro t
          have := (foldl_assets (fun u : Utxo => u.assets) (s.selected ++ ins) [] (by simp) Keyed.nil).2.2.1 t
          simpa [assetIn, qty, Setup.fromFixed] using this
        · intro t
          have := (foldl_assets (fun u : Output => u.assets) (allChanges W s ++ outs) [] (by simp) Keyed.nil).2.2.1 t
          simpa [assetOut, qty, Setup.fromFixed] using this

theorem allChanges_sum (hc : ∀ l, (W.changeOrder l).Perm l) {s : TS σ} (hn : s.changes.keys.Nodup) (g : Output → ℚ) :
    ((allChanges W s).map g).sum = mapSum g s.changes + (s.extra.map g).sum := by
  unfold allChanges
  rw [List.map_append, List.sum_append, mapSum_keys g hn (hc _)]

theorem initial_main : MainOK ((ins.map (·.value)).sum - (outs.map (·.value)).sum)
    (initial est (Setup.fromFixed ins outs ch)) := by
  obtain ⟨v1, v2, _⟩ := C48_setup_totals ins outs ch
  refine ⟨?_, by simp [initial]⟩
  simp only [initial]
  rw [net_subValue, net_addValue, v1, v2]
  have : Balance.balanced.net = 0 := rfl
  rw [this]
  simp [changeValue, mapSum]

/-! ## C49: value is conserved -/

/-- The main token: what goes in is what goes out, changes and fee included, whatever the store, the amounts, the
configuration and the estimator; and the totals reported are those of the lists reported. -/
theorem C49_main (hc : ∀ l, (W.changeOrder l).Perm l)
    (h : thermostat E W st est (Setup.fromFixed ins outs ch) = (.ok (r, est'), st')) :
    (ins.map (·.value)).sum + (r.chosen.map (·.value)).sum =
      (outs.map (·.value)).sum + (r.changes.map (·.value)).sum + r.fee ∧
    r.inputBalance = (ins.map (·.value)).sum + (r.chosen.map (·.value)).sum ∧
    r.outputBalance = (outs.map (·.value)).sum + (r.changes.map (·.value)).sum ∧
    (∀ t, qty r.inputAssets t = assetIn t ins + assetIn t r.chosen) ∧
    (∀ t, qty r.outputAssets t = assetOut t outs + assetOut t r.changes) ∧
    r.fixedInputs = ins ∧ r.fixedOutputs = outs := by
  obtain ⟨s, hs, hf, _, hsel, hch, h1, h2, h3, h4, h5, h6⟩ := thermostat_ok h
  have hm := select_main hs initial_main
  have hsum := allChanges_sum hc hm.nodup (fun o => o.value)
  have hnet := hm.net
  unfold changeValue at hnet
  rw [hsel, hch]
  refine ⟨?_, by rw [h3]; ring, by rw [h4]; ring, fun t => by rw [h5]; ring, fun t => by rw [h6]; ring, h1, h2⟩
  rw [hsum, hf, hnet]
  ring

/-- What the theorems about assets and fees assume: available UTxOs with distinct pointers, each naming an
asset once; no asset of the request is the main token; the configured bounds are in order. -/
structure THCase (W : World) (avail : List Utxo) (st : UStore) (ins : List Utxo) (outs : List Output) : Prop where
  ord : ∀ l, (W.ord l).Perm l
  keyOrder : ∀ l, (W.keyOrder l).Perm l
  changeOrder : ∀ l, (W.changeOrder l).Perm l
  store : StoreOK avail st
  main : W.cfg.main = mainToken
  noMain : mainToken ∉ requestTokens ins outs

theorem THCase.inv {avail : List Utxo} (h : THCase W avail st ins outs) :
    SelInv avail avail (initial est (Setup.fromFixed ins outs ch)) st := ⟨h.store, by simp [initial]⟩

theorem THCase.main_not {avail : List Utxo} (h : THCase W avail st ins outs) :
    mainToken ∉ (initial est (Setup.fromFixed ins outs ch)).assets.keys := by
  rw [initial_assets.2.1]; exact h.noMain

/-- Assets are conserved when a change is never too small to be split: half of the configured minimum is above the
fee of an output. Missing for C49: small minimums, see `C49_assets_false`. -/
theorem C49_assets_partial {avail : List Utxo} (hC : THCase W avail st ins outs) (hmm : W.cfg.min ≤ W.cfg.max)
    (hdiv : ∀ q, W.div q 2 = q / 2)
    (hfee : ∀ s o f, E.feeOut s o = .ok f → 0 ≤ f ∧ f < ((W.cfg.min / 2).floor : ℚ))
    (h : thermostat E W st est (Setup.fromFixed ins outs ch) = (.ok (r, est'), st')) (t : Token) :
    assetIn t ins + assetIn t r.chosen = assetOut t outs + assetOut t r.changes := by
  obtain ⟨s, hs, hf, _, hsel, hch, _⟩ := thermostat_ok h
  have hm := select_main hs initial_main
  have hsum := allChanges_sum hC.changeOrder hm.nodup (fun o => assetSum t o.assets)
  have := select_assets hC.ord hC.keyOrder hC.changeOrder hC.main hmm hdiv (fun s o f hf => by
      obtain ⟨a, b⟩ := hfee s o f hf
      refine ⟨a, ?_⟩
      unfold trunc
      split
      · rename_i hlt
        exfalso
        have : (W.cfg.min / 2).floor < 1 := by rw [Rat.floor_lt_iff]; exact_mod_cast hlt
        have : ((W.cfg.min / 2).floor : ℚ) ≤ 0 := by exact_mod_cast Int.lt_add_one_iff.mp (by simpa using this)
        linarith
      · exact b) hs hC.inv
    (by rw [hC.main]; exact hC.main_not) rfl (base := fun t => assetIn t ins - assetOut t outs)
    (fun t => by rw [initial_assets.2.2]; simp [initial, changeAsset, mapSum]) t
  rw [hsel, hch]
  have e1 : assetOut t (allChanges W s) = changeAsset t s := hsum
  rw [e1, ← this]
  unfold assetIn
  ring

/-! ## C50: the fee reaches the minimum -/

/-- The fee reported reaches what the estimator asks for the finished transaction when it charges a constant for each
part, no available UTxO is worth less than its own cost, and no selection of UTxOs meets the amount of an
asset exactly. Missing for C50: worthless UTxOs (`C50_dust_false`) and exact amounts (`C50_exact_false`). -/
theorem C50_fee_partial {avail : List Utxo} (hC : THCase W avail st ins outs) (hmm : W.cfg.min ≤ W.cfg.max)
    {cin cout : ℚ} (hl : Linear E cin cout) (hworth : ∀ u ∈ avail, cin ≤ u.value)
    (hexact : ∀ t ∈ requestTokens ins outs, ∀ used rest, avail.Perm (used ++ rest) →
      assetIn t ins + assetIn t used ≠ assetOut t outs)
    (h : thermostat E W st est (Setup.fromFixed ins outs ch) = (.ok (r, est'), st')) :
    ∃ m, E.minFee est' = .ok m ∧ m ≤ r.fee := by
  obtain ⟨s, hs, hf, rfl, _⟩ := thermostat_ok h
  have := select_fee hC.ord hC.keyOrder hC.main hmm hl hs hC.inv hworth (by rw [hC.main]; exact hC.main_not) rfl rfl
    (base := fun t => assetIn t ins - assetOut t outs)
    (fun t => by rw [initial_assets.2.2]; simp [initial, changeAsset, mapSum])
    (fun t ht used rest hp he => hexact t (initial_assets.2.1 t |>.mp ht) used rest hp (by
      have : assetIn t used = (used.map (fun u => assetSum t u.assets)).sum := rfl
      linarith))
  obtain ⟨m, h1, h2⟩ := this
  exact ⟨m, h1, by rw [hf]; exact h2⟩

/-- C50, for estimators with constant charges: without exact amounts the fee falls short of the minimum by no more than what
the chosen UTxOs lack of their own cost. -/
theorem C50_deficit {avail : List Utxo} (hC : THCase W avail st ins outs) (hmm : W.cfg.min ≤ W.cfg.max)
    {cin cout : ℚ} (hl : Linear E cin cout)
    (hexact : ∀ t ∈ requestTokens ins outs, ∀ used rest, avail.Perm (used ++ rest) →
      assetIn t ins + assetIn t used ≠ assetOut t outs)
    (h : thermostat E W st est (Setup.fromFixed ins outs ch) = (.ok (r, est'), st')) :
    ∃ m, E.minFee est' = .ok m ∧ m ≤ r.fee + (r.chosen.map (fun u => max 0 (cin - u.value))).sum := by
  obtain ⟨s, hs, hf, rfl, hrc, _⟩ := thermostat_ok h
  have := select_but hC.ord hC.keyOrder hC.main hmm hl hs hC.inv (by rw [hC.main]; exact hC.main_not) rfl rfl
    (base := fun t => assetIn t ins - assetOut t outs)
    (fun t => by rw [initial_assets.2.2]; simp [initial, changeAsset, mapSum])
    (fun t ht used rest hp he => hexact t (initial_assets.2.1 t |>.mp ht) used rest hp (by
      have : assetIn t used = (used.map (fun u => assetSum t u.assets)).sum := rfl
      linarith))
  obtain ⟨⟨m, h1, h2⟩, _⟩ := this
  refine ⟨m, h1, ?_⟩
  rw [hf, hrc]
  exact h2

/-! ## C51: what is selected -/

/-- What a selection that reaches its end has taken, whether or not it is balanced. -/
theorem selected_available {avail : List Utxo} (hC : THCase W avail st ins outs) {s : TS σ}
    (hs : select E W ⟨ch, outs⟩ st (initial est (Setup.fromFixed ins outs ch)) = .ok (s, st')) :
    avail.Perm (s.selected ++ availableInputs st') ∧ StoreOK (availableInputs st') st' ∧
    (s.selected.map (·.ptr)).Nodup ∧
    ∀ u ∈ s.selected, u.assets = [] ∨ ∃ a, u.assets = [a] ∧ a.fingerprint ∈ requestTokens ins outs := by
  have hkeys : ∀ t, t ∈ W.keyOrder (initial est (Setup.fromFixed ins outs ch)).assets.keys ↔
      t ∈ requestTokens ins outs := fun t => ((hC.keyOrder _).mem_iff).trans (initial_assets.2.1 t)
  obtain ⟨s2, st2, s3, L3, s4, s5, b, _, _, _, _, _, _, p3, _, i3, h4, _, h5, h6⟩ :=
    select_phases (E := E) hC.ord
      (toks := W.keyOrder (initial est (Setup.fromFixed ins outs ch)).assets.keys)
      (fun x => ∀ u ∈ x.selected, u.assets = [] ∨ ∃ a, u.assets = [a] ∧ a.fingerprint ∈ requestTokens ins outs)
      (fun _ => True) (fun _ _ _ _ _ => trivial)
      (fun L s st t u est' hi hp ht hu hh hpl ha w hw => by
        simp only [addInput, List.mem_append, List.mem_singleton] at hw
        rcases hw with hw | rfl
        · exact hp w hw
        · obtain ⟨hl, hall⟩ := hpl
          match hass : w.assets with
          | [] => exact Or.inl rfl
          | [a] =>
            right
            refine ⟨a, rfl, ?_⟩
            have hfa := hall a (by rw [hass]; simp)
            rcases ht with ht | rfl
            · rw [hfa]; exact (hkeys t).mp ht
            · exfalso
              apply (hi.store.distinct w hu).2
              rw [← hC.main, ← hfa]
              exact List.mem_map.mpr ⟨a, by rw [hass]; simp, rfl⟩
          | _ :: _ :: _ => rw [hass] at hl; simp at hl)
      (fun t a b st _ ht he hp => by rw [(balanceExcessOf_keeps he).1]; exact hp)
      (fun _ _ => True) (fun _ _ _ _ _ => trivial) (fun _ _ _ _ _ _ _ => trivial)
      (fun _ _ _ _ _ _ _ _ _ _ _ _ => trivial)
      hs rfl (hC.keyOrder _) (by rw [hC.main]; exact hC.main_not) hC.inv trivial (by simp [initial])
  have e4 : s4.selected = s3.selected :=
    (round2_induct (fun x => x.selected = s3.selected) (fun _ _ => True)
      (fun t a b _ he hp => by rw [(balanceExcessOf_keeps he).1]; exact hp)
      (fun _ _ _ _ _ _ => trivial) (fun _ _ _ _ _ _ => trivial) (fun t h => h) h4 rfl).1
  have e6 : s.selected = s3.selected := by
    rw [(splits_keeps h6).1, (balanceExcess_keeps h5).1, e4]
  rw [e6]
  rw [availableInputs_eq i3.store]
  refine ⟨i3.perm, i3.store, ?_, p3⟩
  have hn := hC.store.contents.nodup
  rw [(i3.perm.map _).nodup_iff, List.map_append] at hn
  exact (List.nodup_append.mp hn).1

/-- The UTxOs chosen and those reported available afterwards are together exactly those available before; the chosen
ones are distinct, and each holds no asset, or one asset of the request. -/
theorem C51_selection {avail : List Utxo} (hC : THCase W avail st ins outs)
    (h : thermostat E W st est (Setup.fromFixed ins outs ch) = (.ok (r, est'), st')) :
    avail.Perm (r.chosen ++ availableInputs st') ∧ StoreOK (availableInputs st') st' ∧
    (r.chosen.map (·.ptr)).Nodup ∧
    ∀ u ∈ r.chosen, u.assets = [] ∨ ∃ a, u.assets = [a] ∧ a.fingerprint ∈ requestTokens ins outs := by
  obtain ⟨s, hs, hf, rfl, hsel, _⟩ := thermostat_ok h
  rw [hsel]
  exact selected_available hC hs

/-- A failure other than "Unbalanced ada" leaves the available UTxOs as they were. -/
theorem C51_failure_partial {e : SelErr} {io : Setup} (h : thermostat E W st est io = (.error e, st'))
    (he : e ≠ .unbalanced) : st' = st := by
  unfold thermostat at h
  split at h
  · cases h; rfl
  · split at h
    · rename_i e' ha
      exfalso
      cases h
      apply he
      unfold answer at ha
      split at ha <;> cases ha
      rfl
    · cases h

/-! ## C60: it answers -/

/-- The selection ends without a panic: the estimator does not panic and charges at least one for an input, both numbers
of accumulators are positive, the available UTxOs were at some time told the identifiers of every asset of the request,
and in a debug build the sizes are far from the largest number. -/
theorem C60_answers_partial {avail : List Utxo} (hC : THCase W avail st ins outs) (hE : Calm E)
    (hin : ∀ s u f, E.feeIn s u = .ok f → f < 0 ∨ 1 ≤ f)
    (hacc : W.cfg.accumulators ≠ 0) (hacc' : W.cfg.accumulatorsAssets ≠ 0)
    (hknown : ∀ t ∈ requestTokens ins outs, (st.getAssetIds t).isSome)
    (hroom : W.debug = true → ∀ s o f, E.feeOut s o = .ok f →
      f.floor.toNat * (requestTokens ins outs).length * 2 < 2 ^ 64) :
    (thermostat E W st est (Setup.fromFixed ins outs ch)).1 ≠ .error .panic ∧
    (thermostat E W st est (Setup.fromFixed ins outs ch)).1 ≠ .error .fuel := by
  have key : ∀ e, (thermostat E W st est (Setup.fromFixed ins outs ch)).1 = .error e → Benign e := by
    intro e he
    unfold thermostat at he
    split at he
    · rename_i e' hs
      cases he
      refine select_benign hC.ord hC.keyOrder hE ⟨hC.main, hacc, hacc', hin, ?_⟩ hC.inv hC.main_not initial_assets.1
        (fun t ht => hknown t ((initial_assets.2.1 t).mp ht)) hs
      intro hd s o f hf
      have := hroom hd s o f hf
      rw [requestTokens_length (est := est) (ch := ch)] at this
      rw [(hC.keyOrder _).length_eq]
      exact this
    · split at he
      · rename_i e' ha
        cases he
        unfold answer at ha
        split at ha <;> cases ha
        exact ⟨by simp, by simp⟩
      · cases he
  exact ⟨fun h => (key _ h).1 rfl, fun h => (key _ h).2 rfl⟩

/-! ## Cases -/

/-- What can be seen of an answer: fee, the estimator's minimum, pointers chosen, and the amounts of the changes. -/
structure ThView where
  fee : ℚ
  min : Option ℚ
  chosen : List Nat
  changes : List (ℚ × List (Token × ℚ))
deriving DecidableEq

/-- The answer, if any, and the pointers left. -/
def thView (E : Estimator σ) (x : Except SelErr (Result × σ) × UStore) : Option ThView × List Nat :=
  (x.1.toOption.map (fun y => ⟨y.1.fee, (E.minFee y.2).toOption, y.1.chosen.map (·.ptr),
    y.1.changes.map (fun o => (o.value, o.assets.map (fun a => (a.fingerprint, a.quantity))))⟩),
   (availableInputs x.2).map (·.ptr))

/-- The costs on the public networks, with a script of 100 bytes and one witness. -/
def thCosts : Costs := ⟨167481, 1672, 6644, 16384, 38, 151⟩

/-- The fresh estimator. -/
def thEst : LE := { currentSize := 325 }

/-- A minimum of one ada for every output. -/
def thE : Estimator LE := linearEstimator thCosts (fun _ => .ok 1000000)

def thW (cfg : Config) : World := ⟨cfg, id, id, id, fun q n => q / n, true⟩

def thStore (l : List Utxo) : UStore := (setAvailable UStore.new l).2

/-- The estimator above is the one the code builds. -/
example : LE.new Network.public 100 1 = .ok (thCosts, thEst) := by
  simp [LE.new, Network.costEmpty, Network.costOf, Network.public, mulCoin, addCoin, sizeEmpty, overhead,
    sizeOneWitness, sizeOneInput, sizeOneOutput, sizeOverhead, thCosts, thEst, bind, Except.bind]
  norm_num

theorem thStore_ok {l : List Utxo} (hd : ∀ u ∈ l, DistinctAssets u) (hn : (l.map (·.ptr)).Nodup) :
    StoreOK l (thStore l) := by
  obtain ⟨st, h1, h2, _⟩ := C39_set_available UStore.new l hd hn
  unfold thStore; rw [h1]; exact h2

theorem thCase {cfg : Config} {l : List Utxo} {ins : List Utxo} {outs : List Output} (hd : ∀ u ∈ l, DistinctAssets u)
    (hn : (l.map (·.ptr)).Nodup) (hm : cfg.main = mainToken) (hr : mainToken ∉ requestTokens ins outs) :
    THCase (thW cfg) l (thStore l) ins outs :=
  ⟨fun l => List.Perm.refl l, fun l => List.Perm.refl l, fun l => List.Perm.refl l, thStore_ok hd hn, hm, hr⟩

/-- The thermostat's estimator charges a constant for each part. -/
theorem linearEstimator_linear (c : Costs) (minAda : Output → Except SelErr ℚ) :
    Linear (linearEstimator c minAda) c.costInput c.costOutput where
  feeIn _ _ := rfl
  feeOut _ _ := rfl
  addIn s u s' m h hm := by
    simp only [linearEstimator, Except.ok.injEq] at h hm ⊢
    subst h hm
    simp only [List.length_append, List.length_singleton, Nat.cast_add, Nat.cast_one]
    ring
  addOut s o s' m h hm := by
    simp only [linearEstimator, Except.ok.injEq] at h hm ⊢
    subst h hm
    simp only [List.length_append, List.length_singleton, Nat.cast_add, Nat.cast_one]
    ring
  minValue s o v s' h := by
    simp only [linearEstimator, bind, Except.bind] at h
    split at h
    · cases h
    · cases h; rfl

/-- It does not panic. -/
theorem linearEstimator_calm (c : Costs) (minAda : Output → Except SelErr ℚ)
    (h : ∀ o e, minAda o = .error e → Benign e) : Calm (linearEstimator c minAda) where
  minFee _ _ h := by cases h
  feeIn _ _ _ h := by cases h
  addIn _ _ _ h := by cases h
  feeOut _ _ _ h := by cases h
  addOut _ _ _ h := by cases h
  minValueOut s o e he := by
    simp only [linearEstimator, bind, Except.bind] at he
    split at he
    · rename_i e' h'
      cases he; exact h _ _ h'
    · cases he
  currentSize _ _ h := by cases h
  maxSize _ _ h := by cases h

theorem th_ok {x : Except SelErr (Result × σ) × UStore} {v : ThView} {l : List Nat} (h : thView E x = (some v, l)) :
    ∃ r est', x = (.ok (r, est'), x.2) ∧ r.fee = v.fee ∧ (E.minFee est').toOption = v.min ∧
      r.changes.map (fun o => (o.value, o.assets.map (fun a => (a.fingerprint, a.quantity)))) = v.changes ∧
      r.chosen.map (·.ptr) = v.chosen := by
  obtain ⟨y, s⟩ := x
  cases y with
  | error e => simp [thView, Except.toOption] at h
  | ok z =>
    obtain ⟨r, est'⟩ := z
    simp only [thView, Except.toOption, Option.map_some, Prod.mk.injEq, Option.some.injEq] at h
    obtain ⟨rfl, _⟩ := h
    exact ⟨r, est', rfl, rfl, rfl, rfl, rfl⟩

/-- An ada payment with one UTxO above it: the change is split in two. -/
example : thView thE (thermostat thE (thW {}) (thStore [⟨1, 12000000, [], 0⟩, ⟨2, 12000000, [], 0⟩]) thEst
    (Setup.fromFixed [] [⟨9, 10000000, []⟩] (some 5))) =
    (some ⟨182441, some 182441, [1], [(908780, []), (908779, [])]⟩, [2]) := by decide +kernel

/-- The UTxOs of the next cases: an asset in two of them. -/
def thAvail : List Utxo := [⟨1, 500000000, [⟨7, 100, 1, 2⟩], 0⟩, ⟨2, 500000000, [⟨7, 100, 1, 2⟩], 0⟩]

/-- A payment of 10 of an asset. -/
def thOuts : List Output := [⟨9, 10000000, [⟨7, 10, 1, 2⟩]⟩]

/-- The result with the default configuration. -/
theorem th_sample : thView thE (thermostat thE (thW {}) (thStore thAvail) thEst (Setup.fromFixed [] thOuts (some 5))) =
    (some ⟨195729, some 195729, [1],
      [(99996678, [(7, 45)]), (144905458, []), (99996678, [(7, 45)]), (144905457, [])]⟩, [2]) := by
  decide +kernel

/-- The hypotheses of the theorems hold in this case. -/
theorem th_sample_case : THCase (thW {}) thAvail (thStore thAvail) [] thOuts := by
  refine thCase ?_ (by decide +kernel) rfl (by decide +kernel)
  intro u hu
  simp only [thAvail, List.mem_cons, List.not_mem_nil, or_false] at hu
  rcases hu with rfl | rfl <;> exact ⟨by decide, by decide⟩

/-- Splitting a change worth no more than the fee of an output takes half of its asset away: 100 of the asset go in,
10 are paid and 45 are returned. -/
theorem C49_assets_false : ¬ ∀ (W : World) (E : Estimator LE) (avail : List Utxo) (st st' : UStore) (est est' : LE)
    (ins : List Utxo) (outs : List Output) (ch : Option Nat) (r : Result), THCase W avail st ins outs →
    W.cfg.min ≤ W.cfg.max → (∀ q n, W.div q n = q / n) →
    thermostat E W st est (Setup.fromFixed ins outs ch) = (.ok (r, est'), st') →
    ∀ t, assetIn t ins + assetIn t r.chosen = assetOut t outs + assetOut t r.changes := by
  intro h
  have h1 : thView thE (thermostat thE (thW { min := 0, max := 10000 }) (thStore thAvail) thEst
      (Setup.fromFixed [] thOuts (some 5))) =
      (some ⟨189085, some 189085, [1], [(10000, [(7, 45)]), (244900458, []), (244900457, [])]⟩, [2]) := by
    decide +kernel
  obtain ⟨r, est', e1, _, _, e2, e3⟩ := th_ok h1
  have hC : THCase (thW { min := 0, max := 10000 }) thAvail (thStore thAvail) [] thOuts :=
    ⟨fun l => List.Perm.refl l, fun l => List.Perm.refl l, fun l => List.Perm.refl l, th_sample_case.store, rfl,
      by decide +kernel⟩
  have h2 := h _ _ _ _ _ _ _ _ _ _ _ hC (by decide +kernel) (fun _ _ => rfl) e1 7
  obtain ⟨q1, _, q3, q4⟩ := C51_selection hC e1
  simp only at e2 e3
  have hr : r.chosen = [⟨1, 500000000, [⟨7, 100, 1, 2⟩], 0⟩] := by
    match hc : r.chosen with
    | [] => rw [hc] at e3; simp at e3
    | _ :: _ :: _ => rw [hc] at e3; simp at e3
    | [u] =>
      rw [hc] at e3 q1
      simp only [List.map_cons, List.map_nil, List.cons.injEq, and_true] at e3
      have hu : u ∈ thAvail := q1.mem_iff.mpr (by simp)
      simp only [thAvail, List.mem_cons, List.not_mem_nil, or_false] at hu
      rcases hu with rfl | rfl
      · rfl
      · simp at e3
  have hch : assetOut 7 r.changes = 45 := by
    have : ∀ (os : List Output) (vs : List (ℚ × List (Token × ℚ))),
        os.map (fun o => (o.value, o.assets.map (fun a => (a.fingerprint, a.quantity)))) = vs →
        assetOut 7 os = (vs.map (fun v => ((v.2.filter (fun x => x.1 = 7)).map (·.2)).sum)).sum := by
      rintro os vs rfl
      unfold assetOut
      rw [List.map_map]
      congr 1
      apply List.map_congr_left
      intro o _
      simp only [Function.comp_apply, assetSum]
      rw [List.filter_map, List.map_map]
      rfl
    rw [this _ _ e2]
    decide +kernel
  rw [hr, hch] at h2
  revert h2
  decide +kernel

/-- A UTxO worth less than its own cost makes the fee too small: the UTxOs beyond the wanted number of accumulators are
spent whatever they are worth. -/
theorem C50_dust_false : ¬ ∀ (W : World) (avail : List Utxo) (st st' : UStore) (est est' : LE)
    (ins : List Utxo) (outs : List Output) (ch : Option Nat) (r : Result), THCase W avail st ins outs →
    W.cfg.min ≤ W.cfg.max → (∀ q n, W.div q n = q / n) →
    thermostat thE W st est (Setup.fromFixed ins outs ch) = (.ok (r, est'), st') →
    ∃ m, thE.minFee est' = .ok m ∧ m ≤ r.fee := by
  intro h
  have h1 : thView thE (thermostat thE (thW { accumulators := 1 })
      (thStore [⟨1, 10169153, [], 0⟩, ⟨2, 100, [], 0⟩, ⟨3, 100, [], 0⟩]) thEst
      (Setup.fromFixed [] [⟨9, 10000000, []⟩] (some 5))) =
      (some ⟨169253, some 170825, [1, 2], []⟩, [3]) := by
    decide +kernel
  obtain ⟨r, est', e1, e2, e3, _⟩ := th_ok h1
  have hC : THCase (thW { accumulators := 1 }) [⟨1, 10169153, [], 0⟩, ⟨2, 100, [], 0⟩, ⟨3, 100, [], 0⟩]
      (thStore [⟨1, 10169153, [], 0⟩, ⟨2, 100, [], 0⟩, ⟨3, 100, [], 0⟩]) [] [⟨9, 10000000, []⟩] := by
    refine thCase ?_ (by decide +kernel) rfl (by decide +kernel)
    intro u hu
    simp only [List.mem_cons, List.not_mem_nil, or_false] at hu
    rcases hu with rfl | rfl | rfl <;> exact ⟨by decide, by decide⟩
  obtain ⟨m, h2, h3⟩ := h _ _ _ _ _ _ _ _ _ _ hC (by decide +kernel) (fun _ _ => rfl) e1
  rw [h2] at e3
  simp only [Except.toOption, Option.some.injEq] at e2 e3
  rw [e2, e3] at h3
  revert h3
  decide +kernel

/-- The run of `C50_dust_false` lacks 1572 of the minimum, which is what the UTxO of 100 lacks of its cost. -/
example : ∃ (r : Result) (est' : LE) (m : ℚ), thE.minFee est' = .ok m ∧ m = r.fee + 1572 ∧
    m ≤ r.fee + (r.chosen.map (fun u => max 0 (thCosts.costInput - u.value))).sum := by
  have h1 : thView thE (thermostat thE (thW { accumulators := 1 })
      (thStore [⟨1, 10169153, [], 0⟩, ⟨2, 100, [], 0⟩, ⟨3, 100, [], 0⟩]) thEst
      (Setup.fromFixed [] [⟨9, 10000000, []⟩] (some 5))) =
      (some ⟨169253, some 170825, [1, 2], []⟩, [3]) := by
    decide +kernel
  obtain ⟨r, est', e1, e2, e3, _⟩ := th_ok h1
  have hC : THCase (thW { accumulators := 1 }) [⟨1, 10169153, [], 0⟩, ⟨2, 100, [], 0⟩, ⟨3, 100, [], 0⟩]
      (thStore [⟨1, 10169153, [], 0⟩, ⟨2, 100, [], 0⟩, ⟨3, 100, [], 0⟩]) [] [⟨9, 10000000, []⟩] := by
    refine thCase ?_ (by decide +kernel) rfl (by decide +kernel)
    intro u hu
    simp only [List.mem_cons, List.not_mem_nil, or_false] at hu
    rcases hu with rfl | rfl | rfl <;> exact ⟨by decide, by decide⟩
  obtain ⟨m, h2, h3⟩ := C50_deficit hC (by decide +kernel) (linearEstimator_linear _ _)
    (by intro t ht; rw [show requestTokens [] [⟨9, 10000000, []⟩] = [] by decide +kernel] at ht; cases ht) e1
  refine ⟨r, est', m, h2, ?_, h3⟩
  change thE.minFee est' = .ok m at h2
  rw [h2] at e3
  simp only [Except.toOption, Option.some.injEq] at e2 e3
  rw [e2, e3]
  norm_num

/-- Three UTxOs with an asset, the first one holding exactly the amount wanted. -/
def thExact (a b : ℚ) : List Utxo := [⟨1, a, [⟨7, 10, 1, 2⟩], 0⟩, ⟨2, b, [⟨7, 1, 1, 2⟩], 0⟩, ⟨3, b, [⟨7, 1, 1, 2⟩], 0⟩]

theorem thExact_case {cfg : Config} (hm : cfg.main = mainToken) (a b : ℚ) :
    THCase (thW cfg) (thExact a b) (thStore (thExact a b)) [] thOuts := by
  refine thCase ?_ (by simp [thExact]) hm (by decide +kernel)
  intro u hu
  simp only [thExact, List.mem_cons, List.not_mem_nil, or_false] at hu
  rcases hu with rfl | rfl | rfl <;> exact ⟨by simp, by simp [mainToken]⟩

/-- An asset met exactly has no change yet when the UTxOs beyond the wanted number are spent; the change opened for it
then is paid out of the fee. Every UTxO is worth far more than its cost. -/
theorem C50_exact_false : ¬ ∀ (W : World) (avail : List Utxo) (st st' : UStore) (est est' : LE)
    (ins : List Utxo) (outs : List Output) (ch : Option Nat) (r : Result), THCase W avail st ins outs →
    W.cfg.min ≤ W.cfg.max → (∀ q n, W.div q n = q / n) → (∀ u ∈ avail, 100 * thCosts.costInput ≤ u.value) →
    thermostat thE W st est (Setup.fromFixed ins outs ch) = (.ok (r, est'), st') →
    ∃ m, thE.minFee est' = .ok m ∧ m ≤ r.fee := by
  intro h
  have h1 : thView thE (thermostat thE (thW { accumulators := 1, min := 0 }) (thStore (thExact 10900000 200000)) thEst
      (Setup.fromFixed [] thOuts (some 5))) =
      (some ⟨106644, some 184113, [1, 2], [(496678, [(7, 1)]), (496678, [(7, 0)])]⟩, [3]) := by
    decide +kernel
  obtain ⟨r, est', e1, e2, e3, _⟩ := th_ok h1
  obtain ⟨m, h2, h3⟩ := h _ _ _ _ _ _ _ _ _ _ (thExact_case rfl _ _) (by decide +kernel) (fun _ _ => rfl)
    (by decide +kernel) e1
  rw [h2] at e3
  simp only [Except.toOption, Option.some.injEq] at e2 e3
  rw [e2, e3] at h3
  revert h3
  decide +kernel

/-- A failure "Unbalanced ada" takes UTxOs away: two of three are gone. -/
theorem C51_failure_false : ¬ ∀ (W : World) (avail : List Utxo) (st st' : UStore) (est : LE)
    (ins : List Utxo) (outs : List Output) (ch : Option Nat) (e : SelErr), THCase W avail st ins outs →
    W.cfg.min ≤ W.cfg.max → (∀ q n, W.div q n = q / n) →
    thermostat thE W st est (Setup.fromFixed ins outs ch) = (.error e, st') →
    (availableInputs st').map (·.ptr) = avail.map (·.ptr) := by
  intro h
  have h1 : thView thE (thermostat thE (thW { accumulators := 1 }) (thStore (thExact 12000000 1000000)) thEst
      (Setup.fromFixed [] thOuts (some 5))) = (none, [3]) := by
    decide +kernel
  generalize hx : thermostat thE (thW { accumulators := 1 }) (thStore (thExact 12000000 1000000)) thEst
      (Setup.fromFixed [] thOuts (some 5)) = x at h1
  obtain ⟨x, st'⟩ := x
  cases x with
  | ok y => simp [thView, Except.toOption] at h1
  | error e =>
    have h2 := h _ _ _ _ _ _ _ _ _ (thExact_case rfl _ _) (by decide +kernel) (fun _ _ => rfl) hx
    simp only [thView, Prod.mk.injEq] at h1
    rw [h1.2] at h2
    revert h2
    decide +kernel

/-- The hypotheses of `C60_answers_partial` hold for the sample. -/
example : (thermostat thE (thW {}) (thStore thAvail) thEst (Setup.fromFixed [] thOuts (some 5))).1 ≠ .error .panic :=
  (C60_answers_partial th_sample_case (linearEstimator_calm _ _ (fun _ _ h => by cases h))
    (fun s u f h => by simp only [linearEstimator, Except.ok.injEq] at h; subst h; right; decide +kernel)
    (by decide) (by decide) (by decide +kernel)
    (fun _ s o f h => by simp only [linearEstimator, Except.ok.injEq] at h; subst h; decide +kernel)).1

/-- The hypotheses of `C49_assets_partial` and `C50_fee_partial` hold for the sample. -/
example : ∃ r est', thermostat thE (thW {}) (thStore thAvail) thEst (Setup.fromFixed [] thOuts (some 5)) =
      (.ok (r, est'), (thermostat thE (thW {}) (thStore thAvail) thEst (Setup.fromFixed [] thOuts (some 5))).2) ∧
    (∀ t, assetIn t [] + assetIn t r.chosen = assetOut t thOuts + assetOut t r.changes) ∧
    ∃ m, thE.minFee est' = .ok m ∧ m ≤ r.fee := by
  obtain ⟨r, est', e1, _⟩ := th_ok th_sample
  refine ⟨r, est', e1, ?_, ?_⟩
  · refine C49_assets_partial th_sample_case (by decide +kernel) (fun q => by norm_num [thW]) ?_ e1
    intro s o f h
    simp only [thE, linearEstimator, Except.ok.injEq] at h
    subst h
    exact ⟨by decide +kernel, by decide +kernel⟩
  · refine C50_fee_partial th_sample_case (by decide +kernel) (linearEstimator_linear _ _) (by decide +kernel) ?_ e1
    intro t ht used rest hp
    have ht7 : t = 7 := by
      have : requestTokens [] thOuts = [7] := by decide +kernel
      rw [this] at ht
      simpa using ht
    subst ht7
    have hout : assetOut 7 thOuts = 10 := by decide +kernel
    have hz : assetIn 7 [] = 0 := rfl
    rw [hout, hz, zero_add]
    match used with
    | [] => simp [assetIn]
    | u :: us =>
      have hall : ∀ w ∈ u :: us, assetSum 7 w.assets = 100 := by
        intro w hw
        have : w ∈ thAvail := hp.mem_iff.mpr (by simp only [List.mem_append]; exact Or.inl hw)
        simp only [thAvail, List.mem_cons, List.not_mem_nil, or_false] at this
        rcases this with rfl | rfl <;> decide +kernel
      have hge : ∀ l : List Utxo, (∀ w ∈ l, assetSum 7 w.assets = 100) → 0 ≤ assetIn 7 l := by
        intro l hl
        apply List.sum_nonneg
        intro x hx
        obtain ⟨w, hw, rfl⟩ := List.mem_map.mp hx
        rw [hl w hw]; norm_num
      have h1 : assetIn 7 (u :: us) = 100 + assetIn 7 us := by
        unfold assetIn
        rw [List.map_cons, List.sum_cons, hall u (by simp)]
      have h2 := hge us (fun w hw => hall w (by simp [hw]))
      rw [h1]
      intro he
      linarith

/-- An estimator that charges nothing for an input makes the selection panic, with the crate's own one. -/
theorem C60_free_inputs_false : ¬ ∀ (W : World) (avail : List Utxo) (st : UStore) (ins : List Utxo)
    (outs : List Output) (ch : Option Nat), THCase W avail st ins outs → W.cfg.accumulators ≠ 0 →
    W.cfg.accumulatorsAssets ≠ 0 → (∀ t ∈ requestTokens ins outs, (st.getAssetIds t).isSome) →
    (thermostat dummyEstimator W st () (Setup.fromFixed ins outs ch)).1 ≠ .error .panic := by
  intro h
  have hC : THCase (thW {}) [⟨1, 500, [], 0⟩] (thStore [⟨1, 500, [], 0⟩]) [] [⟨9, 10, []⟩] := by
    refine thCase ?_ (by decide +kernel) rfl (by decide +kernel)
    intro u hu
    simp only [List.mem_cons, List.not_mem_nil, or_false] at hu
    subst hu
    exact ⟨by decide, by decide⟩
  refine h _ _ _ _ _ (some 5) hC (by decide) (by decide) (by decide +kernel) ?_
  have : (match (thermostat dummyEstimator (thW {}) (thStore [⟨1, 500, [], 0⟩]) ()
      (Setup.fromFixed [] [⟨9, 10, []⟩] (some 5))).1 with
    | .error e => some e
    | .ok _ => none) = some SelErr.panic := by decide +kernel
  generalize (thermostat dummyEstimator (thW {}) (thStore [⟨1, 500, [], 0⟩]) ()
      (Setup.fromFixed [] [⟨9, 10, []⟩] (some 5))).1 = x at this ⊢
  cases x with
  | error e => simp only [Option.some.injEq] at this; rw [this]
  | ok y => simp at this

/-- An asset that only a fixed input carries makes the selection panic: the available UTxOs do not know its policy
and name. -/
theorem C60_unknown_asset_false : ¬ ∀ (W : World) (avail : List Utxo) (st : UStore) (ins : List Utxo)
    (outs : List Output) (ch : Option Nat), THCase W avail st ins outs → W.cfg.accumulators ≠ 0 →
    W.cfg.accumulatorsAssets ≠ 0 →
    (thermostat thE W st thEst (Setup.fromFixed ins outs ch)).1 ≠ .error .panic := by
  intro h
  have hC : THCase (thW {}) [⟨1, 500000000, [], 0⟩] (thStore [⟨1, 500000000, [], 0⟩])
      [⟨3, 500000000, [⟨7, 5, 1, 2⟩], 0⟩] [⟨9, 10000000, []⟩] := by
    refine thCase ?_ (by decide +kernel) rfl (by decide +kernel)
    intro u hu
    simp only [List.mem_cons, List.not_mem_nil, or_false] at hu
    subst hu
    exact ⟨by decide, by decide⟩
  refine h _ _ _ _ _ (some 5) hC (by decide) (by decide) ?_
  have : (match (thermostat thE (thW {}) (thStore [⟨1, 500000000, [], 0⟩]) thEst
      (Setup.fromFixed [⟨3, 500000000, [⟨7, 5, 1, 2⟩], 0⟩] [⟨9, 10000000, []⟩] (some 5))).1 with
    | .error e => some e
    | .ok _ => none) = some SelErr.panic := by decide +kernel
  generalize (thermostat thE (thW {}) (thStore [⟨1, 500000000, [], 0⟩]) thEst
      (Setup.fromFixed [⟨3, 500000000, [⟨7, 5, 1, 2⟩], 0⟩] [⟨9, 10000000, []⟩] (some 5))).1 = x at this ⊢
  cases x with
  | error e => simp only [Option.some.injEq] at this; rw [this]
  | ok y => simp at this

end Verif.Props
