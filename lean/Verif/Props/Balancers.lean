import Verif.Selection.CommonLemmas
import Mathlib.Tactic.NormNum

/-!
# Setup totals, balance predicates and change balancers (C45–C48)

`qty m t` is the quantity a map records for token `t` (zero if absent); `assetSum t as` the
sum of the quantities of `t` in a list of assets.
-/

namespace Verif.Props

open Verif Verif.Core Verif.Selection

/-- Total amount of a token carried by a list of inputs (the main token is the value field plus any
asset that names the main token). -/
def inputTotal (t : Token) (us : List Utxo) : ℚ :=
  (us.map (fun u => (if t = mainToken then u.value else 0) + assetSum t u.assets)).sum

/-- The same for outputs. -/
def outputTotal (t : Token) (os : List Output) : ℚ :=
  (os.map (fun o => (if t = mainToken then o.value else 0) + assetSum t o.assets)).sum

/-- An asset table as a hash map gives it: one entry per token, no negative amount. -/
structure Table (m : AssetMap) : Prop where
  nodup : m.keys.Nodup
  nonneg : ∀ kv ∈ m, 0 ≤ kv.2.quantity

/-! ## C48 setup totals -/

theorem foldl_value_sum {α : Type} (f : α → ℚ) (l : List α) (b : ℚ) :
    l.foldl (fun b u => b + f u) b = b + (l.map f).sum := by
  induction l generalizing b with
  | nil => simp
  | cons a l ih => rw [List.foldl_cons, ih]; simp [add_assoc]

theorem foldl_assets {α : Type} (f : α → List Asset) (l : List α) (m : AssetMap)
    (hn : m.keys.Nodup) (hk : Keyed m) :
    (l.foldl (fun m u => (f u).foldl addAsset m) m).keys.Nodup ∧
    Keyed (l.foldl (fun m u => (f u).foldl addAsset m) m) ∧
    (∀ t, qty (l.foldl (fun m u => (f u).foldl addAsset m) m) t =
      qty m t + (l.map (fun u => assetSum t (f u))).sum) ∧
    (∀ t, t ∈ (l.foldl (fun m u => (f u).foldl addAsset m) m).keys ↔
      t ∈ m.keys ∨ ∃ u ∈ l, ∃ a ∈ f u, a.fingerprint = t) := by
  induction l generalizing m with
  | nil => simp [hn, hk]
  | cons u l ih =>
    rw [List.foldl_cons]
    obtain ⟨h1, h2, h3, h4⟩ := ih _ (nodup_addAssets (f u) hn) (hk.addAssets (f u))
    refine ⟨h1, h2, ?_, ?_⟩
    · intro t; rw [h3 t, qty_addAssets]; simp [add_assoc]
    · intro t
      rw [h4 t, mem_keys_addAssets]
      simp only [List.mem_cons, exists_eq_or_imp]
      constructor
      · rintro ((h | h) | h)
        · exact Or.inr (Or.inl h)
        · exact Or.inl h
        · exact Or.inr (Or.inr h)
      · rintro (h | h | h)
        · exact Or.inl (Or.inr h)
        · exact Or.inl (Or.inl h)
        · exact Or.inr h

/-- The totals of a setup are the exact sums over the given inputs and outputs, repeated assets
included; the tables list exactly the tokens that occur, each under its own identifier; inputs,
outputs and change address are carried unchanged. -/
theorem C48_setup_totals (ins : List Utxo) (outs : List Output) (ch : Option Nat) :
    let s := Setup.fromFixed ins outs ch
    s.inputBalance = (ins.map (·.value)).sum ∧
    s.outputBalance = (outs.map (·.value)).sum ∧
    (∀ t, qty s.inputAssets t = (ins.map (fun u => assetSum t u.assets)).sum) ∧
    (∀ t, qty s.outputAssets t = (outs.map (fun o => assetSum t o.assets)).sum) ∧
    (∀ t, t ∈ s.inputAssets.keys ↔ ∃ u ∈ ins, ∃ a ∈ u.assets, a.fingerprint = t) ∧
    (∀ t, t ∈ s.outputAssets.keys ↔ ∃ o ∈ outs, ∃ a ∈ o.assets, a.fingerprint = t) ∧
    s.inputAssets.keys.Nodup ∧ s.outputAssets.keys.Nodup ∧
    Keyed s.inputAssets ∧ Keyed s.outputAssets ∧
    s.fixedInputs = ins ∧ s.fixedOutputs = outs ∧ s.changeAddress = ch := by
  intro s
  obtain ⟨a1, a2, a3, a4⟩ := foldl_assets (fun u : Utxo => u.assets) ins [] (by simp) Keyed.nil
  obtain ⟨b1, b2, b3, b4⟩ := foldl_assets (fun o : Output => o.assets) outs [] (by simp) Keyed.nil
  refine ⟨?_, ?_, ?_, ?_, ?_, ?_, a1, b1, a2, b2, rfl, rfl, rfl⟩
  · simp only [s, Setup.fromFixed]
    rw [foldl_value_sum]; simp
  · simp only [s, Setup.fromFixed]
    rw [foldl_value_sum]; simp
  · intro t; have := a3 t; simpa [qty, s, Setup.fromFixed] using this
  · intro t; have := b3 t; simpa [qty, s, Setup.fromFixed] using this
  · intro t; have := a4 t; simpa [s, Setup.fromFixed] using this
  · intro t; have := b4 t; simpa [s, Setup.fromFixed] using this

example : qty (Setup.fromFixed
    [⟨1, 5, [⟨7, 2, 0, 0⟩, ⟨7, 3, 0, 0⟩], 0⟩, ⟨2, 5, [⟨7, 4, 0, 0⟩], 0⟩] [] none).inputAssets 7 = 9 := by
  rw [(C48_setup_totals _ _ _).2.2.1]
  norm_num [assetSum]

/-! ## C47 balance predicates -/

theorem assetsBalanced_iff {ins outs : AssetMap} (hi : Table ins) (ho : Table outs) :
    assetsBalanced ins outs = true ↔ ∀ t, qty ins t = qty outs t := by
  obtain ⟨h1, h2⟩ := assetBalance_spec hi.nodup ho.nodup ho.nonneg (fun kv h _ => hi.nonneg kv h)
  have hnet : NetIs (assetBalance ins outs) (fun t => qty ins t - qty outs t) := by
    refine ⟨h1, ?_⟩
    intro t
    rw [h2 t]
    split
    · rfl
    · rename_i h
      push Not at h
      simp [qty_absent h.1, qty_absent h.2, Balance.ofNet]
  unfold assetsBalanced
  rw [hnet.all]
  simp only [sub_eq_zero]

/-- With non-negative amounts, a selection is reported balanced exactly when main inputs equal
outputs plus fee and every asset's inputs equal its outputs; a token missing on one side counts as
zero there. -/
theorem C47_balanced (r : Result) (hi : Table r.inputAssets) (ho : Table r.outputAssets)
    (hf : 0 ≤ r.fee) (hb : 0 ≤ r.outputBalance) :
    r.isBalanced = true ↔
      r.inputBalance = r.outputBalance + r.fee ∧
      ∀ t, qty r.inputAssets t = qty r.outputAssets t := by
  unfold Result.isBalanced
  rw [mainBalance_spec hf hb]
  have hm := ofNet_isBalanced (r.inputBalance - r.fee - r.outputBalance)
  have he : (r.inputBalance - r.fee - r.outputBalance = 0) ↔
      r.inputBalance = r.outputBalance + r.fee := by
    constructor <;> intro h <;> linarith
  rw [he] at hm
  by_cases h : (Balance.ofNet (r.inputBalance - r.fee - r.outputBalance)).isBalanced = true
  · simp only [h, Bool.not_true, Bool.false_eq_true, if_false]
    rw [assetsBalanced_iff hi ho]
    exact ⟨fun x => ⟨hm.mp h, x⟩, fun x => x.2⟩
  · simp only [h]
    simp only [Bool.not_false, if_true, Bool.false_eq_true, false_iff, not_and]
    intro e; exact absurd (hm.mpr e) h

theorem netIs_inputs {us : List Utxo} {m : AMap Token Balance} {S : Token → ℚ} (h : NetIs m S)
    (hp : ∀ u ∈ us, 0 ≤ u.value ∧ ∀ a ∈ u.assets, 0 ≤ a.quantity) :
    NetIs (us.foldl (fun m u =>
      u.assets.foldl (fun m a => adjust (·.addValue a.quantity) m a.fingerprint)
        (adjust (·.addValue u.value) m mainToken)) m)
      (fun t => S t + inputTotal t us) := by
  induction us generalizing m S with
  | nil => exact h.congr (fun t => by simp [inputTotal])
  | cons u us ih =>
    rw [List.foldl_cons]
    have h1 := h.adjust (t := mainToken) (x := u.value) (f := (·.addValue u.value))
      (add_ofNet (hp u (by simp)).1)
    have h2 := h1.addAssets (hp u (by simp)).2
    refine (ih h2 (fun w hw => hp w (by simp [hw]))).congr (fun t => ?_)
    simp only [inputTotal, List.map_cons, List.sum_cons]
    by_cases e : t = mainToken
    · subst e; simp only [if_true]; ring
    · have : ¬ mainToken = t := fun h => e h.symm
      simp only [if_neg e, if_neg this]; ring

theorem netIs_outputs {os : List Output} {m : AMap Token Balance} {S : Token → ℚ} (h : NetIs m S)
    (hp : ∀ o ∈ os, 0 ≤ o.value ∧ ∀ a ∈ o.assets, 0 ≤ a.quantity) :
    NetIs (os.foldl (fun m o =>
      o.assets.foldl (fun m a => adjust (·.subValue a.quantity) m a.fingerprint)
        (adjust (·.subValue o.value) m mainToken)) m)
      (fun t => S t - outputTotal t os) := by
  induction os generalizing m S with
  | nil => exact h.congr (fun t => by simp [outputTotal])
  | cons u us ih =>
    rw [List.foldl_cons]
    have h1 := h.adjust (t := mainToken) (x := -u.value) (f := (·.subValue u.value))
      (sub_ofNet (hp u (by simp)).1)
    have h2 := h1.subAssets (hp u (by simp)).2
    refine (ih h2 (fun w hw => hp w (by simp [hw]))).congr (fun t => ?_)
    simp only [outputTotal, List.map_cons, List.sum_cons]
    by_cases e : t = mainToken
    · subst e; simp only [if_true]; ring
    · have : ¬ mainToken = t := fun h => e h.symm
      simp only [if_neg e, if_neg this]; ring

/-- The stronger predicate holds exactly when, in addition, for every token the inputs actually
listed carry what the outputs and changes actually listed carry, plus the fee in the main token. -/
theorem C47_utxos_balanced (r : Result) (hf : 0 ≤ r.fee)
    (hin : ∀ u ∈ r.fixedInputs ++ r.chosen, 0 ≤ u.value ∧ ∀ a ∈ u.assets, 0 ≤ a.quantity)
    (hout : ∀ o ∈ r.fixedOutputs ++ r.changes, 0 ≤ o.value ∧ ∀ a ∈ o.assets, 0 ≤ a.quantity) :
    r.utxosBalanced = true ↔ r.isBalanced = true ∧
      ∀ t, inputTotal t (r.fixedInputs ++ r.chosen) =
        outputTotal t (r.fixedOutputs ++ r.changes) + if t = mainToken then r.fee else 0 := by
  have h3 := (netIs_outputs (netIs_inputs NetIs.nil hin) hout).adjust (t := mainToken)
    (x := -r.fee) (f := (·.subValue r.fee)) (sub_ofNet hf)
  have hall : r.tokensMap.all (fun kv => kv.2.isBalanced) = true ↔ _ := h3.all
  unfold Result.utxosBalanced
  by_cases hb : r.isBalanced = true
  · simp only [hb, Bool.not_true, Bool.false_eq_true, if_false, true_and]
    rw [hall]
    constructor
    · intro h t
      have := h t
      by_cases e : t = mainToken
      · subst e; simp only [if_true] at this ⊢; linarith
      · have e' : ¬ mainToken = t := fun h => e h.symm
        simp only [if_neg e, if_neg e'] at this ⊢; linarith
    · intro h t
      have := h t
      by_cases e : t = mainToken
      · subst e; simp only [if_true] at this ⊢; linarith
      · have e' : ¬ mainToken = t := fun h => e h.symm
        simp only [if_neg e, if_neg e'] at this ⊢; linarith
  · simp [hb]

/-- The sign condition is needed: with a negative fee a selection whose inputs equal outputs plus
fee is reported unbalanced. -/
theorem C47_negative_fee :
    (0 : ℚ) = 1 + (-1) ∧ (Result.mk 0 [] 1 [] [] [] [] [] (-1)).isBalanced = false := by
  refine ⟨by norm_num, ?_⟩
  norm_num [Result.isBalanced, mainBalance, Balance.zero, Balance.addValue, Balance.subValue,
    Balance.isBalanced]

example : (Result.mk 5 [(7, ⟨7, 1, 0, 0⟩)] 3 [(7, ⟨7, 1, 0, 0⟩)] [] [] [] [] 2).isBalanced = true ∧
    (Result.mk 5 [(7, ⟨7, 1, 0, 0⟩)] 3 [] [] [] [] [] 2).isBalanced = false := by
  norm_num [Result.isBalanced, mainBalance, Balance.zero, Balance.addValue, Balance.subValue,
    Balance.isBalanced, assetsBalanced, assetBalance, adjust, AMap.insert, AMap.get]

/-! ## C45 fee-change balancer -/

/-- Success gives an exactly balanced result in which only the fee may have grown above the
estimator's minimum. -/
theorem C45_success {σ : Type} (E : Estimator σ) (s : σ) (io : Setup) (r : Result)
    (hi : Table io.inputAssets) (ho : Table io.outputAssets) (hb : 0 ≤ io.outputBalance)
    (hpos : ∀ f, E.minFee s = .ok f → 0 ≤ f) (h : feeChange E s io = .ok r) :
    r.inputBalance = r.outputBalance + r.fee ∧
    (∀ t, qty r.inputAssets t = qty r.outputAssets t) ∧
    (∃ f, E.minFee s = .ok f ∧ f ≤ r.fee) ∧
    r.inputBalance = io.inputBalance ∧ r.outputBalance = io.outputBalance ∧
    r.inputAssets = io.inputAssets ∧ r.outputAssets = io.outputAssets ∧
    r.fixedInputs = io.fixedInputs ∧ r.fixedOutputs = io.fixedOutputs ∧
    r.chosen = [] ∧ r.changes = [] ∧ r.isBalanced = true := by
  unfold feeChange at h
  by_cases ha : assetsBalanced io.inputAssets io.outputAssets = true
  swap
  · simp [ha] at h
  simp only [ha, Bool.not_true, Bool.false_eq_true, if_false] at h
  have hq := (assetsBalanced_iff hi ho).mp ha
  cases hm : E.minFee s with
  | error e => simp [hm] at h
  | ok f =>
    have hf := hpos f hm
    simp only [hm] at h
    rw [mainBalance_spec hf hb] at h
    have main : r.inputBalance = r.outputBalance + r.fee ∧ f ≤ r.fee ∧ 0 ≤ r.fee ∧
      r.inputBalance = io.inputBalance ∧ r.outputBalance = io.outputBalance ∧
      r.inputAssets = io.inputAssets ∧ r.outputAssets = io.outputAssets ∧
      r.fixedInputs = io.fixedInputs ∧ r.fixedOutputs = io.fixedOutputs ∧
      r.chosen = [] ∧ r.changes = [] := by
      unfold Balance.ofNet at h
      split at h
      · rename_i hx; split at hx
        · cases h
        · split at hx <;> cases hx
      · rename_i hx; split at hx
        · cases hx
        · split at hx
          · rename_i h0
            cases h
            exact ⟨by simp only; linarith, le_refl _, hf, rfl, rfl, rfl, rfl, rfl, rfl, rfl, rfl⟩
          · cases hx
      · rename_i e hx; split at hx
        · cases hx
        · rename_i hlt
          split at hx
          · cases hx
          · cases hx
            cases h
            have := not_lt.mp hlt
            exact ⟨by simp only; linarith, by simp only; linarith, by simp only; linarith, rfl, rfl, rfl, rfl, rfl, rfl, rfl, rfl⟩
    obtain ⟨m1, m2, m3, m4, m5, m6, m7, m8, m9, m10, m11⟩ := main
    have hq' : ∀ t, qty r.inputAssets t = qty r.outputAssets t := by rw [m6, m7]; exact hq
    refine ⟨m1, hq', ⟨f, rfl, m2⟩, m4, m5, m6, m7, m8, m9, m10, m11, ?_⟩
    rw [C47_balanced r (m6 ▸ hi) (m7 ▸ ho) m3 (m5 ▸ hb)]
    exact ⟨m1, hq'⟩

/-- With an estimator that answers, the balancer fails exactly when an asset is unbalanced or the
main input does not cover the output and the minimum fee. -/
theorem C45_failure {σ : Type} (E : Estimator σ) (s : σ) (io : Setup) (f : ℚ)
    (hi : Table io.inputAssets) (ho : Table io.outputAssets) (hb : 0 ≤ io.outputBalance)
    (hm : E.minFee s = .ok f) (hf : 0 ≤ f) :
    (∃ e, feeChange E s io = .error e) ↔
      (∃ t, qty io.inputAssets t ≠ qty io.outputAssets t) ∨
      io.inputBalance < io.outputBalance + f := by
  unfold feeChange
  by_cases ha : assetsBalanced io.inputAssets io.outputAssets = true
  swap
  · have : ∃ t, qty io.inputAssets t ≠ qty io.outputAssets t := by
      by_contra hc
      push Not at hc
      exact ha ((assetsBalanced_iff hi ho).mpr hc)
    simp [ha, this]
  · have hq := (assetsBalanced_iff hi ho).mp ha
    simp only [ha, Bool.not_true, Bool.false_eq_true, if_false, hm]
    rw [mainBalance_spec hf hb]
    unfold Balance.ofNet
    by_cases h1 : io.inputBalance - f - io.outputBalance < 0
    · simp only [h1, if_true]
      constructor
      · intro _; right; linarith
      · intro _; exact ⟨_, rfl⟩
    · simp only [h1, if_false]
      have hno : ¬ ((∃ t, qty io.inputAssets t ≠ qty io.outputAssets t) ∨
          io.inputBalance < io.outputBalance + f) := by
        rintro (⟨t, ht⟩ | h)
        · exact ht (hq t)
        · apply h1; linarith
      by_cases h2 : io.inputBalance - f - io.outputBalance = 0
      · simp only [h2, if_true]
        constructor
        · rintro ⟨e, he⟩; cases he
        · intro h; exact absurd h hno
      · simp only [h2, if_false]
        constructor
        · rintro ⟨e, he⟩; cases he
        · intro h; exact absurd h hno

/-- A constant estimator for the examples. -/
def flatEstimator (min inFee outFee : ℚ) : Estimator Unit where
  minFee _ := .ok min
  feeIn _ _ := .ok inFee
  addIn _ _ := .ok ()
  feeOut _ _ := .ok outFee
  addOut _ _ := .ok ()
  minValueOut _ _ := .ok (0, ())
  currentSize _ := .ok 0
  maxSize _ := .ok 1000

example : ∃ r, feeChange (flatEstimator 2 0 0) () { inputBalance := 10, outputBalance := 5 } = .ok r ∧
    r.fee = 5 := by
  have h : mainBalance 10 5 2 = .excess 3 := by
    norm_num [mainBalance, Balance.zero, Balance.addValue, Balance.subValue]
  simp only [feeChange, flatEstimator, h, assetsBalanced, assetBalance, List.foldl_nil,
    List.all_nil, Bool.not_true, Bool.false_eq_true, if_false]
  exact ⟨_, rfl, by norm_num⟩

/-! ## C46 single-output change balancer -/

theorem changeAssets_ok {ins : AssetMap} (hk : Keyed ins) {l : List (Token × Balance)}
    (hn : (AMap.keys l).Nodup) {cas : List Asset} (h : changeAssets ins l = .ok cas) :
    (∀ t b, (t, b) ∈ l → b.inDebt = false) ∧
    (∀ t, assetSum t cas = ((AMap.get l t).getD .balanced).net) ∧
    (∀ a ∈ cas, ∃ b, (a.fingerprint, b) ∈ l ∧ b = .excess a.quantity) := by
  induction l generalizing cas with
  | nil => simp only [changeAssets] at h; cases h; simp [Balance.net]
  | cons tb l ih =>
    obtain ⟨t, b⟩ := tb
    simp only [AMap.keys_cons, List.nodup_cons] at hn
    simp only [changeAssets] at h
    cases b with
    | debt d => simp at h
    | balanced =>
      simp only at h
      obtain ⟨h1, h2, h3⟩ := ih hn.2 h
      refine ⟨?_, ?_, ?_⟩
      · intro t' b' hm
        rcases List.mem_cons.mp hm with e | hm
        · cases e; rfl
        · exact h1 t' b' hm
      · intro t'
        rw [h2 t', AMap.get_cons]
        by_cases e : t = t'
        · subst e
          rw [(AMap.get_eq_none_iff _ _).mpr hn.1]; simp
        · simp [e]
      · intro a ha
        obtain ⟨b, hb, e⟩ := h3 a ha
        exact ⟨b, by simp [hb], e⟩
    | excess x =>
      simp only at h
      cases hg : ins.get t with
      | none => simp [hg] at h
      | some a =>
        simp only [hg] at h
        cases hr : changeAssets ins l with
        | error e => simp [hr] at h
        | ok as =>
          simp only [hr] at h
          cases h
          obtain ⟨h1, h2, h3⟩ := ih hn.2 hr
          have hfp := hk t a hg
          refine ⟨?_, ?_, ?_⟩
          · intro t' b' hm
            rcases List.mem_cons.mp hm with e | hm
            · cases e; rfl
            · exact h1 t' b' hm
          · intro t'
            rw [assetSum_cons, h2 t', AMap.get_cons]
            simp only [hfp]
            by_cases e : t = t'
            · subst e
              rw [(AMap.get_eq_none_iff _ _).mpr hn.1]; simp [Balance.net]
            · simp [e]
          · intro c hc
            rcases List.mem_cons.mp hc with rfl | hc
            · exact ⟨.excess x, by simp [hfp], rfl⟩
            · obtain ⟨b, hb, e⟩ := h3 c hc
              exact ⟨b, by simp [hb], e⟩

theorem changeAssets_complete {ins : AssetMap} {l : List (Token × Balance)}
    (hd : ∀ t b, (t, b) ∈ l → b.inDebt = false)
    (hx : ∀ t x, (t, Balance.excess x) ∈ l → ∃ a, ins.get t = some a) :
    ∃ cas, changeAssets ins l = .ok cas := by
  induction l with
  | nil => exact ⟨[], rfl⟩
  | cons tb l ih =>
    obtain ⟨t, b⟩ := tb
    obtain ⟨cas, hc⟩ := ih (fun t b h => hd t b (by simp [h])) (fun t x h => hx t x (by simp [h]))
    simp only [changeAssets]
    cases b with
    | debt d => have := hd t (.debt d) (by simp); simp [Balance.inDebt] at this
    | balanced => exact ⟨cas, hc⟩
    | excess x =>
      obtain ⟨a, ha⟩ := hx t x (by simp)
      simp only [ha, hc]; exact ⟨_, rfl⟩

/-- Everything the balancer guarantees on success. The change amount is what remains after output,
minimum fee and the fee of the change output. -/
theorem C46_success_partial {σ : Type} (E : Estimator σ) (s s' : σ) (io : Setup) (r : Result)
    (hi : Table io.inputAssets) (ho : Table io.outputAssets) (hk : Keyed io.inputAssets)
    (hb : 0 ≤ io.outputBalance) (hpos : ∀ f, E.minFee s = .ok f → 0 ≤ f)
    (h : singleChange E s io = .ok (r, s')) :
    r.inputBalance = r.outputBalance + r.fee ∧
    (∀ t, qty r.inputAssets t = qty r.outputAssets t) ∧
    r.inputBalance = io.inputBalance ∧ r.inputAssets = io.inputAssets ∧
    r.fixedInputs = io.fixedInputs ∧ r.fixedOutputs = io.fixedOutputs ∧ r.chosen = [] ∧
    ∃ c addr min f, r.changes = [c] ∧ io.changeAddress = some addr ∧ c.address = addr ∧
      E.minFee s = .ok min ∧
      E.feeOut s { c with value := io.inputBalance - io.outputBalance - min } = .ok f ∧
      r.fee = min + f ∧
      c.value = io.inputBalance - io.outputBalance - min - f ∧
      r.outputBalance = io.outputBalance + c.value ∧
      (∀ t, assetSum t c.assets = qty io.inputAssets t - qty io.outputAssets t) ∧
      (∀ a ∈ c.assets, 0 < a.quantity) ∧
      (0 ≤ c.value ↔ f ≤ io.inputBalance - io.outputBalance - min) := by
  unfold singleChange at h
  cases hc : io.changeAddress with
  | none => simp [hc] at h
  | some addr =>
    simp only [hc] at h
    obtain ⟨hn, hget⟩ := assetBalance_spec hi.nodup ho.nodup ho.nonneg (fun kv h _ => hi.nonneg kv h)
    cases hcas : changeAssets io.inputAssets (assetBalance io.inputAssets io.outputAssets) with
    | error e => simp [hcas] at h
    | ok cas =>
      obtain ⟨hd, hsum, hexc⟩ := changeAssets_ok hk hn hcas
      have hsum' : ∀ t, assetSum t cas = qty io.inputAssets t - qty io.outputAssets t := by
        intro t
        rw [hsum t, hget t]
        split
        · simp [Balance.net_ofNet]
        · rename_i hx
          push Not at hx
          rw [qty_absent hx.1, qty_absent hx.2]; simp [Balance.net]
      have hposA : ∀ a ∈ cas, 0 < a.quantity := by
        intro a ha
        obtain ⟨b, hb, rfl⟩ := hexc a ha
        have hg := AMap.get_of_mem hn hb
        rw [hget] at hg
        split at hg
        · have hw := Balance.wf_ofNet (qty io.inputAssets a.fingerprint - qty io.outputAssets a.fingerprint)
          rw [Option.some.inj hg] at hw
          exact hw
        · cases hg
      simp only [hcas] at h
      cases hm : E.minFee s with
      | error e => simp [hm] at h
      | ok min =>
        have hmin := hpos min hm
        simp only [hm] at h
        rw [mainBalance_spec hmin hb] at h
        have hval : ∃ value, value = io.inputBalance - io.outputBalance - min ∧
            finishChange E s io addr cas min value = .ok (r, s') := by
          unfold Balance.ofNet at h
          split at h
          · cases h
          · rename_i hx; split at hx
            · cases hx
            · split at hx
              · exact ⟨0, by linarith, h⟩
              · cases hx
          · rename_i e hx; split at hx
            · cases hx
            · split at hx
              · cases hx
              · cases hx
                exact ⟨_, by ring, h⟩
        obtain ⟨value, hv, hrun⟩ := hval
        unfold finishChange at hrun
        cases hfo : E.feeOut s { address := addr, value := value, assets := cas } with
        | error e => simp [hfo] at hrun
        | ok f =>
          simp only [hfo] at hrun
          cases hao : E.addOut s { address := addr, value := value - f, assets := cas } with
          | error e => simp [hao] at hrun
          | ok s'' =>
            simp only [hao] at hrun
            cases hrun
            refine ⟨?_, ?_, rfl, rfl, rfl, rfl, rfl, _, addr, min, f, rfl, rfl, rfl, rfl, ?_, rfl, ?_,
              rfl, hsum', hposA, ?_⟩
            · simp only; rw [hv]; ring
            · intro t; simp only; rw [qty_addAssets, hsum' t]; ring
            · simp only; rw [← hv]; exact hfo
            · simp only; rw [hv]
            · simp only; rw [hv]; constructor <;> intro h <;> linarith

/-- It fails without a change address, on any asset debt and on a main token debt; with an estimator
that answers it fails in no other case. -/
theorem C46_failure {σ : Type} (E : Estimator σ) (s : σ) (io : Setup) (min : ℚ)
    (hi : Table io.inputAssets) (ho : Table io.outputAssets) (hk : Keyed io.inputAssets)
    (hb : 0 ≤ io.outputBalance) (hm : E.minFee s = .ok min) (hmin : 0 ≤ min)
    (hfo : ∀ o, ∃ f, E.feeOut s o = .ok f) (hao : ∀ o, ∃ s', E.addOut s o = .ok s') :
    (∃ e, singleChange E s io = .error e) ↔
      io.changeAddress = none ∨
      (∃ t, qty io.inputAssets t < qty io.outputAssets t) ∨
      io.inputBalance < io.outputBalance + min := by
  obtain ⟨hn, hget⟩ := assetBalance_spec hi.nodup ho.nodup ho.nonneg (fun kv h _ => hi.nonneg kv h)
  unfold singleChange
  cases hc : io.changeAddress with
  | none => simp
  | some addr =>
    simp only [reduceCtorEq, false_or]
    by_cases hdebt : ∃ t, qty io.inputAssets t < qty io.outputAssets t
    · simp only [hdebt, true_or, iff_true]
      cases hcas : changeAssets io.inputAssets (assetBalance io.inputAssets io.outputAssets) with
      | error e => exact ⟨e, rfl⟩
      | ok cas =>
        exfalso
        obtain ⟨hd, _, _⟩ := changeAssets_ok hk hn hcas
        obtain ⟨t, ht⟩ := hdebt
        have hin : t ∈ AMap.keys io.inputAssets ∨ t ∈ AMap.keys io.outputAssets := by
          by_contra hx
          push Not at hx
          rw [qty_absent hx.1, qty_absent hx.2] at ht
          exact lt_irrefl _ ht
        have hg := hget t
        rw [if_pos hin] at hg
        have := hd t _ (AMap.mem_of_get hg)
        have hdb := (ofNet_inDebt (qty io.inputAssets t - qty io.outputAssets t)).mpr (by linarith)
        rw [this] at hdb; cases hdb
    · simp only [hdebt, false_or]
      push Not at hdebt
      have hqo : ∀ t, 0 ≤ qty io.outputAssets t := by
        intro t
        unfold qty
        cases hg : AMap.get io.outputAssets t with
        | none => simp
        | some a => exact ho.nonneg _ (AMap.mem_of_get hg)
      obtain ⟨cas, hcas⟩ := changeAssets_complete (ins := io.inputAssets)
        (l := assetBalance io.inputAssets io.outputAssets) (by
          intro t b hm
          have hg := AMap.get_of_mem hn hm
          rw [hget] at hg
          split at hg
          · rw [← Option.some.inj hg, ← Bool.not_eq_true, ofNet_inDebt]
            have := hdebt t
            intro h; linarith
          · cases hg) (by
          intro t x hm
          have hg := AMap.get_of_mem hn hm
          rw [hget] at hg
          split at hg
          · have hw := Balance.wf_ofNet (qty io.inputAssets t - qty io.outputAssets t)
            have hnet := Balance.net_ofNet (qty io.inputAssets t - qty io.outputAssets t)
            rw [Option.some.inj hg] at hw hnet
            simp only [Balance.WF, Balance.net] at hw hnet
            cases hgi : AMap.get io.inputAssets t with
            | some a => exact ⟨a, rfl⟩
            | none =>
              exfalso
              have h0 : qty io.inputAssets t = 0 := by simp [qty, hgi]
              have := hqo t
              linarith
          · cases hg)
      simp only [hcas, hm]
      rw [mainBalance_spec hmin hb]
      have hfin : ∀ value, ¬ ∃ e,
          finishChange E s io addr cas min value = Except.error e := by
        rintro value ⟨e, he⟩
        obtain ⟨f, hf⟩ := hfo { address := addr, value := value, assets := cas }
        obtain ⟨s', hs⟩ := hao { address := addr, value := value - f, assets := cas }
        simp only [finishChange, hf, hs] at he
        cases he
      unfold Balance.ofNet
      by_cases h1 : io.inputBalance - min - io.outputBalance < 0
      · simp only [h1, if_true]
        constructor
        · intro _; linarith
        · intro _; exact ⟨_, rfl⟩
      · have h1' : ¬ io.inputBalance < io.outputBalance + min := by intro h; apply h1; linarith
        simp only [h1, if_false, h1', iff_false]
        by_cases h2 : io.inputBalance - min - io.outputBalance = 0
        · simp only [h2, if_true]; exact hfin 0
        · simp only [h2, if_false]; exact hfin _

/-- The change amount can be negative: excess 1, fee of the change output 10. -/
theorem C46_nonnegative_change_false :
    ∃ r, singleChange (flatEstimator 2 0 10) ()
        { inputBalance := 8, outputBalance := 5, changeAddress := some 1 } = .ok (r, ()) ∧
      ∃ c ∈ r.changes, c.value < 0 := by
  have h : mainBalance 8 5 2 = .excess 1 := by
    norm_num [mainBalance, Balance.zero, Balance.addValue, Balance.subValue]
  simp only [singleChange, flatEstimator, h, changeAssets, assetBalance, List.foldl_nil,
    finishChange]
  exact ⟨_, rfl, _, List.mem_singleton.mpr rfl, by norm_num⟩

example : ∃ r, singleChange (flatEstimator 2 0 1) ()
      { inputBalance := 10, outputBalance := 5, inputAssets := [(7, ⟨7, 4, 0, 0⟩)],
        outputAssets := [(7, ⟨7, 3, 0, 0⟩)], changeAddress := some 1 } = .ok (r, ()) ∧
    r.changes = [⟨1, 2, [⟨7, 1, 0, 0⟩]⟩] ∧ r.fee = 3 := by
  have h : mainBalance 10 5 2 = .excess 3 := by
    norm_num [mainBalance, Balance.zero, Balance.addValue, Balance.subValue]
  have h2 : assetBalance [(7, ⟨7, 4, 0, 0⟩)] [(7, ⟨7, 3, 0, 0⟩)] = [(7, .excess 1)] := by
    norm_num [assetBalance, adjust, AMap.insert, AMap.get, Balance.addValue, Balance.subValue]
  simp only [singleChange, flatEstimator, h, h2, finishChange, changeAssets, AMap.get_cons, if_true]
  refine ⟨_, rfl, ?_, ?_⟩ <;> norm_num

end Verif.Props
