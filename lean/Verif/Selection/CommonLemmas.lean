import Verif.Selection.Common

/-!
# Lemmas about balances and asset maps of a selection
-/

namespace Verif.Selection

open Verif Verif.Core

/-- The quantity recorded for a token, zero if there is none. -/
def qty (m : AssetMap) (t : Token) : ℚ := ((m.get t).map (·.quantity)).getD 0

/-- The sum of the quantities of a token in a list of assets. -/
def assetSum (t : Token) (as : List Asset) : ℚ :=
  ((as.filter (fun a => a.fingerprint = t)).map (·.quantity)).sum

@[simp] theorem assetSum_nil (t : Token) : assetSum t [] = 0 := rfl

theorem assetSum_cons (t : Token) (a : Asset) (as : List Asset) :
    assetSum t (a :: as) = (if a.fingerprint = t then a.quantity else 0) + assetSum t as := by
  unfold assetSum
  by_cases h : a.fingerprint = t <;> simp [h]

theorem assetSum_nonneg {t : Token} {as : List Asset} (h : ∀ a ∈ as, 0 ≤ a.quantity) :
    0 ≤ assetSum t as := by
  unfold assetSum
  apply List.sum_nonneg
  intro x hx
  obtain ⟨a, ha, rfl⟩ := List.mem_map.mp hx
  exact h a (List.mem_filter.mp ha).1

/-! ### Main token balance -/

theorem sub_from_excess (l r : ℚ) :
    ((Balance.excess l).subValue r) = Balance.ofNet (l - r) := by
  unfold Balance.subValue Balance.ofNet
  rcases lt_trichotomy l r with h | h | h
  · simp [h]
  · simp [h]
  · have h1 : ¬ l < r := not_lt.mpr (le_of_lt h)
    have h2 : ¬ l = r := ne_of_gt h
    have h3 : ¬ l - r < 0 := by linarith
    have h4 : ¬ l - r = 0 := by intro e; apply h2; linarith
    simp [h1, h2, h4]

theorem addSub_spec (i f : ℚ) (hf : 0 ≤ f) :
    (Balance.zero.addValue i).subValue f = Balance.ofNet (i - f) := by
  unfold Balance.zero
  by_cases h : i = 0
  · subst h
    simp only [Balance.addValue, if_true]
    have := Balance.subValue_spec (b := .balanced) trivial hf
    rw [← Balance.ofNet_net this.1, this.2]; simp [Balance.net]
  · simp only [Balance.addValue, if_neg h]
    exact sub_from_excess i f

theorem mainBalance_spec {i o f : ℚ} (hf : 0 ≤ f) (ho : 0 ≤ o) :
    mainBalance i o f = Balance.ofNet (i - f - o) := by
  unfold mainBalance
  rw [addSub_spec i f hf]
  have := Balance.subValue_spec (Balance.wf_ofNet (i - f)) ho
  rw [← Balance.ofNet_net this.1, this.2, Balance.net_ofNet]

theorem ofNet_inDebt (x : ℚ) : (Balance.ofNet x).inDebt = true ↔ x < 0 := by
  unfold Balance.ofNet
  split
  · simp_all [Balance.inDebt]
  · split <;> simp_all [Balance.inDebt]

theorem ofNet_isBalanced (x : ℚ) : (Balance.ofNet x).isBalanced = true ↔ x = 0 := by
  unfold Balance.ofNet
  split
  · rename_i h; simp [Balance.isBalanced, ne_of_lt h]
  · split <;> simp_all [Balance.isBalanced]

/-- Whatever the signs, a balance that is not in debt covers output and fee. -/
theorem mainBalance_not_debt {i o f : ℚ} (h : (mainBalance i o f).inDebt = false) :
    o + f ≤ i := by
  unfold mainBalance at h
  have key : ∀ b : Balance, (b.subValue o).inDebt = false →
      (∃ l, b = .excess l ∧ o ≤ l) ∨ (b = .balanced ∧ o = 0) := by
    intro b hb
    cases b with
    | debt l => simp [Balance.subValue, Balance.inDebt] at hb
    | balanced =>
      right
      refine ⟨rfl, ?_⟩
      by_contra hc
      simp [Balance.subValue, hc, Balance.inDebt] at hb
    | excess l =>
      left
      refine ⟨l, rfl, ?_⟩
      by_contra hc
      simp [Balance.subValue, not_le.mp hc, Balance.inDebt] at hb
  by_cases hi : i = 0
  · subst hi
    simp only [Balance.zero, Balance.addValue, if_true] at h
    rcases key _ h with ⟨l, hl, _⟩ | ⟨hb, ho⟩
    · simp only [Balance.subValue] at hl
      by_cases hf : f = 0 <;> simp [hf] at hl
    · by_cases hf : f = 0
      · simp [hf, ho]
      · simp [Balance.subValue, hf] at hb
  · have hx : (Balance.zero.addValue i) = .excess i := by simp [Balance.zero, Balance.addValue, hi]
    rw [hx, sub_from_excess] at h
    rcases key _ h with ⟨l, hl, hol⟩ | ⟨hb, ho⟩
    · have := congrArg Balance.net hl
      rw [Balance.net_ofNet] at this
      simp only [Balance.net] at this
      linarith
    · have := congrArg Balance.net hb
      rw [Balance.net_ofNet] at this
      simp only [Balance.net] at this
      linarith

/-! ### Maps of balances -/

/-- The map records the net amounts `S`. -/
def NetIs (m : AMap Token Balance) (S : Token → ℚ) : Prop :=
  m.keys.Nodup ∧ ∀ t, (m.get t).getD .balanced = Balance.ofNet (S t)

theorem NetIs.nil : NetIs [] (fun _ => 0) := by
  refine ⟨by simp, ?_⟩
  intro t; simp [Balance.ofNet]

theorem NetIs.adjust {m : AMap Token Balance} {S : Token → ℚ} (h : NetIs m S) {f : Balance → Balance}
    {x : ℚ} {t : Token} (hf : f (Balance.ofNet (S t)) = Balance.ofNet (S t + x)) :
    NetIs (adjust f m t) (fun t' => S t' + if t = t' then x else 0) := by
  refine ⟨AMap.nodup_insert h.1 _ _, ?_⟩
  intro t'
  unfold Selection.adjust
  rw [AMap.get_insert]
  by_cases e : t = t'
  · subst e; simp [h.2 t, hf]
  · simp [e, h.2 t']

theorem add_ofNet {x y : ℚ} (hy : 0 ≤ y) : (Balance.ofNet x).addValue y = Balance.ofNet (x + y) := by
  have := Balance.addValue_spec (Balance.wf_ofNet x) hy
  rw [← Balance.ofNet_net this.1, this.2, Balance.net_ofNet]

theorem sub_ofNet {x y : ℚ} (hy : 0 ≤ y) : (Balance.ofNet x).subValue y = Balance.ofNet (x + -y) := by
  have := Balance.subValue_spec (Balance.wf_ofNet x) hy
  rw [← Balance.ofNet_net this.1, this.2, Balance.net_ofNet, sub_eq_add_neg]

theorem NetIs.congr {m : AMap Token Balance} {S S' : Token → ℚ} (h : NetIs m S)
    (e : ∀ t, S t = S' t) : NetIs m S' := by
  have : S = S' := funext e
  rw [← this]; exact h

theorem NetIs.all {m : AMap Token Balance} {S : Token → ℚ} (h : NetIs m S) :
    m.all (fun kv => kv.2.isBalanced) = true ↔ ∀ t, S t = 0 := by
  rw [List.all_eq_true]
  constructor
  · intro hall t
    rw [← ofNet_isBalanced, ← h.2 t]
    cases hg : m.get t with
    | none => rfl
    | some b => exact hall (t, b) (AMap.mem_of_get hg)
  · intro hz kv hkv
    have hg := AMap.get_of_mem h.1 (k := kv.1) (v := kv.2) hkv
    have := h.2 kv.1
    rw [hg, Option.getD_some] at this
    rw [this, ofNet_isBalanced]
    exact hz _

theorem NetIs.addAssets {m : AMap Token Balance} {S : Token → ℚ} (h : NetIs m S) {as : List Asset}
    (hq : ∀ a ∈ as, 0 ≤ a.quantity) :
    NetIs (as.foldl (fun m a => Selection.adjust (·.addValue a.quantity) m a.fingerprint) m)
      (fun t => S t + assetSum t as) := by
  induction as generalizing m S with
  | nil => simpa using h
  | cons a as ih =>
    rw [List.foldl_cons]
    have := ih (h.adjust (t := a.fingerprint) (x := a.quantity) (f := (·.addValue a.quantity))
      (add_ofNet (hq a (by simp)))) (fun b hb => hq b (by simp [hb]))
    refine this.congr (fun t => ?_)
    rw [assetSum_cons]; ring

theorem NetIs.subAssets {m : AMap Token Balance} {S : Token → ℚ} (h : NetIs m S) {as : List Asset}
    (hq : ∀ a ∈ as, 0 ≤ a.quantity) :
    NetIs (as.foldl (fun m a => Selection.adjust (·.subValue a.quantity) m a.fingerprint) m)
      (fun t => S t - assetSum t as) := by
  induction as generalizing m S with
  | nil => simpa using h
  | cons a as ih =>
    rw [List.foldl_cons]
    have := ih (h.adjust (t := a.fingerprint) (x := -a.quantity) (f := (·.subValue a.quantity))
      (sub_ofNet (hq a (by simp)))) (fun b hb => hq b (by simp [hb]))
    refine this.congr (fun t => ?_)
    rw [assetSum_cons]; split <;> ring

/-! ### Asset maps -/

theorem qty_addAsset (m : AssetMap) (a : Asset) (t : Token) :
    qty (addAsset m a) t = qty m t + if a.fingerprint = t then a.quantity else 0 := by
  unfold qty addAsset
  simp only [AMap.get_insert]
  by_cases h : a.fingerprint = t
  · subst h
    cases hg : m.get a.fingerprint <;> simp [newAsset]
  · simp [h]

theorem qty_addAssets (as : List Asset) (m : AssetMap) (t : Token) :
    qty (as.foldl addAsset m) t = qty m t + assetSum t as := by
  induction as generalizing m with
  | nil => simp
  | cons a as ih => rw [List.foldl_cons, ih, qty_addAsset, assetSum_cons]; ring

theorem nodup_addAsset {m : AssetMap} (h : m.keys.Nodup) (a : Asset) : (addAsset m a).keys.Nodup :=
  AMap.nodup_insert h _ _

theorem nodup_addAssets (as : List Asset) {m : AssetMap} (h : m.keys.Nodup) :
    (as.foldl addAsset m).keys.Nodup := by
  induction as generalizing m with
  | nil => exact h
  | cons a as ih => exact ih (nodup_addAsset h a)

theorem mem_keys_addAsset (m : AssetMap) (a : Asset) (t : Token) :
    t ∈ (addAsset m a).keys ↔ t = a.fingerprint ∨ t ∈ m.keys := by
  unfold addAsset
  simp only
  rw [AMap.keys_insert]
  split
  · rename_i h
    constructor
    · exact Or.inr
    · rintro (rfl | h')
      · exact h
      · exact h'
  · simp [or_comm]

theorem mem_keys_addAssets (as : List Asset) (m : AssetMap) (t : Token) :
    t ∈ (as.foldl addAsset m).keys ↔ (∃ a ∈ as, a.fingerprint = t) ∨ t ∈ m.keys := by
  induction as generalizing m with
  | nil => simp
  | cons a as ih =>
    rw [List.foldl_cons, ih, mem_keys_addAsset]
    simp only [List.mem_cons, exists_eq_or_imp]
    constructor
    · rintro (h | h | h)
      · exact Or.inl (Or.inr h)
      · exact Or.inl (Or.inl h.symm)
      · exact Or.inr h
    · rintro ((h | h) | h)
      · exact Or.inr (Or.inl h.symm)
      · exact Or.inl h
      · exact Or.inr (Or.inr h)

/-- Every entry is filed under its own identifier. -/
def Keyed (m : AssetMap) : Prop := ∀ t a, m.get t = some a → a.fingerprint = t

theorem Keyed.nil : Keyed [] := by intro t a h; simp at h

theorem Keyed.addAsset {m : AssetMap} (h : Keyed m) (a : Asset) : Keyed (addAsset m a) := by
  intro t b hb
  unfold Selection.addAsset at hb
  simp only [AMap.get_insert] at hb
  split at hb
  · rename_i e
    cases hb
    cases hg : m.get a.fingerprint with
    | none => simpa [newAsset] using e
    | some c => simp only [Option.getD_some]; rw [h _ _ hg, e]
  · exact h t b hb

theorem Keyed.addAssets {m : AssetMap} (h : Keyed m) (as : List Asset) :
    Keyed (as.foldl Selection.addAsset m) := by
  induction as generalizing m with
  | nil => exact h
  | cons a as ih => exact ih (h.addAsset a)

/-! ### `calculate_asset_balance` -/

theorem get_cons_qty {m : AssetMap} {k : Token} {a : Asset} (t : Token) :
    qty ((k, a) :: m) t = if k = t then a.quantity else qty m t := by
  unfold qty
  rw [AMap.get_cons]
  by_cases h : k = t <;> simp [h]

theorem qty_absent {m : AssetMap} {t : Token} (h : t ∉ m.keys) : qty m t = 0 := by
  unfold qty
  rw [(AMap.get_eq_none_iff _ _).mpr h]; rfl

/-- First loop of `calculate_asset_balance`; quantities may have any sign. -/
theorem insNet (ins : AssetMap) (hn : ins.keys.Nodup) (m0 : AMap Token Balance)
    (h0 : m0.keys.Nodup) (hd : ∀ t ∈ ins.keys, m0.get t = none) :
    (ins.foldl (fun m kv => adjust (·.addValue kv.2.quantity) m kv.1) m0).keys.Nodup ∧
    ∀ t, (ins.foldl (fun m kv => adjust (·.addValue kv.2.quantity) m kv.1) m0).get t =
      if t ∈ ins.keys then some (Balance.zero.addValue (qty ins t)) else m0.get t := by
  induction ins generalizing m0 with
  | nil => simp [h0]
  | cons kv ins ih =>
    obtain ⟨k, a⟩ := kv
    simp only [AMap.keys_cons, List.nodup_cons] at hn
    rw [List.foldl_cons]
    have h1 : (adjust (·.addValue a.quantity) m0 k).keys.Nodup := AMap.nodup_insert h0 _ _
    have h2 : ∀ t ∈ AMap.keys ins, (adjust (·.addValue a.quantity) m0 k).get t = none := by
      intro t ht
      unfold adjust
      rw [AMap.get_insert]
      have : k ≠ t := fun e => hn.1 (e ▸ ht)
      rw [if_neg this]
      exact hd t (by simp [ht])
    obtain ⟨h3, h4⟩ := ih hn.2 _ h1 h2
    refine ⟨h3, ?_⟩
    intro t
    rw [h4 t]
    simp only [AMap.keys_cons, List.mem_cons]
    by_cases ht : t ∈ AMap.keys ins
    · have : k ≠ t := fun e => hn.1 (e ▸ ht)
      simp only [ht, if_true, or_true, get_cons_qty, if_neg this]
    · simp only [ht, if_false, or_false]
      unfold adjust
      rw [AMap.get_insert, get_cons_qty]
      by_cases e : k = t
      · subst e
        simp [hd k (by simp), Balance.zero]
      · have : ¬ t = k := fun h => e h.symm
        simp [e, this]

/-- Second loop. -/
theorem outsNet (outs : AssetMap) (hn : outs.keys.Nodup) (m0 : AMap Token Balance)
    (h0 : m0.keys.Nodup) :
    (outs.foldl (fun m kv => adjust (·.subValue kv.2.quantity) m kv.1) m0).keys.Nodup ∧
    ∀ t, (outs.foldl (fun m kv => adjust (·.subValue kv.2.quantity) m kv.1) m0).get t =
      if t ∈ outs.keys then some (((m0.get t).getD .balanced).subValue (qty outs t)) else m0.get t := by
  induction outs generalizing m0 with
  | nil => simp [h0]
  | cons kv outs ih =>
    obtain ⟨k, a⟩ := kv
    simp only [AMap.keys_cons, List.nodup_cons] at hn
    rw [List.foldl_cons]
    have h1 : (adjust (·.subValue a.quantity) m0 k).keys.Nodup := AMap.nodup_insert h0 _ _
    obtain ⟨h3, h4⟩ := ih hn.2 _ h1
    refine ⟨h3, ?_⟩
    intro t
    rw [h4 t]
    simp only [AMap.keys_cons, List.mem_cons]
    unfold adjust
    rw [AMap.get_insert]
    by_cases ht : t ∈ AMap.keys outs
    · have : k ≠ t := fun e => hn.1 (e ▸ ht)
      simp only [ht, if_true, or_true, get_cons_qty, if_neg this]
    · simp only [ht, if_false, or_false, get_cons_qty]
      by_cases e : k = t
      · subst e; simp
      · have : ¬ t = k := fun h => e h.symm
        simp [e, this]

/-- The asset balances are the exact differences, listed for every token on either side. -/
theorem assetBalance_spec {ins outs : AssetMap} (hi : ins.keys.Nodup) (ho : outs.keys.Nodup)
    (hpos : ∀ kv ∈ outs, 0 ≤ kv.2.quantity)
    (hin : ∀ kv ∈ ins, kv.1 ∉ outs.keys → 0 ≤ kv.2.quantity) :
    (assetBalance ins outs).keys.Nodup ∧
    ∀ t, (assetBalance ins outs).get t =
      if t ∈ ins.keys ∨ t ∈ outs.keys then some (Balance.ofNet (qty ins t - qty outs t)) else none := by
  obtain ⟨h1, h2⟩ := insNet ins hi [] (by simp) (by simp)
  obtain ⟨h3, h4⟩ := outsNet outs ho _ h1
  refine ⟨h3, ?_⟩
  intro t
  unfold assetBalance
  rw [h4 t, h2 t]
  have hq : t ∈ outs.keys → 0 ≤ qty outs t := by
    intro ht
    unfold qty
    cases hg : AMap.get outs t with
    | none => simp
    | some a => exact hpos _ (AMap.mem_of_get hg)
  by_cases ho : t ∈ outs.keys
  · simp only [ho, if_true, or_true]
    by_cases hi' : t ∈ ins.keys
    · simp only [hi', if_true, Option.getD_some]
      rw [addSub_spec _ _ (hq ho)]
    · simp only [hi', if_false, AMap.get_nil, Option.getD_none, qty_absent hi']
      have := sub_ofNet (x := 0) (hq ho)
      simp only [Balance.ofNet, lt_irrefl, if_false, if_true] at this
      rw [this, zero_sub, zero_add]; rfl
  · simp only [ho, if_false, or_false]
    by_cases hi' : t ∈ ins.keys
    · simp only [hi', if_true, qty_absent ho, sub_zero]
      have hq' : 0 ≤ qty ins t := by
        unfold qty
        cases hg : AMap.get ins t with
        | none => simp
        | some a => exact hin _ (AMap.mem_of_get hg) ho
      have := add_ofNet (x := 0) hq'
      simp only [Balance.ofNet, lt_irrefl, if_false, if_true] at this
      rw [Balance.zero, this, zero_add]; rfl
    · simp [hi']

theorem ofNet_zero : Balance.ofNet 0 = .balanced := by simp [Balance.ofNet]

end Verif.Selection
