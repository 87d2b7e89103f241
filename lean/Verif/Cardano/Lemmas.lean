import Verif.Cardano.Value
import Verif.Props.CoreNumbers

/-!
# Lemmas about ledger values
-/

namespace Verif.Cardano
open Verif.Core

/-! ### Quantities -/

theorem display_nat (lead trail n : Nat) : Dec.display lead trail ⟨(n : Int), 0⟩ = showNat n := by
  unfold Dec.display
  have h : ¬ ((n : Int) < 0) := by omega
  simp

theorem parseU64_showNat_big {n : Nat} (h : ¬ n < u64Bound) : ∃ e, parseU64 (showNat n) = .error e := by
  cases hp : parseU64 (showNat n) with
  | error e => exact ⟨e, rfl⟩
  | ok m =>
    exfalso
    obtain ⟨hm, body, hb, ds, hne, hds, hv⟩ := (Props.C29_parse_exact _ _).mp hp
    obtain ⟨ds', h1, h2, h3⟩ := showNat_mapM n
    rcases hb with hb | hb
    · rw [hb, hds] at h1
      have := Option.some.inj h1
      subst this
      have : m = n := by rw [hv, ← h2]; rfl
      subst this
      exact h hm
    · exact showNat_head_ne n '+' (by decide) (by rw [hb]; rfl)

theorem toRat_scale_zero (n : Int) : (⟨n, 0⟩ : Dec).toRat = n := Dec.toRat_ofInt n

theorem dec_eq_of_toRat {d : Dec} {n : Int} (hs : d.scale = 0) (h : d.toRat = n) : d = ⟨n, 0⟩ := by
  obtain ⟨a, s⟩ := d
  simp only at hs; subst hs
  rw [toRat_scale_zero] at h
  have : a = n := by exact_mod_cast h
  rw [this]

theorem toRat_nonneg {d : Dec} (h : 0 ≤ d.digits) : 0 ≤ d.toRat := by
  unfold Dec.toRat
  exact mul_nonneg (by exact_mod_cast h) (le_of_lt (Dec.pow_pos' _))

theorem truncate_eq (lead trail : Nat) (q : Value .regulated) (h0 : 0 ≤ q.value.digits)
    (hsc : 0 ≤ q.value.scale) (hs : q.value.SmallScale) :
    (q.truncate lead trail).value = ⟨⌊q.toRat⌋, 0⟩ := by
  unfold Value.truncate
  split
  · rename_i h
    rw [Dec.blt_iff, Dec.toRat_ofInt] at h
    have : ⌊q.toRat⌋ = 0 := by
      rw [Int.floor_eq_iff]
      refine ⟨by simpa [Value.toRat] using toRat_nonneg h0, ?_⟩
      simpa [Value.toRat] using h
    rw [this]; rfl
  · rename_i h
    have h1 : 1 ≤ q.value.toRat := by
      rw [Dec.blt_iff, Dec.toRat_ofInt] at h
      simpa using h
    obtain ⟨d', hp, hr, hz⟩ := Dec.parse_cut_display lead trail q.value hs h1
    rw [hp]
    exact dec_eq_of_toRat (hz hsc) hr

theorem quantityToNum_eq (lib : Lib) (q : Value .regulated) (h0 : 0 ≤ q.value.digits)
    (hsc : 0 ≤ q.value.scale) (hs : q.value.SmallScale) :
    quantityToNum lib q =
      if h : ⌊q.toRat⌋.toNat < u64Bound then .ok ⟨⌊q.toRat⌋.toNat, h⟩ else .error .quantity := by
  have hfl : 0 ≤ ⌊q.toRat⌋ := Int.floor_nonneg.mpr (toRat_nonneg h0)
  have hdisp : (q.truncate lib.lead lib.trail).display lib.lead lib.trail = showNat ⌊q.toRat⌋.toNat := by
    unfold Value.display
    rw [truncate_eq _ _ q h0 hsc hs, ← display_nat lib.lead lib.trail, Int.toNat_of_nonneg hfl]
  unfold quantityToNum
  rw [hdisp]
  by_cases h : ⌊q.toRat⌋.toNat < u64Bound
  · have := Props.C29_round_trip ⟨⌊q.toRat⌋.toNat, h⟩
    unfold U64.display at this
    rw [this]
  · obtain ⟨e, he⟩ := parseU64_showNat_big h
    rw [he]; simp only [dif_neg h]

theorem quantityToNum_coin (lib : Lib) (c : U64) : quantityToNum lib (coinToValue c) = .ok c := by
  have hr : (coinToValue c).toRat = (c.val : ℚ) := by
    simp [coinToValue, Value.ofNat, Value.toRat, Dec.toRat_ofInt]
  rw [quantityToNum_eq lib _ (by simp [coinToValue, Value.ofNat, Dec.ofInt])
    (by simp [coinToValue, Value.ofNat, Dec.ofInt])
    (by simp [coinToValue, Value.ofNat, Dec.ofInt, Dec.SmallScale])]
  have hf : ⌊(coinToValue c).toRat⌋.toNat = c.val := by rw [hr]; simp
  rw [dif_pos (by rw [hf]; exact c.lt)]
  congr 1
  cases c
  simp only [U64.mk.injEq]; exact hf

theorem valueToCoin_coin (c : U64) : valueToCoin (coinToValue c) = .ok c := by
  have hr : (coinToValue c).value.toRat = (c.val : ℚ) := by
    simp [coinToValue, Value.ofNat, Dec.toRat_ofInt]
  unfold valueToCoin toU64
  have h1 : ¬ (coinToValue c).value.toRat < 0 := by rw [hr]; simp
  have hf : (coinToValue c).value.toRat.floor.toNat = c.val := by
    rw [hr]
    show (((c.val : Nat) : ℚ).floor).toNat = c.val
    rw [show (((c.val : Nat) : ℚ).floor) = ((c.val : Nat) : Int) by exact_mod_cast Rat.floor_intCast (c.val : Int)]
    simp
  rw [if_neg h1, dif_pos (by rw [hf]; exact c.lt)]
  simp only
  congr 1
  cases c
  simp only [U64.mk.injEq]; exact hf

/-! ### Ledger values from assets -/

/-- Quantity of an asset in a multi-asset map. -/
def maQuantity (m : MultiAsset) (p n : Bytes) : Option U64 := (m.get p).bind fun a => a.get n

theorem maQuantity_setAsset (m : MultiAsset) (p n p' n' : Bytes) (q : U64) :
    maQuantity (setAsset m p n q) p' n' =
      if (p, n) = (p', n') then some q else maQuantity m p' n' := by
  unfold maQuantity setAsset
  rw [AMap.get_insert]
  by_cases hp : p = p'
  · subst hp
    simp only [if_true, Option.bind_some, AMap.get_insert, Prod.mk.injEq, true_and]
    by_cases hn : n = n'
    · simp [hn]
    · simp only [if_neg hn]
      cases m.get p <;> simp
  · simp [hp]

theorem addAssets_ok (lib : Lib) : ∀ (l : List TxAsset) (ds : List (Bytes × Bytes × U64)) (m : MultiAsset),
    l.map (decodeAsset lib) = ds.map .ok →
    addAssets lib l m = .ok (ds.foldl (fun m d => setAsset m d.1 d.2.1 d.2.2) m)
  | [], ds, m, h => by
    cases ds with
    | nil => rfl
    | cons _ _ => simp at h
  | a :: l, ds, m, h => by
    cases ds with
    | nil => simp at h
    | cons d ds =>
      simp only [List.map_cons, List.cons.injEq] at h
      simp only [addAssets, h.1, List.foldl_cons]
      exact addAssets_ok lib l ds _ h.2

theorem addAssets_decodes (lib : Lib) : ∀ (l : List TxAsset) (m m' : MultiAsset),
    addAssets lib l m = .ok m' → ∃ ds, l.map (decodeAsset lib) = List.map Except.ok ds
  | [], _, _, _ => ⟨[], rfl⟩
  | a :: l, m, m', h => by
    simp only [addAssets] at h
    cases hd : decodeAsset lib a with
    | error e => rw [hd] at h; cases h
    | ok d =>
      obtain ⟨p, n, q⟩ := d
      rw [hd] at h
      obtain ⟨ds, hds⟩ := addAssets_decodes lib l _ _ h
      exact ⟨(p, n, q) :: ds, by simp [hd, hds]⟩

theorem maQuantity_foldl (ds : List (Bytes × Bytes × U64))
    (hn : (ds.map fun d => (d.1, d.2.1)).Nodup) (m : MultiAsset) (p n : Bytes) :
    (∀ q, (p, n, q) ∈ ds →
      maQuantity (ds.foldl (fun m d => setAsset m d.1 d.2.1 d.2.2) m) p n = some q) ∧
    ((p, n) ∉ ds.map (fun d => (d.1, d.2.1)) →
      maQuantity (ds.foldl (fun m d => setAsset m d.1 d.2.1 d.2.2) m) p n = maQuantity m p n) := by
  induction ds generalizing m with
  | nil => simp
  | cons d ds ih =>
    simp only [List.map_cons, List.nodup_cons] at hn
    obtain ⟨i1, i2⟩ := ih hn.2 (setAsset m d.1 d.2.1 d.2.2)
    simp only [List.foldl_cons]
    constructor
    · intro q hq
      rcases List.mem_cons.mp hq with h | h
      · subst h
        rw [i2 hn.1, maQuantity_setAsset, if_pos rfl]
      · exact i1 q h
    · intro hnm
      simp only [List.map_cons, List.mem_cons, not_or] at hnm
      rw [i2 hnm.2, maQuantity_setAsset, if_neg (fun e => hnm.1 e.symm)]

theorem foldl_setAsset_keys (ds : List (Bytes × Bytes × U64)) (m : MultiAsset)
    (hm : m.keys.Nodup) (hw : ∀ p a, (p, a) ∈ m → p.length = 28 ∧ a.keys.Nodup ∧ ∀ n ∈ a.keys, n.length ≤ 32)
    (hd : ∀ d ∈ ds, d.1.length = 28 ∧ d.2.1.length ≤ 32) :
    let m' := ds.foldl (fun m d => setAsset m d.1 d.2.1 d.2.2) m
    m'.keys.Nodup ∧ ∀ p a, (p, a) ∈ m' → p.length = 28 ∧ a.keys.Nodup ∧ ∀ n ∈ a.keys, n.length ≤ 32 := by
  induction ds generalizing m with
  | nil => exact ⟨hm, hw⟩
  | cons d ds ih =>
    simp only [List.foldl_cons]
    apply ih
    · exact AMap.nodup_insert hm _ _
    · intro p a hpa
      obtain ⟨h1, h2⟩ := hd d (by simp)
      rcases AMap.mem_insert hpa with h | h
      · cases h
        refine ⟨h1, ?_, ?_⟩
        · apply AMap.nodup_insert
          cases hg : AMap.get m d.1 with
          | none => simp
          | some a => exact (hw _ _ (AMap.mem_of_get hg)).2.1
        · intro n hn
          rw [AMap.keys_insert] at hn
          have hold : ∀ n ∈ ((AMap.get m d.1).getD []).keys, n.length ≤ 32 := by
            intro n hn
            cases hg : AMap.get m d.1 with
            | none => rw [hg] at hn; simp at hn
            | some a => rw [hg] at hn; exact (hw _ _ (AMap.mem_of_get hg)).2.2 n hn
          split at hn
          · exact hold n hn
          · rcases List.mem_append.mp hn with h | h
            · exact hold n h
            · rw [List.mem_singleton.mp h]; exact h2
      · exact hw p a h
    · exact fun x hx => hd x (by simp [hx])

theorem decodeAsset_lengths {lib : Lib} {a : TxAsset} {d : Bytes × Bytes × U64}
    (h : decodeAsset lib a = .ok d) :
    hexDecode a.policy = some d.1 ∧ hexDecode a.name = some d.2.1 ∧ d.1.length = 28 ∧
      d.2.1.length ≤ 32 ∧ quantityToNum lib a.quantity = .ok d.2.2 := by
  unfold decodeAsset at h
  cases hp : hexDecode a.policy with
  | none => rw [hp] at h; cases h
  | some p =>
    rw [hp] at h; simp only at h
    split at h
    · cases h
    · rename_i h28
      cases hn : hexDecode a.name with
      | none => rw [hn] at h; cases h
      | some n =>
        rw [hn] at h; simp only at h
        split at h
        · cases h
        · rename_i h32
          cases hq : quantityToNum lib a.quantity with
          | error e => rw [hq] at h; cases h
          | ok q =>
            rw [hq] at h; cases h
            exact ⟨rfl, rfl, not_not.mp h28, not_lt.mp h32, rfl⟩

theorem decodeAsset_of {lib : Lib} {a : TxAsset} {p n : Bytes} {q : U64}
    (hp : hexDecode a.policy = some p) (hn : hexDecode a.name = some n) (h28 : p.length = 28)
    (h32 : n.length ≤ 32) (hq : quantityToNum lib a.quantity = .ok q) :
    decodeAsset lib a = .ok (p, n, q) := by
  unfold decodeAsset
  simp only [hp, hn, hq, if_neg (not_not.mpr h28), if_neg (not_lt.mpr h32)]

/-! ### Tokens from ledger values -/

theorem quantityToNum_small (lib : Lib) (q : Value .regulated) (h : q.toRat < 1) :
    quantityToNum lib q = .ok ⟨0, by decide⟩ := by
  have ht : (q.truncate lib.lead lib.trail).value = ⟨0, 0⟩ := by
    unfold Value.truncate
    rw [if_pos (by rw [Dec.blt_iff, Dec.toRat_ofInt]; simpa [Value.toRat] using h)]
    rfl
  unfold quantityToNum Value.display
  rw [ht]
  have := display_nat lib.lead lib.trail 0
  rw [show (⟨0, 0⟩ : Dec) = ⟨((0 : Nat) : Int), 0⟩ from rfl, this]
  have h0 := Props.C29_round_trip ⟨0, by decide⟩
  unfold U64.display at h0
  rw [h0]
  rfl

theorem valueToCoin_ok {v : Value .regulated} {c : U64} (h : valueToCoin v = .ok c) :
    0 ≤ v.toRat ∧ (c.val : Int) = ⌊v.toRat⌋ := by
  unfold valueToCoin toU64 at h
  by_cases h0 : v.value.toRat < 0
  · rw [if_pos h0] at h; cases h
  · rw [if_neg h0] at h
    by_cases h1 : v.value.toRat.floor.toNat < u64Bound
    · rw [dif_pos h1] at h
      cases h
      have hn : 0 ≤ v.toRat := not_lt.mp h0
      refine ⟨hn, ?_⟩
      show ((⌊v.toRat⌋.toNat : Nat) : Int) = ⌊v.toRat⌋
      exact Int.toNat_of_nonneg (Int.floor_nonneg.mpr hn)
    · rw [dif_neg h1] at h; cases h

/-- What the assets added last leave under a name. -/
theorem foldl_setAsset_from (ds : List (Bytes × Bytes × U64)) (m : MultiAsset) (p n : Bytes) :
    (∀ q, maQuantity (ds.foldl (fun m d => setAsset m d.1 d.2.1 d.2.2) m) p n = some q →
      (p, n, q) ∈ ds ∨ maQuantity m p n = some q) ∧
    ((maQuantity m p n).isSome ∨ (p, n) ∈ ds.map (fun d => (d.1, d.2.1)) →
      (maQuantity (ds.foldl (fun m d => setAsset m d.1 d.2.1 d.2.2) m) p n).isSome) := by
  induction ds generalizing m with
  | nil => simp
  | cons d ds ih =>
    obtain ⟨i1, i2⟩ := ih (setAsset m d.1 d.2.1 d.2.2)
    simp only [List.foldl_cons]
    constructor
    · intro q hq
      rcases i1 q hq with h | h
      · exact .inl (List.mem_cons_of_mem _ h)
      · rw [maQuantity_setAsset] at h
        split at h
        · rename_i he
          cases h
          cases he
          exact .inl (by simp)
        · exact .inr h
    · intro h
      apply i2
      rw [maQuantity_setAsset]
      by_cases he : (d.1, d.2.1) = (p, n)
      · left; rw [if_pos he]; rfl
      · rw [if_neg he]
        rcases h with h | h
        · exact .inl h
        · simp only [List.map_cons, List.mem_cons] at h
          rcases h with h | h
          · exact absurd h.symm he
          · exact .inr h

/-- A conversion that succeeds: the coin, and where the quantities come from. -/
theorem tokensToValue_ok {lib : Lib} {coin : Value .regulated} {t : AMap (List Char) TxAsset} {v : LedgerValue}
    (h : tokensToValue lib coin t = .ok v) :
    0 ≤ coin.toRat ∧ (v.coin.val : Int) = ⌊coin.toRat⌋ ∧
    (∀ p n q, v.quantity p n = some q → ∃ x ∈ t, decodeAsset lib x.2 = .ok (p, n, q)) ∧
    ∀ x ∈ t, ∃ p n q, decodeAsset lib x.2 = .ok (p, n, q) ∧ (v.quantity p n).isSome := by
  unfold tokensToValue at h
  cases hc : valueToCoin coin with
  | error e => rw [hc] at h; cases h
  | ok c =>
    rw [hc] at h
    obtain ⟨h1, h2⟩ := valueToCoin_ok hc
    simp only at h
    split at h
    · rename_i he
      cases h
      refine ⟨h1, h2, ?_, ?_⟩
      · intro p n q hq; simp [LedgerValue.quantity] at hq
      · intro x hx
        rw [List.isEmpty_iff] at he
        rw [he] at hx; cases hx
    · cases ha : addAssets lib (t.map (·.2)) [] with
      | error e => rw [ha] at h; cases h
      | ok m =>
        rw [ha] at h
        cases h
        obtain ⟨ds, hds⟩ := addAssets_decodes lib _ _ _ ha
        rw [addAssets_ok lib _ ds _ hds] at ha
        cases ha
        have hq : ∀ p n, LedgerValue.quantity ⟨c, some (ds.foldl (fun m d => setAsset m d.1 d.2.1 d.2.2) [])⟩ p n =
            maQuantity (ds.foldl (fun m d => setAsset m d.1 d.2.1 d.2.2) []) p n := fun _ _ => rfl
        refine ⟨h1, h2, ?_, ?_⟩
        · intro p n q hv
          rw [hq] at hv
          rcases (foldl_setAsset_from ds [] p n).1 q hv with h3 | h3
          · have : (Except.ok (p, n, q) : Except ConvErr _) ∈ (t.map (·.2)).map (decodeAsset lib) := by
              rw [hds]; exact List.mem_map.mpr ⟨_, h3, rfl⟩
            rw [List.map_map, List.mem_map] at this
            exact this
          · simp [maQuantity, AMap.get] at h3
        · intro x hx
          have : decodeAsset lib x.2 ∈ (t.map (·.2)).map (decodeAsset lib) := by
            rw [List.map_map]; exact List.mem_map.mpr ⟨x, hx, rfl⟩
          rw [hds, List.mem_map] at this
          obtain ⟨⟨p, n, q⟩, hd, he⟩ := this
          refine ⟨p, n, q, he.symm, ?_⟩
          rw [hq]
          exact (foldl_setAsset_from ds [] p n).2 (.inr (List.mem_map.mpr ⟨_, hd, rfl⟩))

/-- The entries of a well-formed value are its assets. -/
theorem mem_assetEntries {v : LedgerValue} {p n : Bytes} {q : Option U64} :
    (p, n, q) ∈ assetEntries v → q = v.quantity p n ∧ q.isSome := by
  intro h
  unfold assetEntries at h
  unfold LedgerValue.quantity
  cases hm : v.multiasset with
  | none => rw [hm] at h; simp at h
  | some m =>
    rw [hm] at h
    simp only [List.mem_flatMap] at h ⊢
    obtain ⟨p', hp', h⟩ := h
    cases hg : AMap.get m p' with
    | none => rw [hg] at h; simp at h
    | some a =>
      rw [hg] at h
      simp only [List.mem_map] at h
      obtain ⟨n', hn', he⟩ := h
      cases he
      rw [hg]
      refine ⟨rfl, ?_⟩
      rw [Option.isSome_iff_ne_none]
      intro h0
      exact (AMap.get_eq_none_iff a n).mp h0 hn'

theorem assetEntries_complete {v : LedgerValue} {p n : Bytes} {q : U64} (h : v.quantity p n = some q) :
    (p, n, some q) ∈ assetEntries v := by
  unfold LedgerValue.quantity at h
  unfold assetEntries
  cases hm : v.multiasset with
  | none => rw [hm] at h; simp at h
  | some m =>
    rw [hm] at h
    simp only at h ⊢
    cases hg : AMap.get m p with
    | none => rw [hg] at h; simp at h
    | some a =>
      rw [hg] at h
      simp only [Option.bind_some] at h
      rw [List.mem_flatMap]
      refine ⟨p, ?_, ?_⟩
      · by_contra hc
        rw [(AMap.get_eq_none_iff m p).mpr hc] at hg; cases hg
      · rw [hg]
        simp only [List.mem_map]
        refine ⟨n, ?_, by rw [h]⟩
        by_contra hc
        rw [(AMap.get_eq_none_iff a n).mpr hc] at h; cases h

theorem assetEntries_nodup {v : LedgerValue} (hw : v.WF) :
    ((assetEntries v).map fun e => (e.1, e.2.1)).Nodup := by
  unfold assetEntries
  cases hm : v.multiasset with
  | none => simp
  | some m =>
    simp only
    have hk := hw.policies m hm
    have hN := hw.names m hm
    rw [List.map_flatMap, List.nodup_flatMap]
    constructor
    · intro p hp
      cases hg : AMap.get m p with
      | none => simp
      | some a =>
        simp only [List.map_map]
        have := (hN p a (AMap.mem_of_get hg)).2.1
        exact this.map (fun x y hxy => by simpa using hxy)
    · refine hk.imp_of_mem ?_
      intro p p' _ _ hne x hx hx'
      have key : ∀ p, x ∈ List.map (fun e : Bytes × Bytes × Option U64 => (e.1, e.2.1))
          (match AMap.get m p with
            | none => []
            | some a => a.keys.map fun n => (p, n, a.get n)) → x.1 = p := by
        intro p hx
        cases hg : AMap.get m p with
        | none => rw [hg] at hx; simp at hx
        | some a =>
          rw [hg] at hx
          simp only [List.map_map, List.mem_map] at hx
          obtain ⟨_, _, rfl⟩ := hx
          rfl
      exact hne ((key p hx).symm.trans (key p' hx'))

theorem assetEntries_lengths {v : LedgerValue} (hw : v.WF) {p n : Bytes} {q : Option U64}
    (h : (p, n, q) ∈ assetEntries v) : p.length = 28 ∧ n.length ≤ 32 := by
  unfold assetEntries at h
  cases hm : v.multiasset with
  | none => rw [hm] at h; simp at h
  | some m =>
    rw [hm] at h
    simp only [List.mem_flatMap] at h
    obtain ⟨p', _, h⟩ := h
    cases hg : AMap.get m p' with
    | none => rw [hg] at h; simp at h
    | some a =>
      rw [hg] at h
      simp only [List.mem_map] at h
      obtain ⟨n', hn', he⟩ := h
      cases he
      have := hw.names m hm _ _ (AMap.mem_of_get hg)
      exact ⟨this.1, this.2.2 n hn'⟩

/-- The token made of an entry. -/
def tokenOf (lib : Lib) (p n : Bytes) (q : U64) : TxAsset :=
  ⟨hexEncode p, hexEncode (lib.nameBytes n), padRight (hexEncode (lib.hash (p ++ lib.nameBytes n))),
    coinToValue q⟩

theorem fingerprint_encoded (hash : Bytes → Bytes) {P N : Bytes} (h : P.length = 28) :
    fingerprint hash (hexEncode P) (hexEncode N) = some (padRight (hexEncode (hash (P ++ N)))) := by
  unfold fingerprint
  rw [fingerprintHash_eq_some.mpr ⟨P, N, hexDecode_hexEncode P, h, hexDecode_hexEncode N, rfl⟩]
  rfl

theorem addToken_eq (lib : Lib) (t : AMap (List Char) TxAsset) (p n : Bytes) (q : U64)
    (hp : p.length = 28) :
    addToken lib t (p, n, some q) = .ok (t.insert (tokenOf lib p n q).fingerprint (tokenOf lib p n q)) := by
  unfold addToken
  simp only [fingerprint_encoded lib.hash hp]
  rfl

/-- Entries with their quantities. -/
theorem addTokens_eq (lib : Lib) : ∀ (l : List (Bytes × Bytes × U64)) (t : AMap (List Char) TxAsset),
    (∀ e ∈ l, e.1.length = 28) →
    addTokens lib (l.map fun e => (e.1, e.2.1, some e.2.2)) t =
      .ok (l.foldl (fun t e => t.insert (tokenOf lib e.1 e.2.1 e.2.2).fingerprint
        (tokenOf lib e.1 e.2.1 e.2.2)) t)
  | [], _, _ => rfl
  | (p, n, q) :: l, t, h => by
    simp only [List.map_cons, addTokens, addToken_eq lib t p n q (h (p, n, q) (by simp)), List.foldl_cons]
    exact addTokens_eq lib l _ (fun e he => h e (by simp [he]))

theorem foldl_insert_append {K V α : Type} [DecidableEq K] (k : α → K) (val : α → V) (l : List α) :
    ∀ (t : AMap K V), (t.keys ++ l.map k).Nodup →
      l.foldl (fun t e => AMap.insert t (k e) (val e)) t = t ++ l.map fun e => (k e, val e) := by
  induction l with
  | nil => simp
  | cons e l ih =>
    intro t h
    have hne : k e ∉ t.keys := by
      intro hm
      rw [List.nodup_append] at h
      exact h.2.2 _ hm _ (by simp) rfl
    rw [List.foldl_cons, AMap.insert_absent _ hne, ih]
    · simp
    · have : AMap.keys (t ++ [(k e, val e)]) = t.keys ++ [k e] := by simp [AMap.keys]
      rw [this]
      simpa using h

/-- The entries as assets with a quantity. -/
def assetList (v : LedgerValue) : List (Bytes × Bytes × U64) :=
  (assetEntries v).filterMap fun e => e.2.2.map fun q => (e.1, e.2.1, q)

theorem assetList_map (v : LedgerValue) :
    (assetList v).map (fun e => (e.1, e.2.1, some e.2.2)) = assetEntries v := by
  have : ∀ l : List (Bytes × Bytes × Option U64), (∀ e ∈ l, e.2.2.isSome) →
      ((l.filterMap fun e => e.2.2.map fun q => (e.1, e.2.1, q)).map fun e => (e.1, e.2.1, some e.2.2)) = l := by
    intro l
    induction l with
    | nil => simp
    | cons e l ih =>
      intro h
      obtain ⟨p, n, q⟩ := e
      cases q with
      | none => have := h _ (List.mem_cons_self); simp at this
      | some q =>
        simp only [List.filterMap_cons, Option.map_some, List.map_cons]
        rw [ih (fun e he => h e (by simp [he]))]
  exact this _ (fun e he => (mem_assetEntries (q := e.2.2) he).2)

theorem mem_assetList {v : LedgerValue} {p n : Bytes} {q : U64} :
    (p, n, q) ∈ assetList v ↔ v.quantity p n = some q := by
  constructor
  · intro h
    have : (p, n, some q) ∈ assetEntries v := by
      rw [← assetList_map]
      exact List.mem_map.mpr ⟨_, h, rfl⟩
    exact (mem_assetEntries this).1.symm
  · intro h
    have := assetEntries_complete h
    rw [← assetList_map, List.mem_map] at this
    obtain ⟨⟨p', n', q'⟩, hm, he⟩ := this
    simp only [Prod.mk.injEq, Option.some.injEq] at he
    obtain ⟨rfl, rfl, rfl⟩ := he
    exact hm

theorem assetList_nodup {v : LedgerValue} (hw : v.WF) :
    ((assetList v).map fun e => (e.1, e.2.1)).Nodup := by
  have := assetEntries_nodup hw
  rw [← assetList_map, List.map_map] at this
  exact this

theorem assetList_lengths {v : LedgerValue} (hw : v.WF) {e : Bytes × Bytes × U64} (h : e ∈ assetList v) :
    e.1.length = 28 ∧ e.2.1.length ≤ 32 := by
  have : (e.1, e.2.1, some e.2.2) ∈ assetEntries v := by
    rw [← assetList_map]
    exact List.mem_map.mpr ⟨_, h, rfl⟩
  exact assetEntries_lengths hw this

end Verif.Cardano
