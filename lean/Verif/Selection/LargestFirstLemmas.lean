import Verif.Selection.LargestFirst
import Verif.Selection.CommonLemmas
import Verif.Core.UtxoLemmas

/-! # Lemmas about largest-first -/

namespace Verif.Selection

open Verif Verif.Core

/-! ### Picking the largest -/

section Pick

variable {ord : List Utxo → List Utxo}

theorem descending_perm (ho : ∀ l, (ord l).Perm l) {L : List Utxo} {st : UStore} (h : StoreOK L st)
    (t : Token) : (descending ord st t).Perm (holders t L) := by
  unfold descending
  by_cases he : holders t L = []
  · rw [(h.token t).1 he, he]
  · obtain ⟨s, hs, hok⟩ := (h.token t).2 he
    rw [hs]
    refine List.Perm.trans ?_ (hok.ordered_rev_perm h.contents.nodup)
    unfold USet.orderedUtxosRev
    exact List.Perm.flatMap_left _ (fun b _ => ho _)

theorem descending_sorted (ho : ∀ l, (ord l).Perm l) {L : List Utxo} {st : UStore} (h : StoreOK L st)
    (t : Token) : (descending ord st t).Pairwise
      (fun a b => (amountOf t b).getD 0 ≤ (amountOf t a).getD 0) := by
  unfold descending
  by_cases he : holders t L = []
  · rw [(h.token t).1 he]; exact List.Pairwise.nil
  · obtain ⟨s, hs, hok⟩ := (h.token t).2 he
    rw [hs]
    simp only
    have hmem : ∀ b ∈ s.ordered, ∀ x ∈ ord (b.2.map (·.2)), amountOf t x = some b.1 := by
      intro b hb x hx
      have hx := (ho _).mem_iff.mp hx
      rw [hok.mem_ordered hb] at hx
      exact (mem_bucket.mp hx).2
    rw [List.pairwise_flatMap]
    constructor
    · intro b hb
      rw [List.pairwise_iff_forall_sublist]
      intro x y hxy
      rw [hmem b (List.mem_reverse.mp hb) x (hxy.subset (by simp)),
        hmem b (List.mem_reverse.mp hb) y (hxy.subset (by simp))]
    · have hp : s.ordered.Pairwise (fun a b => a.1 < b.1) := List.pairwise_map.mp hok.sorted
      rw [List.pairwise_reverse]
      apply hp.imp_of_mem
      intro a b ha hb hlt x hx y hy
      rw [hmem b hb x hx, hmem a ha y hy]
      exact le_of_lt hlt

theorem perm_cons_filter {L : List Utxo} (hn : (L.map (·.ptr)).Nodup) {u : Utxo} (hu : u ∈ L) :
    L.Perm (u :: L.filter (fun w => w.ptr ≠ u.ptr)) := by
  have hL : L.Nodup := List.Nodup.of_map _ hn
  rw [List.perm_ext_iff_of_nodup hL]
  · intro w
    simp only [List.mem_cons, List.mem_filter, decide_eq_true_eq]
    constructor
    · intro hw
      by_cases e : w.ptr = u.ptr
      · left; exact List.inj_on_of_nodup_map hn hw hu e
      · exact Or.inr ⟨hw, by simpa using e⟩
    · rintro (rfl | h)
      · exact hu
      · exact h.1
  · rw [List.nodup_cons]
    exact ⟨by simp, hL.filter _⟩

theorem selectLargest_spec (ho : ∀ l, (ord l).Perm l) {L : List Utxo} {st : UStore}
    (h : StoreOK L st) (t : Token) :
    (holders t L = [] ∧ selectLargest ord st t = .error .noInput) ∨
    ∃ u st', selectLargest ord st t = .ok (u, st') ∧ u ∈ holders t L ∧
      (∀ w ∈ holders t L, (amountOf t w).getD 0 ≤ (amountOf t u).getD 0) ∧
      StoreOK (L.filter (fun w => w.ptr ≠ u.ptr)) st' := by
  have hp := descending_perm ho h t
  have hs := descending_sorted ho h t
  unfold selectLargest
  cases hd : descending ord st t with
  | nil =>
    left
    rw [hd] at hp
    exact ⟨hp.symm.eq_nil, by simp⟩
  | cons u rest =>
    right
    rw [hd] at hp hs
    have hu : u ∈ holders t L := hp.mem_iff.mp (by simp)
    have hc := h.contents.remove u.ptr
    rw [if_pos (List.mem_map.mpr ⟨u, (mem_holders.mp hu).1, rfl⟩)] at hc
    obtain ⟨st', hr, _⟩ := hc
    refine ⟨u, st', by simp [hr], hu, ?_, h.remove hr⟩
    intro w hw
    rcases List.mem_cons.mp (hp.mem_iff.mpr hw) with rfl | hw
    · exact le_refl _
    · exact (List.pairwise_cons.mp hs).1 w hw

end Pick

/-! ### The run invariant -/

/-- The fee and estimator state after adding a list of inputs one by one. -/
def runFee {σ : Type} (E : Estimator σ) : σ → ℚ → List Utxo → Except SelErr (ℚ × σ)
  | s, f, [] => .ok (f, s)
  | s, f, u :: us =>
    match E.feeIn s u with
    | .error e => .error e
    | .ok g =>
      match E.addIn s u with
      | .error e => .error e
      | .ok s' => runFee E s' (f + g) us

theorem runFee_append {σ : Type} (E : Estimator σ) (us : List Utxo) (u : Utxo) (s s1 s2 : σ)
    (f f1 g : ℚ) (h1 : runFee E s f us = .ok (f1, s1)) (h2 : E.feeIn s1 u = .ok g)
    (h3 : E.addIn s1 u = .ok s2) : runFee E s f (us ++ [u]) = .ok (f1 + g, s2) := by
  induction us generalizing s f with
  | nil =>
    simp only [runFee] at h1; cases h1
    simp [runFee, h2, h3]
  | cons w us ih =>
    simp only [runFee, List.cons_append] at h1 ⊢
    cases hw : E.feeIn s w with
    | error e => simp [hw] at h1
    | ok g' =>
      simp only [hw] at h1 ⊢
      cases hw' : E.addIn s w with
      | error e => simp [hw'] at h1
      | ok s' => simp only [hw'] at h1 ⊢; exact ih s' _ h1

/-- What a selection starts from. -/
structure Start (σ : Type) where
  available : List Utxo
  est : σ
  assets : AssetMap
  input : ℚ
  fee : ℚ
  outs : AssetMap
  out : ℚ

/-- The main token amount after taking `us`. -/
def Start.inputAfter {σ : Type} (c : Start σ) (us : List Utxo) : ℚ :=
  c.input + (us.map (·.value)).sum

/-- The amount of an asset after taking `us`. -/
def Start.assetAfter {σ : Type} (c : Start σ) (us : List Utxo) (t : Token) : ℚ :=
  qty c.assets t + (us.map (fun u => assetSum t u.assets)).sum

/-- A reason to take another input after `pre`: an asset whose demand is not met, or, all assets
being covered, a main token amount below output plus fee. -/
def Start.Needs {σ : Type} (E : Estimator σ) (c : Start σ) (pre : List Utxo) (t : Token) : Prop :=
  (∃ o, (t, o) ∈ c.outs ∧ c.assetAfter pre t < o.quantity) ∨
  (t = mainToken ∧ (∀ t' o, (t', o) ∈ c.outs → o.quantity ≤ c.assetAfter pre t') ∧
    ∃ f s, runFee E c.est c.fee pre = .ok (f, s) ∧ c.inputAfter pre < c.out + f)

structure Inv {σ : Type} (E : Estimator σ) (c : Start σ) (L : List Utxo) (s : LF σ) : Prop where
  store : StoreOK L s.utxos
  perm : c.available.Perm (s.selected ++ L)
  input : s.input = c.inputAfter s.selected
  assets : ∀ t, qty s.assets t = c.assetAfter s.selected t
  fee : runFee E c.est c.fee s.selected = .ok (s.fee, s.est)
  nonneg : ∀ u ∈ c.available, ∀ a ∈ u.assets, 0 ≤ a.quantity
  picks : ∀ pre u post, s.selected = pre ++ u :: post → ∃ t, c.Needs E pre t ∧
    (amountOf t u).isSome ∧
    ∀ w ∈ c.available, w ∉ pre → (amountOf t w).getD 0 ≤ (amountOf t u).getD 0 ∨ amountOf t w = none

variable {σ : Type} {E : Estimator σ} {c : Start σ}

theorem assetAfter_append (us : List Utxo) (u : Utxo) (t : Token) :
    c.assetAfter (us ++ [u]) t = c.assetAfter us t + assetSum t u.assets := by
  simp [Start.assetAfter, add_assoc]

theorem inputAfter_append (us : List Utxo) (u : Utxo) :
    c.inputAfter (us ++ [u]) = c.inputAfter us + u.value := by
  simp [Start.inputAfter, add_assoc]

theorem tokenBal_fold (t : Token) (as : List Asset) (b : ℚ) (h : mainToken ∉ as.map (·.fingerprint)) :
    as.foldl (fun b a => if t ≠ mainToken ∧ a.fingerprint = t then b + a.quantity else b) b =
      b + assetSum t as := by
  induction as generalizing b with
  | nil => simp
  | cons a as ih =>
    simp only [List.map_cons, List.mem_cons, not_or] at h
    rw [List.foldl_cons, ih _ h.2, assetSum_cons]
    by_cases e : a.fingerprint = t
    · have : t ≠ mainToken := by rw [← e]; exact fun x => h.1 x.symm
      simp only [e, this, ne_eq, not_false_eq_true, and_self, if_true]; ring
    · simp [e]

/-- Adding one chosen input keeps the invariant. -/
theorem Inv.pick {L : List Utxo} {s : LF σ} (h : Inv E c L s) {t : Token} {u : Utxo} {st' : UStore}
    {f : ℚ} {est' : σ} (hn : c.Needs E s.selected t)
    (hu : u ∈ holders t L)
    (hmax : ∀ w ∈ holders t L, (amountOf t w).getD 0 ≤ (amountOf t u).getD 0)
    (hst : StoreOK (L.filter (fun w => w.ptr ≠ u.ptr)) st')
    (hf : E.feeIn s.est u = .ok f) (ha : E.addIn s.est u = .ok est') :
    Inv E c (L.filter (fun w => w.ptr ≠ u.ptr))
      { utxos := st', est := est', assets := u.assets.foldl addAsset s.assets,
        input := s.input + u.value, fee := s.fee + f, selected := s.selected ++ [u] } := by
  have huL := (mem_holders.mp hu).1
  constructor
  · exact hst
  · refine h.perm.trans ?_
    simp only [List.append_assoc, List.singleton_append]
    exact (perm_cons_filter h.store.contents.nodup huL).append_left _
  · simp only; rw [inputAfter_append, h.input]
  · intro t'; simp only; rw [qty_addAssets, h.assets, assetAfter_append]
  · exact runFee_append E _ _ _ _ _ _ _ _ h.fee hf ha
  · exact h.nonneg
  · intro pre v post e
    simp only at e
    rcases List.eq_nil_or_concat post with rfl | ⟨post', x, rfl⟩
    · have hinj := List.append_inj' e (by simp)
      obtain ⟨e1, e2⟩ := hinj
      cases e2
      subst e1
      refine ⟨t, hn, (mem_holders.mp hu).2, ?_⟩
      intro w hw hns
      have hwL : w ∈ L := by
        rcases List.mem_append.mp (h.perm.mem_iff.mp hw) with hx | hx
        · exact absurd hx hns
        · exact hx
      by_cases hs : (amountOf t w).isSome
      · exact Or.inl (hmax w (mem_holders.mpr ⟨hwL, hs⟩))
      · right; simpa using hs
    · have e' : s.selected ++ [u] = (pre ++ v :: post') ++ [x] := by
        rw [e]; simp
      have hinj := List.append_inj' e' rfl
      exact h.picks pre v post' hinj.1

/-- An estimator that never fails on inputs. -/
def Estimator.Answers {σ : Type} (E : Estimator σ) : Prop :=
  ∀ s u, (∃ f, E.feeIn s u = .ok f) ∧ ∃ s', E.addIn s u = .ok s'

/-- No input of the token is left and its demand is not met. -/
def Start.Short {σ : Type} (c : Start σ) : Prop :=
  ∃ t o, (t, o) ∈ c.outs ∧ c.assetAfter c.available t < o.quantity

theorem sum_holders_nil {t : Token} {L : List Utxo} (hd : ∀ u ∈ L, DistinctAssets u)
    (h : holders t L = []) : (L.map (fun u => assetSum t u.assets)).sum = 0 := by
  apply List.sum_eq_zero
  intro x hx
  obtain ⟨u, hu, rfl⟩ := List.mem_map.mp hx
  have hno : ∀ a ∈ u.assets, a.fingerprint ≠ t := by
    intro a ha e
    have : u ∈ holders t L := mem_holders.mpr ⟨hu, by
      rw [← e, amountOf_asset (hd u hu) ha]; rfl⟩
    rw [h] at this; simp at this
  unfold assetSum
  have : u.assets.filter (fun a => a.fingerprint = t) = [] := by
    rw [List.filter_eq_nil_iff]
    intro a ha; simpa using hno a ha
  rw [this]; rfl

theorem perm_sum {α : Type} (f : α → ℚ) {a b : List α} (h : a.Perm b) :
    (a.map f).sum = (b.map f).sum := (h.map f).sum_eq

theorem Inv.assetAfter_all {L : List Utxo} {s : LF σ} (h : Inv E c L s) {t : Token}
    (he : holders t L = []) : c.assetAfter c.available t = qty s.assets t := by
  rw [h.assets]
  unfold Start.assetAfter
  rw [perm_sum _ h.perm, List.map_append, List.sum_append, sum_holders_nil h.store.distinct he]
  simp

theorem filter_length {L : List Utxo} (hn : (L.map (·.ptr)).Nodup) {u : Utxo} (hu : u ∈ L) :
    (L.filter (fun w => w.ptr ≠ u.ptr)).length + 1 = L.length := by
  have := (perm_cons_filter hn hu).length_eq
  rw [this]; rfl

/-- Outcome of a loop over one asset. -/
theorem tokenLoop_spec {ord : List Utxo → List Utxo} (ho : ∀ l, (ord l).Perm l) {t : Token} {o : Asset}
    (hin : (t, o) ∈ c.outs) (fuel : Nat) {L : List Utxo} {s : LF σ} (h : Inv E c L s)
    (hfuel : L.length < fuel) :
    (∃ s' L', tokenLoop E ord t o.quantity fuel (qty s.assets t) s = .ok s' ∧ Inv E c L' s' ∧
      L'.length ≤ L.length ∧ s.selected <+: s'.selected ∧ o.quantity ≤ qty s'.assets t) ∨
    (∃ e, tokenLoop E ord t o.quantity fuel (qty s.assets t) s = .error e ∧
      (E.Answers → c.Short ∧ e = .noInput)) := by
  induction fuel generalizing L s with
  | zero => omega
  | succ fuel ih =>
    unfold tokenLoop
    by_cases hb : qty s.assets t < o.quantity
    swap
    · left
      rw [if_neg hb]
      exact ⟨s, L, rfl, h, le_refl _, List.prefix_refl _, not_lt.mp hb⟩
    rw [if_pos hb]
    have hneed : c.Needs E s.selected t := Or.inl ⟨o, hin, by rw [← h.assets]; exact hb⟩
    simp only
    rcases selectLargest_spec ho h.store t with ⟨he, hs⟩ | ⟨u, st', hs, hu, hmax, hst⟩
    · right
      refine ⟨.noInput, by simp [selectFor, hs], fun _ => ⟨⟨t, o, hin, ?_⟩, rfl⟩⟩
      rw [h.assetAfter_all he]; exact hb
    · have huL := (mem_holders.mp hu).1
      cases hf : E.feeIn s.est u with
      | error e =>
        right
        refine ⟨e, by simp [selectFor, hs, hf], fun ha => ?_⟩
        obtain ⟨⟨f, hf'⟩, _⟩ := ha s.est u
        rw [hf] at hf'; cases hf'
      | ok f =>
        cases ha : E.addIn s.est u with
        | error e =>
          right
          refine ⟨e, by simp [selectFor, hs, hf, ha], fun han => ?_⟩
          obtain ⟨_, ⟨s', hs'⟩⟩ := han s.est u
          rw [ha] at hs'; cases hs'
        | ok est' =>
          have hinv := h.pick hneed hu hmax hst hf ha
          have hlen := filter_length h.store.contents.nodup huL
          have hrec := ih hinv (by omega)
          simp only [selectFor, hs, hf, ha]
          rw [tokenBal_fold t _ _ (h.store.distinct u huL).2]
          simp only at hrec
          rw [qty_addAssets] at hrec
          rcases hrec with ⟨s', L', h1, h2, h3, h4, h5⟩ | ⟨e, h1, h2⟩
          · left
            refine ⟨s', L', h1, h2, by omega, ?_, h5⟩
            exact (List.prefix_append _ _).trans h4
          · right; exact ⟨e, h1, h2⟩

theorem qty_touch (m : AssetMap) (t : Token) (o : Asset) (t' : Token) :
    qty (m.insert t ((m.get t).getD (newAsset o.policy o.name o.fingerprint))) t' = qty m t' := by
  unfold qty
  rw [AMap.get_insert]
  by_cases e : t = t'
  · subst e
    cases h : m.get t <;> simp [newAsset]
  · simp [e]

theorem qty_getD (m : AssetMap) (t : Token) (o : Asset) :
    ((m.get t).getD (newAsset o.policy o.name o.fingerprint)).quantity = qty m t := by
  unfold qty
  cases h : m.get t <;> simp [newAsset]

theorem Inv.touch {L : List Utxo} {s : LF σ} (h : Inv E c L s) (t : Token) (o : Asset) :
    Inv E c L { s with assets := (s.assets.insert t
      ((s.assets.get t).getD (newAsset o.policy o.name o.fingerprint))) } :=
  ⟨h.store, h.perm, h.input, fun t' => by simp only; rw [qty_touch, h.assets], h.fee, h.nonneg, h.picks⟩

theorem Inv.mono {L L' : List Utxo} {s s' : LF σ} (h : Inv E c L s) (h' : Inv E c L' s')
    (hp : s.selected <+: s'.selected) (t : Token) :
    qty s.assets t ≤ qty s'.assets t := by
  obtain ⟨r, hr⟩ := hp
  rw [h.assets, h'.assets, ← hr]
  unfold Start.assetAfter
  rw [List.map_append, List.sum_append]
  have : 0 ≤ (r.map (fun u => assetSum t u.assets)).sum := by
    apply List.sum_nonneg
    intro x hx
    obtain ⟨u, hu, rfl⟩ := List.mem_map.mp hx
    apply assetSum_nonneg
    apply h'.nonneg u
    rw [h'.perm.mem_iff, ← hr]
    simp [hu]
  linarith

theorem tokensLoop_spec {ord : List Utxo → List Utxo} (ho : ∀ l, (ord l).Perm l) (fuel : Nat)
    (l : List (Token × Asset)) (hin : ∀ p ∈ l, p ∈ c.outs) {L : List Utxo} {s : LF σ}
    (h : Inv E c L s) (hfuel : L.length < fuel) :
    (∃ s' L', tokensLoop E ord fuel l s = .ok s' ∧ Inv E c L' s' ∧
      L'.length ≤ L.length ∧ s.selected <+: s'.selected ∧
      ∀ t o, (t, o) ∈ l → o.quantity ≤ qty s'.assets t) ∨
    (∃ e, tokensLoop E ord fuel l s = .error e ∧ (E.Answers → c.Short ∧ e = .noInput)) := by
  induction l generalizing L s with
  | nil => left; exact ⟨s, L, rfl, h, le_refl _, List.prefix_refl _, by simp⟩
  | cons p l ih =>
    obtain ⟨t, o⟩ := p
    unfold tokensLoop
    simp only
    rw [qty_getD]
    have h1 := h.touch t o
    have hq := (qty_touch s.assets t o t).symm
    rw [hq]
    rcases tokenLoop_spec ho (hin (t, o) (by simp)) fuel h1 hfuel with
      ⟨s', L', e1, e2, e3, e4, e5⟩ | ⟨e, e1, e2⟩
    · rw [e1]
      simp only
      rcases ih (fun p hp => hin p (by simp [hp])) e2 (by omega) with
        ⟨s'', L'', g1, g2, g3, g4, g5⟩ | ⟨e, g1, g2⟩
      · left
        refine ⟨s'', L'', g1, g2, by omega, List.IsPrefix.trans e4 g4, ?_⟩
        intro t' o' hm
        rcases List.mem_cons.mp hm with heq | hm
        · cases heq
          exact le_trans e5 (e2.mono g2 g4 t)
        · exact g5 t' o' hm
      · right; exact ⟨e, g1, g2⟩
    · right
      rw [e1]
      exact ⟨e, rfl, e2⟩

/-- Taking every available input, in some order, does not pay for output and fee; each was taken for a need, as the
largest of those left. -/
def Start.ShortMain {σ : Type} (E : Estimator σ) (c : Start σ) : Prop :=
  ∃ order f s, order.Perm c.available ∧ runFee E c.est c.fee order = .ok (f, s) ∧
    c.inputAfter c.available < c.out + f ∧
    ∀ pre u post, order = pre ++ u :: post → ∃ t, c.Needs E pre t ∧
      (amountOf t u).isSome ∧
      ∀ w ∈ c.available, w ∉ pre → (amountOf t w).getD 0 ≤ (amountOf t u).getD 0 ∨ amountOf t w = none

theorem mainLoop_spec {ord : List Utxo → List Utxo} (ho : ∀ l, (ord l).Perm l)
    (hpos : ∀ s u f, E.feeIn s u = .ok f → 0 ≤ f) (hout : 0 ≤ c.out) (fuel : Nat)
    {L : List Utxo} {s : LF σ} (h : Inv E c L s) (hfee : 0 ≤ s.fee)
    (hcov : ∀ t o, (t, o) ∈ c.outs → o.quantity ≤ qty s.assets t)
    (hfuel : L.length < fuel) :
    (∃ s' L', mainLoop E ord c.out fuel s = .ok s' ∧ Inv E c L' s' ∧
      s.selected <+: s'.selected ∧ c.out + s'.fee ≤ s'.input ∧
      (∀ t o, (t, o) ∈ c.outs → o.quantity ≤ qty s'.assets t)) ∨
    (∃ e, mainLoop E ord c.out fuel s = .error e ∧ (E.Answers → c.ShortMain E ∧ e = .noInput)) := by
  induction fuel generalizing L s with
  | zero => omega
  | succ fuel ih =>
    unfold mainLoop
    by_cases hb : (mainBalance s.input c.out s.fee).inDebt = true
    swap
    · left
      rw [if_neg hb]
      exact ⟨s, L, rfl, h, List.prefix_refl _, mainBalance_not_debt (by simpa using hb), hcov⟩
    rw [if_pos hb]
    have hlt : s.input < c.out + s.fee := by
      rw [mainBalance_spec hfee hout, ofNet_inDebt] at hb; linarith
    have hneed : c.Needs E s.selected mainToken := by
      refine Or.inr ⟨rfl, ?_, s.fee, s.est, h.fee, by rw [← h.input]; exact hlt⟩
      intro t o hto
      rw [← h.assets]; exact hcov t o hto
    simp only
    rcases selectLargest_spec ho h.store mainToken with ⟨he, hs⟩ | ⟨u, st', hs, hu, hmax, hst⟩
    · right
      refine ⟨.noInput, by simp [selectForMain, hs], fun _ => ⟨?_, rfl⟩⟩
      have hL : L = [] := by
        unfold holders at he
        rw [List.filter_eq_nil_iff] at he
        apply List.eq_nil_iff_forall_not_mem.mpr
        intro u hu
        exact he u hu (by simp [amountOf])
      have hp := h.perm
      rw [hL, List.append_nil] at hp
      refine ⟨s.selected, s.fee, s.est, hp.symm, h.fee, ?_, h.picks⟩
      have : c.inputAfter c.available = c.inputAfter s.selected := by
        unfold Start.inputAfter; rw [perm_sum _ hp]
      rw [this, ← h.input]; exact hlt
    · have huL := (mem_holders.mp hu).1
      cases hf : E.feeIn s.est u with
      | error e =>
        right
        refine ⟨e, by simp [selectForMain, hs, hf], fun ha => ?_⟩
        obtain ⟨⟨f, hf'⟩, _⟩ := ha s.est u
        rw [hf] at hf'; cases hf'
      | ok f =>
        cases ha : E.addIn s.est u with
        | error e =>
          right
          refine ⟨e, by simp [selectForMain, hs, hf, ha], fun han => ?_⟩
          obtain ⟨_, ⟨s', hs'⟩⟩ := han s.est u
          rw [ha] at hs'; cases hs'
        | ok est' =>
          have hinv := h.pick hneed hu hmax hst hf ha
          have hlen := filter_length h.store.contents.nodup huL
          have hfp := hpos _ _ _ hf
          have hrec := ih hinv (by simp only; linarith)
            (fun t o hto => by
              refine le_trans (hcov t o hto) (h.mono hinv ?_ t)
              simp only; exact List.prefix_append _ _) (by omega)
          simp only [selectForMain, hs, hf, ha]
          rcases hrec with ⟨s', L', h1, h2, h4, h5, h6⟩ | ⟨e, h1, h2⟩
          · left
            exact ⟨s', L', h1, h2, (List.prefix_append _ _).trans h4, h5, h6⟩
          · right; exact ⟨e, h1, h2⟩

end Verif.Selection
