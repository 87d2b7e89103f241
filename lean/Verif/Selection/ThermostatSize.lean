import Verif.Selection.ThermostatComplete
import Verif.Selection.ThermostatCount
import Verif.Selection.ThermostatErrors
import Verif.Selection.LinearEstimator

/-!
# The size of a thermostat selection
-/

namespace Verif.Selection.Thermostat

open Verif Verif.Core

section

variable {σ : Type} {E : Estimator σ} {W : World} {req : Request}
variable {ids : Token → Option (Nat × Nat)} {toks : List Token} {base : Token → ℚ} {bm cin cout m0 : ℚ}

/-- UTxOs that cover the assets, and the main token with one change of the largest size for each asset. -/
def Covers (W : World) (toks : List Token) (base : Token → ℚ) (bm cin cout m0 : ℚ) (l : List Utxo) : Prop :=
  (∀ t ∈ toks, 0 ≤ base t + (l.map (fun u => assetSum t u.assets)).sum) ∧
  m0 + cin * l.length + toks.length * (W.cfg.max + cout) ≤ bm + (l.map (·.value)).sum

/-- No more than `k` UTxOs are selected if the first `k` cover the request. -/
def Few (C : List Utxo → Prop) (k : Nat) (s : TS σ) : Prop :=
  s.selected.length ≤ k ∨ ¬ C (s.selected.take k)

theorem Few.take {C : List Utxo → Prop} {k : Nat} {s : TS σ} (h : Few C k s) (hn : ¬ C s.selected) (est' : σ) (u : Utxo) :
    Few C k (addInput { s with est := est' } u) := by
  unfold Few at *
  simp only [addInput, List.length_append, List.length_singleton]
  rcases h with h | h
  · rcases Nat.lt_or_ge s.selected.length k with h1 | h1
    · exact Or.inl h1
    · right
      have : s.selected.length = k := by omega
      rw [← this, List.take_left]
      exact hn
  · by_cases hk : s.selected.length ≤ k
    · by_cases hk' : s.selected.length = k
      · right; rw [← hk', List.take_left]; exact hn
      · left; omega
    · right
      rw [List.take_append_of_le_length (by omega)]
      exact h

/-- One take. -/
theorem take_going (ho : ∀ l, (W.ord l).Perm l) (hS : Sure E cin cout) (hmt : W.cfg.main = mainToken)
    {avail : List Utxo} (hq : ∀ u ∈ avail, ∀ a ∈ u.assets, 0 ≤ a.quantity) {T : Token → Prop}
    (hT : ∀ t, T t → t ∈ toks ∨ t = W.cfg.main) {s s' : TS σ} {st st' : UStore} {L : List Utxo}
    (h : Take E W T s st s' st') (hi : SelInv avail L s st) (hids : ∀ t, st.getAssetIds t = ids t)
    (hp : Going E W req ids toks base bm cin cout m0 s) :
    Going E W req ids toks base bm cin cout m0 s' ∧ s'.changes = s.changes ∧ (∀ t, st'.getAssetIds t = ids t) ∧
      (∃ u est', s' = addInput { s with est := est' } u) ∧ ∃ L', SelInv avail L' s' st' := by
  obtain ⟨h1, h2, h3, _, h5⟩ := takes_going ho hS hmt hq hT (.head h .refl) hi hids hp
  obtain ⟨t, u, est', _, _, _, _, _, h6, _⟩ := h.spec ho hi
  exact ⟨h1, h2, h3, ⟨u, est', h6⟩, h5⟩

theorem Going.debt_asset {s : TS σ} {t : Token} {d : ℚ} (h : Going E W req ids toks base bm cin cout m0 s)
    (ht : t ∈ toks) (hn : s.changes.get t = none) (hc : currentOf W s t = .ok (.debt d)) :
    ¬ Covers W toks base bm cin cout m0 s.selected := by
  intro hcov
  have h5 := h.no_change hn
  have h6 := h.assets.net t
  have h7 : assetNet s.assets t < 0 := by
    have hcur := currentOf_ok hc
    unfold assetNet
    rw [hcur]
    exact (h.debts t _ hcur).net rfl
  have := hcov.1 t ht
  linarith

theorem Going.debt_main (hmax : 0 ≤ W.cfg.max) (hmin : 0 ≤ W.cfg.min) (hci : 0 ≤ cin) (hco : 0 ≤ cout) (hm0 : 0 ≤ m0)
    {s : TS σ} {d : ℚ} (h : Going E W req ids toks base bm cin cout m0 s) (hc : currentBalance E s = .ok (.debt d)) :
    ¬ Covers W toks base bm cin cout m0 s.selected := by
  intro hcov
  obtain ⟨m, hm, hb⟩ := currentBalance_ok hc
  have hm0 : 0 ≤ m := by
    have e1 := hm
    rw [h.fee] at e1; cases e1
    have e2 : 0 ≤ cin * (s.selected.length : ℚ) := mul_nonneg hci (Nat.cast_nonneg _)
    have e3 : 0 ≤ cout * (s.changes.length : ℚ) := mul_nonneg hco (Nat.cast_nonneg _)
    linarith
  have h5 : (s.balance.subValue m).net < 0 := (h.debt.sub hm0).net hb.symm
  rw [net_subValue, h.main.net] at h5
  rw [h.fee] at hm
  cases hm
  have h6 := h.cost hmax hmin hco
  have := hcov.2
  linarith [h6.2]

theorem untilAsset_few (ho : ∀ l, (W.ord l).Perm l) (hS : Sure E cin cout) (hmt : W.cfg.main = mainToken)
    {avail : List Utxo} (hq : ∀ u ∈ avail, ∀ a ∈ u.assets, 0 ≤ a.quantity) {k : Nat} {t : Token} (ht : t ∈ toks)
    (fuel : Nat) {s s' : TS σ} {st st' : UStore} {L : List Utxo}
    (h : untilAsset E W t fuel s st = .ok (s', st')) (hn : s.changes.get t = none) (hi : SelInv avail L s st)
    (hids : ∀ t, st.getAssetIds t = ids t) (hp : Going E W req ids toks base bm cin cout m0 s)
    (hf : Few (Covers W toks base bm cin cout m0) k s) : Few (Covers W toks base bm cin cout m0) k s' := by
  induction fuel generalizing s st L with
  | zero =>
    unfold untilAsset at h
    cases hc : currentOf W s t with
    | error e' => simp only [hc] at h; cases h
    | ok b => cases b <;> simp only [hc] at h <;> cases h <;> exact hf
  | succ fuel ih =>
    unfold untilAsset at h
    cases hc : currentOf W s t with
    | error e' => simp only [hc] at h; cases h
    | ok b =>
      cases b with
      | debt v =>
        simp only [hc] at h
        split at h
        · rename_i s1 st1 hsel
          obtain ⟨g1, g2, g3, ⟨u, est', rfl⟩, L1, g5⟩ := take_going ho hS hmt hq (T := (· = t))
            (fun t' e => Or.inl (e ▸ ht)) (selectInput_ok rfl hsel) hi hids hp
          exact ih h (by rw [g2]; exact hn) g5 g3 g1 (hf.take (hp.debt_asset ht hn hc) est' u)
        · cases h
      | balanced => simp only [hc] at h; cases h; exact hf
      | excess v => simp only [hc] at h; cases h; exact hf

theorem untilMain_few (ho : ∀ l, (W.ord l).Perm l) (hS : Sure E cin cout) (hmt : W.cfg.main = mainToken)
    (hmax : 0 ≤ W.cfg.max) (hmin : 0 ≤ W.cfg.min) (hci : 0 ≤ cin) (hco : 0 ≤ cout) (hm0 : 0 ≤ m0)
    {avail : List Utxo} (hq : ∀ u ∈ avail, ∀ a ∈ u.assets, 0 ≤ a.quantity) {k : Nat}
    (fuel : Nat) {s s' : TS σ} {st st' : UStore} {L : List Utxo}
    (h : untilMain E W fuel s st = .ok (s', st')) (hi : SelInv avail L s st)
    (hids : ∀ t, st.getAssetIds t = ids t) (hp : Going E W req ids toks base bm cin cout m0 s)
    (hf : Few (Covers W toks base bm cin cout m0) k s) : Few (Covers W toks base bm cin cout m0) k s' := by
  induction fuel generalizing s st L with
  | zero =>
    unfold untilMain at h
    cases hc : currentBalance E s with
    | error e' => simp only [hc] at h; cases h
    | ok b => cases b <;> simp only [hc] at h <;> cases h <;> exact hf
  | succ fuel ih =>
    unfold untilMain at h
    cases hc : currentBalance E s with
    | error e' => simp only [hc] at h; cases h
    | ok b =>
      cases b with
      | debt v =>
        simp only [hc] at h
        split at h
        · rename_i s1 st1 hsel
          obtain ⟨g1, g2, g3, ⟨u, est', rfl⟩, L1, g5⟩ := take_going ho hS hmt hq (T := (· = W.cfg.main))
            (fun t' e => Or.inr e) (selectInput_ok rfl hsel) hi hids hp
          exact ih h g5 g3 g1 (hf.take (hp.debt_main hmax hmin hci hco hm0 hc) est' u)
        · cases h
      | balanced => simp only [hc] at h; cases h; exact hf
      | excess v => simp only [hc] at h; cases h; exact hf

theorem round1_few (ho : ∀ l, (W.ord l).Perm l) (hS : Sure E cin cout) (hmt : W.cfg.main = mainToken)
    (hmm : W.cfg.min ≤ W.cfg.max) (hmain : mainToken ∉ toks) {avail : List Utxo}
    (hq : ∀ u ∈ avail, ∀ a ∈ u.assets, 0 ≤ a.quantity) {k : Nat}
    {fuel : Nat} {ts : List Token} (hts : ∀ t ∈ ts, t ∈ toks) (hn : ts.Nodup) {s s' : TS σ} {st st' : UStore}
    {L : List Utxo} (hfresh : ∀ t ∈ ts, s.changes.get t = none)
    (hi : SelInv avail L s st) (hids : ∀ t, st.getAssetIds t = ids t)
    (hp : Going E W req ids toks base bm cin cout m0 s) (hf : Few (Covers W toks base bm cin cout m0) k s)
    (h : round1 E W req fuel ts s st = .ok (s', st')) :
    Going E W req ids toks base bm cin cout m0 s' ∧ Few (Covers W toks base bm cin cout m0) k s' ∧
      (∃ L', SelInv avail L' s' st') ∧ (∀ t, st'.getAssetIds t = ids t) ∧ (∀ t ∈ ts, NoDebt t s') ∧
      ∀ t, NoDebt t s → NoDebt t s' := by
  induction ts generalizing s st L with
  | nil => cases h; exact ⟨hp, hf, ⟨L, hi⟩, hids, by simp, fun _ h => h⟩
  | cons t ts ih =>
    have ht := hts t (by simp)
    have hT : ∀ t', t' = t → t' ∈ toks ∨ t' = W.cfg.main := fun t' e => Or.inl (e ▸ ht)
    simp only [round1] at h
    split at h
    · cases h
    · rename_i s1 st1 hu
      split at h
      · cases h
      · rename_i s2 hx
        obtain ⟨h1, b, hb1, hb2⟩ := untilAsset_ok _ hu
        obtain ⟨g1, g2, g3, g4, L1, g5⟩ := takes_going ho hS hmt hq hT h1 hi hids hp
        have hf1 := untilAsset_few ho hS hmt hq ht _ hu (hfresh t (by simp)) hi hids hp hf
        have kk := balanceExcessOf_keeps hx
        rw [List.nodup_cons] at hn
        have hnd : NoDebt t s1 := ⟨b, currentOf_ok hb1, hb2⟩
        obtain ⟨q1, q2, q3, q4, q5, q6⟩ := ih (fun t' h' => hts t' (by simp [h'])) hn.2 (s := s2) (st := st1) (L := L1) (by
            intro t' ht'
            have hne : t' ≠ t := fun e => hn.1 (e ▸ ht')
            rw [(kk.2.2.1 t' hne).2, g2]
            exact hfresh t' (by simp [ht'])) (g5.congr kk.1) g3
            (g1.excess hS hmm (by rw [hmt]; exact hmain) g3 ht hx) (by unfold Few at *; rw [kk.1]; exact hf1) h
        refine ⟨q1, q2, q3, q4, ?_, fun t' hd => q6 t' (NoDebt.excess hx (g4 t' hd))⟩
        intro t' ht'
        rcases List.mem_cons.mp ht' with rfl | ht'
        · exact q6 _ (NoDebt.excess hx hnd)
        · exact q5 _ ht'

/-- The loop that adds inputs either adds none, or had room for the last one. -/
theorem fill_last {fts : List Token} (fuel : Nat) {empty : List Bool} {ix : Nat} {s s' : TS σ}
    {st st' : UStore} (h : fill E W req fts fuel empty ix s st = .ok (s', st')) :
    (s' = s ∧ st' = st) ∨ ∃ sx stx n, Takes E W (· ∈ fts) s st sx stx ∧ remaining E W req sx = .ok (n + 1) ∧
      Take E W (· ∈ fts) sx stx s' st' := by
  have again : ∀ {s s1 : TS σ} {st st1 : UStore} {n : Nat}, Take E W (· ∈ fts) s st s1 st1 →
      remaining E W req s = .ok (n + 1) → ((s' = s1 ∧ st' = st1) ∨ ∃ sx stx n, Takes E W (· ∈ fts) s1 st1 sx stx ∧
        remaining E W req sx = .ok (n + 1) ∧ Take E W (· ∈ fts) sx stx s' st') →
      (s' = s ∧ st' = st) ∨ ∃ sx stx n, Takes E W (· ∈ fts) s st sx stx ∧ remaining E W req sx = .ok (n + 1) ∧
        Take E W (· ∈ fts) sx stx s' st' := by
    intro s s1 st st1 n h1 hc h2
    rcases h2 with ⟨rfl, rfl⟩ | ⟨sx, stx, m, h2, h3, h4⟩
    · exact Or.inr ⟨s, st, n, .refl, hc, h1⟩
    · exact Or.inr ⟨sx, stx, m, .head h1 h2, h3, h4⟩
  induction fuel generalizing s st empty ix with
  | zero =>
    unfold fill at h
    cases hc : remaining E W req s with
    | error e => simp [hc] at h
    | ok n =>
      cases n <;> simp only [hc] at h <;> cases h
      exact Or.inl ⟨rfl, rfl⟩
  | succ fuel ih =>
    unfold fill at h
    cases hc : remaining E W req s with
    | error e => simp [hc] at h
    | ok n =>
      cases n with
      | zero => simp only [hc] at h; cases h; exact Or.inl ⟨rfl, rfl⟩
      | succ n =>
        simp only [hc] at h
        split at h
        · rename_i t flag ht hflag
          have hmem : t ∈ fts := List.mem_of_getElem? ht
          split at h
          · split at h
            · exact ih h
            · split at h
              · rename_i hsel
                exact again (selectInput_ok (T := (· ∈ fts)) hmem hsel) hc (ih h)
              · cases h
              · rename_i hsel
                rcases selectInput_error (T := (· ∈ fts)) hmem hsel with rfl | h1
                · exact ih h
                · exact again h1 hc (ih h)
          · split at h
            · cases h; exact Or.inl ⟨rfl, rfl⟩
            · exact ih h
        · cases h

/-! ### With the linear estimator -/

theorem adds_size {c : Costs} {minAda : Output → Except SelErr ℚ} {s0 s : LE} {i o : Nat}
    (h : Adds (linearEstimator c minAda) s0 s i o) :
    s.currentSize = s0.currentSize + c.sizeOfOneInput * i + c.sizeOfOneOutput * o := by
  induction h with
  | refl => simp
  | addIn _ ha ih =>
    simp only [linearEstimator, Except.ok.injEq] at ha
    subst ha
    simp only [ih]
    ring
  | addOut _ ha ih =>
    simp only [linearEstimator, Except.ok.injEq] at ha
    subst ha
    simp only [ih]
    ring

theorem toU64_ok {q : ℚ} {n : Nat} (h : Random.toU64 q = some n) : n = q.floor.toNat := by
  unfold Random.toU64 at h
  split at h
  · cases h
  · split at h <;> cases h
    rfl

theorem mulU64_exact {w : Bool} {a b x : Nat} (h : Random.mulU64 w a b = .ok x) (hb : a * b < 2 ^ 64) : x = a * b := by
  unfold Random.mulU64 at h
  rw [if_pos hb] at h
  cases h; rfl

theorem remaining_room {c : Costs} {minAda : Output → Except SelErr ℚ} {s : TS LE} {n : Nat}
    (h : remaining (linearEstimator c minAda) W req s = .ok (n + 1))
    (hroom : c.costOutput.floor.toNat * s.assets.length * 2 < 2 ^ 64) :
    s.est.currentSize + c.costOutput.floor.toNat * s.assets.length * 2 + c.costInput.floor.toNat ≤ c.maxSize := by
  unfold remaining at h
  simp only [bind_ok] at h
  obtain ⟨o, _, i, _, fo, hfo, so, hso, fi, hfi, si, hsi, r1, hr1, r2, hr2, mx, hmx, cur, hcur, h⟩ := h
  cases hfo; cases hfi; cases hmx; cases hcur
  have e1 : so = c.costOutput.floor.toNat := by
    cases hx : Random.toU64 c.costOutput with
    | none => rw [hx] at hso; cases hso
    | some x => rw [hx] at hso; cases hso; exact toU64_ok hx
  have e2 : si = c.costInput.floor.toNat := by
    cases hx : Random.toU64 c.costInput with
    | none => rw [hx] at hsi; cases hsi
    | some x => rw [hx] at hsi; cases hsi; exact toU64_ok hx
  have e3 := mulU64_exact hr1 (by rw [e1]; omega)
  rw [e3] at hr2
  have e4 := mulU64_exact hr2 (by rw [e1]; exact hroom)
  subst e1 e2 e4
  split at h
  · cases h
  · rename_i hne
    simp only [Except.ok.injEq] at h
    have h1 : 1 ≤ (c.maxSize - (s.est.currentSize + c.costOutput.floor.toNat * s.assets.length * 2)) /
        c.costInput.floor.toNat := by omega
    have h2 := (Nat.le_div_iff_mul_le (by omega)).mp h1
    omega

theorem splits_extra {st : UStore} {ts : List Token} {s s' : TS σ}
    (h : forTokens (splitOne E W st) ts s = .ok s') :
    s'.changes.length = s.changes.length ∧ s'.extra.length ≤ s.extra.length + ts.length ∧ s'.selected = s.selected := by
  induction ts generalizing s with
  | nil => cases h; simp
  | cons t ts ih =>
    simp only [forTokens] at h
    split at h
    · cases h
    · rename_i s1 h1
      obtain ⟨i1, i2, i3⟩ := ih h
      have : s1.changes.length = s.changes.length ∧ s1.extra.length ≤ s.extra.length + 1 ∧ s1.selected = s.selected := by
        rcases splitOne_ok h1 with rfl | ⟨ch, cc, rest, fee, hg, _, _, _, rfl⟩ |
          ⟨ch, as, as', fee, est', hg, _, _, _, _, hao, rfl⟩
        · simp
        · simp [insert_length, hg]
        · simp [insert_length, hg, splitState]
      simp only [List.length_cons]
      refine ⟨by omega, by omega, by rw [i3, this.2.2]⟩

theorem Going.count {s : TS σ} (h : Going E W req ids toks base bm cin cout m0 s) : s.changes.length ≤ toks.length := by
  have h1 : s.changes.keys.length ≤ toks.length := by
    refine (List.subperm_of_subset h.opened.nodup ?_).length_le
    intro t ht
    cases hg : s.changes.get t with
    | none => exact absurd ht ((AMap.get_eq_none_iff _ _).mp hg)
    | some o => exact (h.opened.changes t o hg).1
  simpa [AMap.keys] using h1

/-- If `k` of the UTxOs cover the request, the run ends within the limit, or no larger than these `k` with two changes for
each asset and for the main token. -/
theorem select_size {c : Costs} {minAda : Output → Except SelErr ℚ} (hS : Sure (linearEstimator c minAda) c.costInput c.costOutput)
    (ho : ∀ l, (W.ord l).Perm l) (hk : ∀ l, (W.keyOrder l).Perm l) (hco : ∀ l, (W.changeOrder l).Perm l)
    (hci0 : 0 ≤ c.costInput) (hco0 : 0 ≤ c.costOutput) (hm0 : 0 ≤ m0)
    (hmt : W.cfg.main = mainToken) (hmm : W.cfg.min ≤ W.cfg.max) (hmin : 0 ≤ W.cfg.min)
    (hpriceIn : c.sizeOfOneInput + 2 * c.sizeOfOneOutput ≤ c.costInput.floor.toNat)
    (hpriceOut : c.sizeOfOneOutput ≤ c.costOutput.floor.toNat)
    {avail : List Utxo} {s s' : TS LE} {st st' : UStore}
    (hq : ∀ u ∈ avail, ∀ a ∈ u.assets, 0 ≤ a.quantity)
    (hmain : mainToken ∉ s.assets.keys) (hnk : s.assets.keys.Nodup)
    (hroom : c.costOutput.floor.toNat * s.assets.keys.length * 2 < 2 ^ 64)
    (hsel : s.selected = []) (hch : s.changes = []) (hex : s.extra = []) (hi : SelInv avail avail s st)
    (hp : Going (linearEstimator c minAda) W req st.getAssetIds (W.keyOrder s.assets.keys) base bm c.costInput c.costOutput
      m0 s)
    (h : select (linearEstimator c minAda) W req st s = .ok (s', st'))
    {k : Nat} (hcov : Covers W (W.keyOrder s.assets.keys) base bm c.costInput c.costOutput m0 (s'.selected.take k)) :
    s'.est.currentSize ≤ max c.maxSize (s.est.currentSize + c.sizeOfOneInput * k +
      c.sizeOfOneOutput * (2 * (s.assets.keys.length + 1))) := by
  have hmax : 0 ≤ W.cfg.max := le_trans hmin hmm
  have hm' : mainToken ∉ W.keyOrder s.assets.keys := fun h => hmain ((hk _).mem_iff.mp h)
  have hmv : ∀ (s : LE) o v s', (linearEstimator c minAda).minValueOut s o = .ok (v, s') → s' = s := by
    intro s o v s' h
    simp only [linearEstimator, bind, Except.bind] at h
    split at h
    · cases h
    · cases h; rfl
  have hc0 : Counted (linearEstimator c minAda) s.est s := by
    unfold Counted; rw [hsel, hch, hex]; exact .refl
  have hfin := adds_size (select_counted hmv h hc0)
  have h' := h
  unfold select at h
  simp only [bind_ok] at h
  obtain ⟨⟨s1, st1⟩, h1, ⟨s2, st2⟩, h2, ⟨s3, st3⟩, h3, s4, h4, s5, h5, s6, h6, h7⟩ := h
  cases h7
  obtain ⟨g1, f1, ⟨L1, i1⟩, q1, d1, _⟩ := round1_few (k := k) ho hS hmt hmm hm' hq (fun t h => h)
    ((hk _).nodup_iff.mpr hnk) (by rw [hch]; simp) hi (fun _ => rfl) hp (Or.inl (by rw [hsel]; simp)) h1
  have f2 := untilMain_few ho hS hmt hmax hmin hci0 hco0 hm0 hq _ h2 i1 q1 g1 f1
  obtain ⟨ht2, _⟩ := untilMain_ok _ h2
  obtain ⟨g2, _, q2, d2, L2, i2⟩ := takes_going ho hS hmt hq (fun t e => Or.inr e) ht2 i1 q1 g1
  have hT : ∀ t, t ∈ fillTokens W s2.assets (W.keyOrder s.assets.keys) → t ∈ W.keyOrder s.assets.keys ∨ t = W.cfg.main :=
    fun t ht => mem_fillTokens ht
  have ht3 := fill_ok _ h3
  obtain ⟨g3, _, q3, d3, L3, i3⟩ := takes_going ho hS hmt hq hT ht3 i2 q2 g2
  -- the last steps
  have ne : ∀ a : AMap Token Balance, (∀ t ∈ W.keyOrder s.assets.keys, ∃ b, a.get t = some b ∧ b.inDebt = false) →
      W.keyOrder s.assets.keys ≠ [] → a ≠ [] := by
    rintro a ha hne rfl
    cases hkk : W.keyOrder s.assets.keys with
    | nil => exact hne hkk
    | cons t ts =>
      obtain ⟨b, hb, _⟩ := ha t (by rw [hkk]; simp)
      cases hb
  have hlast := lastTokens_eq (W := W) (a2 := s2.assets) (a3 := s3.assets) (by rw [hmt]; exact hm')
    (ne _ (fun t ht => d2 t (d1 t ht))) (ne _ (fun t ht => d3 t (d2 t (d1 t ht))))
  change forTokens _ (lastTokens W s3.assets (fillTokens W s2.assets (W.keyOrder s.assets.keys))) s3 = _ at h4
  rw [hlast] at h4
  obtain ⟨g4, _, _⟩ := round2_induct (fun x => Going (linearEstimator c minAda) W req st.getAssetIds
      (W.keyOrder s.assets.keys) base bm c.costInput c.costOutput m0 x) (fun _ _ => True)
    (fun t a b ht he hp => hp.excess hS hmm (by rw [hmt]; exact hm') q3 ht he) (fun _ _ _ _ _ _ => trivial)
    (fun _ _ _ _ _ _ => trivial) (fun t h => h) h4 g3
  have n4 := g4.count
  have e4 : s4.selected = s3.selected :=
    (forTokens_inv (fun x => x.selected = s3.selected)
      (fun t a b he hp => by rw [(balanceExcessOf_keeps he).1]; exact hp) h4 rfl)
  have k5 := balanceExcess_keeps h5
  have n5 : s5.changes.length ≤ s4.changes.length + 1 := by
    obtain ⟨b, _, ⟨rfl, _⟩ | ⟨x, addr, _, _, ⟨o, ho, rfl⟩ |
      ⟨hg, need, est, _, rfl | ⟨fee, est', _, _, _, rfl⟩⟩⟩⟩ := balanceExcess_ok h5
    · omega
    · simp [insert_length, ho]
    · simp
    · simp [insert_length, hg]
  obtain ⟨n6, n7, e6⟩ := splits_extra h6
  rw [k5.2.1, g4.opened.extra, (hco _).length_eq] at n7
  have n8 : s5.changes.keys.length = s5.changes.length := by simp [AMap.keys]
  rw [n8, List.length_nil] at n7
  rw [(hk _).length_eq] at n4
  have hsel3 : s'.selected = s3.selected := by rw [e6, k5.1, e4]
  rcases fill_last _ h3 with ⟨e3, _⟩ | ⟨sx, stx, n, hx1, hx2, hx3⟩
  · -- nothing was added
    subst e3
    have hle : s'.selected.length ≤ k := by
      rcases f2 with f2 | f2
      · rw [hsel3]; exact f2
      · rw [hsel3] at hcov; exact absurd hcov f2
    refine le_trans ?_ (le_max_right _ _)
    rw [hfin]
    have a1 := Nat.mul_le_mul_left c.sizeOfOneInput hle
    have a2 : c.sizeOfOneOutput * (s'.changes.length + s'.extra.length) ≤
        c.sizeOfOneOutput * (2 * (s.assets.keys.length + 1)) := Nat.mul_le_mul_left _ (by omega)
    omega
  · refine le_trans ?_ (le_max_left _ _)
    have hcx : Counted (linearEstimator c minAda) s.est sx :=
      hx1.counted (ht2.counted (round1_counted hmv h1 hc0))
    obtain ⟨gx, _, _, dx, Lx, ix⟩ := takes_going ho hS hmt hq hT hx1 i2 q2 g2
    have hsx := adds_size hcx
    have nx := gx.count
    rw [(hk _).length_eq] at nx
    obtain ⟨t, u, est', _, _, _, _, _, h8, _⟩ := hx3.spec ho ix
    have hlen : s3.selected.length = sx.selected.length + 1 := by rw [h8]; simp [addInput]
    have hnx : sx.assets.keys.Nodup := by
      obtain ⟨z1, _⟩ := round1_induct (E := linearEstimator c minAda) (W := W) (req := req) ho
        (toks := W.keyOrder s.assets.keys) (fun x => x.assets.keys.Nodup) (fun _ => True) (fun _ _ _ _ _ => trivial)
        (fun L s st t u est' _ hp _ _ _ _ _ => adjustAll_nodup _ _ hp)
        (fun t a b _ _ _ he hp => by
          rcases balanceExcessOf_ok he with ⟨rfl, _⟩ | ⟨x, addr, bb, s1, o, o1, hc, _, _, h2, h3, rfl⟩
          · exact hp
          · simp only [(openChange_keeps h2).2.2.2]
            exact AMap.nodup_insert hp _ _)
        (fun _ _ => True) (fun _ _ _ _ _ => trivial) (fun _ _ _ _ _ _ _ => trivial)
        (fun _ _ _ _ _ _ _ _ _ _ _ _ => trivial) (fun t h => h) h1 hi trivial hnk
      have step : ∀ {T : Token → Prop} {a b : TS LE} {sta stb : UStore}, Takes (linearEstimator c minAda) W T a sta b stb →
          a.assets.keys.Nodup → b.assets.keys.Nodup := by
        intro T a b sta stb h hn
        induction h with
        | refl => exact hn
        | head h _ ih =>
          apply ih
          cases h <;> exact adjustAll_nodup _ _ hn
      exact step hx1 (step ht2 z1)
    have hax : sx.assets.length = s.assets.keys.length := by
      have b1 : sx.assets.keys.length = sx.assets.length := by simp [AMap.keys]
      rw [← b1, ← (hk s.assets.keys).length_eq]
      apply le_antisymm
      · exact (List.subperm_of_subset hnx (fun t ht => gx.assets.keys t ht)).length_le
      · refine (List.subperm_of_subset ((hk _).nodup_iff.mpr hnk) (fun t ht => ?_)).length_le
        obtain ⟨b, hb, _⟩ := dx t (d2 t (d1 t ht))
        by_contra hn
        rw [(AMap.get_eq_none_iff _ _).mpr hn] at hb
        cases hb
    have hr := remaining_room hx2 (by rw [hax]; exact hroom)
    rw [hax] at hr
    rw [hfin, hsel3, hlen]
    have a2 : c.sizeOfOneOutput * (s'.changes.length + s'.extra.length) ≤
        c.sizeOfOneOutput * (2 * (s.assets.keys.length + 1)) := Nat.mul_le_mul_left _ (by omega)
    have a3 : c.sizeOfOneOutput * s.assets.keys.length * 2 ≤ c.costOutput.floor.toNat * s.assets.keys.length * 2 :=
      Nat.mul_le_mul_right _ (Nat.mul_le_mul_right _ hpriceOut)
    have a4 : c.sizeOfOneOutput * (2 * (s.assets.keys.length + 1)) =
        c.sizeOfOneOutput * s.assets.keys.length * 2 + 2 * c.sizeOfOneOutput := by ring
    have a5 : c.sizeOfOneInput * (sx.selected.length + 1) = c.sizeOfOneInput * sx.selected.length + c.sizeOfOneInput := by
      ring
    omega

end

end Verif.Selection.Thermostat
