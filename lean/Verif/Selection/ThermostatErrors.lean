import Verif.Selection.ThermostatAssets

/-!
# How a run of the thermostat can fail
-/

namespace Verif.Selection.Thermostat

open Verif Verif.Core

/-- An error the caller gets as a value: not a panic, and not the end of the model's fuel. -/
def Benign (e : SelErr) : Prop := e ≠ .panic ∧ e ≠ .fuel

/-- An estimator that never panics. -/
structure Calm {σ : Type} (E : Estimator σ) : Prop where
  minFee : ∀ s e, E.minFee s = .error e → Benign e
  feeIn : ∀ s u e, E.feeIn s u = .error e → Benign e
  addIn : ∀ s u e, E.addIn s u = .error e → Benign e
  feeOut : ∀ s o e, E.feeOut s o = .error e → Benign e
  addOut : ∀ s o e, E.addOut s o = .error e → Benign e
  minValueOut : ∀ s o e, E.minValueOut s o = .error e → Benign e
  currentSize : ∀ s e, E.currentSize s = .error e → Benign e
  maxSize : ∀ s e, E.maxSize s = .error e → Benign e

section

variable {σ : Type} {E : Estimator σ} {W : World} {req : Request}

theorem orErr_benign {α : Type} {x : Option α} {e : SelErr} (h : orErr x = .error e) : Benign e := by
  cases x with
  | none => cases h; exact ⟨by simp, by simp⟩
  | some a => cases h

theorem orErr_ok {α : Type} {x : Option α} {a : α} (h : orErr x = .ok a) : x = some a := by
  cases x with
  | none => cases h
  | some b => cases h; rfl

/-- What keeps a run from panicking: the configuration, and room for the sizes in a debug build. -/
structure Fits (E : Estimator σ) (W : World) (toks : List Token) : Prop where
  main : W.cfg.main = mainToken
  acc : W.cfg.accumulators ≠ 0
  accAssets : W.cfg.accumulatorsAssets ≠ 0
  feeIn : ∀ s u f, E.feeIn s u = .ok f → f < 0 ∨ 1 ≤ f
  room : W.debug = true → ∀ s o f, E.feeOut s o = .ok f → f.floor.toNat * toks.length * 2 < 2 ^ 64

theorem remaining_benign {toks : List Token} (hC : Calm E) (hF : Fits E W toks) {s : TS σ}
    (hlen : s.assets.length ≤ toks.length) {e : SelErr} (h : remaining E W req s = .error e) : Benign e := by
  unfold remaining at h
  rw [bind_error] at h
  rcases h with h | ⟨o, ho, h⟩
  · exact orErr_benign h
  rw [bind_error] at h
  rcases h with h | ⟨i, hi, h⟩
  · exact orErr_benign h
  rw [bind_error] at h
  rcases h with h | ⟨fo, hfo, h⟩
  · exact hC.feeOut _ _ _ h
  rw [bind_error] at h
  rcases h with h | ⟨so, hso, h⟩
  · exact orErr_benign h
  rw [bind_error] at h
  rcases h with h | ⟨fi, hfi, h⟩
  · exact hC.feeIn _ _ _ h
  rw [bind_error] at h
  rcases h with h | ⟨si, hsi, h⟩
  · exact orErr_benign h
  have hso := orErr_ok hso
  have hsi := orErr_ok hsi
  have hmul : ∀ k m e, (W.debug = true → k * m < 2 ^ 64) →
      Random.mulU64 (!W.debug) k m = .error e → False := by
    intro k m e hk hh
    unfold Random.mulU64 at hh
    split at hh
    · cases hh
    · rename_i hbig
      cases hd : W.debug with
      | true => exact hbig (hk hd)
      | false => rw [hd] at hh; simp at hh
  have hroom : W.debug = true → so * s.assets.length * 2 < 2 ^ 64 := by
    intro hd
    have h1 := hF.room hd _ _ _ hfo
    unfold Random.toU64 at hso
    split at hso
    · cases hso
    · split at hso
      · cases hso
        have : fo.floor.toNat * s.assets.length ≤ fo.floor.toNat * toks.length := Nat.mul_le_mul_left _ hlen
        omega
      · cases hso
  rw [bind_error] at h
  rcases h with h | ⟨r1, hr1, h⟩
  · exact absurd h (fun hh => hmul _ _ _ (fun hd => by have := hroom hd; omega) hh)
  rw [bind_error] at h
  rcases h with h | ⟨r2, hr2, h⟩
  · refine absurd h (fun hh => hmul _ _ _ (fun hd => ?_) hh)
    have := hroom hd
    unfold Random.mulU64 at hr1
    rw [if_pos (by omega)] at hr1
    cases hr1
    exact this
  rw [bind_error] at h
  rcases h with h | ⟨mx, _, h⟩
  · exact hC.maxSize _ _ h
  rw [bind_error] at h
  rcases h with h | ⟨cur, _, h⟩
  · exact hC.currentSize _ _ h
  split at h
  · rename_i hz
    exfalso
    subst hz
    unfold Random.toU64 at hsi
    rcases hF.feeIn _ _ _ hfi with hneg | hone
    · rw [if_pos hneg] at hsi; cases hsi
    · rw [if_neg (by linarith)] at hsi
      split at hsi
      · have h1 : fi.floor.toNat = 0 := Option.some.inj hsi
        have h2 : (1 : ℤ) ≤ fi.floor := by rw [Rat.le_floor_iff]; exact_mod_cast hone
        omega
      · cases hsi
  · cases h

theorem selectInput_benign (ho : ∀ l, (W.ord l).Perm l) (hC : Calm E) {avail L : List Utxo} {st : UStore}
    {t : Token} {s s' : TS σ} {e : SelErr} (hi : SelInv avail L s st)
    (h : selectInput E W st t s = (s', .error e)) : Benign e ∧ s' = s := by
  unfold selectInput at h
  split at h
  · cases h; exact ⟨⟨by simp, by simp⟩, rfl⟩
  · rename_i u hc
    split at h
    · rename_i e' he
      cases h; exact ⟨hC.addIn _ _ _ he, rfl⟩
    · obtain ⟨h1, _⟩ := candidate_spec ho hi.store hc
      obtain ⟨st', hr, _⟩ := remove_of_mem hi.store (mem_holders.mp h1).1
      simp only [hr] at h
      cases h

/-- The tracked assets are those of the request, and the store knows them. -/
structure Safe (W : World) (avail : List Utxo) (toks : List Token) (d : AMap Token (Nat × Nat))
    (L : List Utxo) (s : TS σ) (st : UStore) : Prop where
  sel : SelInv avail L s st
  keys : ∀ t, t ∈ s.assets.keys ↔ t ∈ toks
  nodup : s.assets.keys.Nodup
  dict : st.dictionary = d

theorem remove_dictionary {st st' : UStore} {p : Pointer} (h : st.remove p = .ok st') :
    st'.dictionary = st.dictionary := by
  rw [UStore.remove_eq] at h
  split at h
  · cases h
  · split at h
    · cases h
    · cases h; rfl

theorem adjustAll_nodup (f : Asset → Balance → Balance) (as : List Asset) {m : AMap Token Balance}
    (h : m.keys.Nodup) : (as.foldl (fun m a => adjust (f a) m a.fingerprint) m).keys.Nodup := by
  induction as generalizing m with
  | nil => exact h
  | cons a as ih => exact ih (AMap.nodup_insert h _ _)

theorem filter_length {L : List Utxo} {u : Utxo} (hu : u ∈ L) :
    (L.filter (fun w => w.ptr ≠ u.ptr)).length < L.length :=
  List.length_filter_lt_length_iff_exists.mpr ⟨u, hu, by simp⟩

theorem Safe.take (ho : ∀ l, (W.ord l).Perm l) (hm : W.cfg.main = mainToken) {avail : List Utxo}
    {toks : List Token} {d : AMap Token (Nat × Nat)} {L : List Utxo} {s s' : TS σ} {st st' : UStore}
    (h : Safe W avail toks d L s st) (ht : Take E W (fun t => t ∈ toks ∨ t = W.cfg.main) s st s' st') :
    ∃ L', Safe W avail toks d L' s' st' ∧ L'.length < L.length := by
  obtain ⟨t, u, est', htt, hu, hh, hpl, ha, rfl, hr, hi'⟩ := ht.spec ho h.sel
  refine ⟨_, ⟨hi', ?_, adjustAll_nodup _ _ h.nodup, by rw [remove_dictionary hr]; exact h.dict⟩,
    filter_length hu⟩
  intro t'
  rw [addInput_keys]
  constructor
  · rintro (h1 | ⟨a, ha, rfl⟩)
    · exact (h.keys _).mp h1
    · rcases htt with h2 | rfl
      · rw [hpl.2 a ha]; exact h2
      · exfalso
        apply (h.sel.store.distinct u hu).2
        rw [← hm, ← hpl.2 a ha]
        exact List.mem_map.mpr ⟨a, ha, rfl⟩
  · intro h1; exact Or.inl ((h.keys _).mpr h1)

theorem currentOf_total {s : TS σ} {t : Token} (ht : t ∈ s.assets.keys) (hm : t ≠ mainToken) :
    ∃ b, currentOf W s t = .ok b := by
  unfold currentOf
  rw [if_neg (fun h => hm h.2)]
  cases hg : s.assets.get t with
  | none => exact absurd ht ((AMap.get_eq_none_iff _ _).mp hg)
  | some b => exact ⟨b, rfl⟩

theorem untilAsset_safe (ho : ∀ l, (W.ord l).Perm l) (hC : Calm E) (hm : W.cfg.main = mainToken)
    {avail : List Utxo} {toks : List Token} {d : AMap Token (Nat × Nat)} {t : Token} (ht : t ∈ toks)
    (htm : t ≠ mainToken) (fuel : Nat) {L : List Utxo} {s : TS σ} {st : UStore}
    (h : Safe W avail toks d L s st) (hf : L.length < fuel) :
    (∃ e, untilAsset E W t fuel s st = .error e ∧ Benign e) ∨
    ∃ s' st' L', untilAsset E W t fuel s st = .ok (s', st') ∧ Safe W avail toks d L' s' st' ∧
      L'.length ≤ L.length := by
  induction fuel generalizing s st L with
  | zero => omega
  | succ fuel ih =>
    obtain ⟨b, hb⟩ := currentOf_total (W := W) ((h.keys t).mpr ht) htm
    unfold untilAsset
    cases b with
    | balanced => simp only [hb]; exact Or.inr ⟨s, st, L, rfl, h, le_refl _⟩
    | excess v => simp only [hb]; exact Or.inr ⟨s, st, L, rfl, h, le_refl _⟩
    | debt v =>
      simp only [hb]
      rcases hsel : selectInput E W st t s with ⟨s1, st1 | st1⟩
      · exact Or.inl ⟨_, rfl, (selectInput_benign ho hC h.sel hsel).1⟩
      · simp only
        obtain ⟨L1, h1, hl⟩ := h.take ho hm
          (selectInput_ok (T := fun t => t ∈ toks ∨ t = W.cfg.main) (Or.inl ht) hsel)
        rcases ih h1 (by omega) with he | ⟨s2, st2, L2, h2, h3, h4⟩
        · exact Or.inl he
        · exact Or.inr ⟨s2, st2, L2, h2, h3, by omega⟩

theorem currentBalance_benign (hC : Calm E) {s : TS σ} {e : SelErr} (h : currentBalance E s = .error e) :
    Benign e := by
  unfold currentBalance at h
  rw [bind_error] at h
  rcases h with h | ⟨_, _, h⟩
  · exact hC.minFee _ _ h
  · cases h

theorem untilMain_safe (ho : ∀ l, (W.ord l).Perm l) (hC : Calm E) (hm : W.cfg.main = mainToken)
    {avail : List Utxo} {toks : List Token} {d : AMap Token (Nat × Nat)} (fuel : Nat) {L : List Utxo}
    {s : TS σ} {st : UStore} (h : Safe W avail toks d L s st) (hf : L.length < fuel) :
    (∃ e, untilMain E W fuel s st = .error e ∧ Benign e) ∨
    ∃ s' st' L', untilMain E W fuel s st = .ok (s', st') ∧ Safe W avail toks d L' s' st' ∧
      L'.length ≤ L.length := by
  induction fuel generalizing s st L with
  | zero => omega
  | succ fuel ih =>
    unfold untilMain
    cases hb : currentBalance E s with
    | error e => exact Or.inl ⟨e, rfl, currentBalance_benign hC hb⟩
    | ok b =>
      cases b with
      | balanced => exact Or.inr ⟨s, st, L, rfl, h, le_refl _⟩
      | excess v => exact Or.inr ⟨s, st, L, rfl, h, le_refl _⟩
      | debt v =>
        simp only
        rcases hsel : selectInput E W st W.cfg.main s with ⟨s1, st1 | st1⟩
        · exact Or.inl ⟨_, rfl, (selectInput_benign ho hC h.sel hsel).1⟩
        · simp only
          obtain ⟨L1, h1, hl⟩ := h.take ho hm
            (selectInput_ok (T := fun t => t ∈ toks ∨ t = W.cfg.main) (Or.inr rfl) hsel)
          rcases ih h1 (by omega) with he | ⟨s2, st2, L2, h2, h3, h4⟩
          · exact Or.inl he
          · exact Or.inr ⟨s2, st2, L2, h2, h3, by omega⟩

theorem openChange_benign (hC : Calm E) {t : Token} {addr : Nat} {w : ℚ} {s : TS σ} {e : SelErr}
    (h : openChange E t addr w s = .error e) : Benign e := by
  unfold openChange at h
  split at h
  · cases h
  · simp only [bind_error] at h
    rcases h with h | ⟨_, _, h | ⟨_, _, h | ⟨_, _, h⟩⟩⟩
    · exact hC.minValueOut _ _ _ h
    · exact hC.feeOut _ _ _ h
    · exact hC.addOut _ _ _ h
    · cases h

theorem balanceExcessOf_safe (hC : Calm E) {avail : List Utxo} {toks : List Token}
    {d : AMap Token (Nat × Nat)} {t : Token} (ht : t ∈ toks) (htm : t ≠ mainToken)
    (hd : (d.get t).isSome) {L : List Utxo} {s : TS σ} {st : UStore} (h : Safe W avail toks d L s st) :
    (∃ e, balanceExcessOf E W req st t s = .error e ∧ Benign e) ∨
    ∃ s', balanceExcessOf E W req st t s = .ok s' ∧ Safe W avail toks d L s' st := by
  cases hb : balanceExcessOf E W req st t s with
  | ok s' =>
    right
    obtain ⟨h1, _, _, _, h5⟩ := balanceExcessOf_keeps hb
    refine ⟨s', rfl, h.sel.congr h1, fun t' => (h5 t').trans (h.keys t'), ?_, h.dict⟩
    rcases balanceExcessOf_ok hb with ⟨rfl, _⟩ | ⟨x, addr, b, s1, o, o1, hc, _, _, h2, h3, rfl⟩
    · exact h.nodup
    · simp only [(openChange_keeps h2).2.2.2]
      exact AMap.nodup_insert h.nodup _ _
  | error e =>
    left
    refine ⟨e, rfl, ?_⟩
    obtain ⟨b, hcur⟩ := currentOf_total (W := W) ((h.keys t).mpr ht) htm
    unfold balanceExcessOf at hb
    cases b with
    | debt v => simp [hcur] at hb
    | balanced => simp [hcur] at hb
    | excess x =>
      simp only [hcur] at hb
      split at hb
      · cases hb; exact ⟨by simp, by simp⟩
      · simp only [bind_error] at hb
        rcases hb with hb | ⟨_, _, hb | ⟨⟨s1, o⟩, hoc, hb | ⟨_, _, hb⟩⟩⟩
        · exact currentBalance_benign hC hb
        · exact openChange_benign hC hb
        · exfalso
          unfold addToChange at hb
          split at hb
          · cases hb
          · obtain ⟨pn, hpn⟩ := Option.isSome_iff_exists.mp hd
            have : st.getAssetIds t = some pn := by
              unfold UStore.getAssetIds; rw [h.dict]; exact hpn
            simp only [this] at hb
            cases hb
        · cases hb

theorem round1_safe (ho : ∀ l, (W.ord l).Perm l) (hC : Calm E) (hm : W.cfg.main = mainToken)
    {avail : List Utxo} {toks : List Token} {d : AMap Token (Nat × Nat)}
    (hmain : mainToken ∉ toks) (hd : ∀ t ∈ toks, (d.get t).isSome) {fuel : Nat}
    {ts : List Token} (hts : ∀ t ∈ ts, t ∈ toks) {L : List Utxo} {s : TS σ} {st : UStore}
    (h : Safe W avail toks d L s st) (hf : L.length < fuel) :
    (∃ e, round1 E W req fuel ts s st = .error e ∧ Benign e) ∨
    ∃ s' st' L', round1 E W req fuel ts s st = .ok (s', st') ∧ Safe W avail toks d L' s' st' ∧
      L'.length ≤ L.length := by
  induction ts generalizing s st L with
  | nil => exact Or.inr ⟨s, st, L, rfl, h, le_refl _⟩
  | cons t ts ih =>
    have ht := hts t (by simp)
    have htm : t ≠ mainToken := fun e => hmain (e ▸ ht)
    simp only [round1]
    rcases untilAsset_safe ho hC hm ht htm fuel h hf with ⟨e, he, hbe⟩ | ⟨s1, st1, L1, e1, h1, hl1⟩
    · rw [he]; exact Or.inl ⟨e, rfl, hbe⟩
    · rw [e1]
      simp only
      rcases balanceExcessOf_safe (req := req) hC ht htm (hd t ht) h1 with ⟨e, he, hbe⟩ | ⟨s2, e2, h2⟩
      · rw [he]; exact Or.inl ⟨e, rfl, hbe⟩
      · rw [e2]
        simp only
        rcases ih (fun t' h' => hts t' (by simp [h'])) h2 (by omega) with he | ⟨s3, st3, L3, e3, h3, hl3⟩
        · exact Or.inl he
        · exact Or.inr ⟨s3, st3, L3, e3, h3, by omega⟩

theorem round2_safe (hC : Calm E) {avail : List Utxo} {toks : List Token} {d : AMap Token (Nat × Nat)}
    (hmain : mainToken ∉ toks) (hd : ∀ t ∈ toks, (d.get t).isSome)
    {ts : List Token} (hts : ∀ t ∈ ts, t ∈ toks) {L : List Utxo} {s : TS σ} {st : UStore}
    (h : Safe W avail toks d L s st) {e : SelErr}
    (he : forTokens (balanceExcessOf E W req st) ts s = .error e) : Benign e := by
  induction ts generalizing s with
  | nil => cases he
  | cons t ts ih =>
    have ht := hts t (by simp)
    simp only [forTokens] at he
    rcases balanceExcessOf_safe (req := req) hC ht (fun e => hmain (e ▸ ht)) (hd t ht) h with
      ⟨e', he', hbe⟩ | ⟨s2, e2, h2⟩
    · rw [he'] at he; cases he; exact hbe
    · rw [e2] at he
      exact ih (fun t' h' => hts t' (by simp [h'])) h2 he

theorem balanceExcess_benign (hC : Calm E) {s : TS σ} {e : SelErr}
    (h : balanceExcess E W req s = .error e) : Benign e := by
  unfold balanceExcess at h
  rw [bind_error] at h
  rcases h with h | ⟨b, _, h⟩
  · exact currentBalance_benign hC h
  · cases b with
    | debt v => cases h
    | balanced => cases h
    | excess x =>
      simp only at h
      split at h
      · cases h; exact ⟨by simp, by simp⟩
      · split at h
        · cases h
        · rw [bind_error] at h
          rcases h with h | ⟨⟨need, est⟩, _, h⟩
          · exact hC.minValueOut _ _ _ h
          · simp only at h
            split at h
            · cases h
            · rw [bind_error] at h
              rcases h with h | ⟨fee, _, h⟩
              · exact hC.feeOut _ _ _ h
              · split at h
                · cases h
                · rw [bind_error] at h
                  rcases h with h | ⟨_, _, h⟩
                  · exact hC.addOut _ _ _ h
                  · cases h

theorem splitOne_benign (hC : Calm E) (h1 : W.cfg.accumulators ≠ 0) (h2 : W.cfg.accumulatorsAssets ≠ 0)
    {st : UStore} {t : Token} {s : TS σ} {e : SelErr} (h : splitOne E W st t s = .error e) : Benign e := by
  unfold splitOne at h
  split at h
  · split at h
    · unfold splitAsset divBy at h
      rw [if_neg h2, bind_error] at h
      rcases h with h | ⟨p, _, h⟩
      · cases h
      · split at h
        · rw [bind_error] at h
          rcases h with h | ⟨f, _, h⟩
          · exact hC.feeOut _ _ _ h
          · dsimp only at h
            split at h
            · cases h
            · rw [bind_error] at h
              rcases h with h | ⟨_, _, h⟩
              · exact hC.addOut _ _ _ h
              · cases h
        · cases h
    · split at h
      · unfold splitMain divBy at h
        rw [if_neg h1, bind_error] at h
        rcases h with h | ⟨p, _, h⟩
        · cases h
        · rw [bind_error] at h
          rcases h with h | ⟨f, _, h⟩
          · exact hC.feeOut _ _ _ h
          · dsimp only at h
            split at h
            · cases h
            · split at h
              · rw [bind_error] at h
                rcases h with h | ⟨_, _, h⟩
                · exact hC.addOut _ _ _ h
                · cases h
              · cases h
      · cases h
  · cases h

theorem forTokens_benign {f : Token → TS σ → Except SelErr (TS σ)}
    (hf : ∀ t s e, f t s = .error e → Benign e) {ts : List Token} {s : TS σ} {e : SelErr}
    (h : forTokens f ts s = .error e) : Benign e := by
  induction ts generalizing s with
  | nil => cases h
  | cons t ts ih =>
    simp only [forTokens] at h
    split at h
    · rename_i e' he
      cases h; exact hf _ _ _ he
    · exact ih h

/-! ### The filling loop ends -/

/-- How many positions the index has to move to reach an asset not yet given up. -/
def ahead (empty : List Bool) (ix : Nat) : Nat := (empty.drop ix ++ empty.take ix).idxOf false

theorem ahead_le (empty : List Bool) (ix : Nat) : ahead empty ix ≤ empty.length := by
  unfold ahead
  refine le_trans List.idxOf_le_length ?_
  simp only [List.length_append, List.length_drop, List.length_take]
  omega

theorem ahead_next {empty : List Bool} {ix : Nat} (hix : ix < empty.length) (ht : empty[ix]? = some true)
    (hall : empty.all id = false) : ahead empty ((ix + 1) % empty.length) < ahead empty ix := by
  have hget : empty[ix] = true := by
    rw [List.getElem?_eq_getElem hix] at ht
    exact Option.some.inj ht
  have h1 : empty.drop ix = true :: empty.drop (ix + 1) := by
    rw [List.drop_eq_getElem_cons hix, hget]
  have h2 : empty.take (ix + 1) = empty.take ix ++ [true] := by
    rw [List.take_add_one, ht]; rfl
  have hfalse : false ∈ empty.drop (ix + 1) ++ empty.take ix := by
    have hm : false ∈ empty := by
      by_contra hn
      have : empty.all id = true := by
        rw [List.all_eq_true]
        intro b hb
        cases b with
        | true => rfl
        | false => exact absurd hb hn
      rw [this] at hall; cases hall
    have : false ∈ empty.take ix ++ empty.drop ix := by rw [List.take_append_drop]; exact hm
    rw [h1] at this
    simp only [List.mem_append, List.mem_cons, Bool.false_eq_true, false_or] at this ⊢
    tauto
  have e1 : ahead empty ix = (empty.drop (ix + 1) ++ empty.take ix).idxOf false + 1 := by
    unfold ahead
    rw [h1, List.cons_append, List.idxOf_cons_ne _ (by simp)]
  have e2 : ahead empty ((ix + 1) % empty.length) =
      ((empty.drop (ix + 1) ++ empty.take ix) ++ [true]).idxOf false := by
    unfold ahead
    by_cases hlt : ix + 1 < empty.length
    · rw [Nat.mod_eq_of_lt hlt, h2, List.append_assoc]
    · have hlen : ix + 1 = empty.length := by omega
      have hd : empty.drop (ix + 1) = [] := List.drop_eq_nil_of_le (by omega)
      rw [hlen, Nat.mod_self]
      rw [← hlen, hd]
      simp only [List.drop_zero, List.take_zero, List.append_nil, List.nil_append]
      rw [← h2, hlen, List.take_length]
  rw [e1, e2, List.idxOf_append_of_mem hfalse]
  omega

theorem count_set {empty : List Bool} {ix : Nat} (ht : empty[ix]? = some false) :
    (empty.set ix true).count false + 1 = empty.count false := by
  induction empty generalizing ix with
  | nil => simp at ht
  | cons b bs ih =>
    cases ix with
    | zero =>
      simp only [List.getElem?_cons_zero, Option.some.injEq] at ht
      subst ht
      simp
    | succ ix =>
      simp only [List.getElem?_cons_succ] at ht
      simp only [List.set_cons_succ, List.count_cons]
      have := ih ht
      omega

theorem fill_safe (ho : ∀ l, (W.ord l).Perm l) (hC : Calm E) {avail : List Utxo} {toks : List Token}
    {d : AMap Token (Nat × Nat)} (hF : Fits E W toks) {fts : List Token}
    (hfts : ∀ t ∈ fts, t ∈ toks ∨ t = W.cfg.main) (fuel : Nat) {empty : List Bool} {ix : Nat}
    {L : List Utxo} {s : TS σ} {st : UStore} (h : Safe W avail toks d L s st)
    (hlen : empty.length = fts.length) (hix : ix < fts.length)
    (hf : (L.length + empty.count false) * (fts.length + 1) + ahead empty ix < fuel) :
    (∃ e, fill E W req fts fuel empty ix s st = .error e ∧ Benign e) ∨
    ∃ s' st' L', fill E W req fts fuel empty ix s st = .ok (s', st') ∧ Safe W avail toks d L' s' st' := by
  induction fuel generalizing s st L empty ix with
  | zero => omega
  | succ fuel ih =>
    unfold fill
    cases hr : remaining E W req s with
    | error e =>
      have hl : s.assets.length ≤ toks.length := by
        have := (List.subperm_of_subset h.nodup (fun t ht => (h.keys t).mp ht)).length_le
        simpa [AMap.keys] using this
      exact Or.inl ⟨e, rfl, remaining_benign hC hF hl hr⟩
    | ok n =>
      cases n with
      | zero => exact Or.inr ⟨s, st, L, rfl, h⟩
      | succ n =>
        have hix' : ix < empty.length := by omega
        have hnext : (ix + 1) % fts.length < fts.length := Nat.mod_lt _ (by omega)
        have hmem : fts[ix] ∈ fts := List.getElem_mem hix
        simp only [List.getElem?_eq_getElem hix, List.getElem?_eq_getElem hix']
        have progress : ∀ a b c k : Nat, b ≤ k → (a + 1) * (k + 1) + c < fuel + 1 → a * (k + 1) + b < fuel := by
          intro a b c k hb hlt
          rw [Nat.add_mul] at hlt
          omega
        cases hflag : empty[ix] with
        | false =>
          have hflag' : empty[ix]? = some false := by rw [List.getElem?_eq_getElem hix', hflag]
          simp only [if_true]
          have giveup : (∃ e, fill E W req fts fuel (empty.set ix true) ((ix + 1) % fts.length) s st =
                .error e ∧ Benign e) ∨
              ∃ s' st' L', fill E W req fts fuel (empty.set ix true) ((ix + 1) % fts.length) s st =
                .ok (s', st') ∧ Safe W avail toks d L' s' st' := by
            refine ih h (by simpa using hlen) hnext ?_
            have hc := count_set hflag'
            have ha := ahead_le (empty.set ix true) ((ix + 1) % fts.length)
            simp only [List.length_set] at ha
            refine progress _ _ (ahead empty ix) _ (by omega) ?_
            rw [Nat.add_assoc, hc]; exact hf
          split
          · exact giveup
          · rcases hsel : selectInput E W st fts[ix] s with ⟨s1, e1 | st1⟩
            · obtain ⟨hbe, rfl⟩ := selectInput_benign ho hC h.sel hsel
              cases e1 with
              | panic => exact absurd rfl hbe.1
              | _ => exact giveup
            · obtain ⟨L1, h1, hl⟩ := h.take ho hF.main
                (selectInput_ok (T := fun t => t ∈ toks ∨ t = W.cfg.main) (hfts _ hmem) hsel)
              refine ih h1 hlen hnext ?_
              have ha := ahead_le empty ((ix + 1) % fts.length)
              have hle : (L1.length + empty.count false) + 1 ≤ L.length + empty.count false := by omega
              refine progress _ _ (ahead empty ix) _ (by omega) ?_
              have := Nat.mul_le_mul_right (fts.length + 1) hle
              omega
        | true =>
          have hflag' : empty[ix]? = some true := by rw [List.getElem?_eq_getElem hix', hflag]
          simp only [Bool.true_eq_false, if_false]
          cases hall : empty.all id with
          | true => exact Or.inr ⟨s, st, L, rfl, h⟩
          | false =>
            simp only [Bool.false_eq_true, if_false]
            refine ih h hlen hnext ?_
            have := ahead_next hix' hflag' hall
            rw [hlen] at this
            omega

/-- A run neither panics nor goes on for ever. -/
theorem select_benign (ho : ∀ l, (W.ord l).Perm l) (hk : ∀ l, (W.keyOrder l).Perm l) (hC : Calm E)
    {avail : List Utxo} {s : TS σ} {st : UStore} (hF : Fits E W (W.keyOrder s.assets.keys))
    (hi : SelInv avail avail s st) (hmain : mainToken ∉ s.assets.keys)
    (hn : s.assets.keys.Nodup) (hd : ∀ t ∈ s.assets.keys, (st.getAssetIds t).isSome) {e : SelErr}
    (h : select E W req st s = .error e) : Benign e := by
  have hlen : st.len = avail.length := by
    unfold UStore.len USet.len
    rw [hi.store.contents.set_eq]; simp [ptrMap]
  have hS : Safe W avail (W.keyOrder s.assets.keys) st.dictionary avail s st :=
    ⟨hi, fun t => (hk _).mem_iff.symm, hn, rfl⟩
  have hm' : mainToken ∉ W.keyOrder s.assets.keys := fun h => hmain ((hk _).mem_iff.mp h)
  have hd' : ∀ t ∈ W.keyOrder s.assets.keys, (st.dictionary.get t).isSome :=
    fun t ht => hd t ((hk _).mem_iff.mp ht)
  unfold select at h
  rw [bind_error] at h
  rcases round1_safe (req := req) ho hC hF.main hm' hd' (fun t h => h) hS
    (by omega : avail.length < st.len + 1) with ⟨e1, he1, hb⟩ | ⟨s1, st1, L1, e1, h1, hl1⟩
  · rcases h with h | ⟨_, h, _⟩
    · rw [he1] at h; cases h; exact hb
    · rw [he1] at h; cases h
  rcases h with h | ⟨x, hx, h⟩
  · rw [e1] at h; cases h
  rw [e1] at hx; cases hx
  simp only at h
  rw [bind_error] at h
  rcases untilMain_safe ho hC hF.main (st.len + 1) h1 (by omega) with ⟨e2, he2, hb⟩ | ⟨s2, st2, L2, e2, h2, hl2⟩
  · rcases h with h | ⟨_, h, _⟩
    · rw [he2] at h; cases h; exact hb
    · rw [he2] at h; cases h
  rcases h with h | ⟨x, hx, h⟩
  · rw [e2] at h; cases h
  rw [e2] at hx; cases hx
  simp only at h
  rw [bind_error] at h
  have hft : ∀ t ∈ fillTokens W s2.assets (W.keyOrder s.assets.keys),
      t ∈ W.keyOrder s.assets.keys ∨ t = W.cfg.main := fun t ht => mem_fillTokens ht
  have hne : 0 < (fillTokens W s2.assets (W.keyOrder s.assets.keys)).length := by
    unfold fillTokens
    split
    · simp
    · rename_i hh
      simp only [Bool.or_eq_true, not_or] at hh
      cases hk2 : W.keyOrder s.assets.keys with
      | nil => rw [hk2] at hh; simp at hh
      | cons => simp
  generalize hfe : fillTokens W s2.assets (W.keyOrder s.assets.keys) = fts at *
  have hfe' : (if (s2.assets.isEmpty || (W.keyOrder s.assets.keys).isEmpty) = true
      then W.keyOrder s.assets.keys ++ [W.cfg.main] else W.keyOrder s.assets.keys) = fts := hfe
  rw [hfe'] at h
  rcases fill_safe (req := req) ho hC hF hft ((st.len + fts.length + 1) * (fts.length + 1))
    (empty := List.replicate fts.length false) (ix := 0) h2 (by simp) hne (by
      have := ahead_le (List.replicate fts.length false) 0
      simp only [List.length_replicate] at this
      have hc : (List.replicate fts.length false).count false = fts.length := by simp
      rw [hc]
      have h3 : (L2.length + fts.length) * (fts.length + 1) ≤ (st.len + fts.length) * (fts.length + 1) :=
        Nat.mul_le_mul_right _ (by omega)
      have h4 : (st.len + fts.length + 1) * (fts.length + 1) =
        (st.len + fts.length) * (fts.length + 1) + (fts.length + 1) := by ring
      omega) with ⟨e3, he3, hb⟩ | ⟨s3, st3, L3, e3, h3⟩
  · rcases h with h | ⟨_, h, _⟩
    · rw [he3] at h; cases h; exact hb
    · rw [he3] at h; cases h
  rcases h with h | ⟨x, hx, h⟩
  · rw [e3] at h; cases h
  rw [e3] at hx; cases hx
  simp only at h
  have hlast : lastTokens W s3.assets fts = W.keyOrder s.assets.keys := by
    rw [← hfe]
    have ne : ∀ a : AMap Token Balance, (∀ t, t ∈ a.keys ↔ t ∈ W.keyOrder s.assets.keys) →
        W.keyOrder s.assets.keys ≠ [] → a ≠ [] := by
      rintro a ha hne rfl
      cases hk : W.keyOrder s.assets.keys with
      | nil => exact hne hk
      | cons t ts =>
        have := (ha t).mpr (by rw [hk]; simp)
        simp at this
    exact lastTokens_eq (by rw [hF.main]; exact hm') (ne _ h2.keys) (ne _ h3.keys)
  have hlast' : (if (s3.assets.isEmpty || (fts.length == 1 && fts.head? == some W.cfg.main)) = true
      then fts.dropLast else fts) = W.keyOrder s.assets.keys := hlast
  rw [hlast', bind_error] at h
  rcases h with h | ⟨s4, h4, h⟩
  · exact round2_safe hC hm' hd' (fun t h => h) h3 h
  rw [bind_error] at h
  rcases h with h | ⟨s5, h5, h⟩
  · exact balanceExcess_benign hC h
  rw [bind_error] at h
  rcases h with h | ⟨s6, h6, h⟩
  · exact forTokens_benign (fun t s e => splitOne_benign hC hF.acc hF.accAssets) h
  · cases h

end

end Verif.Selection.Thermostat
