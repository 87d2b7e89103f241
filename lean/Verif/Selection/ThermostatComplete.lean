import Verif.Selection.ThermostatChanges

/-!
# When the thermostat finds a selection
-/

namespace Verif.Selection.Thermostat

open Verif Verif.Core

/-- The two errors that `Verif.Selection.ThermostatErrors` excludes. -/
def Bad (e : SelErr) : Prop := e = .panic ∨ e = .fuel

theorem Benign.not_bad {e : SelErr} (h : Benign e) : ¬ Bad e := fun hb => hb.elim h.1 h.2

/-- An estimator that always answers, and charges a constant for each input and each output. -/
structure Sure {σ : Type} (E : Estimator σ) (cin cout : ℚ) : Prop extends Linear E cin cout where
  minFee : ∀ s, ∃ m, E.minFee s = .ok m
  addInOk : ∀ s u, ∃ s', E.addIn s u = .ok s'
  addOutOk : ∀ s o, ∃ s', E.addOut s o = .ok s'
  minValueOut : ∀ s o, ∃ v s', E.minValueOut s o = .ok (v, s') ∧ 0 ≤ v
  currentSize : ∀ s, ∃ n, E.currentSize s = .ok n
  maxSize : ∀ s, ∃ n, E.maxSize s = .ok n

/-- A debt is positive. -/
def DebtPos (b : Balance) : Prop := ∀ v, b = .debt v → 0 < v

theorem DebtPos.add {b : Balance} (h : DebtPos b) (r : ℚ) : DebtPos (b.addValue r) := by
  intro v hv
  cases b with
  | debt l =>
    simp only [Balance.addValue] at hv
    split at hv
    · cases hv
    · split at hv
      · cases hv
      · rename_i h1 h2
        cases hv
        exact sub_pos.mpr (lt_of_le_of_ne (not_lt.mp h1) (Ne.symm h2))
  | balanced => simp only [Balance.addValue] at hv; split at hv <;> cases hv
  | excess l => simp [Balance.addValue] at hv

theorem DebtPos.sub {b : Balance} (h : DebtPos b) {r : ℚ} (hr : 0 ≤ r) : DebtPos (b.subValue r) := by
  intro v hv
  cases b with
  | debt l =>
    simp only [Balance.subValue] at hv
    cases hv
    linarith [h l rfl]
  | balanced =>
    simp only [Balance.subValue] at hv
    split at hv
    · cases hv
    · rename_i hne
      cases hv
      exact lt_of_le_of_ne hr (Ne.symm hne)
  | excess l =>
    simp only [Balance.subValue] at hv
    split at hv
    · cases hv; linarith
    · split at hv <;> cases hv

theorem DebtPos.net {b : Balance} (h : DebtPos b) {v : ℚ} (hb : b = .debt v) : b.net < 0 := by
  have := h v hb
  rw [hb]
  simp only [Balance.net]
  linarith

theorem excessOr0_nonneg {σ : Type} {E : Estimator σ} {s : TS σ} {b : Balance} (h : currentBalance E s = .ok b) :
    0 ≤ excessOr0 b := by
  obtain ⟨m, _, rfl⟩ := currentBalance_ok h
  cases hx : s.balance.subValue m with
  | debt v => exact le_refl _
  | balanced => exact le_refl _
  | excess v => exact le_of_lt (subValue_pos _ _ hx)

section

variable {σ : Type} {E : Estimator σ} {W : World} {req : Request}

/-! ### The state on the way -/

/-- What holds before the last steps of `select`: the books, the fee so far, and positive debts. -/
structure Going (E : Estimator σ) (W : World) (req : Request) (ids : Token → Option (Nat × Nat)) (toks : List Token)
    (base : Token → ℚ) (bm cin cout m0 : ℚ) (s : TS σ) : Prop where
  assets : AssetOK W toks base s
  opened : Opened W req ids toks s
  main : MainOK bm s
  fee : E.minFee s.est = .ok (m0 + cin * s.selected.length + cout * s.changes.length)
  debt : DebtPos s.balance
  debts : ∀ t b, s.assets.get t = some b → DebtPos b

theorem debts_adjust {m : AMap Token Balance} (h : ∀ t b, m.get t = some b → DebtPos b) {f : Balance → Balance}
    {t : Token} (hf : DebtPos (f ((m.get t).getD .balanced))) :
    ∀ t' b, (adjust f m t).get t' = some b → DebtPos b := by
  intro t' b hb
  unfold adjust at hb
  rw [AMap.get_insert] at hb
  split at hb
  · cases hb; exact hf
  · exact h t' b hb

theorem debts_addAll (as : List Asset) {m : AMap Token Balance} (h : ∀ t b, m.get t = some b → DebtPos b) :
    ∀ t b, (as.foldl (fun m a => adjust (·.addValue a.quantity) m a.fingerprint) m).get t = some b → DebtPos b := by
  induction as generalizing m with
  | nil => exact h
  | cons a as ih =>
    refine ih (debts_adjust h (DebtPos.add ?_ _))
    cases hg : m.get a.fingerprint with
    | none => intro v hv; cases hv
    | some b => exact h _ _ hg

variable {ids : Token → Option (Nat × Nat)} {toks : List Token} {base : Token → ℚ} {bm cin cout m0 : ℚ}

theorem Going.take (hS : Sure E cin cout) (hmt : W.cfg.main = mainToken) {avail L : List Utxo}
    (hq : ∀ u ∈ avail, ∀ a ∈ u.assets, 0 ≤ a.quantity)
    {s : TS σ} {st : UStore} {t : Token} {u : Utxo} {est' : σ}
    (h : Going E W req ids toks base bm cin cout m0 s) (hi : SelInv avail L s st)
    (ht : t ∈ toks ∨ t = W.cfg.main) (hu : u ∈ L) (hpl : Plain t u) (ha : E.addIn s.est u = .ok est') :
    Going E W req ids toks base bm cin cout m0 (addInput { s with est := est' } u) := by
  refine ⟨addInput_asset h.assets ht hpl (by rw [hmt]; exact StoreOK.fingerprints hi.store hu),
    h.opened.take (hq u (hi.perm.mem_iff.mpr (by simp [hu]))), addInput_main h.main est', ?_, h.debt.add _,
    debts_addAll _ h.debts⟩
  have := hS.addIn _ _ _ _ ha h.fee
  simp only [addInput, List.length_append, List.length_singleton, Nat.cast_add, Nat.cast_one]
  rw [this]
  congr 1
  ring

theorem insert_length {K V : Type} [DecidableEq K] (m : AMap K V) (k : K) (v : V) :
    (m.insert k v).length = if (m.get k).isSome then m.length else m.length + 1 := by
  have h1 : ∀ m : AMap K V, m.length = m.keys.length := fun m => by simp [AMap.keys]
  rw [h1, h1, AMap.keys_insert]
  cases hg : m.get k with
  | none => rw [if_neg ((AMap.get_eq_none_iff _ _).mp hg)]; simp
  | some w =>
    have : k ∈ m.keys := by
      by_contra hn
      rw [(AMap.get_eq_none_iff _ _).mpr hn] at hg
      cases hg
    rw [if_pos this]; simp

/-- The fee and the balance after the entry of a change was made. -/
theorem openChange_state (hS : Sure E cin cout) {t : Token} {addr : Nat} {w m : ℚ} {s s1 : TS σ}
    {o : Output} (hw : 0 ≤ w) (hd : DebtPos s.balance) (hm : E.minFee s.est = .ok m)
    (h : openChange E t addr w s = .ok (s1, o)) :
    DebtPos s1.balance ∧ E.minFee s1.est = .ok (m + if (s.changes.get t).isSome then 0 else cout) := by
  unfold openChange at h
  cases hg : s.changes.get t with
  | some o0 =>
    simp only [hg] at h
    cases h
    exact ⟨hd.sub hw, by simpa using hm⟩
  | none =>
    simp only [hg, bind_ok] at h
    obtain ⟨⟨need, est1⟩, h1, fee, h2, est2, h3, h⟩ := h
    obtain ⟨v, e', h4, h5⟩ := hS.minValueOut s.est { address := addr, value := w, assets := [] }
    rw [h4] at h1
    cases h1
    rw [hS.feeOut] at h2
    cases h2
    cases h
    constructor
    · by_cases hlt : w < need
      · simp only [hlt, if_true]
        have hd1 : DebtPos (s.balance.subValue (need - w)) := hd.sub (by linarith)
        split
        · exact hd1.sub hw
        · rename_i hge
          refine hd1.sub ?_
          simp only [add_sub_cancel] at hge
          linarith
      · simp only [hlt, if_false]
        split
        · exact hd.sub hw
        · rename_i hge
          exact hd.sub (by linarith)
    · simp only [Option.isSome_none, Bool.false_eq_true, if_false]
      exact hS.addOut _ _ _ _ h3 (by rw [hS.minValue _ _ _ _ h4]; exact hm)

theorem clamp_debt (hmm : W.cfg.min ≤ W.cfg.max) {o : Output} {b : Balance} (h : DebtPos b) :
    DebtPos (clamp W o b).2 := by
  unfold clamp
  split
  · exact h.sub (by linarith)
  · split
    · exact h.add _
    · exact h

theorem Going.excess (hS : Sure E cin cout) (hmm : W.cfg.min ≤ W.cfg.max) (hmain : W.cfg.main ∉ toks)
    {st : UStore} {t : Token} {s s' : TS σ} (hids : ∀ t, st.getAssetIds t = ids t) (ht : t ∈ toks)
    (h : balanceExcessOf E W req st t s = .ok s') (hp : Going E W req ids toks base bm cin cout m0 s) :
    Going E W req ids toks base bm cin cout m0 s' := by
  have h1 := balanceExcessOf_asset ht (fun e => hmain (e ▸ ht)) h hp.assets
  have h2 := Opened.excess hmm hids ht h hp.opened
  have h3 := balanceExcessOf_main h hp.main
  rcases balanceExcessOf_ok h with ⟨rfl, _⟩ | ⟨x, addr, b, s1, o, o1, hc, hr, hb, h4, h5, rfl⟩
  · exact hp
  · obtain ⟨h6, h7⟩ := openChange_state hS (excessOr0_nonneg hb) hp.debt hp.fee h4
    obtain ⟨k1, k2, k3, k4⟩ := openChange_keeps h4
    refine ⟨h1, h2, h3, ?_, clamp_debt hmm h6, ?_⟩
    · simp only
      rw [h7, k3, k1, insert_length]
      congr 1
      cases hg : s.changes.get t with
      | none => simp; ring
      | some o => simp
    · simp only [k4]
      refine debts_adjust hp.debts ?_
      rw [currentOf_ok hc]
      intro v hv
      simp [Balance.subValue] at hv

/-! ### The ways to fail -/

theorem selectInput_fails (ho : ∀ l, (W.ord l).Perm l) (hS : Sure E cin cout) {avail L : List Utxo} {st : UStore}
    {t : Token} {s s' : TS σ} {e : SelErr} (hi : SelInv avail L s st)
    (h : selectInput E W st t s = (s', .error e)) : candidate W st t = none := by
  unfold selectInput at h
  split at h
  · rename_i hc; exact hc
  · rename_i u hc
    exfalso
    obtain ⟨s1, h1⟩ := hS.addInOk s.est u
    obtain ⟨h2, _⟩ := candidate_spec ho hi.store hc
    obtain ⟨st', hr, _⟩ := remove_of_mem hi.store (mem_holders.mp h2).1
    simp only [h1, hr] at h
    cases h

theorem no_candidate (ho : ∀ l, (W.ord l).Perm l) {L : List Utxo} {st : UStore} (h : StoreOK L st) {t : Token}
    (hc : candidate W st t = none) {u : Utxo} (hu : u ∈ holders t L) : ¬ Plain t u := by
  intro hp
  unfold candidate at hc
  rw [List.find?_eq_none] at hc
  apply hc u ((descending_perm ho h t).mem_iff.mpr hu)
  simp only [Bool.and_eq_true, decide_eq_true_eq, List.all_eq_true]
  exact hp

theorem untilAsset_error {t : Token} (fuel : Nat) {s : TS σ} {st : UStore} {e : SelErr}
    (h : untilAsset E W t fuel s st = .error e) :
    Bad e ∨ ∃ s1 st1 d s2, Takes E W (· = t) s st s1 st1 ∧ currentOf W s1 t = .ok (.debt d) ∧
      selectInput E W st1 t s1 = (s2, .error e) := by
  have hcur : ∀ (s : TS σ) e, currentOf W s t = .error e → Bad e := by
    intro s e h
    unfold currentOf at h
    split at h
    · cases h; exact Or.inl rfl
    · split at h <;> cases h
      exact Or.inl rfl
  induction fuel generalizing s st with
  | zero =>
    unfold untilAsset at h
    cases hc : currentOf W s t with
    | error e' => simp only [hc] at h; cases h; exact Or.inl (hcur _ _ hc)
    | ok b =>
      cases b <;> simp only [hc] at h <;> cases h
      exact Or.inl (Or.inr rfl)
  | succ fuel ih =>
    unfold untilAsset at h
    cases hc : currentOf W s t with
    | error e' => simp only [hc] at h; cases h; exact Or.inl (hcur _ _ hc)
    | ok b =>
      cases b with
      | debt v =>
        simp only [hc] at h
        split at h
        · rename_i s1 st1 hsel
          rcases ih h with hb | ⟨s2, st2, d, s3, h1, h2, h3⟩
          · exact Or.inl hb
          · exact Or.inr ⟨s2, st2, d, s3, .head (selectInput_ok rfl hsel) h1, h2, h3⟩
        · rename_i s1 e1 hsel
          cases h
          exact Or.inr ⟨s, st, v, s1, .refl, hc, hsel⟩
      | balanced => simp only [hc] at h; cases h
      | excess v => simp only [hc] at h; cases h

theorem currentBalance_sure (hS : Sure E cin cout) (s : TS σ) : ∃ b, currentBalance E s = .ok b := by
  obtain ⟨m, hm⟩ := hS.minFee s.est
  exact ⟨_, by unfold currentBalance; rw [bind_ok]; exact ⟨m, hm, rfl⟩⟩

theorem untilMain_error (hS : Sure E cin cout) (fuel : Nat) {s : TS σ} {st : UStore} {e : SelErr}
    (h : untilMain E W fuel s st = .error e) :
    Bad e ∨ ∃ s1 st1 d s2, Takes E W (· = W.cfg.main) s st s1 st1 ∧ currentBalance E s1 = .ok (.debt d) ∧
      selectInput E W st1 W.cfg.main s1 = (s2, .error e) := by
  induction fuel generalizing s st with
  | zero =>
    unfold untilMain at h
    obtain ⟨b, hc⟩ := currentBalance_sure hS s
    cases b <;> simp only [hc] at h <;> cases h
    exact Or.inl (Or.inr rfl)
  | succ fuel ih =>
    unfold untilMain at h
    obtain ⟨b, hc⟩ := currentBalance_sure hS s
    cases b with
    | debt v =>
      simp only [hc] at h
      split at h
      · rename_i s1 st1 hsel
        rcases ih h with hb | ⟨s2, st2, d, s3, h1, h2, h3⟩
        · exact Or.inl hb
        · exact Or.inr ⟨s2, st2, d, s3, .head (selectInput_ok rfl hsel) h1, h2, h3⟩
      · rename_i s1 e1 hsel
        cases h
        exact Or.inr ⟨s, st, v, s1, .refl, hc, hsel⟩
    | balanced => simp only [hc] at h; cases h
    | excess v => simp only [hc] at h; cases h

theorem Sure.no_error (hS : Sure E cin cout) :
    (∀ s e, E.minFee s ≠ .error e) ∧ (∀ s u e, E.addIn s u ≠ .error e) ∧ (∀ s o e, E.addOut s o ≠ .error e) ∧
    (∀ s u e, E.feeIn s u ≠ .error e) ∧ (∀ s o e, E.feeOut s o ≠ .error e) ∧
    (∀ s o e, E.minValueOut s o ≠ .error e) ∧ (∀ s e, E.currentSize s ≠ .error e) ∧
    (∀ s e, E.maxSize s ≠ .error e) := by
  refine ⟨?_, ?_, ?_, ?_, ?_, ?_, ?_, ?_⟩
  · intro s e h; obtain ⟨x, h1⟩ := hS.minFee s; rw [h1] at h; cases h
  · intro s u e h; obtain ⟨x, h1⟩ := hS.addInOk s u; rw [h1] at h; cases h
  · intro s u e h; obtain ⟨x, h1⟩ := hS.addOutOk s u; rw [h1] at h; cases h
  · intro s u e h; rw [hS.feeIn] at h; cases h
  · intro s u e h; rw [hS.feeOut] at h; cases h
  · intro s u e h; obtain ⟨x, y, h1, _⟩ := hS.minValueOut s u; rw [h1] at h; cases h
  · intro s e h; obtain ⟨x, h1⟩ := hS.currentSize s; rw [h1] at h; cases h
  · intro s e h; obtain ⟨x, h1⟩ := hS.maxSize s; rw [h1] at h; cases h

theorem openChange_sure (hS : Sure E cin cout) {t : Token} {addr : Nat} {w : ℚ} {s : TS σ} {e : SelErr} :
    openChange E t addr w s ≠ .error e := by
  intro h
  obtain ⟨_, _, c3, _, c5, c6, _⟩ := hS.no_error
  unfold openChange at h
  split at h
  · cases h
  · simp only [bind_error] at h
    rcases h with h | ⟨_, _, h | ⟨_, _, h | ⟨_, _, h⟩⟩⟩
    · exact c6 _ _ _ h
    · exact c5 _ _ _ h
    · exact c3 _ _ _ h
    · cases h

theorem balanceExcessOf_error (hS : Sure E cin cout) (haddr : req.address.isSome) {st : UStore} {t : Token} {s : TS σ}
    {e : SelErr} (h : balanceExcessOf E W req st t s = .error e) : Bad e := by
  unfold balanceExcessOf at h
  cases hc : currentOf W s t with
  | error e' =>
    simp only [hc] at h
    cases h
    unfold currentOf at hc
    split at hc
    · cases hc; exact Or.inl rfl
    · split at hc <;> cases hc
      exact Or.inl rfl
  | ok b =>
    cases b with
    | debt v => simp [hc] at h
    | balanced => simp [hc] at h
    | excess x =>
      obtain ⟨addr, ha⟩ := Option.isSome_iff_exists.mp haddr
      simp only [hc, ha, bind_error] at h
      rcases h with h | ⟨_, _, h | ⟨⟨s1, o⟩, _, h | ⟨_, _, h⟩⟩⟩
      · obtain ⟨b, hb⟩ := currentBalance_sure hS s
        rw [hb] at h; cases h
      · exact absurd h (openChange_sure hS)
      · unfold addToChange at h
        split at h
        · cases h
        · split at h
          · cases h; exact Or.inl rfl
          · cases h
      · cases h

theorem balanceExcess_sure (hS : Sure E cin cout) (haddr : req.address.isSome) {s : TS σ} {e : SelErr} :
    balanceExcess E W req s ≠ .error e := by
  intro h
  obtain ⟨_, _, c3, _, c5, c6, _⟩ := hS.no_error
  obtain ⟨addr, ha⟩ := Option.isSome_iff_exists.mp haddr
  obtain ⟨b, hb⟩ := currentBalance_sure hS s
  unfold balanceExcess at h
  rw [bind_error] at h
  rcases h with h | ⟨b', _, h⟩
  · rw [hb] at h; cases h
  · cases b' with
    | debt v => cases h
    | balanced => cases h
    | excess x =>
      simp only [ha] at h
      split at h
      · cases h
      · rw [bind_error] at h
        rcases h with h | ⟨⟨need, est⟩, _, h⟩
        · exact c6 _ _ _ h
        · simp only at h
          split at h
          · cases h
          · rw [bind_error] at h
            rcases h with h | ⟨fee, _, h⟩
            · exact c5 _ _ _ h
            · split at h
              · cases h
              · rw [bind_error] at h
                rcases h with h | ⟨_, _, h⟩
                · exact c3 _ _ _ h
                · cases h

theorem divBy_error {q : ℚ} {n : Nat} {e : SelErr} (h : divBy W q n = .error e) : Bad e := by
  unfold divBy at h
  split at h
  · cases h; exact Or.inl rfl
  · cases h

theorem splitOne_error (hS : Sure E cin cout) {st : UStore} {t : Token} {s : TS σ} {e : SelErr}
    (h : splitOne E W st t s = .error e) : Bad e := by
  obtain ⟨_, _, c3, _, c5, _⟩ := hS.no_error
  unfold splitOne at h
  split at h
  · split at h
    · unfold splitAsset at h
      rw [bind_error] at h
      rcases h with h | ⟨p, _, h⟩
      · exact divBy_error h
      · split at h
        · rw [bind_error] at h
          rcases h with h | ⟨f, _, h⟩
          · exact absurd h (c5 _ _ _)
          · dsimp only at h
            split at h
            · cases h
            · rw [bind_error] at h
              rcases h with h | ⟨_, _, h⟩
              · exact absurd h (c3 _ _ _)
              · cases h
        · cases h
    · split at h
      · unfold splitMain at h
        rw [bind_error] at h
        rcases h with h | ⟨p, _, h⟩
        · exact divBy_error h
        · rw [bind_error] at h
          rcases h with h | ⟨f, _, h⟩
          · exact absurd h (c5 _ _ _)
          · dsimp only at h
            split at h
            · cases h
            · split at h
              · rw [bind_error] at h
                rcases h with h | ⟨_, _, h⟩
                · exact absurd h (c3 _ _ _)
                · cases h
              · cases h
      · cases h
  · cases h

theorem forTokens_bad {f : Token → TS σ → Except SelErr (TS σ)}
    (hf : ∀ t s e, f t s = .error e → Bad e) {ts : List Token} {s : TS σ} {e : SelErr}
    (h : forTokens f ts s = .error e) : Bad e := by
  induction ts generalizing s with
  | nil => cases h
  | cons t ts ih =>
    simp only [forTokens] at h
    split at h
    · rename_i e' he
      cases h; exact hf _ _ _ he
    · exact ih h

theorem toU64_some {q : ℚ} (h0 : 0 ≤ q) (h1 : q < 2 ^ 64) : ∃ n, Random.toU64 q = some n := by
  unfold Random.toU64
  rw [if_neg (not_lt.mpr h0)]
  refine ⟨_, if_pos ?_⟩
  have h2 : q.floor < (2 ^ 64 : ℤ) := by
    rw [Rat.floor_lt_iff]
    exact_mod_cast h1
  omega

theorem mulU64_error {w : Bool} {a b : Nat} {e : SelErr} (h : Random.mulU64 w a b = .error e) : Bad e := by
  unfold Random.mulU64 at h
  split at h
  · cases h
  · split at h
    · cases h
    · cases h; exact Or.inl rfl

theorem remaining_error (hS : Sure E cin cout) (hci : 0 ≤ cin) (hci' : cin < 2 ^ 64) (hco : 0 ≤ cout)
    (hco' : cout < 2 ^ 64) (hout : req.outputs ≠ []) {s : TS σ} (hsel : s.selected ≠ []) {e : SelErr}
    (h : remaining E W req s = .error e) : Bad e := by
  obtain ⟨_, _, _, c4, c5, _, c7, c8⟩ := hS.no_error
  unfold remaining at h
  rw [bind_error] at h
  rcases h with h | ⟨o, _, h⟩
  · cases ho : req.outputs with
    | nil => exact absurd ho hout
    | cons o os => rw [ho] at h; cases h
  rw [bind_error] at h
  rcases h with h | ⟨i, _, h⟩
  · cases ho : s.selected with
    | nil => exact absurd ho hsel
    | cons o os => rw [ho] at h; cases h
  rw [bind_error] at h
  rcases h with h | ⟨fo, hfo, h⟩
  · exact absurd h (c5 _ _ _)
  rw [hS.feeOut] at hfo; cases hfo
  rw [bind_error] at h
  rcases h with h | ⟨so, _, h⟩
  · obtain ⟨n, hn⟩ := toU64_some hco hco'
    rw [hn] at h; cases h
  rw [bind_error] at h
  rcases h with h | ⟨fi, hfi, h⟩
  · exact absurd h (c4 _ _ _)
  rw [hS.feeIn] at hfi; cases hfi
  rw [bind_error] at h
  rcases h with h | ⟨si, _, h⟩
  · obtain ⟨n, hn⟩ := toU64_some hci hci'
    rw [hn] at h; cases h
  rw [bind_error] at h
  rcases h with h | ⟨r1, _, h⟩
  · exact mulU64_error h
  rw [bind_error] at h
  rcases h with h | ⟨r2, _, h⟩
  · exact mulU64_error h
  rw [bind_error] at h
  rcases h with h | ⟨mx, _, h⟩
  · exact absurd h (c8 _ _)
  rw [bind_error] at h
  rcases h with h | ⟨cur, _, h⟩
  · exact absurd h (c7 _ _)
  split at h
  · cases h; exact Or.inl rfl
  · cases h

theorem fill_error (hS : Sure E cin cout) (hci : 0 ≤ cin) (hci' : cin < 2 ^ 64) (hco : 0 ≤ cout)
    (hco' : cout < 2 ^ 64) (hout : req.outputs ≠ []) {fts : List Token} (fuel : Nat) {empty : List Bool} {ix : Nat}
    {s : TS σ} {st : UStore} (hsel : s.selected ≠ []) {e : SelErr}
    (h : fill E W req fts fuel empty ix s st = .error e) : Bad e := by
  have hgrow : ∀ (s s' : TS σ) (st : UStore) (t : Token) (x : Except SelErr UStore), s.selected ≠ [] →
      selectInput E W st t s = (s', x) → s'.selected ≠ [] := by
    intro s s' st t x hs hx
    unfold selectInput at hx
    split at hx
    · cases hx; exact hs
    · split at hx
      · cases hx; exact hs
      · cases hx; simp [addInput]
  induction fuel generalizing s st empty ix with
  | zero =>
    unfold fill at h
    cases hc : remaining E W req s with
    | error e' => simp only [hc] at h; cases h; exact remaining_error hS hci hci' hco hco' hout hsel hc
    | ok n =>
      cases n <;> simp only [hc] at h <;> cases h
      exact Or.inr rfl
  | succ fuel ih =>
    unfold fill at h
    cases hc : remaining E W req s with
    | error e' => simp only [hc] at h; cases h; exact remaining_error hS hci hci' hco hco' hout hsel hc
    | ok n =>
      cases n with
      | zero => simp only [hc] at h; cases h
      | succ n =>
        simp only [hc] at h
        split at h
        · rename_i t flag ht hflag
          split at h
          · split at h
            · exact ih hsel h
            · split at h
              · rename_i hsi
                exact ih (hgrow _ _ _ _ _ hsel hsi) h
              · cases h; exact Or.inl rfl
              · rename_i hsi
                exact ih (hgrow _ _ _ _ _ hsel hsi) h
          · split at h
            · cases h
            · exact ih hsel h
        · cases h; exact Or.inl rfl

/-! ### Enough -/

/-- A change for another token holds none of the asset. -/
theorem Going.no_change {s : TS σ} {t : Token} (h : Going E W req ids toks base bm cin cout m0 s)
    (hn : s.changes.get t = none) : changeAsset t s = 0 := by
  unfold changeAsset
  rw [h.opened.extra]
  simp only [List.map_nil, List.sum_nil, add_zero]
  unfold mapSum
  apply List.sum_eq_zero
  intro y hy
  obtain ⟨⟨k, o⟩, hko, rfl⟩ := List.mem_map.mp hy
  have hget := AMap.get_of_mem h.assets.nodup hko
  rcases h.assets.shape k o hget with ⟨_, h0⟩ | ⟨_, c, h0, h1⟩
  · simp [h0]
  · have : k ≠ t := by
      rintro rfl
      rw [hn] at hget
      cases hget
    simp [h0, assetSum_cons, h1, this]

theorem assetSum_nonneg' {as : List Asset} (h : ∀ a ∈ as, 0 ≤ a.quantity) (t : Token) : 0 ≤ assetSum t as := by
  unfold assetSum
  apply List.sum_nonneg
  intro x hx
  obtain ⟨a, ha, rfl⟩ := List.mem_map.mp hx
  exact h a (List.mem_of_mem_filter ha)

/-- Without a candidate for the asset, all that single-asset UTxOs hold of it is selected. -/
theorem all_selected {avail L : List Utxo} {s : TS σ} {st : UStore} (ho : ∀ l, (W.ord l).Perm l)
    (hq : ∀ u ∈ avail, ∀ a ∈ u.assets, 0 ≤ a.quantity) (hi : SelInv avail L s st) {t : Token} (htm : t ≠ mainToken)
    (hc : candidate W st t = none) :
    ((avail.filter (fun u => u.assets.length = 1)).map (fun u => assetSum t u.assets)).sum ≤
      (s.selected.map (fun u => assetSum t u.assets)).sum := by
  rw [perm_sum _ (hi.perm.filter _), List.filter_append, List.map_append, List.sum_append]
  have h1 : ((L.filter (fun u => u.assets.length = 1)).map (fun u => assetSum t u.assets)).sum = 0 := by
    apply List.sum_eq_zero
    intro y hy
    obtain ⟨u, hu, rfl⟩ := List.mem_map.mp hy
    obtain ⟨huL, hlen⟩ := List.mem_filter.mp hu
    simp only [decide_eq_true_eq] at hlen
    obtain ⟨a, ha⟩ := List.length_eq_one_iff.mp hlen
    by_cases hf : a.fingerprint = t
    · exfalso
      refine no_candidate ho hi.store hc (u := u) (mem_holders.mpr ⟨huL, ?_⟩) ⟨by omega, ?_⟩
      · unfold amountOf
        simp [htm, ha, hf]
      · rw [ha]; simpa using hf
    · simp [ha, assetSum_cons, hf]
  rw [h1, add_zero]
  have h2 : ∀ l : List Utxo, (∀ u ∈ l, 0 ≤ assetSum t u.assets) →
      ((l.filter (fun u => u.assets.length = 1)).map (fun u => assetSum t u.assets)).sum ≤
        (l.map (fun u => assetSum t u.assets)).sum := by
    intro l hl
    induction l with
    | nil => simp
    | cons u l ih =>
      have h3 := ih (fun w hw => hl w (by simp [hw]))
      have h4 := hl u (by simp)
      by_cases hu : u.assets.length = 1
      · simp only [List.filter_cons, hu, decide_true, if_true, List.map_cons, List.sum_cons]
        linarith
      · simp only [List.filter_cons, hu, decide_false, Bool.false_eq_true, if_false, List.map_cons, List.sum_cons]
        linarith
  exact h2 _ (fun u hu => assetSum_nonneg' (hq u (hi.perm.mem_iff.mpr (by simp [hu]))) t)

/-- Without a candidate for the main token, every UTxO without assets is selected. -/
theorem all_ada {avail L : List Utxo} {s : TS σ} {st : UStore} (ho : ∀ l, (W.ord l).Perm l)
    (hmt : W.cfg.main = mainToken) (hworth : ∀ u ∈ avail, cin ≤ u.value) (hi : SelInv avail L s st)
    (hc : candidate W st W.cfg.main = none) :
    ((avail.filter (fun u => u.assets.length = 0)).map (fun u => u.value - cin)).sum ≤
      (s.selected.map (·.value)).sum - cin * s.selected.length := by
  rw [perm_sum _ (hi.perm.filter _), List.filter_append, List.map_append, List.sum_append]
  have h1 : L.filter (fun u => u.assets.length = 0) = [] := by
    rw [List.filter_eq_nil_iff]
    intro u hu hlen
    simp only [decide_eq_true_eq] at hlen
    refine no_candidate ho hi.store hc (u := u) (mem_holders.mpr ⟨hu, ?_⟩) ⟨by omega, ?_⟩
    · unfold amountOf
      simp [hmt]
    · rw [List.length_eq_zero_iff.mp hlen]; simp
  rw [h1]
  simp only [List.map_nil, List.sum_nil, add_zero]
  have h2 : ∀ l : List Utxo, (∀ u ∈ l, cin ≤ u.value) →
      ((l.filter (fun u => u.assets.length = 0)).map (fun u => u.value - cin)).sum ≤
        (l.map (·.value)).sum - cin * l.length := by
    intro l hl
    induction l with
    | nil => simp
    | cons u l ih =>
      have h3 := ih (fun w hw => hl w (by simp [hw]))
      have h4 := hl u (by simp)
      by_cases hu : u.assets.length = 0
      · simp only [List.filter_cons, hu, decide_true, if_true, List.map_cons, List.sum_cons, List.length_cons,
          Nat.cast_add, Nat.cast_one]
        linarith
      · simp only [List.filter_cons, hu, decide_false, Bool.false_eq_true, if_false, List.map_cons, List.sum_cons,
          List.length_cons, Nat.cast_add, Nat.cast_one]
        linarith
  exact h2 _ (fun u hu => hworth u (hi.perm.mem_iff.mpr (by simp [hu])))

/-- What the changes can cost: one for each asset, each at most the maximum. -/
theorem Going.cost (hmax : 0 ≤ W.cfg.max) (hmin : 0 ≤ W.cfg.min) (hco : 0 ≤ cout) {s : TS σ}
    (h : Going E W req ids toks base bm cin cout m0 s) :
    0 ≤ changeValue s ∧ changeValue s + cout * s.changes.length ≤ toks.length * (W.cfg.max + cout) := by
  have hlen : s.changes.length ≤ toks.length := by
    have h1 : s.changes.keys.length ≤ toks.length := by
      refine (List.subperm_of_subset h.opened.nodup ?_).length_le
      intro t ht
      cases hg : s.changes.get t with
      | none => exact absurd ht ((AMap.get_eq_none_iff _ _).mp hg)
      | some o => exact (h.opened.changes t o hg).1
    simpa [AMap.keys] using h1
  have hval : ∀ m : AMap Token Output, (∀ kv ∈ m, 0 ≤ kv.2.value ∧ kv.2.value ≤ W.cfg.max) →
      0 ≤ mapSum (·.value) m ∧ mapSum (·.value) m ≤ m.length * W.cfg.max := by
    intro m hm
    induction m with
    | nil => simp [mapSum]
    | cons kv m ih =>
      obtain ⟨h1, h2⟩ := ih (fun x hx => hm x (by simp [hx]))
      obtain ⟨h3, h4⟩ := hm kv (by simp)
      unfold mapSum at *
      simp only [List.map_cons, List.sum_cons, List.length_cons, Nat.cast_add, Nat.cast_one]
      constructor <;> linarith
  obtain ⟨h1, h2⟩ := hval s.changes (by
    intro kv hkv
    have := (h.opened.changes kv.1 kv.2 (AMap.get_of_mem h.opened.nodup hkv)).2
    exact ⟨le_trans hmin this.low, this.high⟩)
  unfold changeValue
  rw [h.opened.extra]
  simp only [List.map_nil, List.sum_nil, add_zero]
  refine ⟨h1, ?_⟩
  have h3 : (s.changes.length : ℚ) ≤ toks.length := by exact_mod_cast hlen
  nlinarith

theorem ids_remove : ∀ (st st' : UStore) (p : Pointer), st.remove p = .ok st' → (∀ t, st.getAssetIds t = ids t) →
    ∀ t, st'.getAssetIds t = ids t := by
  intro st st' p hr h t
  unfold UStore.getAssetIds at *
  rw [remove_dictionary hr]; exact h t

theorem takes_going (ho : ∀ l, (W.ord l).Perm l) (hS : Sure E cin cout) (hmt : W.cfg.main = mainToken)
    {avail : List Utxo} (hq : ∀ u ∈ avail, ∀ a ∈ u.assets, 0 ≤ a.quantity) {T : Token → Prop}
    (hT : ∀ t, T t → t ∈ toks ∨ t = W.cfg.main) {s s' : TS σ} {st st' : UStore} {L : List Utxo}
    (h : Takes E W T s st s' st') (hi : SelInv avail L s st) (hids : ∀ t, st.getAssetIds t = ids t)
    (hp : Going E W req ids toks base bm cin cout m0 s) :
    Going E W req ids toks base bm cin cout m0 s' ∧ s'.changes = s.changes ∧ (∀ t, st'.getAssetIds t = ids t) ∧
      (∀ t, NoDebt t s → NoDebt t s') ∧ ∃ L', SelInv avail L' s' st' := by
  obtain ⟨⟨h1, h2, h3, h4⟩, h5⟩ := Takes.induct ho
    (fun sx stx => Going E W req ids toks base bm cin cout m0 sx ∧ sx.changes = s.changes ∧
      (∀ t, stx.getAssetIds t = ids t) ∧ ∀ t, NoDebt t s → NoDebt t sx)
    (fun L a sta t u est' st' hi hp ht hu _ hpl ha hr =>
      ⟨hp.1.take hS hmt hq hi (hT t ht) hu hpl ha, hp.2.1, ids_remove _ _ _ hr hp.2.2.1,
        fun t hd => (hp.2.2.2 t hd).addInput u est'⟩)
    h hi ⟨hp, rfl, hids, fun _ h => h⟩
  exact ⟨h1, h2, h3, h4, h5⟩

/-- The first round ends well if the UTxOs of a single asset hold enough. -/
theorem round1_sure (ho : ∀ l, (W.ord l).Perm l) (hS : Sure E cin cout) (hmt : W.cfg.main = mainToken)
    (hmm : W.cfg.min ≤ W.cfg.max) (hmain : mainToken ∉ toks) (haddr : req.address.isSome) {avail : List Utxo}
    (hq : ∀ u ∈ avail, ∀ a ∈ u.assets, 0 ≤ a.quantity)
    (hsuf : ∀ t ∈ toks, 0 ≤ base t +
      ((avail.filter (fun u => u.assets.length = 1)).map (fun u => assetSum t u.assets)).sum)
    {fuel : Nat} {ts : List Token} (hts : ∀ t ∈ ts, t ∈ toks) (hn : ts.Nodup) {s : TS σ} {st : UStore} {L : List Utxo}
    (hfresh : ∀ t ∈ ts, s.changes.get t = none)
    (hi : SelInv avail L s st) (hids : ∀ t, st.getAssetIds t = ids t)
    (hp : Going E W req ids toks base bm cin cout m0 s) :
    (∃ e, round1 E W req fuel ts s st = .error e ∧ Bad e) ∨
    ∃ s1 st1 L1, round1 E W req fuel ts s st = .ok (s1, st1) ∧ Going E W req ids toks base bm cin cout m0 s1 ∧
      SelInv avail L1 s1 st1 ∧ (∀ t, st1.getAssetIds t = ids t) ∧ (∀ t ∈ ts, NoDebt t s1) ∧
      ∀ t, NoDebt t s → NoDebt t s1 := by
  induction ts generalizing s st L with
  | nil => exact Or.inr ⟨s, st, L, rfl, hp, hi, hids, by simp, fun _ h => h⟩
  | cons t ts ih =>
    have ht := hts t (by simp)
    have htm : t ≠ mainToken := fun e => hmain (e ▸ ht)
    have hT : ∀ t', t' = t → t' ∈ toks ∨ t' = W.cfg.main := fun t' e => Or.inl (e ▸ ht)
    simp only [round1]
    cases hu : untilAsset E W t fuel s st with
    | error e =>
      left
      refine ⟨e, rfl, ?_⟩
      rcases untilAsset_error _ hu with hb | ⟨s1, st1, d, s2, h1, h2, h3⟩
      · exact hb
      · exfalso
        obtain ⟨g1, g2, _, _, L1, g3⟩ := takes_going ho hS hmt hq hT h1 hi hids hp
        have hc := selectInput_fails ho hS g3 h3
        have h4 := all_selected ho hq g3 htm hc
        have h5 := g1.no_change (t := t) (by rw [g2]; exact hfresh t (by simp))
        have h6 := g1.assets.net t
        have h7 : assetNet s1.assets t < 0 := by
          have hcur := currentOf_ok h2
          unfold assetNet
          rw [hcur]
          exact (g1.debts t _ hcur).net rfl
        have h8 := hsuf t ht
        linarith
    | ok x =>
      obtain ⟨s1, st1⟩ := x
      simp only
      obtain ⟨h1, b, hb1, hb2⟩ := untilAsset_ok _ hu
      obtain ⟨g1, g2, g3, g4, L1, g5⟩ := takes_going ho hS hmt hq hT h1 hi hids hp
      cases hx : balanceExcessOf E W req st1 t s1 with
      | error e => exact Or.inl ⟨e, rfl, balanceExcessOf_error hS haddr hx⟩
      | ok s2 =>
        simp only
        have k := balanceExcessOf_keeps hx
        rw [List.nodup_cons] at hn
        have hnd : NoDebt t s1 := ⟨b, currentOf_ok hb1, hb2⟩
        rcases ih (fun t' h' => hts t' (by simp [h'])) hn.2 (s := s2) (st := st1) (L := L1) (by
            intro t' ht'
            have hne : t' ≠ t := fun e => hn.1 (e ▸ ht')
            rw [(k.2.2.1 t' hne).2, g2]
            exact hfresh t' (by simp [ht'])) (g5.congr k.1) g3
            (g1.excess hS hmm (by rw [hmt]; exact hmain) g3 ht hx) with he | ⟨s3, st3, L3, e3, q1, q2, q3, q4, q5⟩
        · exact Or.inl he
        · refine Or.inr ⟨s3, st3, L3, e3, q1, q2, q3, ?_, fun t' hd => q5 t' (NoDebt.excess hx (g4 t' hd))⟩
          intro t' ht'
          rcases List.mem_cons.mp ht' with rfl | ht'
          · exact q5 _ (NoDebt.excess hx hnd)
          · exact q4 _ ht'

/-- The payment of the main token ends well if the UTxOs without assets are worth enough. -/
theorem untilMain_sure (ho : ∀ l, (W.ord l).Perm l) (hS : Sure E cin cout) (hmt : W.cfg.main = mainToken)
    (hmax : 0 ≤ W.cfg.max) (hmin : 0 ≤ W.cfg.min) (hci : 0 ≤ cin) (hco : 0 ≤ cout) (hm0 : 0 ≤ m0) {avail : List Utxo}
    (hq : ∀ u ∈ avail, ∀ a ∈ u.assets, 0 ≤ a.quantity) (hworth : ∀ u ∈ avail, cin ≤ u.value)
    (hsuf : m0 + toks.length * (W.cfg.max + cout) ≤
      bm + ((avail.filter (fun u => u.assets.length = 0)).map (fun u => u.value - cin)).sum)
    {fuel : Nat} {s : TS σ} {st : UStore} {L : List Utxo} (hi : SelInv avail L s st)
    (hids : ∀ t, st.getAssetIds t = ids t) (hp : Going E W req ids toks base bm cin cout m0 s) {e : SelErr}
    (h : untilMain E W fuel s st = .error e) : Bad e := by
  rcases untilMain_error hS _ h with hb | ⟨s1, st1, d, s2, h1, h2, h3⟩
  · exact hb
  · exfalso
    obtain ⟨g1, _, _, _, L1, g3⟩ := takes_going ho hS hmt hq (fun t e => Or.inr e) h1 hi hids hp
    have hc := selectInput_fails ho hS g3 h3
    have h4 := all_ada ho hmt hworth g3 hc
    obtain ⟨m, hm, hb⟩ := currentBalance_ok h2
    have hm0 : 0 ≤ m := by
      have e1 := hm
      rw [g1.fee] at e1; cases e1
      have e2 : 0 ≤ cin * (s1.selected.length : ℚ) := mul_nonneg hci (Nat.cast_nonneg _)
      have e3 : 0 ≤ cout * (s1.changes.length : ℚ) := mul_nonneg hco (Nat.cast_nonneg _)
      linarith
    have h5 : (s1.balance.subValue m).net < 0 := (g1.debt.sub hm0).net hb.symm
    rw [net_subValue, g1.main.net] at h5
    rw [g1.fee] at hm
    cases hm
    have h6 := g1.cost hmax hmin hco
    linarith [h6.2]

/-- A run that has to select something, and can, ends well. -/
theorem select_sure (ho : ∀ l, (W.ord l).Perm l) (hk : ∀ l, (W.keyOrder l).Perm l) (hS : Sure E cin cout)
    (hci : 0 ≤ cin) (hci' : cin < 2 ^ 64) (hco : 0 ≤ cout) (hco' : cout < 2 ^ 64) (hm0 : 0 ≤ m0)
    (hmt : W.cfg.main = mainToken) (hmm : W.cfg.min ≤ W.cfg.max) (hmin : 0 ≤ W.cfg.min)
    (haddr : req.address.isSome) (hout : req.outputs ≠ []) {avail : List Utxo} {s : TS σ} {st : UStore}
    (hq : ∀ u ∈ avail, ∀ a ∈ u.assets, 0 ≤ a.quantity) (hworth : ∀ u ∈ avail, cin ≤ u.value)
    (hmain : mainToken ∉ s.assets.keys) (hnk : s.assets.keys.Nodup)
    (hsufA : ∀ t ∈ s.assets.keys, 0 ≤ base t +
      ((avail.filter (fun u => u.assets.length = 1)).map (fun u => assetSum t u.assets)).sum)
    (hsufM : m0 + s.assets.keys.length * (W.cfg.max + cout) ≤
      bm + ((avail.filter (fun u => u.assets.length = 0)).map (fun u => u.value - cin)).sum)
    (hneed : bm < m0 ∨ ∃ t ∈ s.assets.keys, base t < 0)
    (hch : s.changes = []) (hi : SelInv avail avail s st)
    (hp : Going E W req st.getAssetIds (W.keyOrder s.assets.keys) base bm cin cout m0 s) {e : SelErr}
    (h : select E W req st s = .error e) : Bad e := by
  have hmax : 0 ≤ W.cfg.max := le_trans hmin hmm
  have hm' : mainToken ∉ W.keyOrder s.assets.keys := fun h => hmain ((hk _).mem_iff.mp h)
  unfold select at h
  rw [bind_error] at h
  rcases round1_sure (fuel := st.len + 1) ho hS hmt hmm hm' haddr hq
    (fun t ht => hsufA t ((hk _).mem_iff.mp ht)) (fun t h => h) ((hk _).nodup_iff.mpr hnk)
    (by rw [hch]; simp) hi (fun _ => rfl) hp with ⟨e1, he1, hb⟩ | ⟨s1, st1, L1, e1, g1, i1, q1, d1, _⟩
  · rcases h with h | ⟨_, h, _⟩
    · rw [he1] at h; cases h; exact hb
    · rw [he1] at h; cases h
  rcases h with h | ⟨x, hx, h⟩
  · rw [e1] at h; cases h
  rw [e1] at hx; cases hx
  simp only at h
  rw [bind_error] at h
  rcases h with h | ⟨⟨s2, st2⟩, h2, h⟩
  · exact untilMain_sure ho hS hmt hmax hmin hci hco hm0 hq hworth (by rw [(hk _).length_eq]; exact hsufM) i1 q1 g1 h
  obtain ⟨ht2, b, hb1, hb2⟩ := untilMain_ok _ h2
  obtain ⟨g2, _, _, d2, L2, i2⟩ := takes_going ho hS hmt hq (fun t e => Or.inr e) ht2 i1 q1 g1
  have hsel : s2.selected ≠ [] := by
    intro hemp
    rcases hneed with hlt | ⟨t, ht, hlt⟩
    · obtain ⟨m, hm, hle⟩ := feeOK_of_noDebt hb1 hb2
      rw [g2.fee] at hm
      cases hm
      rw [g2.main.net, hemp] at hle
      simp only [List.map_nil, List.sum_nil, List.length_nil, Nat.cast_zero] at hle
      have h3 := (g2.cost hmax hmin hco).1
      have h4 : 0 ≤ cout * (s2.changes.length : ℚ) := mul_nonneg hco (Nat.cast_nonneg _)
      linarith
    · obtain ⟨b, hb, hnd⟩ := d2 t (d1 t ((hk _).mem_iff.mpr ht))
      have h3 := g2.assets.net t
      rw [hemp] at h3
      simp only [List.map_nil, List.sum_nil] at h3
      have h4 : 0 ≤ assetNet s2.assets t := by
        unfold assetNet
        rw [hb]
        cases b with
        | debt v => simp [Balance.inDebt] at hnd
        | balanced => simp [Balance.net]
        | excess v => simp only [Option.getD_some, Balance.net]; exact le_of_lt (g2.opened.pos t v hb)
      have h5 : 0 ≤ changeAsset t s2 := by
        unfold changeAsset
        rw [g2.opened.extra]
        simp only [List.map_nil, List.sum_nil, add_zero]
        unfold mapSum
        apply List.sum_nonneg
        intro y hy
        obtain ⟨⟨k, o⟩, hko, rfl⟩ := List.mem_map.mp hy
        obtain ⟨_, hac⟩ := g2.opened.changes k o (AMap.get_of_mem g2.opened.nodup hko)
        obtain ⟨a, ha, _, _, hqa⟩ := hac.asset
        refine assetSum_nonneg' ?_ t
        intro a' ha'
        simp only [ha, List.mem_singleton] at ha'
        rw [ha']; exact le_of_lt hqa
      linarith
  simp only at h
  rw [bind_error] at h
  rcases h with h | ⟨⟨s3, st3⟩, _, h⟩
  · exact fill_error hS hci hci' hco hco' hout _ hsel h
  simp only at h
  rw [bind_error] at h
  rcases h with h | ⟨s4, _, h⟩
  · exact forTokens_bad (fun t s e => balanceExcessOf_error hS haddr) h
  rw [bind_error] at h
  rcases h with h | ⟨s5, _, h⟩
  · exact absurd h (balanceExcess_sure hS haddr)
  rw [bind_error] at h
  rcases h with h | ⟨s6, _, h⟩
  · exact forTokens_bad (fun t s e => splitOne_error hS) h
  · cases h

/-- The balance a run ends with is not in debt if it covers the fee. -/
theorem select_no_debt (ho : ∀ l, (W.ord l).Perm l) (hk : ∀ l, (W.keyOrder l).Perm l) (hS : Sure E cin cout)
    (hci : 0 ≤ cin) (hco : 0 ≤ cout) (hm0 : 0 ≤ m0) (hmt : W.cfg.main = mainToken) (hmm : W.cfg.min ≤ W.cfg.max)
    {avail : List Utxo} {s s' : TS σ} {st st' : UStore}
    (hq : ∀ u ∈ avail, ∀ a ∈ u.assets, 0 ≤ a.quantity)
    (hmain : mainToken ∉ s.assets.keys) (hi : SelInv avail avail s st)
    (hp : Going E W req st.getAssetIds (W.keyOrder s.assets.keys) base bm cin cout m0 s)
    (h : select E W req st s = .ok (s', st')) (hf : FeeOK E s') : ∀ v, s'.balance ≠ .debt v := by
  have hm' : W.cfg.main ∉ W.keyOrder s.assets.keys := by
    rw [hmt]; exact fun h => hmain ((hk _).mem_iff.mp h)
  obtain ⟨s2, st2, s3, L3, s4, s5, b, p2, d2, hb1, hb2, _, ht, p3, d3, i3, h4, p4, h5, h6⟩ :=
    select_phases (E := E) (req := req) ho (toks := W.keyOrder s.assets.keys)
      (fun x => Going E W req st.getAssetIds (W.keyOrder s.assets.keys) base bm cin cout m0 x)
      (fun x => ∀ t, x.getAssetIds t = st.getAssetIds t) ids_remove
      (fun L s st t u est' hi hp ht hu hh hpl ha => hp.take hS hmt hq hi ht hu hpl ha)
      (fun t a b st hq' ht he hp => hp.excess hS hmm hm' hq' ht he)
      (fun _ _ => True) (fun _ _ _ _ _ => trivial) (fun _ _ _ _ _ _ _ => trivial)
      (fun _ _ _ _ _ _ _ _ _ _ _ _ => trivial)
      h rfl (hk _) (by rw [hmt]; exact hmain) hi (fun _ => rfl) hp
  have h7 : DebtPos s5.balance ∧ ∃ m, E.minFee s5.est = .ok m ∧ 0 ≤ m := by
    have hfee : 0 ≤ m0 + cin * (s4.selected.length : ℚ) + cout * (s4.changes.length : ℚ) := by
      have e2 : 0 ≤ cin * (s4.selected.length : ℚ) := mul_nonneg hci (Nat.cast_nonneg _)
      have e3 : 0 ≤ cout * (s4.changes.length : ℚ) := mul_nonneg hco (Nat.cast_nonneg _)
      linarith
    obtain ⟨b, hb, ⟨rfl, _⟩ | ⟨x, addr, rfl, _, ⟨o, ho, rfl⟩ |
      ⟨hg, need, est, hneed, rfl | ⟨fee, est', _, hge, hao, rfl⟩⟩⟩⟩ := balanceExcess_ok h5
    · exact ⟨p4.debt, _, p4.fee, hfee⟩
    · obtain ⟨m, _, he⟩ := currentBalance_ok hb
      exact ⟨p4.debt.sub (le_of_lt (subValue_pos _ _ he.symm)), _, p4.fee, hfee⟩
    · exact ⟨p4.debt, _, (hS.minValue _ _ _ _ hneed).trans p4.fee, hfee⟩
    · obtain ⟨v, e1, h8, h9⟩ := hS.minValueOut s4.est { address := addr, value := x, assets := [] }
      rw [hneed] at h8
      cases h8
      exact ⟨p4.debt.sub (by linarith), _, hS.addOut _ _ _ _ hao ((hS.minValue _ _ _ _ hneed).trans p4.fee),
        by linarith⟩
  have h8 : DebtPos s'.balance ∧ ∃ m, E.minFee s'.est = .ok m ∧ 0 ≤ m := by
    refine forTokens_inv (fun x => DebtPos x.balance ∧ ∃ m, E.minFee x.est = .ok m ∧ 0 ≤ m) ?_ h6 h7
    intro t a b hs hd
    rcases splitOne_ok hs with rfl | ⟨ch, c, rest, fee, _, _, _, _, rfl⟩ |
      ⟨ch, as, as', fee, est', _, _, _, _, _, hao, rfl⟩
    · exact hd
    · exact hd
    · obtain ⟨m, e1, e2⟩ := hd.2
      exact ⟨hd.1.add _, _, hS.addOut _ _ _ _ hao e1, by linarith⟩
  intro v hv
  obtain ⟨m, hm, hle⟩ := hf
  obtain ⟨h8, m', e1, e2⟩ := h8
  rw [hm] at e1; cases e1
  have := h8.net hv
  linarith

end

end Verif.Selection.Thermostat
