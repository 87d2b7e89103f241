import Verif.Selection.ThermostatLemmas

/-!
# Invariants of the thermostat
-/

namespace Verif.Selection.Thermostat

open Verif Verif.Core

section

variable {σ : Type} {E : Estimator σ} {W : World} {req : Request}

/-- The UTxO holds at most one asset, and only the given one. -/
def Plain (t : Token) (u : Utxo) : Prop := u.assets.length ≤ 1 ∧ ∀ a ∈ u.assets, a.fingerprint = t

theorem candidate_spec (ho : ∀ l, (W.ord l).Perm l) {L : List Utxo} {st : UStore} (h : StoreOK L st)
    {t : Token} {u : Utxo} (hc : candidate W st t = some u) : u ∈ holders t L ∧ Plain t u := by
  unfold candidate at hc
  have h1 := List.mem_of_find?_eq_some hc
  have h2 := List.find?_some hc
  refine ⟨(descending_perm ho h t).mem_iff.mp h1, ?_⟩
  simp only [Bool.and_eq_true, decide_eq_true_eq, List.all_eq_true] at h2
  exact h2

/-- Chosen and available inputs make up what was available at the start. -/
structure SelInv (avail L : List Utxo) (s : TS σ) (st : UStore) : Prop where
  store : StoreOK L st
  perm : avail.Perm (s.selected ++ L)

theorem remove_of_mem {L : List Utxo} {st : UStore} (h : StoreOK L st) {u : Utxo} (hu : u ∈ L) :
    ∃ st', st.remove u.ptr = .ok st' ∧ StoreOK (L.filter (fun w => w.ptr ≠ u.ptr)) st' := by
  have hc := h.contents.remove u.ptr
  rw [if_pos (List.mem_map.mpr ⟨u, hu, rfl⟩)] at hc
  obtain ⟨st', hr, _⟩ := hc
  exact ⟨st', hr, h.remove hr⟩

/-- A take with its meaning. -/
theorem Take.spec (ho : ∀ l, (W.ord l).Perm l) {T : Token → Prop} {s s' : TS σ} {st st' : UStore}
    {avail L : List Utxo} (h : Take E W T s st s' st') (hi : SelInv avail L s st) :
    ∃ t u est', T t ∧ u ∈ L ∧ u ∈ holders t L ∧ Plain t u ∧ E.addIn s.est u = .ok est' ∧
      s' = addInput { s with est := est' } u ∧ st.remove u.ptr = .ok st' ∧
      SelInv avail (L.filter (fun w => w.ptr ≠ u.ptr)) s' st' := by
  cases h with
  | take ht hc ha hr =>
    rename_i t u est'
    obtain ⟨h1, h2⟩ := candidate_spec ho hi.store hc
    have hu := (mem_holders.mp h1).1
    obtain ⟨st1, hr1, hs1⟩ := remove_of_mem hi.store hu
    rw [hr] at hr1; cases hr1
    refine ⟨t, u, est', ht, hu, h1, h2, ha, rfl, hr, hs1, ?_⟩
    refine hi.perm.trans ?_
    simp only [addInput, List.append_assoc, List.singleton_append]
    exact List.Perm.append_left _ (perm_cons_filter hi.store.contents.nodup hu)
  | lost ht hc ha hr =>
    obtain ⟨h1, h2⟩ := candidate_spec ho hi.store hc
    obtain ⟨st1, hr1, _⟩ := remove_of_mem hi.store (mem_holders.mp h1).1
    rw [hr] at hr1; cases hr1

theorem Takes.mono {T T' : Token → Prop} (hT : ∀ t, T t → T' t) {s s' : TS σ} {st st' : UStore}
    (h : Takes E W T s st s' st') : Takes E W T' s st s' st' := by
  induction h with
  | refl => exact .refl
  | head h _ ih =>
    refine .head ?_ ih
    cases h with
    | take ht hc ha hr => exact .take (hT _ ht) hc ha hr
    | lost ht hc ha hr => exact .lost (hT _ ht) hc ha hr

/-- Induction over takes. -/
theorem Takes.induct (ho : ∀ l, (W.ord l).Perm l) {T : Token → Prop} {avail : List Utxo}
    (P : TS σ → UStore → Prop)
    (step : ∀ L s st t u est' st', SelInv avail L s st → P s st → T t → u ∈ L → u ∈ holders t L →
      Plain t u → E.addIn s.est u = .ok est' → st.remove u.ptr = .ok st' →
      P (addInput { s with est := est' } u) st')
    {s s' : TS σ} {st st' : UStore} {L : List Utxo} (h : Takes E W T s st s' st')
    (hi : SelInv avail L s st) (hp : P s st) : P s' st' ∧ ∃ L', SelInv avail L' s' st' := by
  induction h generalizing L with
  | refl => exact ⟨hp, L, hi⟩
  | head h _ ih =>
    obtain ⟨t, u, est', ht, hu, hh, hpl, ha, rfl, hr, hi'⟩ := h.spec ho hi
    exact ih hi' (step _ _ _ _ _ _ _ hi hp ht hu hh hpl ha hr)

/-! ### Who changes what -/

theorem openChange_keeps {t : Token} {addr : Nat} {w : ℚ} {s s1 : TS σ} {o : Output}
    (h : openChange E t addr w s = .ok (s1, o)) :
    s1.changes = s.changes ∧ s1.extra = s.extra ∧ s1.selected = s.selected ∧ s1.assets = s.assets :=
  have := openChange_main h
  ⟨this.2.1, this.2.2.1, this.2.2.2.1, this.2.2.2.2.1⟩

theorem balanceExcessOf_keeps {st : UStore} {t : Token} {s s' : TS σ}
    (h : balanceExcessOf E W req st t s = .ok s') :
    s'.selected = s.selected ∧ s'.extra = s.extra ∧
    (∀ t', t' ≠ t → s'.assets.get t' = s.assets.get t' ∧ s'.changes.get t' = s.changes.get t') ∧
    (∀ t', (s.changes.get t').isSome → (s'.changes.get t').isSome) ∧
    (∀ t', t' ∈ s'.assets.keys ↔ t' ∈ s.assets.keys) := by
  rcases balanceExcessOf_ok h with ⟨rfl, _⟩ | ⟨x, addr, b, s1, o, o1, hc, _, _, h2, h3, rfl⟩
  · exact ⟨rfl, rfl, fun _ _ => ⟨rfl, rfl⟩, fun _ h => h, fun _ => Iff.rfl⟩
  · obtain ⟨h5, h6, h7, h8⟩ := openChange_keeps h2
    refine ⟨h7, h6, ?_, ?_, ?_⟩
    · intro t' ht
      simp only [adjust, AMap.get_insert, if_neg (Ne.symm ht), h5, h8, and_self]
    · intro t' ht
      simp only [AMap.get_insert, h5]
      split
      · rfl
      · exact ht
    · intro t'
      have hmem : t ∈ s.assets.keys := by
        by_contra hn
        unfold currentOf at hc
        rw [(AMap.get_eq_none_iff _ _).mpr hn] at hc
        split at hc <;> cases hc
      simp only [adjust, h8]
      rw [AMap.keys_insert]
      simp [hmem]

theorem balanceExcess_keeps {s s' : TS σ} (h : balanceExcess E W req s = .ok s') :
    s'.selected = s.selected ∧ s'.extra = s.extra ∧ s'.assets = s.assets ∧
    (∀ t', t' ≠ W.cfg.main → s'.changes.get t' = s.changes.get t') := by
  obtain ⟨b, _, ⟨rfl, _⟩ | ⟨x, addr, _, _, ⟨o, ho, rfl⟩ |
    ⟨hg, need, est, _, rfl | ⟨fee, est', _, _, _, rfl⟩⟩⟩⟩ := balanceExcess_ok h
  · exact ⟨rfl, rfl, rfl, fun _ _ => rfl⟩
  · exact ⟨rfl, rfl, rfl, fun t' ht => by simp only [AMap.get_insert, if_neg (Ne.symm ht)]⟩
  · exact ⟨rfl, rfl, rfl, fun _ _ => rfl⟩
  · exact ⟨rfl, rfl, rfl, fun t' ht => by simp only [AMap.get_insert, if_neg (Ne.symm ht)]⟩

theorem splitOne_keeps {st : UStore} {t : Token} {s s' : TS σ} (h : splitOne E W st t s = .ok s') :
    s'.selected = s.selected ∧ s'.assets = s.assets ∧
    (∀ t', t' ≠ t → s'.changes.get t' = s.changes.get t') := by
  rcases splitOne_ok h with rfl | ⟨ch, a, rest, fee, hg, has, _, _, rfl⟩ |
    ⟨ch, as, as', fee, est', hg, _, _, _, _, _, rfl⟩
  · exact ⟨rfl, rfl, fun _ _ => rfl⟩
  · exact ⟨rfl, rfl, fun t' ht => by simp only [AMap.get_insert, if_neg (Ne.symm ht)]⟩
  · exact ⟨rfl, rfl, fun t' ht => by simp only [splitState, AMap.get_insert, if_neg (Ne.symm ht)]⟩

theorem SelInv.congr {avail L : List Utxo} {s s' : TS σ} {st : UStore} (h : SelInv avail L s st)
    (e : s'.selected = s.selected) : SelInv avail L s' st := ⟨h.store, e ▸ h.perm⟩

/-! ### A general induction over a run -/

theorem adjustAll_keys (f : Asset → Balance → Balance) (as : List Asset) (m : AMap Token Balance) (t : Token) :
    t ∈ (as.foldl (fun m a => adjust (f a) m a.fingerprint) m).keys ↔
      t ∈ m.keys ∨ ∃ a ∈ as, a.fingerprint = t := by
  induction as generalizing m with
  | nil => simp
  | cons a as ih =>
    rw [List.foldl_cons, ih]
    have : t ∈ (adjust (f a) m a.fingerprint).keys ↔ t ∈ m.keys ∨ a.fingerprint = t := by
      unfold adjust
      rw [AMap.keys_insert]
      split
      · rename_i h
        constructor
        · exact Or.inl
        · rintro (h' | rfl)
          · exact h'
          · exact h
      · simp [eq_comm]
    rw [this]
    simp only [List.mem_cons, exists_eq_or_imp]
    tauto

theorem addInput_keys (s : TS σ) (est' : σ) (u : Utxo) (t : Token) :
    t ∈ (addInput { s with est := est' } u).assets.keys ↔
      t ∈ s.assets.keys ∨ ∃ a ∈ u.assets, a.fingerprint = t :=
  adjustAll_keys _ _ _ _

theorem lastTokens_eq {a2 a3 : AMap Token Balance} {toks : List Token} (hm : W.cfg.main ∉ toks)
    (h2 : toks ≠ [] → a2 ≠ []) (h3 : toks ≠ [] → a3 ≠ []) :
    lastTokens W a3 (fillTokens W a2 toks) = toks := by
  cases toks with
  | nil => simp [lastTokens, fillTokens]
  | cons t ts =>
    have e2 : a2.isEmpty = false := by simp [h2 (by simp)]
    have e3 : a3.isEmpty = false := by simp [h3 (by simp)]
    have : t ≠ W.cfg.main := fun e => hm (by simp [e])
    simp [lastTokens, fillTokens, e2, e3, this]

theorem mem_fillTokens {a2 : AMap Token Balance} {toks : List Token} {t : Token}
    (h : t ∈ fillTokens W a2 toks) : t ∈ toks ∨ t = W.cfg.main := by
  unfold fillTokens at h
  split at h
  · simpa using h
  · exact Or.inl h

/-- Round one, step by step. -/
theorem round1_induct (ho : ∀ l, (W.ord l).Perm l) {avail : List Utxo} {toks : List Token}
    (P : TS σ → Prop) (Q : UStore → Prop) (hQ : ∀ st st' p, st.remove p = .ok st' → Q st → Q st')
    (take : ∀ L s st t u est', SelInv avail L s st → P s → (t ∈ toks ∨ t = W.cfg.main) → u ∈ L →
      u ∈ holders t L → Plain t u → E.addIn s.est u = .ok est' → P (addInput { s with est := est' } u))
    (excess : ∀ t s s' st, Q st → t ∈ toks → balanceExcessOf E W req st t s = .ok s' → P s → P s')
    (D : Token → TS σ → Prop)
    (keep : ∀ t s u est', D t s → D t (addInput { s with est := est' } u))
    (keep' : ∀ t t' s s' st, balanceExcessOf E W req st t' s = .ok s' → D t s → D t s')
    (done : ∀ L t s s' st b, t ∈ toks → SelInv avail L s st → P s → currentOf W s t = .ok b →
      b.inDebt = false → balanceExcessOf E W req st t s = .ok s' → D t s')
    {fuel : Nat} {ts : List Token} (hts : ∀ t ∈ ts, t ∈ toks) {s s1 : TS σ} {st st1 : UStore}
    {L : List Utxo} (h : round1 E W req fuel ts s st = .ok (s1, st1))
    (hi : SelInv avail L s st) (hq : Q st) (hp : P s) :
    P s1 ∧ Q st1 ∧ (∃ L', SelInv avail L' s1 st1) ∧ (∀ t ∈ ts, D t s1) ∧ (∀ t, D t s → D t s1) := by
  induction ts generalizing s st L with
  | nil => cases h; exact ⟨hp, hq, ⟨L, hi⟩, by simp, fun _ h => h⟩
  | cons t ts ih =>
    simp only [round1] at h
    split at h
    · cases h
    · rename_i sa sta ha
      split at h
      · cases h
      · rename_i sb hb
        obtain ⟨htk, b, hb1, hb2⟩ := untilAsset_ok _ ha
        obtain ⟨⟨q1, q3, q4⟩, La, q2⟩ := Takes.induct ho (fun sx stx => P sx ∧ (∀ t, D t s → D t sx) ∧ Q stx)
          (fun L s st t' u est' _ hi hp ht hu hh hpl ha hr =>
            ⟨take L s st t' u est' hi hp.1 (Or.inl (by rw [ht]; exact hts t (by simp))) hu hh hpl ha,
             fun t hd => keep _ _ _ _ (hp.2.1 t hd), hQ _ _ _ hr hp.2.2⟩)
          htk hi ⟨hp, fun _ h => h, hq⟩
        obtain ⟨r1, rq, r2, r3, r4⟩ := ih (fun t' h' => hts t' (by simp [h'])) h
          (q2.congr (balanceExcessOf_keeps hb).1) q4 (excess _ _ _ _ q4 (hts t (by simp)) hb q1)
        refine ⟨r1, rq, r2, ?_, fun t' hd => r4 _ (keep' _ _ _ _ _ hb (q3 _ hd))⟩
        intro t' ht'
        rcases List.mem_cons.mp ht' with rfl | ht'
        · exact r4 _ (done La _ _ _ _ b (hts _ (by simp)) q2 q1 hb1 hb2 hb)
        · exact r3 _ ht'

/-- The second round, step by step. -/
theorem round2_induct {toks : List Token} (P : TS σ → Prop) (D : Token → TS σ → Prop) {st : UStore}
    (excess : ∀ t s s', t ∈ toks → balanceExcessOf E W req st t s = .ok s' → P s → P s')
    (keep : ∀ t t' s s', balanceExcessOf E W req st t' s = .ok s' → D t s → D t s')
    (done : ∀ t s s', t ∈ toks → P s → balanceExcessOf E W req st t s = .ok s' → D t s')
    {ts : List Token} (hts : ∀ t ∈ ts, t ∈ toks) {s s1 : TS σ}
    (h : forTokens (balanceExcessOf E W req st) ts s = .ok s1) (hp : P s) :
    P s1 ∧ (∀ t ∈ ts, D t s1) ∧ (∀ t, D t s → D t s1) := by
  induction ts generalizing s with
  | nil => cases h; exact ⟨hp, by simp, fun _ h => h⟩
  | cons t ts ih =>
    simp only [forTokens] at h
    split at h
    · cases h
    · rename_i sb hb
      obtain ⟨r1, r3, r4⟩ := ih (fun t' h' => hts t' (by simp [h'])) h
        (excess _ _ _ (hts t (by simp)) hb hp)
      refine ⟨r1, ?_, fun t' hd => r4 _ (keep _ _ _ _ hb hd)⟩
      intro t' ht'
      rcases List.mem_cons.mp ht' with rfl | ht'
      · exact r4 _ (done _ _ _ (hts _ (by simp)) hp hb)
      · exact r3 _ ht'

/-- The phases of a run with an invariant `P`, kept by every step before the split; `D` is what round
one achieves for each asset. `Q` is kept by the store when UTxOs are removed. -/
theorem select_phases (ho : ∀ l, (W.ord l).Perm l) {avail : List Utxo} {toks : List Token}
    (P : TS σ → Prop) (Q : UStore → Prop) (hQ : ∀ st st' p, st.remove p = .ok st' → Q st → Q st')
    (take : ∀ L s st t u est', SelInv avail L s st → P s → (t ∈ toks ∨ t = W.cfg.main) → u ∈ L →
      u ∈ holders t L → Plain t u → E.addIn s.est u = .ok est' → P (addInput { s with est := est' } u))
    (excess : ∀ t s s' st, Q st → t ∈ toks → balanceExcessOf E W req st t s = .ok s' → P s → P s')
    (D : Token → TS σ → Prop)
    (keep : ∀ t s u est', D t s → D t (addInput { s with est := est' } u))
    (keep' : ∀ t t' s s' st, balanceExcessOf E W req st t' s = .ok s' → D t s → D t s')
    (done : ∀ L t s s' st b, t ∈ toks → SelInv avail L s st → P s → currentOf W s t = .ok b →
      b.inDebt = false → balanceExcessOf E W req st t s = .ok s' → D t s')
    {s s' : TS σ} {st st' : UStore} {L : List Utxo} (h : select E W req st s = .ok (s', st'))
    (htoks : toks = W.keyOrder s.assets.keys) (hperm : (W.keyOrder s.assets.keys).Perm s.assets.keys)
    (hmain : W.cfg.main ∉ s.assets.keys)
    (hi : SelInv avail L s st) (hq : Q st) (hp : P s) :
    ∃ s2 st2 s3 L3 s4 s5 b, P s2 ∧ (∀ t ∈ toks, D t s2) ∧ currentBalance E s2 = .ok b ∧ b.inDebt = false ∧
      (∃ L2, SelInv avail L2 s2 st2) ∧
      Takes E W (fun t => t ∈ toks ∨ t = W.cfg.main) s2 st2 s3 st' ∧
      P s3 ∧ (∀ t ∈ toks, D t s3) ∧ SelInv avail L3 s3 st' ∧
      forTokens (balanceExcessOf E W req st') toks s3 = .ok s4 ∧ P s4 ∧
      balanceExcess E W req s4 = .ok s5 ∧
      forTokens (splitOne E W st') (W.changeOrder s5.changes.keys) s5 = .ok s' := by
  subst htoks
  obtain ⟨s1, st1, s2, st2, s3, s4, s5, h1, h2, h3, h4, h5, h6⟩ := select_ok h
  have mono : ∀ (t : Token) (s0 : TS σ) (u : Utxo) (est' : σ), t ∈ s0.assets.keys →
      t ∈ (addInput { s0 with est := est' } u).assets.keys :=
    fun t s0 u est' h => (addInput_keys _ _ _ _).mpr (Or.inl h)
  obtain ⟨⟨p1, k1⟩, q1, ⟨L1, i1⟩, d1, _⟩ := round1_induct ho
    (fun sx => P sx ∧ ∀ t ∈ s.assets.keys, t ∈ sx.assets.keys) Q hQ
    (fun L s st t u est' hi hp ht hu hh hpl ha =>
      ⟨take L s st t u est' hi hp.1 ht hu hh hpl ha, fun t ht => mono _ _ _ _ (hp.2 t ht)⟩)
    (fun t s s' st hq ht he hp => ⟨excess t s s' st hq ht he hp.1,
      fun t ht => ((balanceExcessOf_keeps he).2.2.2.2 t).mpr (hp.2 t ht)⟩)
    D keep keep' (fun L t s s' st b ht hi hp => done L t s s' st b ht hi hp.1) (fun t h => h) h1 hi hq
    ⟨hp, fun t h => h⟩
  obtain ⟨ht2, b, hb1, hb2⟩ := untilMain_ok _ h2
  obtain ⟨⟨p2, k2, d2, q2⟩, L2, i2⟩ := Takes.induct ho
    (fun sx stx => P sx ∧ (∀ t ∈ s.assets.keys, t ∈ sx.assets.keys) ∧
      (∀ t ∈ W.keyOrder s.assets.keys, D t sx) ∧ Q stx)
    (fun L s st t u est' _ hi hp ht hu hh hpl ha hr =>
      ⟨take L s st t u est' hi hp.1 (Or.inr ht) hu hh hpl ha, fun t ht => mono _ _ _ _ (hp.2.1 t ht),
        fun t ht => keep _ _ _ _ (hp.2.2.1 t ht), hQ _ _ _ hr hp.2.2.2⟩)
    ht2 i1 ⟨p1, k1, d1, q1⟩
  obtain ⟨⟨p3, k3, d3, q3⟩, L3, i3⟩ := Takes.induct ho
    (fun sx stx => P sx ∧ (∀ t ∈ s.assets.keys, t ∈ sx.assets.keys) ∧
      (∀ t ∈ W.keyOrder s.assets.keys, D t sx) ∧ Q stx)
    (fun L s st t u est' _ hi hp ht hu hh hpl ha hr =>
      ⟨take L s st t u est' hi hp.1 (mem_fillTokens ht) hu hh hpl ha,
        fun t ht => mono _ _ _ _ (hp.2.1 t ht),
        fun t ht => keep _ _ _ _ (hp.2.2.1 t ht), hQ _ _ _ hr hp.2.2.2⟩)
    h3 i2 ⟨p2, k2, d2, q2⟩
  have ne : ∀ a : AMap Token Balance, (∀ t ∈ s.assets.keys, t ∈ a.keys) →
      W.keyOrder s.assets.keys ≠ [] → a ≠ [] := by
    rintro a ha hne rfl
    cases hk : W.keyOrder s.assets.keys with
    | nil => exact hne hk
    | cons t ts =>
      have : t ∈ s.assets.keys := hperm.mem_iff.mp (by rw [hk]; simp)
      have := ha t this
      simp at this
  rw [lastTokens_eq (fun hm => hmain (hperm.mem_iff.mp hm)) (ne _ k2) (ne _ k3)] at h4
  obtain ⟨p4, _, _⟩ := round2_induct P (fun _ _ => True) (fun t s s' ht he hp => excess t s s' _ q3 ht he hp)
    (fun _ _ _ _ _ _ => trivial) (fun _ _ _ _ _ _ => trivial) (fun t h => h) h4 p3
  refine ⟨s2, st2, s3, L3, s4, s5, b, p2, d2, hb1, hb2, ⟨L2, i2⟩, ?_, p3, d3, i3, h4, p4, h5, h6⟩
  exact h3.mono (fun t ht => mem_fillTokens ht)

end

end Verif.Selection.Thermostat
