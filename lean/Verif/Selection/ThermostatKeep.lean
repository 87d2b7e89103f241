import Verif.Selection.ThermostatSize

/-!
# Why the thermostat takes an input, and when it stops

An input is taken because its token is owed, or because more UTxOs with the token are left than the configured number.
-/

namespace Verif.Selection.Thermostat

open Verif Verif.Core

variable {σ : Type} {E : Estimator σ} {W : World} {req : Request}

theorem number_eq {L : List Utxo} {st : UStore} (h : StoreOK L st) (t : Token) :
    st.numberUtxosForToken t = (holders t L).length := by
  unfold UStore.numberUtxosForToken
  by_cases he : holders t L = []
  · rw [(h.token t).1 he, he]; simp
  · obtain ⟨s, hs, hok⟩ := (h.token t).2 he
    simp [hs, USet.len, hok.set_eq, ptrMap]

/-- Every selected UTxO with a token of `T` was needed when it was taken, or `n` others with the token were left. -/
def Reason (avail : List Utxo) (n : Nat) (T : Token → Prop) (need : Token → List Utxo → Prop) (sel : List Utxo) : Prop :=
  ∀ l u l', sel = l ++ u :: l' → ∀ t, T t → (amountOf t u).isSome →
    need t l ∨ n + 1 + (holders t l).length ≤ (holders t avail).length

theorem Reason.append {avail : List Utxo} {n : Nat} {T : Token → Prop} {need : Token → List Utxo → Prop}
    {sel : List Utxo} (h : Reason avail n T need sel) {u : Utxo}
    (hu : ∀ t, T t → (amountOf t u).isSome → need t sel ∨ n + 1 + (holders t sel).length ≤ (holders t avail).length) :
    Reason avail n T need (sel ++ [u]) := by
  intro l w l' e t ht hw
  rcases List.eq_nil_or_concat l' with rfl | ⟨m, x, rfl⟩
  · have := List.append_inj' e rfl
    obtain ⟨rfl, e2⟩ := this
    cases e2
    exact hu t ht hw
  · rw [List.concat_eq_append, ← List.cons_append, ← List.append_assoc] at e
    exact h l w m (List.append_inj' e rfl).1 t ht hw

theorem Plain.not_held {t t' : Token} {u : Utxo} (h : Plain t u) (hne : t' ≠ t) (hm : t' ≠ mainToken) :
    ¬ (amountOf t' u).isSome := by
  unfold amountOf
  rw [if_neg hm]
  simp only [Option.isSome_map, List.find?_isSome, decide_eq_true_eq, not_exists, not_and]
  intro a ha e
  exact hne (e ▸ h.2 a ha)

/-- A token for which no change was made yet: its balance is what is selected and owed. -/
def Fresh (base : Token → ℚ) (s : TS σ) (t : Token) : Prop :=
  (∀ b, s.assets.get t = some b → DebtPos b) ∧
    assetNet s.assets t = base t + (s.selected.map (fun u => assetSum t u.assets)).sum

theorem adjustAll_debts (as : List Asset) (m : AMap Token Balance) (t : Token) (h : ∀ b, m.get t = some b → DebtPos b) :
    ∀ b, (as.foldl (fun m a => adjust (·.addValue a.quantity) m a.fingerprint) m).get t = some b → DebtPos b := by
  induction as generalizing m with
  | nil => exact h
  | cons a as ih =>
    rw [List.foldl_cons]
    apply ih
    intro b hb
    unfold adjust at hb
    rw [AMap.get_insert] at hb
    split at hb
    · rename_i e
      cases hb
      apply DebtPos.add
      cases hg : m.get a.fingerprint with
      | none => intro v hv; cases hv
      | some b => exact h b (e ▸ hg)
    · exact h b hb

theorem Fresh.addInput {base : Token → ℚ} {s : TS σ} {t : Token} (h : Fresh base s t) (u : Utxo) (est' : σ) :
    Fresh base (addInput { s with est := est' } u) t := by
  refine ⟨adjustAll_debts _ _ _ h.1, ?_⟩
  simp only [Thermostat.addInput, List.map_append, List.sum_append, List.map_cons, List.map_nil, List.sum_cons, List.sum_nil]
  rw [adjustAll_net, h.2]
  ring

theorem Fresh.excess {base : Token → ℚ} {s s' : TS σ} {t t' : Token} {st : UStore} (h : Fresh base s t) (hne : t ≠ t')
    (he : balanceExcessOf E W req st t' s = .ok s') : Fresh base s' t := by
  obtain ⟨h1, _, h2, _⟩ := balanceExcessOf_keeps he
  have h3 := (h2 t hne).1
  refine ⟨by rw [h3]; exact h.1, ?_⟩
  unfold assetNet
  rw [h3, h1]
  exact h.2

theorem net_debt {b : Balance} {d : ℚ} (h : b = .debt d) (hp : DebtPos b) : b.net < 0 := by
  have := hp d h
  subst h
  change -d < 0
  linarith

/-- What the assets owe. -/
def owed (base : Token → ℚ) (t : Token) (l : List Utxo) : Prop :=
  base t + (l.map (fun u => assetSum t u.assets)).sum < 0

theorem untilAsset_reason (ho : ∀ l, (W.ord l).Perm l) {avail : List Utxo} {base : Token → ℚ} {n : Nat} {t : Token}
    (fuel : Nat) {s s' : TS σ} {st st' : UStore} {L : List Utxo}
    (h : untilAsset E W t fuel s st = .ok (s', st')) (hi : SelInv avail L s st) {X : Token → Prop} (ht : X t)
    (hX : ∀ x, X x → Fresh base s x) (hr : Reason avail n (· ≠ mainToken) (owed base) s.selected) :
    Reason avail n (· ≠ mainToken) (owed base) s'.selected ∧ (∃ L', SelInv avail L' s' st') ∧
      ∀ x, X x → Fresh base s' x := by
  induction fuel generalizing s st L with
  | zero =>
    unfold untilAsset at h
    cases hc : currentOf W s t with
    | error e => simp [hc] at h
    | ok b => cases b <;> simp only [hc] at h <;> cases h <;> exact ⟨hr, ⟨L, hi⟩, hX⟩
  | succ fuel ih =>
    unfold untilAsset at h
    cases hc : currentOf W s t with
    | error e => simp [hc] at h
    | ok b =>
      cases b with
      | debt v =>
        simp only [hc] at h
        split at h
        · rename_i s1 st1 hsel
          obtain ⟨t', u, est', ht', hu, hh, hpl, ha, rfl, hrm, hi'⟩ :=
            (selectInput_ok (T := (· = t)) rfl hsel).spec ho hi
          subst ht'
          refine ih h hi' (fun x hx => (hX x hx).addInput u est') ?_
          refine hr.append (fun x hx hheld => ?_)
          by_cases e : x = t'
          · subst e
            left
            have hg := currentOf_ok hc
            have h1 := net_debt rfl ((hX x ht).1 _ hg)
            have h2 := (hX x ht).2
            unfold assetNet at h2
            rw [hg] at h2
            unfold owed
            rw [← h2]
            exact h1
          · exact absurd hheld (hpl.not_held e hx)
        · cases h
      | balanced => simp only [hc] at h; cases h; exact ⟨hr, ⟨L, hi⟩, hX⟩
      | excess v => simp only [hc] at h; cases h; exact ⟨hr, ⟨L, hi⟩, hX⟩

theorem round1_reason (ho : ∀ l, (W.ord l).Perm l) {avail : List Utxo} {base : Token → ℚ} {n : Nat} {fuel : Nat}
    {ts : List Token} (hn : ts.Nodup) {s s' : TS σ} {st st' : UStore} {L : List Utxo}
    (h : round1 E W req fuel ts s st = .ok (s', st')) (hi : SelInv avail L s st)
    (hX : ∀ x ∈ ts, Fresh base s x) (hr : Reason avail n (· ≠ mainToken) (owed base) s.selected) :
    Reason avail n (· ≠ mainToken) (owed base) s'.selected ∧ ∃ L', SelInv avail L' s' st' := by
  induction ts generalizing s st L with
  | nil => cases h; exact ⟨hr, L, hi⟩
  | cons t ts ih =>
    simp only [round1] at h
    split at h
    · cases h
    · rename_i sa sta ha
      split at h
      · cases h
      · rename_i sb hb
        obtain ⟨r1, ⟨La, ia⟩, x1⟩ := untilAsset_reason ho _ ha hi (X := (· ∈ t :: ts)) (by simp) hX hr
        have hk := (balanceExcessOf_keeps hb).1
        have hn' := List.nodup_cons.mp hn
        refine ih hn'.2 h (ia.congr hk) (fun x hx => (x1 x (by simp [hx])).excess ?_ hb) (by rw [hk]; exact r1)
        rintro rfl
        exact hn'.1 hx

/-- Taking UTxOs of the main token only adds such without other assets. -/
theorem takes_main_reason (ho : ∀ l, (W.ord l).Perm l) {avail : List Utxo} {n : Nat}
    {need : Token → List Utxo → Prop} {s s' : TS σ} {st st' : UStore} {L : List Utxo}
    (h : Takes E W (· = mainToken) s st s' st') (hi : SelInv avail L s st)
    (hr : Reason avail n (· ≠ mainToken) need s.selected) :
    Reason avail n (· ≠ mainToken) need s'.selected ∧ ∃ L', SelInv avail L' s' st' :=
  Takes.induct ho (fun sx _ => Reason avail n (· ≠ mainToken) need sx.selected)
    (fun _ _ _ t u _ _ _ hp ht _ _ hpl _ _ => hp.append (fun x hx hheld =>
      absurd hheld (hpl.not_held (by rw [ht]; exact hx) hx))) h hi hr

/-- Nothing more is taken of a token: `n` UTxOs with it are left at most, or none that holds only it. -/
def Done (n : Nat) (t : Token) (L : List Utxo) : Prop :=
  (holders t L).length ≤ n ∨ ∀ u ∈ holders t L, ¬ Plain t u

theorem Done.mono {n : Nat} {t : Token} {L L' : List Utxo} (h : Done n t L) (hs : L'.Sublist L) : Done n t L' := by
  have h1 : (holders t L').Sublist (holders t L) := hs.filter _
  rcases h with h | h
  · exact Or.inl (le_trans h1.length_le h)
  · exact Or.inr (fun u hu => h u (h1.subset hu))

/-- The filling loop. -/
theorem fill_reason (ho : ∀ l, (W.ord l).Perm l) (hadd : ∀ s u, ∃ s', E.addIn s u = .ok s') {avail : List Utxo}
    {T : Token → Prop} {need : Token → List Utxo → Prop} {toks : List Token}
    (hT : ∀ t, T t → ∀ t' ∈ toks, t ≠ t' → t ≠ mainToken)
    (fuel : Nat) {empty : List Bool} {ix : Nat} {s s' : TS σ} {st st' : UStore} {L : List Utxo}
    (h : fill E W req toks fuel empty ix s st = .ok (s', st')) (hi : SelInv avail L s st)
    (hlen : empty.length = toks.length)
    (hf : ∀ (i : Nat) t, empty[i]? = some true → toks[i]? = some t → Done W.cfg.accumulators t L)
    (hr : Reason avail W.cfg.accumulators T need s.selected) :
    Reason avail W.cfg.accumulators T need s'.selected ∧ ∃ L', SelInv avail L' s' st' ∧
      (remaining E W req s' = .ok 0 ∨ ∀ t ∈ toks, Done W.cfg.accumulators t L') := by
  induction fuel generalizing s st L empty ix with
  | zero =>
    unfold fill at h
    cases hc : remaining E W req s with
    | error e => simp [hc] at h
    | ok m =>
      cases m <;> simp only [hc] at h <;> cases h
      exact ⟨hr, L, hi, Or.inl hc⟩
  | succ fuel ih =>
    unfold fill at h
    cases hc : remaining E W req s with
    | error e => simp [hc] at h
    | ok m =>
      cases m with
      | zero => simp only [hc] at h; cases h; exact ⟨hr, L, hi, Or.inl hc⟩
      | succ m =>
        simp only [hc] at h
        split at h
        · rename_i t flag ht hflag
          have mark : Done W.cfg.accumulators t L → ∀ (i : Nat) t', (empty.set ix true)[i]? = some true → toks[i]? = some t' →
              Done W.cfg.accumulators t' L := by
            intro hd i t' he ht'
            by_cases e : ix = i
            · subst e
              rw [ht] at ht'
              cases ht'
              exact hd
            · rw [List.getElem?_set_ne e] at he
              exact hf i t' he ht'
          split at h
          · split at h
            · rename_i hle
              refine ih h hi (by simpa using hlen) (mark (Or.inl ?_)) hr
              rw [← number_eq hi.store]
              exact hle
            · rename_i hgt
              rw [number_eq hi.store] at hgt
              split at h
              · rename_i s1 st1 hsel
                obtain ⟨t', u, est', ht', hu, hh, hpl, ha, rfl, hrm, hi'⟩ :=
                  (selectInput_ok (T := (· = t)) rfl hsel).spec ho hi
                subst ht'
                refine ih h hi' hlen (fun i x h1 h2 => (hf i x h1 h2).mono List.filter_sublist) ?_
                refine hr.append (fun x hx hheld => ?_)
                by_cases e : x = t'
                · subst e
                  right
                  have h1 : (holders x avail).length = (holders x s.selected).length + (holders x L).length := by
                    have : (holders x avail).Perm (holders x (s.selected ++ L)) := hi.perm.filter _
                    rw [this.length_eq, holders, List.filter_append, List.length_append]
                    rfl
                  omega
                · exact absurd hheld (hpl.not_held e (hT x hx _ (List.mem_of_getElem? ht) e))
              · cases h
              · rename_i s1 e hnp hsel
                -- no candidate: the estimator takes every input, the store has it
                have hnone : s1 = s ∧ ∀ u ∈ holders t L, ¬ Plain t u := by
                  unfold selectInput at hsel
                  cases hcand : candidate W st t with
                  | none =>
                    simp only [hcand, Prod.mk.injEq] at hsel
                    refine ⟨hsel.1.symm, fun u hu hp => ?_⟩
                    unfold candidate at hcand
                    have h1 := List.find?_eq_none.mp hcand u ((descending_perm ho hi.store t).mem_iff.mpr hu)
                    apply h1
                    simp only [Bool.and_eq_true, decide_eq_true_eq, List.all_eq_true]
                    exact hp
                  | some u =>
                    obtain ⟨est', hest⟩ := hadd s.est u
                    obtain ⟨stx, hrx, _⟩ := remove_of_mem hi.store (mem_holders.mp (candidate_spec ho hi.store hcand).1).1
                    simp [hcand, hest, hrx] at hsel
                obtain ⟨rfl, hnone⟩ := hnone
                exact ih h hi (by simpa using hlen) (mark (Or.inr hnone)) hr
          · split at h
            · rename_i hall
              cases h
              refine ⟨hr, L, hi, Or.inr (fun x hx => ?_)⟩
              obtain ⟨i, hi1, rfl⟩ := List.getElem_of_mem hx
              have hb : empty[i]? = some true := by
                have h2 : i < empty.length := by omega
                rw [List.getElem?_eq_getElem h2]
                have := List.all_eq_true.mp hall _ (List.getElem_mem h2)
                simpa using this
              exact hf i _ hb (List.getElem?_eq_getElem hi1)
            · exact ih h hi hlen hf hr
        · cases h

/-- After the filling loop nothing more is selected. -/
theorem late_selected {st : UStore} {ts : List Token} {s3 s4 s5 s6 : TS σ} {cs : List Token}
    (h4 : forTokens (balanceExcessOf E W req st) ts s3 = .ok s4) (h5 : balanceExcess E W req s4 = .ok s5)
    (h6 : forTokens (splitOne E W st) cs s5 = .ok s6) : s6.selected = s3.selected := by
  have e4 : s4.selected = s3.selected :=
    forTokens_inv (fun x => x.selected = s3.selected)
      (fun t a b he hp => by rw [(balanceExcessOf_keeps he).1]; exact hp) h4 rfl
  have e5 := (balanceExcess_keeps h5).1
  have e6 : s6.selected = s5.selected :=
    forTokens_inv (fun x => x.selected = s5.selected)
      (fun t a b he hp => by rw [(splitOne_keeps he).1]; exact hp) h6 rfl
  rw [e6, e5, e4]

/-- Why the UTxOs with an asset are selected. -/
theorem select_reason (ho : ∀ l, (W.ord l).Perm l) (hadd : ∀ s u, ∃ s', E.addIn s u = .ok s')
    (hmt : W.cfg.main = mainToken) (hk : ∀ l, (W.keyOrder l).Perm l) {avail : List Utxo} {base : Token → ℚ}
    {s s' : TS σ} {st st' : UStore} (h : select E W req st s = .ok (s', st')) (hi : SelInv avail avail s st)
    (hnk : s.assets.keys.Nodup) (hsel : s.selected = []) (hX : ∀ x ∈ s.assets.keys, Fresh base s x) :
    Reason avail W.cfg.accumulators (· ≠ mainToken) (owed base) s'.selected := by
  unfold select at h
  simp only [bind_ok] at h
  obtain ⟨⟨s1, st1⟩, h1, ⟨s2, st2⟩, h2, ⟨s3, st3⟩, h3, s4, h4, s5, h5, s6, h6, h7⟩ := h
  cases h7
  rw [late_selected h4 h5 h6]
  obtain ⟨r1, L1, i1⟩ := round1_reason ho ((hk _).nodup_iff.mpr hnk) h1 hi (fun x hx => hX x ((hk _).mem_iff.mp hx))
    (n := W.cfg.accumulators) (by rw [hsel]; intro l u l' e; simp at e)
  have h2' := (untilMain_ok _ h2).1
  rw [hmt] at h2'
  obtain ⟨r2, L2, i2⟩ := takes_main_reason ho h2' i1 r1
  exact (fill_reason ho hadd (fun t ht _ _ _ => ht) _ h3 i2 (by simp) (fun i t he => by
    rw [List.getElem?_replicate] at he; split at he <;> simp at he) r2).1

/-! ### Requests without assets -/

/-- The main token selected does not pay for the outputs and the fee with these inputs. -/
def short (E : Estimator σ) (est : σ) (bm : ℚ) (_ : Token) (l : List Utxo) : Prop :=
  ∃ e f, l.foldlM E.addIn est = .ok e ∧ E.minFee e = .ok f ∧ bm + (l.map (·.value)).sum < f

theorem untilMain_reason (ho : ∀ l, (W.ord l).Perm l) {est : σ}
    (hfee : ∀ (l : List Utxo) e f, l.foldlM E.addIn est = .ok e → E.minFee e = .ok f → 0 ≤ f) {avail : List Utxo} {bm : ℚ} {n : Nat} (fuel : Nat) {s s' : TS σ} {st st' : UStore} {L : List Utxo}
    (h : untilMain E W fuel s st = .ok (s', st')) (hi : SelInv avail L s st)
    (hest : s.selected.foldlM E.addIn est = .ok s.est) (hd : DebtPos s.balance)
    (hb : s.balance.net = bm + (s.selected.map (·.value)).sum)
    (hr : Reason avail n (· = mainToken) (short E est bm) s.selected) :
    Reason avail n (· = mainToken) (short E est bm) s'.selected ∧ ∃ L', SelInv avail L' s' st' := by
  induction fuel generalizing s st L with
  | zero =>
    unfold untilMain at h
    cases hc : currentBalance E s with
    | error e => simp [hc] at h
    | ok b => cases b <;> simp only [hc] at h <;> cases h <;> exact ⟨hr, L, hi⟩
  | succ fuel ih =>
    unfold untilMain at h
    cases hc : currentBalance E s with
    | error e => simp [hc] at h
    | ok b =>
      cases b with
      | debt v =>
        simp only [hc] at h
        split at h
        · rename_i s1 st1 hsel
          obtain ⟨t', u, est', ht', hu, hh, hpl, ha, rfl, hrm, hi'⟩ :=
            (selectInput_ok (T := (· = W.cfg.main)) rfl hsel).spec ho hi
          obtain ⟨m, hm, hbm⟩ := currentBalance_ok hc
          refine ih h hi' ?_ (hd.add _) ?_ (hr.append (fun x _ _ => Or.inl ⟨s.est, m, hest, hm, ?_⟩))
          · simp only [addInput, List.foldlM_append, hest]
            change List.foldlM E.addIn s.est [u] = _
            simp only [List.foldlM_cons, List.foldlM_nil, ha]
            rfl
          · simp only [addInput, net_addValue, hb, List.map_append, List.sum_append, List.map_cons, List.map_nil,
              List.sum_cons, List.sum_nil]
            ring
          · have h1 := net_debt hbm.symm (hd.sub (hfee _ _ _ hest hm))
            rw [net_subValue, hb] at h1
            linarith
        · cases h
      | balanced => simp only [hc] at h; cases h; exact ⟨hr, L, hi⟩
      | excess v => simp only [hc] at h; cases h; exact ⟨hr, L, hi⟩

/-- Why UTxOs are selected for a request without assets. -/
theorem select_reason_main (ho : ∀ l, (W.ord l).Perm l) (hadd : ∀ s u, ∃ s', E.addIn s u = .ok s')
    (hmt : W.cfg.main = mainToken) (hk : ∀ l, (W.keyOrder l).Perm l) {avail : List Utxo} {bm : ℚ}
    {s s' : TS σ} {st st' : UStore}
    (hfee : ∀ (l : List Utxo) e f, l.foldlM E.addIn s.est = .ok e → E.minFee e = .ok f → 0 ≤ f) (h : select E W req st s = .ok (s', st')) (hi : SelInv avail avail s st)
    (hempty : s.assets = []) (hsel : s.selected = []) (hd : DebtPos s.balance) (hb : s.balance.net = bm) :
    Reason avail W.cfg.accumulators (· = mainToken) (short E s.est bm) s'.selected := by
  unfold select at h
  simp only [bind_ok] at h
  obtain ⟨⟨s1, st1⟩, h1, ⟨s2, st2⟩, h2, ⟨s3, st3⟩, h3, s4, h4, s5, h5, s6, h6, h7⟩ := h
  cases h7
  rw [late_selected h4 h5 h6]
  have hkeys : W.keyOrder s.assets.keys = [] := by rw [hempty]; exact List.perm_nil.mp (hk _)
  rw [hkeys] at h1 h3
  cases h1
  obtain ⟨r2, L2, i2⟩ := untilMain_reason ho hfee (n := W.cfg.accumulators) (est := s.est) (bm := bm) _ h2 hi
    (by rw [hsel]; rfl) hd (by rw [hsel, hb]; simp) (by rw [hsel]; intro l u l' e; simp at e)
  refine (fill_reason ho hadd (fun t ht t' ht' hne => ?_) _ h3 i2 (by simp) (fun i t he => by
    rw [List.getElem?_replicate] at he; split at he <;> simp at he) r2).1
  simp only [List.isEmpty_nil, Bool.or_true, if_true, List.nil_append, List.mem_singleton] at ht'
  exact absurd (ht.trans (hmt.symm.trans ht'.symm)) hne

/-! ### When the loop stops -/

theorem remaining_zero {c : Costs} {minAda : Output → Except SelErr ℚ} {s : TS LE}
    (h : remaining (linearEstimator c minAda) W req s = .ok 0) {k : Nat} (hk : s.assets.length ≤ k)
    (hroom : c.costOutput.floor.toNat * k * 2 < 2 ^ 64) :
    c.maxSize < s.est.currentSize + c.costOutput.floor.toNat * k * 2 + c.costInput.floor.toNat := by
  have hmul : c.costOutput.floor.toNat * s.assets.length * 2 ≤ c.costOutput.floor.toNat * k * 2 :=
    Nat.mul_le_mul_right _ (Nat.mul_le_mul_left _ hk)
  unfold remaining at h
  simp only [bind_ok] at h
  obtain ⟨o, _, i, _, fo, hfo, so, hso, fi, hfi, si, hsi, r1, hr1, r2, hr2, mx, hmx, cur, hcur, h⟩ := h
  cases hfo; cases hfi; cases hmx; cases hcur
  have e1 : so = c.costOutput.floor.toNat := by
    cases hx : Random.toU64 c.costOutput with
    | none => rw [hx] at hso; cases hso
    | some x => rw [hx] at hso; cases hso; exact toU64_ok hx
  have e2 : si = c.costInput.floor.toNat := by
    cases hx : Random.toU64 c.costInput with
    | none => rw [hx] at hsi; cases hsi
    | some x => rw [hx] at hsi; cases hsi; exact toU64_ok hx
  have e3 := mulU64_exact hr1 (by rw [e1]; omega)
  rw [e3] at hr2
  have e4 := mulU64_exact hr2 (by rw [e1]; omega)
  subst e1 e2 e4
  split at h
  · cases h
  · rename_i hne
    simp only [Except.ok.injEq] at h
    have h1 := (Nat.div_eq_zero_iff.mp h).resolve_left hne
    omega

theorem linear_pure {c : Costs} {minAda : Output → Except SelErr ℚ} :
    ∀ (s : LE) o v s', (linearEstimator c minAda).minValueOut s o = .ok (v, s') → s' = s := by
  intro s o v s' h
  simp only [linearEstimator, bind, Except.bind] at h
  split at h
  · cases h
  · cases h; rfl

theorem addOut_grows {c : Costs} {minAda : Output → Except SelErr ℚ} {s s' : LE} {o : Output}
    (h : (linearEstimator c minAda).addOut s o = .ok s') : s.currentSize ≤ s'.currentSize := by
  simp only [linearEstimator, Except.ok.injEq] at h
  subst h
  exact Nat.le_add_right _ _

/-- The changes only make the transaction larger. -/
theorem late_grows {c : Costs} {minAda : Output → Except SelErr ℚ} {st : UStore} {ts : List Token} {s3 s4 s5 s6 : TS LE}
    {cs : List Token} (h4 : forTokens (balanceExcessOf (linearEstimator c minAda) W req st) ts s3 = .ok s4)
    (h5 : balanceExcess (linearEstimator c minAda) W req s4 = .ok s5)
    (h6 : forTokens (splitOne (linearEstimator c minAda) W st) cs s5 = .ok s6) :
    s3.est.currentSize ≤ s6.est.currentSize := by
  have e4 : s3.est.currentSize ≤ s4.est.currentSize :=
    forTokens_inv (fun x => s3.est.currentSize ≤ x.est.currentSize) (fun t a b he hp => by
      rcases balanceExcessOf_ok he with ⟨rfl, _⟩ | ⟨x, addr, b, s1, o, o1, _, _, _, h2, _, rfl⟩
      · exact hp
      · rcases openChange_est linear_pure h2 with ⟨_, e⟩ | ⟨_, e⟩
        · simp only [e]; exact hp
        · exact le_trans hp (addOut_grows e)) h4 (le_refl _)
  have e5 : s4.est.currentSize ≤ s5.est.currentSize := by
    obtain ⟨b, hb, ⟨rfl, _⟩ | ⟨x, addr, _, _, ⟨o, ho, rfl⟩ |
      ⟨hg, need, est, hv, rfl | ⟨fee, est', _, _, hao, rfl⟩⟩⟩⟩ := balanceExcess_ok h5
    · exact le_refl _
    · exact le_refl _
    · have := linear_pure _ _ _ _ hv
      subst this
      exact le_refl _
    · have := linear_pure _ _ _ _ hv
      subst this
      exact addOut_grows hao
  have e6 : s5.est.currentSize ≤ s6.est.currentSize :=
    forTokens_inv (fun x => s5.est.currentSize ≤ x.est.currentSize) (fun t a b he hp => by
      rcases splitOne_ok he with rfl | ⟨ch, a, rest, fee, hg, has, _, _, rfl⟩ |
        ⟨ch, as, as', fee, est', hg, _, hfo, _, _, hao, rfl⟩
      · exact hp
      · exact hp
      · exact le_trans hp (addOut_grows hao)) h6 (le_refl _)
  exact le_trans e4 (le_trans e5 e6)

/-- The tokens of the assets recorded are those of the request. -/
def KeysIn (toks : List Token) (s : TS σ) : Prop := s.assets.keys.Nodup ∧ ∀ t ∈ s.assets.keys, t ∈ toks

theorem takes_keysIn (ho : ∀ l, (W.ord l).Perm l) {avail : List Utxo} {T : Token → Prop} {toks : List Token}
    (hT : ∀ t, T t → t ∈ toks ∨ t = mainToken) {s s' : TS σ} {st st' : UStore} {L : List Utxo}
    (h : Takes E W T s st s' st') (hi : SelInv avail L s st) (hp : KeysIn toks s) :
    KeysIn toks s' ∧ ∃ L', SelInv avail L' s' st' :=
  Takes.induct ho (fun sx _ => KeysIn toks sx) (fun L s st t u est' _ hi hp ht hu _ hpl _ _ => by
    refine ⟨adjustAll_nodup _ _ hp.1, fun x hx => ?_⟩
    rcases (addInput_keys _ _ _ _).mp hx with hx | ⟨a, ha, rfl⟩
    · exact hp.2 x hx
    · rcases hT t ht with h1 | h1
      · rw [hpl.2 a ha]; exact h1
      · exact absurd (List.mem_map.mpr ⟨a, ha, (hpl.2 a ha).trans h1⟩) (hi.store.distinct u hu).2) h hi hp

theorem round1_keysIn (ho : ∀ l, (W.ord l).Perm l) {avail : List Utxo} {toks : List Token} {fuel : Nat}
    {ts : List Token} (hts : ∀ t ∈ ts, t ∈ toks) {s s' : TS σ} {st st' : UStore} {L : List Utxo}
    (h : round1 E W req fuel ts s st = .ok (s', st')) (hi : SelInv avail L s st) (hp : KeysIn toks s) :
    KeysIn toks s' ∧ ∃ L', SelInv avail L' s' st' := by
  induction ts generalizing s st L with
  | nil => cases h; exact ⟨hp, L, hi⟩
  | cons t ts ih =>
    simp only [round1] at h
    split at h
    · cases h
    · rename_i sa sta ha
      split at h
      · cases h
      · rename_i sb hb
        obtain ⟨k1, La, ia⟩ := takes_keysIn ho (toks := toks)
          (fun x e => Or.inl (by rw [e]; exact hts t (by simp))) (untilAsset_ok _ ha).1 hi hp
        have hk := balanceExcessOf_keeps hb
        refine ih (fun x hx => hts x (by simp [hx])) h (ia.congr hk.1) ⟨?_, fun x hx => k1.2 x ((hk.2.2.2.2 x).mp hx)⟩
        rcases balanceExcessOf_ok hb with ⟨rfl, _⟩ | ⟨x, addr, bb, s1, o, o1, hc, _, _, h2, h3, rfl⟩
        · exact k1.1
        · simp only [(openChange_keeps h2).2.2.2]
          exact AMap.nodup_insert k1.1 _ _

/-- If there is room for another input at the end, nothing more could be taken. -/
theorem select_done {c : Costs} {minAda : Output → Except SelErr ℚ} (ho : ∀ l, (W.ord l).Perm l)
    (hmt : W.cfg.main = mainToken) (hk : ∀ l, (W.keyOrder l).Perm l) {avail : List Utxo} {s s' : TS LE} {st st' : UStore}
    (h : select (linearEstimator c minAda) W req st s = .ok (s', st')) (hi : SelInv avail avail s st)
    (hnk : s.assets.keys.Nodup) (hroom : c.costOutput.floor.toNat * s.assets.keys.length * 2 < 2 ^ 64)
    (hspace : s'.est.currentSize + c.costOutput.floor.toNat * s.assets.keys.length * 2 + c.costInput.floor.toNat ≤
      c.maxSize) :
    ∃ L, SelInv avail L s' st' ∧
      ∀ t, (t ∈ s.assets.keys ∨ s.assets.keys = [] ∧ t = mainToken) → Done W.cfg.accumulators t L := by
  unfold select at h
  simp only [bind_ok] at h
  obtain ⟨⟨s1, st1⟩, h1, ⟨s2, st2⟩, h2, ⟨s3, st3⟩, h3, s4, h4, s5, h5, s6, h6, h7⟩ := h
  cases h7
  obtain ⟨k1, L1, i1⟩ := round1_keysIn ho (toks := W.keyOrder s.assets.keys) (fun _ h => h) h1 hi
    ⟨hnk, fun t ht => (hk _).mem_iff.mpr ht⟩
  obtain ⟨k2, L2, i2⟩ := takes_keysIn ho (toks := W.keyOrder s.assets.keys) (fun t e => Or.inr (by rw [e, hmt]))
    (untilMain_ok _ h2).1 i1 k1
  obtain ⟨k3, _⟩ := takes_keysIn ho (toks := W.keyOrder s.assets.keys)
    (fun t e => by rw [← hmt]; exact mem_fillTokens (a2 := s2.assets) e) (fill_ok _ h3) i2 k2
  obtain ⟨_, L3, i3, hdone⟩ := fill_reason (T := fun _ => False) (need := fun _ _ => True) ho
    (fun s u => ⟨_, rfl⟩) (fun t ht => ht.elim) _ h3 i2 (by simp) (fun i t he => by
    rw [List.getElem?_replicate] at he; split at he <;> simp at he) (fun _ _ _ _ t ht => ht.elim)
  refine ⟨L3, i3.congr (late_selected h4 h5 h6), fun t ht => ?_⟩
  rcases hdone with h0 | hall
  · have hl : s3.assets.length ≤ s.assets.keys.length := by
      have b1 : s3.assets.keys.length = s3.assets.length := by simp [AMap.keys]
      rw [← b1, ← (hk s.assets.keys).length_eq]
      exact (List.subperm_of_subset k3.1 k3.2).length_le
    have h8 := remaining_zero h0 hl hroom
    have h9 : s3.est.currentSize ≤ s'.est.currentSize := late_grows h4 h5 h6
    omega
  · apply hall
    rcases ht with ht | ⟨he, rfl⟩
    · split
      · exact List.mem_append_left _ ((hk _).mem_iff.mpr ht)
      · exact (hk _).mem_iff.mpr ht
    · have : W.keyOrder s.assets.keys = [] := by rw [he]; exact List.perm_nil.mp (hk _)
      rw [this, hmt]
      simp

/-! ### UTxOs without assets, for a request with assets -/

/-- A UTxO without assets is selected only while the main token does not suffice. -/
def AdaNeeded (bm m0 cin K : ℚ) (sel : List Utxo) : Prop :=
  ∀ l u l', sel = l ++ u :: l' → u.assets = [] → bm + (l.map (·.value)).sum < m0 + cin * l.length + K

theorem AdaNeeded.append {bm m0 cin K : ℚ} {sel : List Utxo} (h : AdaNeeded bm m0 cin K sel) {u : Utxo}
    (hu : u.assets = [] → bm + (sel.map (·.value)).sum < m0 + cin * sel.length + K) :
    AdaNeeded bm m0 cin K (sel ++ [u]) := by
  intro l w l' e hw
  rcases List.eq_nil_or_concat l' with rfl | ⟨m, x, rfl⟩
  · obtain ⟨rfl, e2⟩ := List.append_inj' e rfl
    cases e2
    exact hu hw
  · rw [List.concat_eq_append, ← List.cons_append, ← List.append_assoc] at e
    exact h l w m (List.append_inj' e rfl).1 hw

theorem takes_adaNeeded (ho : ∀ l, (W.ord l).Perm l) {avail : List Utxo} {T : Token → Prop}
    (hT : ∀ t, T t → t ≠ mainToken) {bm m0 cin K : ℚ} {s s' : TS σ} {st st' : UStore} {L : List Utxo}
    (h : Takes E W T s st s' st') (hi : SelInv avail L s st) (hp : AdaNeeded bm m0 cin K s.selected) :
    AdaNeeded bm m0 cin K s'.selected ∧ ∃ L', SelInv avail L' s' st' :=
  Takes.induct ho (fun sx _ => AdaNeeded bm m0 cin K sx.selected)
    (fun L s st t u est' _ hi hp ht hu hh hpl _ _ => hp.append (fun he => by
      have h1 := (mem_holders.mp hh).2
      unfold amountOf at h1
      rw [if_neg (hT t ht), he] at h1
      cases h1)) h hi hp

theorem round1_adaNeeded (ho : ∀ l, (W.ord l).Perm l) {avail : List Utxo} {fuel : Nat} {bm m0 cin K : ℚ}
    {ts : List Token} (hts : mainToken ∉ ts) {s s' : TS σ} {st st' : UStore} {L : List Utxo}
    (h : round1 E W req fuel ts s st = .ok (s', st')) (hi : SelInv avail L s st)
    (hp : AdaNeeded bm m0 cin K s.selected) : AdaNeeded bm m0 cin K s'.selected := by
  induction ts generalizing s st L with
  | nil => cases h; exact hp
  | cons t ts ih =>
    simp only [round1] at h
    split at h
    · cases h
    · rename_i sa sta ha
      split at h
      · cases h
      · rename_i sb hb
        obtain ⟨k1, La, ia⟩ := takes_adaNeeded ho (fun x e => by rw [e]; rintro rfl; simp at hts)
          (untilAsset_ok _ ha).1 hi hp
        have hk := (balanceExcessOf_keeps hb).1
        exact ih (fun hm => hts (by simp [hm])) h (ia.congr hk) (by rw [hk]; exact k1)

section

variable {ids : Token → Option (Nat × Nat)} {toks : List Token} {base : Token → ℚ} {bm cin cout m0 : ℚ}

theorem Going.debt_value (hmax : 0 ≤ W.cfg.max) (hmin : 0 ≤ W.cfg.min) (hci : 0 ≤ cin) (hco : 0 ≤ cout) (hm0 : 0 ≤ m0)
    {s : TS σ} {d : ℚ} (h : Going E W req ids toks base bm cin cout m0 s) (hc : currentBalance E s = .ok (.debt d)) :
    bm + (s.selected.map (·.value)).sum < m0 + cin * s.selected.length + toks.length * (W.cfg.max + cout) := by
  obtain ⟨m, hm, hb⟩ := currentBalance_ok hc
  have hm0 : 0 ≤ m := by
    have e1 := hm
    rw [h.fee] at e1; cases e1
    have e2 : 0 ≤ cin * (s.selected.length : ℚ) := mul_nonneg hci (Nat.cast_nonneg _)
    have e3 : 0 ≤ cout * (s.changes.length : ℚ) := mul_nonneg hco (Nat.cast_nonneg _)
    linarith
  have h5 : (s.balance.subValue m).net < 0 := (h.debt.sub hm0).net hb.symm
  rw [net_subValue, h.main.net] at h5
  rw [h.fee] at hm
  cases hm
  have h6 := h.cost hmax hmin hco
  linarith [h6.2]

theorem untilMain_adaNeeded (ho : ∀ l, (W.ord l).Perm l) (hS : Sure E cin cout) (hmt : W.cfg.main = mainToken)
    (hmax : 0 ≤ W.cfg.max) (hmin : 0 ≤ W.cfg.min) (hci : 0 ≤ cin) (hco : 0 ≤ cout) (hm0 : 0 ≤ m0)
    {avail : List Utxo} (hq : ∀ u ∈ avail, ∀ a ∈ u.assets, 0 ≤ a.quantity)
    (fuel : Nat) {s s' : TS σ} {st st' : UStore} {L : List Utxo}
    (h : untilMain E W fuel s st = .ok (s', st')) (hi : SelInv avail L s st)
    (hids : ∀ t, st.getAssetIds t = ids t) (hp : Going E W req ids toks base bm cin cout m0 s)
    (hf : AdaNeeded bm m0 cin (toks.length * (W.cfg.max + cout)) s.selected) :
    AdaNeeded bm m0 cin (toks.length * (W.cfg.max + cout)) s'.selected := by
  induction fuel generalizing s st L with
  | zero =>
    unfold untilMain at h
    cases hc : currentBalance E s with
    | error e' => simp only [hc] at h; cases h
    | ok b => cases b <;> simp only [hc] at h <;> cases h <;> exact hf
  | succ fuel ih =>
    unfold untilMain at h
    cases hc : currentBalance E s with
    | error e' => simp only [hc] at h; cases h
    | ok b =>
      cases b with
      | debt v =>
        simp only [hc] at h
        split at h
        · rename_i s1 st1 hsel
          obtain ⟨g1, g2, g3, ⟨u, est', rfl⟩, L1, g5⟩ := take_going ho hS hmt hq (T := (· = W.cfg.main))
            (fun t' e => Or.inr e) (selectInput_ok rfl hsel) hi hids hp
          exact ih h g5 g3 g1 (hf.append (fun _ => hp.debt_value hmax hmin hci hco hm0 hc))
        · cases h
      | balanced => simp only [hc] at h; cases h; exact hf
      | excess v => simp only [hc] at h; cases h; exact hf

/-- Why UTxOs without assets are selected for a request with assets. -/
theorem select_adaNeeded (ho : ∀ l, (W.ord l).Perm l) (hk : ∀ l, (W.keyOrder l).Perm l) (hS : Sure E cin cout)
    (hmt : W.cfg.main = mainToken) (hmm : W.cfg.min ≤ W.cfg.max) (hmin : 0 ≤ W.cfg.min) (hci : 0 ≤ cin) (hco : 0 ≤ cout)
    (hm0 : 0 ≤ m0) {avail : List Utxo} (hq : ∀ u ∈ avail, ∀ a ∈ u.assets, 0 ≤ a.quantity) {s s' : TS σ} {st st' : UStore}
    (hmain : mainToken ∉ s.assets.keys) (hne : s.assets.keys ≠ []) (hnk : s.assets.keys.Nodup)
    (hsel : s.selected = []) (hch : s.changes = []) (hi : SelInv avail avail s st)
    (hp : Going E W req st.getAssetIds (W.keyOrder s.assets.keys) base bm cin cout m0 s)
    (h : select E W req st s = .ok (s', st')) :
    AdaNeeded bm m0 cin (s.assets.keys.length * (W.cfg.max + cout)) s'.selected := by
  have hmax : 0 ≤ W.cfg.max := le_trans hmin hmm
  have hm' : mainToken ∉ W.keyOrder s.assets.keys := fun h => hmain ((hk _).mem_iff.mp h)
  unfold select at h
  simp only [bind_ok] at h
  obtain ⟨⟨s1, st1⟩, h1, ⟨s2, st2⟩, h2, ⟨s3, st3⟩, h3, s4, h4, s5, h5, s6, h6, h7⟩ := h
  cases h7
  rw [late_selected h4 h5 h6]
  obtain ⟨g1, _, ⟨L1, i1⟩, q1, d1, _⟩ := round1_few (k := 0) ho hS hmt hmm hm' hq (fun t h => h)
    ((hk _).nodup_iff.mpr hnk) (by rw [hch]; simp) hi (fun _ => rfl) hp (Or.inl (by rw [hsel]; simp)) h1
  have a1 := round1_adaNeeded (bm := bm) (m0 := m0) (cin := cin)
    (K := (W.keyOrder s.assets.keys).length * (W.cfg.max + cout)) ho hm' h1 hi
    (by rw [hsel]; intro l u l' e; simp at e)
  have a2 := untilMain_adaNeeded ho hS hmt hmax hmin hci hco hm0 hq _ h2 i1 q1 g1 a1
  obtain ⟨_, _, _, d2, L2, i2⟩ := takes_going ho hS hmt hq (fun t e => Or.inr e) (untilMain_ok _ h2).1 i1 q1 g1
  have hfill : (if s2.assets.isEmpty || (W.keyOrder s.assets.keys).isEmpty then W.keyOrder s.assets.keys ++ [W.cfg.main]
      else W.keyOrder s.assets.keys) = W.keyOrder s.assets.keys := by
    cases hkk : W.keyOrder s.assets.keys with
    | nil =>
      have := hk s.assets.keys
      rw [hkk] at this
      exact absurd (List.perm_nil.mp this.symm) hne
    | cons t ts =>
      obtain ⟨b, hb, _⟩ := d2 t (d1 t (by rw [hkk]; simp))
      have : s2.assets ≠ [] := by intro e; rw [e] at hb; cases hb
      simp [this]
  rw [← (hk s.assets.keys).length_eq]
  have h3' := fill_ok _ h3
  rw [hfill] at h3'
  exact (takes_adaNeeded ho (fun t ht e => hm' (e ▸ ht)) h3' i2 a2).1

end

end Verif.Selection.Thermostat
