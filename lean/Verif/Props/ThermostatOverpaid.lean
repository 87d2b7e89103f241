import Verif.Props.ThermostatComplete

/-!
# C111: the thermostat does not waste money

What is left over and not returned goes to the fee. It is less than the smallest change that could have been returned.
-/

namespace Verif.Props

open Verif Verif.Core Verif.Selection Verif.Selection.Thermostat

variable {σ : Type} {E : Estimator σ} {W : World} {st st' : UStore} {est est' : σ} {ins : List Utxo}
  {outs : List Output} {ch : Option Nat} {r : Result}

/-- The balance exceeds the minimum fee by something of which `Q` holds. -/
def Above (E : Estimator σ) (Q : ℚ → Prop) (s : TS σ) : Prop := ∃ m, E.minFee s.est = .ok m ∧ Q (s.balance.net - m)

theorem splits_above {cin cout : ℚ} (hl : Linear E cin cout) {Q : ℚ → Prop} {ts : List Token} {s s' : TS σ}
    (h : forTokens (splitOne E W st) ts s = .ok s') (hq : Above E Q s) : Above E Q s' := by
  refine forTokens_inv (Above E Q) ?_ h hq
  rintro t a b hb ⟨m, h1, h2⟩
  rcases splitOne_ok hb with rfl | ⟨ch, _, rest, fee, hg, has, _, _, rfl⟩ |
    ⟨ch, as, as', fee, est', hg, _, hfo, _, _, hao, rfl⟩
  · exact ⟨m, h1, h2⟩
  · exact ⟨m, h1, h2⟩
  · rw [hl.feeOut] at hfo
    cases hfo
    refine ⟨m + cout, hl.addOut _ _ _ _ hao h1, ?_⟩
    simp only [splitState, net_addValue]
    have : a.balance.net + cout - (m + cout) = a.balance.net - m := by ring
    rw [this]; exact h2

/-- A debt is positive, and so is the minimum fee. -/
def Proper (E : Estimator σ) (s : TS σ) : Prop := DebtPos s.balance ∧ ∃ m, E.minFee s.est = .ok m ∧ 0 ≤ m

theorem takes_proper {cin cout : ℚ} (hl : Linear E cin cout) (hci : 0 ≤ cin) {T : Token → Prop} {s s' : TS σ}
    (h : Takes E W T s st s' st') (hp : Proper E s) : Proper E s' := by
  induction h with
  | refl => exact hp
  | head h _ ih =>
    apply ih
    obtain ⟨hd, m, h1, h2⟩ := hp
    cases h with
    | take _ _ ha _ => exact ⟨hd.add _, _, hl.addIn _ _ _ _ ha h1, by linarith⟩
    | lost _ _ ha _ => exact ⟨hd.add _, _, hl.addIn _ _ _ _ ha h1, by linarith⟩

theorem opened_proper {cin cout : ℚ} (hl : Linear E cin cout) (hco : 0 ≤ cout)
    (hv : ∀ s o v s', E.minValueOut s o = .ok (v, s') → 0 ≤ v) {t : Token} {addr : Nat} {w : ℚ} {s s1 : TS σ}
    {o : Output} (hw : 0 ≤ w) (h : openChange E t addr w s = .ok (s1, o)) (hp : Proper E s) : Proper E s1 := by
  obtain ⟨hd, m, hm, h0⟩ := hp
  unfold openChange at h
  cases hg : s.changes.get t with
  | some o0 =>
    simp only [hg] at h
    cases h
    exact ⟨hd.sub hw, m, hm, h0⟩
  | none =>
    simp only [hg, bind_ok] at h
    obtain ⟨⟨need, est1⟩, h1, fee, h2, est2, h3, h⟩ := h
    have hn := hv _ _ _ _ h1
    rw [hl.feeOut] at h2
    cases h2
    cases h
    refine ⟨?_, m + cout, hl.addOut _ _ _ _ h3 (by rw [hl.minValue _ _ _ _ h1]; exact hm), by linarith⟩
    by_cases hlt : w < need
    · simp only [hlt, if_true]
      have hd1 : DebtPos (s.balance.subValue (need - w)) := hd.sub (by linarith)
      split
      · exact hd1.sub hw
      · rename_i hge
        refine hd1.sub ?_
        simp only [add_sub_cancel] at hge
        linarith
    · simp only [hlt, if_false]
      split
      · exact hd.sub hw
      · rename_i hge
        exact hd.sub (by linarith)

theorem excessOf_proper {req : Request} {cin cout : ℚ} (hl : Linear E cin cout) (hco : 0 ≤ cout)
    (hmm : W.cfg.min ≤ W.cfg.max) (hv : ∀ s o v s', E.minValueOut s o = .ok (v, s') → 0 ≤ v) {t : Token} {s s' : TS σ}
    (h : balanceExcessOf E W req st t s = .ok s') (hp : Proper E s) : Proper E s' := by
  rcases balanceExcessOf_ok h with ⟨rfl, _⟩ | ⟨x, addr, b, s1, o, o1, _, _, hb, h4, _, rfl⟩
  · exact hp
  · obtain ⟨h1, h2⟩ := opened_proper hl hco hv (excessOr0_nonneg hb) h4 hp
    exact ⟨clamp_debt hmm h1, h2⟩

theorem round1_proper {req : Request} {cin cout : ℚ} (hl : Linear E cin cout) (hci : 0 ≤ cin) (hco : 0 ≤ cout)
    (hmm : W.cfg.min ≤ W.cfg.max) (hv : ∀ s o v s', E.minValueOut s o = .ok (v, s') → 0 ≤ v) {fuel : Nat}
    {ts : List Token} {s s' : TS σ}
    (h : round1 E W req fuel ts s st = .ok (s', st')) (hp : Proper E s) : Proper E s' := by
  induction ts generalizing s st with
  | nil => cases h; exact hp
  | cons t ts ih =>
    simp only [round1] at h
    split at h
    · cases h
    · rename_i s1 st1 h1
      split at h
      · cases h
      · rename_i s2 h2
        exact ih h (excessOf_proper hl hco hmm hv h2 (takes_proper hl hci (untilAsset_ok _ h1).1 hp))

/-- What is left over after the change of the main token was made: nothing, or less than such a change needs. -/
theorem excess_above {req : Request} {cin cout : ℚ} (hl : Linear E cin cout) (h0 : 0 ≤ cout) {s s' : TS σ}
    (h : balanceExcess E W req s = .ok s') (hp : Proper E s) :
    Above E (fun x => x ≤ 0 ∨ ∃ addr e need e', req.address = some addr ∧
      E.minValueOut e ⟨addr, x, []⟩ = .ok (need, e') ∧ x < need + cout) s' := by
  unfold balanceExcess at h
  simp only [bind_ok] at h
  obtain ⟨b, hb, h⟩ := h
  obtain ⟨m, hm, rfl⟩ := currentBalance_ok hb
  have hnet := net_subValue s.balance m
  split at h
  · rename_i x hx
    rw [hx] at hnet
    have hx' : s.balance.net - m = x := hnet.symm
    split at h
    · cases h
    · rename_i addr haddr
      split at h
      · cases h
        refine ⟨m, hm, .inl ?_⟩
        simp only [net_subValue]
        linarith
      · simp only [bind_ok] at h
        obtain ⟨⟨need, e⟩, hv, h⟩ := h
        have hme : E.minFee e = .ok m := by rw [hl.minValue _ _ _ _ hv]; exact hm
        simp only at h
        split at h
        · rename_i hlt
          cases h
          refine ⟨m, hme, .inr ⟨addr, s.est, need, e, haddr, ?_, ?_⟩⟩
          · simp only; rw [hx']; exact hv
          · simp only; rw [hx']; linarith [show x < need from hlt]
        · simp only [bind_ok] at h
          obtain ⟨fee, hfee, h⟩ := h
          rw [hl.feeOut] at hfee
          cases hfee
          split at h
          · rename_i hlt
            cases h
            refine ⟨m, hme, .inr ⟨addr, s.est, need, e, haddr, ?_, ?_⟩⟩
            · simp only; rw [hx']; exact hv
            · simp only; rw [hx']; exact hlt
          · simp only [bind_ok] at h
            obtain ⟨e2, hao, h⟩ := h
            cases h
            refine ⟨m + cout, hl.addOut _ _ _ _ hao hme, .inl ?_⟩
            simp only [net_subValue]
            linarith
  · rename_i hx
    cases h
    refine ⟨m, hm, .inl ?_⟩
    rw [← hnet]
    cases hb' : s.balance.subValue m with
    | excess x => exact absurd hb' (hx x)
    | balanced => simp [Balance.net]
    | debt x =>
      obtain ⟨hd, m', e1, e2⟩ := hp
      rw [hm] at e1
      cases e1
      have := (hd.sub e2).net hb'
      rw [hb'] at this
      exact le_of_lt this

/-- What is paid in excess of the minimum fee is less than the smallest change and its cost. -/
theorem C111_fee {cin cout : ℚ} (hl : Linear E cin cout) (hci : 0 ≤ cin) (hco : 0 ≤ cout)
    (hmm : W.cfg.min ≤ W.cfg.max) (hv : ∀ s o v s', E.minValueOut s o = .ok (v, s') → 0 ≤ v)
    (hout : 0 ≤ (outs.map (·.value)).sum) {m0 : ℚ} (hm : E.minFee est = .ok m0) (hm0 : 0 ≤ m0)
    (h : thermostat E W st est (Setup.fromFixed ins outs ch) = (.ok (r, est'), st')) :
    ∃ m, E.minFee est' = .ok m ∧ (r.fee ≤ m ∨ ∃ addr e need e', ch = some addr ∧
      E.minValueOut e ⟨addr, r.fee - m, []⟩ = .ok (need, e') ∧ r.fee - m < need + cout) := by
  obtain ⟨s, hs, hf, rfl, _⟩ := thermostat_ok h
  obtain ⟨s1, st1, s2, st2, s3, s4, s5, h1, h2, h3, h4, h5, h6⟩ := select_ok hs
  have p0 : Proper E (initial est (Setup.fromFixed ins outs ch)) := by
    refine ⟨?_, m0, hm, hm0⟩
    refine DebtPos.sub (DebtPos.add (fun v hv => by cases hv) _) ?_
    simp only [Setup.fromFixed]
    rw [foldl_value_sum]
    simpa using hout
  have p3 := takes_proper hl hci h3 (takes_proper hl hci (untilMain_ok _ h2).1 (round1_proper hl hci hco hmm hv h1 p0))
  have p4 := forTokens_inv (Proper E) (fun t a b => excessOf_proper hl hco hmm hv) h4 p3
  obtain ⟨m, e1, e2⟩ := splits_above hl h6 (excess_above hl hco h5 p4)
  rw [← hf] at e2
  refine ⟨m, e1, ?_⟩
  rcases e2 with e2 | e2
  · exact .inl (by linarith)
  · exact .inr e2

/-- Without an address for the change, nothing is paid in excess. -/
theorem C111_no_address {cin cout : ℚ} (hl : Linear E cin cout) (hci : 0 ≤ cin) (hco : 0 ≤ cout)
    (hmm : W.cfg.min ≤ W.cfg.max) (hv : ∀ s o v s', E.minValueOut s o = .ok (v, s') → 0 ≤ v)
    (hout : 0 ≤ (outs.map (·.value)).sum) {m0 : ℚ} (hm : E.minFee est = .ok m0) (hm0 : 0 ≤ m0)
    (h : thermostat E W st est (Setup.fromFixed ins outs none) = (.ok (r, est'), st')) :
    ∃ m, E.minFee est' = .ok m ∧ r.fee ≤ m := by
  obtain ⟨m, h1, h2 | ⟨_, _, _, _, h2, _⟩⟩ := C111_fee hl hci hco hmm hv hout hm hm0 h
  · exact ⟨m, h1, h2⟩
  · cases h2

/-- With the estimator of the library, where no output without assets needs more than `bound`. -/
theorem C111_linear {c : Costs} {minAda : Output → Except SelErr ℚ} {est est' : LE} {bound : ℚ} (hci : 0 ≤ c.costInput)
    (hco : 0 ≤ c.costOutput) (hmm : W.cfg.min ≤ W.cfg.max) (hv : ∀ o v, minAda o = .ok v → 0 ≤ v)
    (hb : ∀ o v, o.assets = [] → minAda o = .ok v → v ≤ bound)
    (hout : 0 ≤ (outs.map (·.value)).sum) {m0 : ℚ} (hm : (linearEstimator c minAda).minFee est = .ok m0) (hm0 : 0 ≤ m0)
    (h : thermostat (linearEstimator c minAda) W st est (Setup.fromFixed ins outs ch) = (.ok (r, est'), st')) :
    ∃ m, (linearEstimator c minAda).minFee est' = .ok m ∧ (r.fee ≤ m ∨ r.fee < m + bound + c.costOutput) := by
  have hmin : ∀ s o v s', (linearEstimator c minAda).minValueOut s o = .ok (v, s') → minAda o = .ok v := by
    intro s o v s' h
    simp only [linearEstimator, bind, Except.bind] at h
    split at h
    · cases h
    · rename_i h'
      cases h
      exact h'
  obtain ⟨m, h1, h2⟩ := C111_fee (linearEstimator_linear c minAda) hci hco hmm
    (fun s o v s' h => hv _ _ (hmin _ _ _ _ h)) hout hm hm0 h
  refine ⟨m, h1, ?_⟩
  rcases h2 with h2 | ⟨_, _, need, _, _, h3, h4⟩
  · exact .inl h2
  · have := hb _ _ rfl (hmin _ _ _ _ h3)
    exact .inr (by linarith)

/-- With an address for the change, the fee need not be the minimum: half an ada is left over, which is too little
for a change. -/
theorem C111_exact_false : ¬ ∀ (W : World) (avail : List Utxo) (st st' : UStore) (est est' : LE)
    (ins : List Utxo) (outs : List Output) (a : Nat) (r : Result), THCase W avail st ins outs →
    W.cfg.min ≤ W.cfg.max → (∀ u ∈ avail, thCosts.costInput ≤ u.value) →
    thermostat thE W st est (Setup.fromFixed ins outs (some a)) = (.ok (r, est'), st') →
    ∃ m, thE.minFee est' = .ok m ∧ r.fee ≤ m := by
  intro h
  have h1 : thView thE (thermostat thE (thW { accumulators := 1 }) (thStore [⟨1, 10669153, [], 0⟩]) thEst
      (Setup.fromFixed [] [⟨9, 10000000, []⟩] (some 5))) = (some ⟨669153, some 169153, [1], []⟩, []) := by
    decide +kernel
  obtain ⟨r, est', e1, e2, e3, _⟩ := th_ok h1
  have hC : THCase (thW { accumulators := 1 }) [⟨1, 10669153, [], 0⟩] (thStore [⟨1, 10669153, [], 0⟩]) []
      [⟨9, 10000000, []⟩] := thCase (by intro u hu; simp only [List.mem_singleton] at hu; subst hu; simp [DistinctAssets])
        (by decide +kernel) rfl (by decide +kernel)
  obtain ⟨m, h2, h3⟩ := h _ _ _ _ _ _ _ _ _ _ hC (by decide +kernel) (by decide +kernel) e1
  rw [h2] at e3
  simp only [Except.toOption, Option.some.injEq] at e2 e3
  rw [e2, e3] at h3
  exact absurd h3 (by norm_num)

/-- That half ada is within the bound. -/
example : ∃ r est' st' m, thermostat thE (thW { accumulators := 1 }) (thStore [⟨1, 10669153, [], 0⟩]) thEst
      (Setup.fromFixed [] [⟨9, 10000000, []⟩] (some 5)) = (.ok (r, est'), st') ∧ r.fee = 669153 ∧
    thE.minFee est' = .ok m ∧ (r.fee ≤ m ∨ r.fee < m + 1000000 + thCosts.costOutput) := by
  have h1 : thView thE (thermostat thE (thW { accumulators := 1 }) (thStore [⟨1, 10669153, [], 0⟩]) thEst
      (Setup.fromFixed [] [⟨9, 10000000, []⟩] (some 5))) = (some ⟨669153, some 169153, [1], []⟩, []) := by
    decide +kernel
  obtain ⟨r, est', e1, e2, _⟩ := th_ok h1
  obtain ⟨m, h2, h3⟩ := C111_linear (bound := 1000000) (m0 := 167481) (by decide +kernel) (by decide +kernel)
    (by decide +kernel) (fun o v h => by cases h; norm_num) (fun o v _ h => by cases h; exact le_refl _)
    (by decide +kernel) (by simp [linearEstimator, thCosts, thEst]) (by norm_num) e1
  exact ⟨r, est', _, m, e1, e2, h2, h3⟩

/-- With one ada and the cost of an output more, the change is made and the fee is the minimum. -/
example : ∃ r est' st' m, thermostat thE (thW { accumulators := 1 }) (thStore [⟨1, 15669153, [], 0⟩]) thEst
      (Setup.fromFixed [] [⟨9, 10000000, []⟩] (some 5)) = (.ok (r, est'), st') ∧ thE.minFee est' = .ok m ∧ r.fee = m := by
  have h1 : thView thE (thermostat thE (thW { accumulators := 1 }) (thStore [⟨1, 15669153, [], 0⟩]) thEst
      (Setup.fromFixed [] [⟨9, 10000000, []⟩] (some 5))) = (some ⟨175797, some 175797, [1], [(5493356, [])]⟩, []) := by
    decide +kernel
  obtain ⟨r, est', e1, e2, e3, _⟩ := th_ok h1
  refine ⟨r, est', _, 175797, e1, ?_, e2⟩
  cases h : thE.minFee est' with
  | error e => rw [h] at e3; simp [Except.toOption] at e3
  | ok m => rw [h] at e3; simp only [Except.toOption, Option.some.injEq] at e3; rw [e3]

/-- A payment that leaves nothing over, without an address. -/
example : ∃ r est' st' m, thermostat thE (thW { accumulators := 1 }) (thStore [⟨1, 10169153, [], 0⟩]) thEst
      (Setup.fromFixed [] [⟨9, 10000000, []⟩] none) = (.ok (r, est'), st') ∧ r.fee = 169153 ∧
    thE.minFee est' = .ok m ∧ r.fee ≤ m := by
  have h1 : thView thE (thermostat thE (thW { accumulators := 1 }) (thStore [⟨1, 10169153, [], 0⟩]) thEst
      (Setup.fromFixed [] [⟨9, 10000000, []⟩] none)) = (some ⟨169153, some 169153, [1], []⟩, []) := by
    decide +kernel
  obtain ⟨r, est', e1, e2, _⟩ := th_ok h1
  obtain ⟨m, h2, h3⟩ := C111_no_address (m0 := 167481) (linearEstimator_linear _ _) (by decide +kernel)
    (by decide +kernel) (by decide +kernel) (fun s o v s' h => by cases h; norm_num)
    (by decide +kernel) (by simp [linearEstimator, thCosts, thEst, thE]) (by norm_num) e1
  exact ⟨r, est', _, m, e1, e2, h2, h3⟩

end Verif.Props
