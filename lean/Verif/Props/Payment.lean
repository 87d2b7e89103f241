import Verif.Props.ThermostatLedger

/-!
# Payments: selection, balancing, ledger (C73, C74)

The estimator of a network and a multisig plan, largest-first selection, one of the two balancers, and the
transaction made from the answer.
-/

namespace Verif.Props

open Verif Verif.Core Verif.Selection Verif.Cardano

/-! ### Counting -/

/-- More parts counted after an estimate. -/
theorem estimate_more {net : Network} {E : Estimator LE} {s0 est est' : LE} {before after ps : List TxPart}
    {magic : Option Nat} (h : estimate net E s0 before magic after = .ok est) (h2 : addParts E est ps = .ok est') :
    estimate net E s0 before magic (after ++ ps) = .ok est' := by
  unfold estimate at h ⊢
  simp only [bind, Except.bind] at h ⊢
  cases h1 : addParts E s0 before with
  | error e => rw [h1] at h; cases h
  | ok s1 =>
    rw [h1] at h
    simp only at h ⊢
    cases magic with
    | none =>
      simp only at h ⊢
      rw [addParts_concat _ _ h, h2]
    | some len =>
      simp only at h ⊢
      cases hy : LE.addProtocolMagic net len s1 with
      | error e => rw [hy] at h; cases h
      | ok s2 =>
        rw [hy] at h
        simp only at h ⊢
        rw [addParts_concat _ _ h, h2]

/-- A transaction made from an answer whose fee reaches the minimum of an estimator that has counted its parts pays the
fee the ledger asks for. -/
theorem ledger_fee (net : Network) (plan : MultisigPlan) (minAda : Output → Except SelErr ℚ) (c : Costs) (s0 est : LE)
    (h0 : LE.new net plan.scriptSize plan.quorum = .ok (c, s0)) (t : Tx) (r : Result) (hmade : MadeFrom plan r t)
    (hone : ∀ o ∈ r.fixedOutputs ++ r.changes, ∀ x ∈ t.outputs, PaysAs o x → Short o x) (before after : List TxPart)
    (hi : (before ++ after).countP (·.isInput) = r.fixedInputs.length + r.chosen.length)
    (ho : (before ++ after).countP (·.isOutput) = r.fixedOutputs.length + r.changes.length)
    (hest : estimate net (linearEstimator c minAda) s0 before (t.magic.map (·.1.length)) after = .ok est)
    {m : ℚ} (hm : (linearEstimator c minAda).minFee est = .ok m) (hf : m ≤ r.fee) :
    t.linearFee net.coefficient net.constant ≤ t.fee := by
  have hplan : PlanTx plan t := by
    refine ⟨hmade.identifiers, ?_, hmade.witnesses, hmade.scripts, hmade.magic⟩
    intro x hx
    obtain ⟨o, ho, hp⟩ := forall2_right hmade.outputs x hx
    exact paysAs_short hp (hone o ho x hx hp)
  obtain ⟨f, hf1, hf2⟩ := C61_fee_partial net plan minAda c s0 est h0 t hplan before after (by
    have hlen := hmade.outputs.length_eq
    rw [List.length_append] at hlen
    unfold Counts
    rw [hi, ho]
    exact ⟨hmade.inputs.symm, hlen⟩) hest
  rw [hm] at hf1
  cases hf1
  have : (t.linearFee net.coefficient net.constant : ℚ) ≤ t.fee := by rw [hmade.fee]; linarith
  exact_mod_cast this

theorem minFee_nonneg {net : Network} {script quorum : Nat} {c : Costs} {s0 s : LE}
    {minAda : Output → Except SelErr ℚ} (h0 : LE.new net script quorum = .ok (c, s0))
    {before after : List TxPart} {magic : Option Nat}
    (h : estimate net (linearEstimator c minAda) s0 before magic after = .ok s) :
    ∀ f, (linearEstimator c minAda).minFee s = .ok f → 0 ≤ f := by
  intro f hf
  rw [estimate_fee h0 before after magic h] at hf
  cases hf
  positivity

/-- Quantities of UTxOs and outputs are not negative. -/
structure Sensible (ins : List Utxo) (outs : List Output) : Prop where
  inputs : ∀ u ∈ ins, ∀ a ∈ u.assets, 0 ≤ a.quantity
  outputs : ∀ o ∈ outs, 0 ≤ o.value ∧ ∀ a ∈ o.assets, 0 ≤ a.quantity

theorem sum_map_nonneg {α : Type} (f : α → ℚ) (l : List α) (h : ∀ x ∈ l, 0 ≤ f x) : 0 ≤ (l.map f).sum := by
  apply List.sum_nonneg
  intro x hx
  obtain ⟨y, hy, rfl⟩ := List.mem_map.mp hx
  exact h y hy

theorem addAssets_nonneg {α : Type} (f : α → List Asset) : ∀ (l : List α) (m : AssetMap),
    m.keys.Nodup → (∀ kv ∈ m, 0 ≤ kv.2.quantity) → (∀ x ∈ l, ∀ a ∈ f x, 0 ≤ a.quantity) →
    (∀ kv ∈ l.foldl (fun m x => (f x).foldl addAsset m) m, 0 ≤ kv.2.quantity) := by
  intro l m hn hm hl kv hkv
  have hq : ∀ t, 0 ≤ qty m t := by
    intro t
    unfold qty
    cases hg : AMap.get m t with
    | none => simp
    | some a => exact hm _ (AMap.mem_of_get hg)
  have hkeys : (l.foldl (fun m x => (f x).foldl addAsset m) m).keys.Nodup ∧
      ∀ t, 0 ≤ qty (l.foldl (fun m x => (f x).foldl addAsset m) m) t := by
    clear hkv kv hm
    induction l generalizing m with
    | nil => exact ⟨hn, hq⟩
    | cons x l ih =>
      refine ih _ (nodup_addAssets _ hn) (fun y hy => hl y (by simp [hy])) (fun t => ?_)
      rw [qty_addAssets]
      exact add_nonneg (hq t) (assetSum_nonneg (hl x (by simp)) t)
  have h1 := hkeys.2 kv.1
  have h2 : AMap.get (l.foldl (fun m x => (f x).foldl addAsset m) m) kv.1 = some kv.2 := AMap.get_of_mem hkeys.1 hkv
  unfold qty at h1
  rw [h2] at h1
  exact h1

theorem Sensible.tables {ins : List Utxo} {outs : List Output} (h : Sensible ins outs) (ch : Option Nat) :
    Table (Setup.fromFixed ins outs ch).inputAssets ∧ Table (Setup.fromFixed ins outs ch).outputAssets ∧
    Keyed (Setup.fromFixed ins outs ch).inputAssets ∧ 0 ≤ (Setup.fromFixed ins outs ch).outputBalance := by
  obtain ⟨_, b, _, _, _, _, n1, n2, k1, _⟩ := C48_setup_totals ins outs ch
  refine ⟨⟨n1, ?_⟩, ⟨n2, ?_⟩, k1, ?_⟩
  · exact addAssets_nonneg (fun u : Utxo => u.assets) ins [] (by simp) (by simp) h.inputs
  · exact addAssets_nonneg (fun o : Output => o.assets) outs [] (by simp) (by simp) (fun o ho => (h.outputs o ho).2)
  · rw [b]
    exact sum_map_nonneg _ _ (fun o ho => (h.outputs o ho).1)

/-! ## C73: the ledger accepts what the balancers answer -/

section

variable (net : Network) (plan : MultisigPlan) (minAda : Output → Except SelErr ℚ) (c : Costs) (s0 est : LE)

/-- The fee-change balancer: the transaction made from its answer pays the fee the ledger asks for, spends exactly what
it takes in, and every asset it takes in is paid out. The estimator has counted inputs and outputs. Outputs have at
most 147 bytes (C61). -/
theorem C73_fee_change_partial (h0 : LE.new net plan.scriptSize plan.quorum = .ok (c, s0)) (ins : List Utxo)
    (outs : List Output) (hs : Sensible ins outs) (ch : Option Nat) (t : Tx) (before after : List TxPart)
    (hcount : (before ++ after).countP (·.isInput) = ins.length ∧ (before ++ after).countP (·.isOutput) = outs.length)
    (hest : estimate net (linearEstimator c minAda) s0 before (t.magic.map (·.1.length)) after = .ok est)
    (hone : ∀ o ∈ outs, ∀ x ∈ t.outputs, PaysAs o x → Short o x) (r : Result)
    (h : feeChange (linearEstimator c minAda) est (Setup.fromFixed ins outs ch) = .ok r) (hmade : MadeFrom plan r t) :
    t.linearFee net.coefficient net.constant ≤ t.fee ∧
    (ins.map (·.value)).sum = ((t.outputs.map (fun x => x.amount.coin.val)).sum + t.fee : Nat) ∧
    ∀ a, (ins.map (fun u => assetSum a u.assets)).sum =
      ((r.fixedOutputs ++ r.changes).map (fun o => assetSum a o.assets)).sum := by
  obtain ⟨b1, b2, b3, b4⟩ := hs.tables ch
  obtain ⟨d1, d2, d3, d4, _, _, _, _, _, _, _, d5, _⟩ := C48_setup_totals ins outs ch
  obtain ⟨e1, e2, ⟨f, e3, e4⟩, e5, e6, e7, e8, e9, e10, e11, e12, _⟩ :=
    C45_success _ est _ r b1 b2 b4 (minFee_nonneg h0 hest) h
  have hfi : r.fixedInputs = ins := e9
  have hfo : r.fixedOutputs = outs := e10
  refine ⟨?_, ?_, fun a => ?_⟩
  · refine ledger_fee net plan minAda c s0 est h0 t r hmade ?_ before after ?_ ?_ hest e3 e4
    · rw [hfo, e12, List.append_nil]; exact hone
    · rw [hcount.1, hfi, e11]; simp
    · rw [hcount.2, hfo, e12]; simp
  · have hsum := paysAs_sum hmade.outputs
    rw [hfo, e12, List.append_nil] at hsum
    push_cast at hsum ⊢
    rw [← hsum, ← d1, ← d2, hmade.fee, ← e5, ← e6, e1]
  · rw [hfo, e12, List.append_nil, ← d3, ← d4, ← e7, ← e8]
    exact e2 a

/-- The single-output change balancer: the same, with the change. Outputs and change have at most 147 bytes (C61). -/
theorem C73_single_change_partial (h0 : LE.new net plan.scriptSize plan.quorum = .ok (c, s0)) (ins : List Utxo)
    (outs : List Output) (hs : Sensible ins outs) (ch : Option Nat) (t : Tx) (before after : List TxPart)
    (hcount : (before ++ after).countP (·.isInput) = ins.length ∧ (before ++ after).countP (·.isOutput) = outs.length)
    (hest : estimate net (linearEstimator c minAda) s0 before (t.magic.map (·.1.length)) after = .ok est)
    (r : Result) (est' : LE)
    (h : singleChange (linearEstimator c minAda) est (Setup.fromFixed ins outs ch) = .ok (r, est'))
    (hone : ∀ o ∈ outs ++ r.changes, ∀ x ∈ t.outputs, PaysAs o x → Short o x) (hmade : MadeFrom plan r t) :
    t.linearFee net.coefficient net.constant ≤ t.fee ∧
    (ins.map (·.value)).sum = ((t.outputs.map (fun x => x.amount.coin.val)).sum + t.fee : Nat) ∧
    ∀ a, (ins.map (fun u => assetSum a u.assets)).sum =
      ((r.fixedOutputs ++ r.changes).map (fun o => assetSum a o.assets)).sum := by
  obtain ⟨b1, b2, b3, b4⟩ := hs.tables ch
  obtain ⟨d1, d2, d3, d4, _, _, _, _, _, _, _, d5, _⟩ := C48_setup_totals ins outs ch
  obtain ⟨e1, e2, e3, e4, e5, e6, e7, x, addr, mn, f, g1, g2, g3, g4, g5, g6, g7, g8, g9, g10, _⟩ :=
    C46_success_partial _ est est' _ r b1 b2 b3 b4 (minFee_nonneg h0 hest) h
  have hfi : r.fixedInputs = ins := e5
  have hfo : r.fixedOutputs = outs := e6
  have hf : f = c.costOutput := by cases g5; rfl
  refine ⟨?_, ?_, fun a => ?_⟩
  · obtain ⟨est2, m, n, k1, k2, _, k4, _⟩ := C52_totals (c := c) (minAda := minAda) est [.output x]
    refine ledger_fee net plan minAda c s0 est2 h0 t r hmade ?_ before (after ++ [.output x]) ?_ ?_
      (estimate_more hest k1) k4 ?_
    · rw [hfo]; exact hone
    · rw [← List.append_assoc, List.countP_append, hcount.1, hfi, e7]; rfl
    · rw [← List.append_assoc, List.countP_append, hcount.2, hfo, g1]; rfl
    · rw [k2] at g4
      cases g4
      rw [g6, hf]
      simp [TxPart.isInput, TxPart.isOutput]
  · have hsum := paysAs_sum hmade.outputs
    rw [hfo, g1, List.map_append, List.sum_append] at hsum
    simp only [List.map_cons, List.map_nil, List.sum_cons, List.sum_nil, add_zero] at hsum
    push_cast at hsum ⊢
    rw [← hsum, ← d1, ← d2, hmade.fee, g6, g7]
    ring
  · rw [hfo, g1, List.map_append, List.sum_append, ← d3, ← d4]
    simp only [List.map_cons, List.map_nil, List.sum_cons, List.sum_nil, add_zero]
    rw [g9 a]
    ring

end

/-! ## C74: largest-first selection and a change -/

theorem runFee_linear {c : Costs} {minAda : Output → Except SelErr ℚ} : ∀ (us : List Utxo) (s s' : LE) (f f' : ℚ),
    runFee (linearEstimator c minAda) s f us = .ok (f', s') →
    addParts (linearEstimator c minAda) s (us.map .input) = .ok s' ∧ f' = f + c.costInput * us.length
  | [], s, s', f, f', h => by
    simp only [runFee] at h
    cases h
    exact ⟨rfl, by simp⟩
  | u :: us, s, s', f, f', h => by
    obtain ⟨h1, h2⟩ := runFee_linear us _ s' _ f' h
    refine ⟨h1, ?_⟩
    rw [h2]
    simp only [List.length_cons, Nat.cast_add, Nat.cast_one]
    ring

theorem countP_inputs (us : List Utxo) : (us.map TxPart.input).countP (·.isInput) = us.length ∧
    (us.map TxPart.input).countP (·.isOutput) = 0 := by
  induction us with
  | nil => exact ⟨rfl, rfl⟩
  | cons u us ih =>
    rw [List.map_cons, List.countP_cons, List.countP_cons, ih.1, ih.2]
    exact ⟨rfl, rfl⟩

theorem singleChange_adds {σ : Type} {E : Estimator σ} {s s' : σ} {io : Setup} {r : Result}
    (h : singleChange E s io = .ok (r, s')) : ∃ x, E.addOut s x = .ok s' ∧ r.changes = [x] := by
  have fin : ∀ addr cas fee v, finishChange E s io addr cas fee v = .ok (r, s') →
      ∃ x, E.addOut s x = .ok s' ∧ r.changes = [x] := by
    intro addr cas fee v hf
    unfold finishChange at hf
    simp only at hf
    split at hf
    · cases hf
    · split at hf
      · cases hf
      · rename_i hx
        cases hf
        exact ⟨_, hx, rfl⟩
  unfold singleChange at h
  repeat' split at h
  all_goals first
    | (cases h)
    | exact fin _ _ _ _ h

theorem linear_answers (c : Costs) (minAda : Output → Except SelErr ℚ) : (linearEstimator c minAda).Answers :=
  fun _ _ => ⟨⟨_, rfl⟩, ⟨_, rfl⟩⟩

section

variable (net : Network) (plan : MultisigPlan) (minAda : Output → Except SelErr ℚ) (c : Costs) (s0 est : LE)

/-- A payment the available UTxOs can afford is made: largest-first selection answers, and so does the single-output
change balancer for the UTxOs it chose. The inputs chosen are different available ones, everything taken in is paid out
or is in the change, except the fee, and the fee is the minimum of the estimator for the whole transaction. -/
theorem C74_affordable {ord : List Utxo → List Utxo} (hord : ∀ l, (ord l).Perm l) {avail : List Utxo} {st : UStore}
    (hst : StoreOK avail st) (ins : List Utxo) (outs : List Output) (hs : Sensible (ins ++ avail) outs) (addr : Nat)
    (h0 : LE.new net plan.scriptSize plan.quorum = .ok (c, s0)) (before after : List TxPart) (magic : Option Nat)
    (hest : estimate net (linearEstimator c minAda) s0 before magic after = .ok est)
    {m0 : ℚ} (hm0 : (linearEstimator c minAda).minFee est = .ok m0)
    (hassets : ∀ a, (outs.map (fun o => assetSum a o.assets)).sum ≤
      ((ins ++ avail).map (fun u => assetSum a u.assets)).sum)
    (hada : (outs.map (·.value)).sum + m0 + net.coefficient * 38 * avail.length ≤ ((ins ++ avail).map (·.value)).sum) :
    ∃ r est1 st1 r' est2 x,
      largestFirst (linearEstimator c minAda) ord st est (Setup.fromFixed ins outs (some addr)) = (.ok (r, est1), st1) ∧
      singleChange (linearEstimator c minAda) est1 (Setup.fromFixed (ins ++ r.chosen) outs (some addr)) = .ok (r', est2) ∧
      avail.Perm (r.chosen ++ availableInputs st1) ∧
      r'.fixedInputs = ins ++ r.chosen ∧ r'.chosen = [] ∧ r'.fixedOutputs = outs ∧ r'.changes = [x] ∧
      x.address = addr ∧
      ((ins ++ r.chosen).map (·.value)).sum = (outs.map (·.value)).sum + x.value + r'.fee ∧
      (∀ a, ((ins ++ r.chosen).map (fun u => assetSum a u.assets)).sum =
        (outs.map (fun o => assetSum a o.assets)).sum + assetSum a x.assets) ∧
      (∀ a ∈ x.assets, 0 < a.quantity) ∧
      r'.fee = m0 + net.coefficient * 38 * r.chosen.length + net.coefficient * 151 ∧
      (linearEstimator c minAda).minFee est2 = .ok r'.fee := by
  obtain ⟨_, k2, k3, _⟩ := LE_new_ok h0
  have hio := C48_setup_totals ins outs (some addr)
  obtain ⟨d1, d2, d3, d4, _, d6, _, dn2, _, _, d5, d7, _⟩ := hio
  have hO := (hs.tables (some addr)).2.2.2
  have hcase : LFCase (linearEstimator c minAda) ord avail st est (Setup.fromFixed ins outs (some addr)) := by
    refine ⟨hord, hst, fun u hu => hs.inputs u (by simp [hu]), ?_, minFee_nonneg h0 hest, hO⟩
    intro s u f hf
    cases hf
    rw [k2]; positivity
  cases hr : largestFirst (linearEstimator c minAda) ord st est (Setup.fromFixed ins outs (some addr)) with
  | mk res st1 =>
  cases res with
  | error e =>
    exfalso
    obtain ⟨hc, _, _⟩ := C40_complete hcase (linear_answers c minAda) hm0 hr
    rcases hc with ⟨t, o, h1, h2⟩ | ⟨order, f, s, h1, h2, h3⟩
    · rw [d3] at h2
      have hq : qty (Setup.fromFixed ins outs (some addr)).outputAssets t = o.quantity := by
        unfold qty
        rw [AMap.get_of_mem dn2 h1]
        rfl
      rw [d4] at hq
      have := hassets t
      rw [List.map_append, List.sum_append] at this
      linarith
    · obtain ⟨_, hf⟩ := runFee_linear order est s m0 f h2
      rw [d1, d2, hf, h1.length_eq, k2] at h3
      rw [List.map_append, List.sum_append] at hada
      linarith
  | ok re =>
    obtain ⟨r, est1⟩ := re
    obtain ⟨q1, q2, q3, q4, _, ⟨mn, q5, q6⟩, q7, q8, q9⟩ := C39_books hcase hr
    obtain ⟨p1, p2, _, _⟩ := C38_covers hcase hr
    rw [hm0] at q5
    cases q5
    obtain ⟨f1, f2⟩ := runFee_linear _ _ _ _ _ q6
    have hsub : ∀ u ∈ r.chosen, u ∈ avail := fun u hu => q3.mem_iff.mpr (by simp [hu])
    have hs2 : Sensible (ins ++ r.chosen) outs := by
      refine ⟨fun u hu => hs.inputs u ?_, hs.outputs⟩
      rcases List.mem_append.mp hu with hu | hu
      · simp [hu]
      · simp [hsub u hu]
    obtain ⟨b1, b2, b3, b4⟩ := hs2.tables (some addr)
    obtain ⟨t1, t2, t3, t4, _, _, _, _, _, _, _, _, _⟩ := C48_setup_totals (ins ++ r.chosen) outs (some addr)
    obtain ⟨est2', m, n, w1, w2, _, w4, _⟩ := C52_totals (c := c) (minAda := minAda) est (r.chosen.map .input)
    rw [w1] at f1
    cases f1
    rw [hm0] at w2
    cases w2
    rw [(countP_inputs _).1, (countP_inputs _).2, Nat.cast_zero, mul_zero, add_zero] at w4
    have hest1 := estimate_more hest w1
    have hpos := minFee_nonneg h0 hest1
    have hfail := C46_failure (linearEstimator c minAda) est1 (Setup.fromFixed (ins ++ r.chosen) outs (some addr))
      (m0 + c.costInput * r.chosen.length) b1 b2 b3 b4 w4 (hpos _ w4) (fun o => ⟨_, rfl⟩) (fun o => ⟨_, rfl⟩)
    have hno : ¬ ∃ e, singleChange (linearEstimator c minAda) est1 (Setup.fromFixed (ins ++ r.chosen) outs (some addr)) =
        .error e := by
      rw [hfail]
      rintro (h | ⟨t, ht⟩ | h)
      · cases h
      · rw [t3, t4, List.map_append, List.sum_append] at ht
        by_cases hk : t ∈ (Setup.fromFixed ins outs (some addr)).outputAssets.keys
        · obtain ⟨⟨t', o⟩, hm, he⟩ := List.mem_map.mp hk
          obtain rfl : t' = t := he
          have ho := AMap.get_of_mem dn2 hm
          have := p1 _ o hm
          rw [q2, d3] at this
          have hq : qty (Setup.fromFixed ins outs (some addr)).outputAssets t' = o.quantity := by
            unfold qty; rw [ho]; rfl
          rw [d4] at hq
          linarith
        · have hq := qty_absent hk
          rw [d4] at hq
          have z1 := sum_map_nonneg (fun u : Utxo => assetSum t u.assets) ins
            (fun u hu => assetSum_nonneg (hs.inputs u (by simp [hu])) t)
          have z2 := sum_map_nonneg (fun u : Utxo => assetSum t u.assets) r.chosen
            (fun u hu => assetSum_nonneg (hs.inputs u (by simp [hsub u hu])) t)
          linarith
      · rw [t1, t2, List.map_append, List.sum_append] at h
        rw [q1, f2, d1, d2] at p2
        linarith
    cases hsc : singleChange (linearEstimator c minAda) est1 (Setup.fromFixed (ins ++ r.chosen) outs (some addr)) with
    | error e => exact absurd ⟨e, hsc⟩ hno
    | ok re2 =>
      obtain ⟨r', est2⟩ := re2
      obtain ⟨e1, e2, e3, e4, e5, e6, e7, x, addr', mn, f, g1, g2, g3, g4, g5, g6, g7, g8, g9, g10, _⟩ :=
        C46_success_partial _ est1 est2 _ r' b1 b2 b3 b4 hpos hsc
      rw [w4] at g4
      cases g4
      have hf : f = c.costOutput := by cases g5; rfl
      cases g2
      have hfee : r'.fee = m0 + net.coefficient * 38 * r.chosen.length + net.coefficient * 151 := by
        rw [g6, hf, k2, k3]
      refine ⟨r, est1, st1, r', est2, x, rfl, hsc, q3, e5, e7, e6, g1, g3, ?_, ?_, g10, hfee, ?_⟩
      · rw [← t1, ← t2, g7, g6]; ring
      · intro a
        rw [← t3, ← t4, g9 a]; ring
      · rw [g6, hf]
        obtain ⟨y, hy, _⟩ := singleChange_adds hsc
        cases hy
        simp only [linearEstimator, Except.ok.injEq] at w4 ⊢
        rw [List.length_append, ← w4]
        simp only [List.length_singleton, Nat.cast_add, Nat.cast_one]
        ring

/-- A payment largest-first selection makes could be afforded, if every available UTxO is worth the fee of spending
it: otherwise the selection fails and takes nothing. -/
theorem C74_only_affordable {ord : List Utxo → List Utxo} (hord : ∀ l, (ord l).Perm l) {avail : List Utxo}
    {st st1 : UStore} (hst : StoreOK avail st) (ins : List Utxo) (outs : List Output)
    (hs : Sensible (ins ++ avail) outs) (ch : Option Nat)
    (h0 : LE.new net plan.scriptSize plan.quorum = .ok (c, s0)) (before after : List TxPart) (magic : Option Nat)
    (hest : estimate net (linearEstimator c minAda) s0 before magic after = .ok est)
    {m0 : ℚ} (hm0 : (linearEstimator c minAda).minFee est = .ok m0)
    (hworth : ∀ u ∈ avail, (net.coefficient * 38 : ℚ) ≤ u.value)
    (hshort : (∃ a, ((ins ++ avail).map (fun u => assetSum a u.assets)).sum <
        (outs.map (fun o => assetSum a o.assets)).sum) ∨
      ((ins ++ avail).map (·.value)).sum < (outs.map (·.value)).sum + m0 + net.coefficient * 38 * avail.length)
    {res : Except SelErr (Result × LE)}
    (hr : largestFirst (linearEstimator c minAda) ord st est (Setup.fromFixed ins outs ch) = (res, st1)) :
    (∃ e, res = .error e) ∧ st1 = st := by
  obtain ⟨_, k2, k3, _⟩ := LE_new_ok h0
  obtain ⟨d1, d2, d3, d4, _, d6, _, dn2, _⟩ := C48_setup_totals ins outs ch
  have hO := (hs.tables ch).2.2.2
  have hcase : LFCase (linearEstimator c minAda) ord avail st est (Setup.fromFixed ins outs ch) := by
    refine ⟨hord, hst, fun u hu => hs.inputs u (by simp [hu]), ?_, minFee_nonneg h0 hest, hO⟩
    intro s u f hf
    cases hf
    rw [k2]; positivity
  cases res with
  | error e => exact ⟨⟨e, rfl⟩, C40_failure_keeps hr⟩
  | ok re =>
    exfalso
    obtain ⟨r, est1⟩ := re
    obtain ⟨q1, q2, q3, q4, _, ⟨mn, q5, q6⟩, _⟩ := C39_books hcase hr
    obtain ⟨p1, p2, _, _⟩ := C38_covers hcase hr
    rw [hm0] at q5
    cases q5
    obtain ⟨_, f2⟩ := runFee_linear _ _ _ _ _ q6
    rcases hshort with ⟨a, ha⟩ | ha
    · have hperm := (q3.map (fun u => assetSum a u.assets)).sum_eq
      rw [List.map_append, List.sum_append] at hperm ha
      have z2 := sum_map_nonneg (fun u : Utxo => assetSum a u.assets) (availableInputs st1)
        (fun u hu => assetSum_nonneg (hs.inputs u (by simp [q3.mem_iff.mpr (List.mem_append_right _ hu)])) a)
      by_cases hk : a ∈ (Setup.fromFixed ins outs ch).outputAssets.keys
      · obtain ⟨⟨t', o⟩, hm, he⟩ := List.mem_map.mp hk
        obtain rfl : t' = a := he
        have ho := AMap.get_of_mem dn2 hm
        have := p1 _ o hm
        rw [q2, d3] at this
        have hq : qty (Setup.fromFixed ins outs ch).outputAssets t' = o.quantity := by
          unfold qty; rw [ho]; rfl
        rw [d4] at hq
        linarith
      · have hq := qty_absent hk
        rw [d4] at hq
        have z1 := sum_map_nonneg (fun u : Utxo => assetSum a u.assets) ins
          (fun u hu => assetSum_nonneg (hs.inputs u (by simp [hu])) a)
        have z2 := sum_map_nonneg (fun u : Utxo => assetSum a u.assets) avail
          (fun u hu => assetSum_nonneg (hs.inputs u (by simp [hu])) a)
        linarith
    · have hperm := (q3.map (fun u => u.value - (net.coefficient * 38 : ℚ))).sum_eq
      have hlin : ∀ l : List Utxo, (l.map (fun u => u.value - (net.coefficient * 38 : ℚ))).sum =
          (l.map (·.value)).sum - net.coefficient * 38 * l.length := by
        intro l
        induction l with
        | nil => simp
        | cons u l ih =>
          simp only [List.map_cons, List.sum_cons, ih, List.length_cons, Nat.cast_add, Nat.cast_one]
          ring
      rw [List.map_append, List.sum_append, hlin, hlin] at hperm
      have z := sum_map_nonneg (fun u : Utxo => u.value - (net.coefficient * 38 : ℚ)) (availableInputs st1)
        (fun u hu => sub_nonneg.mpr (hworth u (q3.mem_iff.mpr (List.mem_append_right _ hu))))
      rw [List.map_append, List.sum_append] at ha
      rw [q1, f2, d1, d2, k2] at p2
      linarith

/-- The whole way, from an affordable request to the ledger: the transaction made from the answers of largest-first
selection and the balancer pays the fee the ledger asks for its bytes and spends exactly what it takes in. Missing for
C74: the change can be negative, so that no such transaction exists (`C74_change_false`), and changes and outputs of
more than 147 bytes (C61). -/
theorem C74_accepted_partial {ord : List Utxo → List Utxo} (hord : ∀ l, (ord l).Perm l) {avail : List Utxo} {st st1 : UStore}
    (hst : StoreOK avail st) (ins : List Utxo) (outs : List Output) (hs : Sensible (ins ++ avail) outs) (addr : Nat)
    (h0 : LE.new net plan.scriptSize plan.quorum = .ok (c, s0)) (t : Tx) (before after : List TxPart)
    (hcount : (before ++ after).countP (·.isInput) = ins.length ∧ (before ++ after).countP (·.isOutput) = outs.length)
    (hest : estimate net (linearEstimator c minAda) s0 before (t.magic.map (·.1.length)) after = .ok est)
    {r r' : Result} {est1 est2 : LE}
    (h1 : largestFirst (linearEstimator c minAda) ord st est (Setup.fromFixed ins outs (some addr)) = (.ok (r, est1), st1))
    (h2 : singleChange (linearEstimator c minAda) est1 (Setup.fromFixed (ins ++ r.chosen) outs (some addr)) = .ok (r', est2))
    (hone : ∀ o ∈ outs ++ r'.changes, ∀ x ∈ t.outputs, PaysAs o x → Short o x) (hmade : MadeFrom plan r' t) :
    t.linearFee net.coefficient net.constant ≤ t.fee ∧
    ((ins ++ r.chosen).map (·.value)).sum = ((t.outputs.map (fun x => x.amount.coin.val)).sum + t.fee : Nat) ∧
    ∀ a, ((ins ++ r.chosen).map (fun u => assetSum a u.assets)).sum =
      ((r'.fixedOutputs ++ r'.changes).map (fun o => assetSum a o.assets)).sum := by
  obtain ⟨_, k2, k3, _⟩ := LE_new_ok h0
  have hcase : LFCase (linearEstimator c minAda) ord avail st est (Setup.fromFixed ins outs (some addr)) := by
    refine ⟨hord, hst, fun u hu => hs.inputs u (by simp [hu]), ?_, minFee_nonneg h0 hest, (hs.tables (some addr)).2.2.2⟩
    intro s u f hf
    cases hf
    rw [k2]; positivity
  obtain ⟨_, _, q3, _, _, ⟨mn, _, q6⟩, _⟩ := C39_books hcase h1
  obtain ⟨f1, _⟩ := runFee_linear _ _ _ _ _ q6
  have hs2 : Sensible (ins ++ r.chosen) outs := by
    refine ⟨fun u hu => hs.inputs u ?_, hs.outputs⟩
    rcases List.mem_append.mp hu with hu | hu
    · simp [hu]
    · simp [q3.mem_iff.mpr (List.mem_append_left _ hu)]
  exact C73_single_change_partial net plan minAda c s0 est1 h0 _ outs hs2 (some addr) t before
    (after ++ r.chosen.map .input) (by
      rw [← List.append_assoc, List.countP_append (l₁ := before ++ after), List.countP_append (l₁ := before ++ after),
        hcount.1, hcount.2, (countP_inputs _).1, (countP_inputs _).2, List.length_append]
      exact ⟨rfl, rfl⟩) (estimate_more hest f1) r' est2 h2 hone hmade

end

/-! ### Cases -/

/-- A payment of one ada, and available UTxOs without assets. -/
def payOuts : List Output := [⟨9, 1000000, []⟩]
def payAvail (v w : ℚ) : List Utxo := [⟨1, v, [], 0⟩, ⟨2, w, [], 0⟩]
def payStore (v w : ℚ) : UStore := (setAvailable UStore.new (payAvail v w)).2
def payEst : LE := { currentSize := 67 + (50 + 39 + 108) + 151, outputs := payOuts }

theorem payEst_ok : estimate Network.public oneE { currentSize := 67 + (50 + 39 + 108) } [.output ⟨9, 1000000, []⟩]
    none [] = .ok payEst := rfl

theorem payEst_fee : oneE.minFee payEst = .ok 171441 := by decide +kernel

theorem payStore_ok (v w : ℚ) : StoreOK (payAvail v w) (payStore v w) := by
  obtain ⟨st, h1, h2, _⟩ := C39_set_available UStore.new (payAvail v w)
    (by intro u hu; simp only [payAvail, List.mem_cons, List.not_mem_nil, or_false] at hu
        rcases hu with rfl | rfl <;> simp [DistinctAssets]) (by simp [payAvail])
  have : payStore v w = st := by unfold payStore; rw [h1]
  rw [this]; exact h2

theorem pay_sensible (v w : ℚ) : Sensible ([] ++ payAvail v w) payOuts := by
  constructor
  · intro u hu a ha
    simp only [payAvail, List.nil_append, List.mem_cons, List.not_mem_nil, or_false] at hu
    rcases hu with rfl | rfl <;> cases ha
  · intro o ho
    simp only [payOuts, List.mem_singleton] at ho
    subst ho
    exact ⟨by norm_num, by simp⟩

/-- Two UTxOs that can afford the payment. -/
theorem pay_affordable {v w : ℚ} (h : 1174785 ≤ v + w) : ∃ r est1 st1 r' est2 x,
    largestFirst oneE id (payStore v w) payEst (Setup.fromFixed [] payOuts (some 8)) = (.ok (r, est1), st1) ∧
    singleChange oneE est1 (Setup.fromFixed ([] ++ r.chosen) payOuts (some 8)) = .ok (r', est2) ∧
    (payAvail v w).Perm (r.chosen ++ availableInputs st1) ∧
    r'.fixedInputs = [] ++ r.chosen ∧ r'.chosen = [] ∧ r'.fixedOutputs = payOuts ∧ r'.changes = [x] ∧ x.assets = [] ∧
    (r.chosen.map (·.value)).sum = 1000000 + x.value + r'.fee ∧
    r'.fee = 178085 + 1672 * r.chosen.length := by
  obtain ⟨r, est1, st1, r', est2, x, h1, h2, h3, h4, h5, h6, h7, _, h8, h9, h10, h11, _⟩ :=
    C74_affordable Network.public onePlan (fun _ => .ok 1000000) oneCosts _ payEst (ord := id) (fun l => .refl l)
      (payStore_ok v w) [] payOuts (pay_sensible v w) 8 onePlan_new [.output ⟨9, 1000000, []⟩] [] none payEst_ok
      payEst_fee (by intro a; simp [payOuts, payAvail, assetSum]) (by
        simp only [payOuts, payAvail, List.map_cons, List.map_nil, List.sum_cons, List.sum_nil, List.nil_append,
          Network.public, List.length_cons, List.length_nil]
        push_cast
        linarith)
  refine ⟨r, est1, st1, r', est2, x, h1, h2, h3, h4, h5, h6, h7, ?_, ?_, ?_⟩
  · by_contra hne
    obtain ⟨a, ha⟩ := List.exists_mem_of_ne_nil _ hne
    have hz : assetSum a.fingerprint x.assets = 0 := by
      have := h9 a.fingerprint
      have hs : ((r.chosen).map (fun u => assetSum a.fingerprint u.assets)).sum = 0 := by
        apply List.sum_eq_zero
        intro q hq
        obtain ⟨u, hu, rfl⟩ := List.mem_map.mp hq
        have hu := h3.mem_iff.mpr (List.mem_append_left _ hu)
        simp only [payAvail, List.mem_cons, List.not_mem_nil, or_false] at hu
        rcases hu with rfl | rfl <;> rfl
      rw [List.nil_append, hs] at this
      have h0 : (payOuts.map (fun o => assetSum a.fingerprint o.assets)).sum = 0 := by simp [payOuts, assetSum]
      rw [h0] at this
      linarith
    have hp : ∀ l : List Asset, (∀ b ∈ l, 0 < b.quantity) → a ∈ l → 0 < assetSum a.fingerprint l := by
      intro l
      induction l with
      | nil => intro _ h; cases h
      | cons b l ih =>
        intro hl hm
        rw [assetSum_cons]
        have hn := assetSum_nonneg (fun b hb => (hl b (by simp [hb])).le : ∀ b ∈ l, 0 ≤ b.quantity) a.fingerprint
        have hb := hl b (by simp)
        rcases List.mem_cons.mp hm with rfl | hm
        · simp only [if_true]; linarith
        · have := ih (fun b hb => hl b (by simp [hb])) hm
          split <;> linarith
    have := hp _ h10 ha
    linarith
  · rw [List.nil_append] at h8
    rw [h8]
    simp [payOuts]
  · rw [h11]
    simp only [Network.public]
    push_cast
    ring

/-- The case meets the hypotheses: five ada and two, and the transaction of the answer. -/
example : ∃ t : Tx, t.outputs.length = 2 ∧ t.linearFee 44 155381 ≤ t.fee := by
  obtain ⟨r, est1, st1, r', est2, x, h1, h2, h3, h4, h5, h6, h7, h8, h9, h10⟩ :=
    pay_affordable (v := 5000000) (w := 2000000) (by norm_num)
  have hr : r.chosen.map (·.value) = [5000000] := by
    have : (match (largestFirst oneE id (payStore 5000000 2000000) payEst (Setup.fromFixed [] payOuts (some 8))).1 with
      | .ok (r, _) => r.chosen.map (·.value)
      | .error _ => []) = [5000000] := by decide +kernel
    rw [h1] at this
    exact this
  have hl : r.chosen.length = 1 := by simpa using congrArg List.length hr
  rw [hl] at h10
  rw [hr, h10] at h9
  have hx : x.value = 3820243 := by
    simp only [List.sum_cons, List.sum_nil] at h9
    push_cast at h9
    linarith
  have hmade : MadeFrom onePlan r' (oneTx 1 [plainOut ⟨1000000, by decide⟩, plainOut ⟨3820243, by decide⟩] 179757) := by
    refine oneTx_made (by rw [h4, h5]; simp [hl]) ?_ (by rw [h10]; norm_num)
    rw [h6, h7]
    exact .cons (plainOut_pays (by norm_num) rfl) (.cons (plainOut_pays (by rw [hx]; norm_num) h8) .nil)
  refine ⟨_, rfl, (C74_accepted_partial Network.public onePlan (fun _ => .ok 1000000) oneCosts _ payEst (fun l => .refl l) (payStore_ok _ _) []
    payOuts (pay_sensible _ _) 8 onePlan_new (oneTx 1 [plainOut ⟨1000000, by decide⟩, plainOut ⟨3820243, by decide⟩] 179757)
    [.output ⟨9, 1000000, []⟩] [] ⟨rfl, rfl⟩ payEst_ok h1 h2 ?_ hmade).1⟩
  intro o ho x _ _
  left
  rw [h7] at ho
  simp only [payOuts, List.cons_append, List.nil_append, List.mem_cons, List.not_mem_nil, or_false] at ho
  rcases ho with rfl | rfl
  · simp
  · rw [h8]; simp

/-- A payment that meets the hypotheses of `C74_only_affordable`: two UTxOs of half an ada are too little. -/
example : ∃ e, (largestFirst oneE id (payStore 500000 500000) payEst (Setup.fromFixed [] payOuts (some 8))) =
    (.error e, payStore 500000 500000) := by
  obtain ⟨⟨e, he⟩, h⟩ := C74_only_affordable Network.public onePlan (fun _ => .ok 1000000) oneCosts _ payEst (ord := id)
    (fun l => .refl l) (payStore_ok 500000 500000) [] payOuts (pay_sensible _ _) (some 8) onePlan_new
    [.output ⟨9, 1000000, []⟩] [] none payEst_ok payEst_fee (by
      intro u hu
      simp only [payAvail, List.mem_cons, List.not_mem_nil, or_false] at hu
      rcases hu with rfl | rfl <;> norm_num [Network.public]) (.inr (by
      simp only [payOuts, payAvail, List.map_cons, List.map_nil, List.sum_cons, List.sum_nil, List.nil_append,
        Network.public, List.length_cons, List.length_nil]
      norm_num)) rfl
  exact ⟨e, Prod.ext he h⟩

/-- The fee-change balancer with one UTxO, whose value is spent on the payment and the fee. -/
def feeUtxo : Utxo := ⟨1, 1180000, [], 0⟩
def feeEst : LE := { currentSize := 67 + (50 + 39 + 108) + 38 + 151, inputs := [feeUtxo], outputs := payOuts }

theorem feeEst_ok : estimate Network.public oneE { currentSize := 67 + (50 + 39 + 108) }
    [.input feeUtxo, .output ⟨9, 1000000, []⟩] none [] = .ok feeEst := rfl

example : ∃ t : Tx, t.fee = 180000 ∧ t.linearFee 44 155381 ≤ t.fee := by
  have view : (match feeChange oneE feeEst (Setup.fromFixed [feeUtxo] payOuts none) with
    | .ok r => some (r.fee, r.changes.length, r.chosen.length)
    | .error _ => none) = some (180000, 0, 0) := by decide +kernel
  cases hr : feeChange oneE feeEst (Setup.fromFixed [feeUtxo] payOuts none) with
  | error e => rw [hr] at view; cases view
  | ok r =>
    rw [hr] at view
    simp only [Option.some.injEq, Prod.mk.injEq] at view
    obtain ⟨v1, v2, v3⟩ := view
    have hs : Sensible [feeUtxo] payOuts := by
      refine ⟨?_, (pay_sensible 0 0).outputs⟩
      intro u hu a ha
      rw [List.mem_singleton] at hu
      subst hu
      cases ha
    obtain ⟨b1, b2, b3, b4⟩ := hs.tables none
    obtain ⟨_, _, _, _, _, _, _, e9, e10, _⟩ :=
      C45_success _ feeEst _ r b1 b2 b4 (minFee_nonneg onePlan_new feeEst_ok) hr
    have hmade : MadeFrom onePlan r (oneTx 1 [plainOut ⟨1000000, by decide⟩] 180000) := by
      refine oneTx_made (by rw [e9, List.length_eq_zero_iff.mp v3]; rfl) ?_ (by rw [v1]; norm_num)
      rw [e10, List.length_eq_zero_iff.mp v2]
      exact .cons (plainOut_pays (by norm_num) rfl) .nil
    refine ⟨_, rfl, (C73_fee_change_partial Network.public onePlan (fun _ => .ok 1000000) oneCosts _ feeEst onePlan_new
      [feeUtxo] payOuts hs none (oneTx 1 [plainOut ⟨1000000, by decide⟩] 180000)
      [.input feeUtxo, .output ⟨9, 1000000, []⟩] [] ⟨rfl, rfl⟩ feeEst_ok ?_ r hr hmade).1⟩
    intro o ho x _ _
    left
    simp only [payOuts, List.mem_singleton] at ho
    subst ho
    simp

/-- A payment that can be afforded, for which the change is negative, so that no transaction can be made: what is left
is less than the fee of the change output. -/
theorem C74_change_false : ¬ ∀ (net : Network) (plan : MultisigPlan) (minAda : Output → Except SelErr ℚ) (c : Costs)
    (s0 est : LE) (ord : List Utxo → List Utxo) (avail : List Utxo) (st : UStore) (ins : List Utxo) (outs : List Output)
    (addr : Nat) (before after : List TxPart) (m0 : ℚ),
    (∀ l, (ord l).Perm l) → StoreOK avail st → Sensible (ins ++ avail) outs →
    LE.new net plan.scriptSize plan.quorum = .ok (c, s0) →
    estimate net (linearEstimator c minAda) s0 before none after = .ok est →
    (linearEstimator c minAda).minFee est = .ok m0 →
    (∀ a, (outs.map (fun o => assetSum a o.assets)).sum ≤ ((ins ++ avail).map (fun u => assetSum a u.assets)).sum) →
    ((outs.map (·.value)).sum + m0 + net.coefficient * 38 * avail.length ≤ ((ins ++ avail).map (·.value)).sum) →
    ∃ r est1 st1 r' est2,
      largestFirst (linearEstimator c minAda) ord st est (Setup.fromFixed ins outs (some addr)) = (.ok (r, est1), st1) ∧
      singleChange (linearEstimator c minAda) est1 (Setup.fromFixed (ins ++ r.chosen) outs (some addr)) = .ok (r', est2) ∧
      ∀ x ∈ r'.changes, 0 ≤ x.value := by
  intro h
  obtain ⟨r, est1, st1, r', est2, h1, h2, h3⟩ := h Network.public onePlan (fun _ => .ok 1000000) oneCosts _ payEst id
    (payAvail 1172785 2000) (payStore 1172785 2000) [] payOuts 8 [.output ⟨9, 1000000, []⟩] [] 171441 (fun l => .refl l)
    (payStore_ok _ _) (pay_sensible _ _) onePlan_new payEst_ok payEst_fee
    (by intro a; simp [payOuts, payAvail, assetSum]) (by
      simp only [payOuts, payAvail, List.map_cons, List.map_nil, List.sum_cons, List.sum_nil, List.nil_append,
        Network.public, List.length_cons, List.length_nil]
      norm_num)
  obtain ⟨q, e1, s1, q', e2, x, k1, k2, k3, k4, k5, k6, k7, k8, k9, k10⟩ :=
    pay_affordable (v := 1172785) (w := 2000) (by norm_num)
  have h1' : largestFirst oneE id (payStore 1172785 2000) payEst (Setup.fromFixed [] payOuts (some 8)) =
    (.ok (r, est1), st1) := h1
  rw [k1] at h1'
  cases h1'
  have h2' : singleChange oneE est1 (Setup.fromFixed ([] ++ r.chosen) payOuts (some 8)) = .ok (r', est2) := h2
  rw [k2] at h2'
  cases h2'
  have hx := h3 x (by rw [k7]; simp)
  have hle : (r.chosen.map (fun u => u.value)).sum ≤ 1174785 := by
    have hp := (k3.map (fun u : Utxo => u.value)).sum_eq
    rw [List.map_append, List.sum_append] at hp
    have hn := sum_map_nonneg (fun u : Utxo => u.value) (availableInputs st1) (by
      intro u hu
      have hu := k3.mem_iff.mpr (List.mem_append_right _ hu)
      simp only [payAvail, List.mem_cons, List.not_mem_nil, or_false] at hu
      rcases hu with rfl | rfl <;> norm_num)
    simp only [payAvail, List.map_cons, List.map_nil, List.sum_cons, List.sum_nil] at hp
    linarith
  rw [k9, k10] at hle
  have : (0 : ℚ) ≤ 1672 * (r.chosen.length : ℚ) := by positivity
  linarith

end Verif.Props
