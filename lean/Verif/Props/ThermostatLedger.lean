import Verif.Selection.ThermostatSize
import Verif.Props.ThermostatComplete
import Verif.Props.NetworkFees

/-!
# The ledger accepts fee and amounts of a thermostat selection (C71)

From the network's parameters over the estimator and the selection to the bytes of the transaction.
-/

namespace Verif.Props

open Verif Verif.Core Verif.Selection Verif.Selection.Thermostat Verif.Cardano

/-! ### Specification -/

/-- A ledger output that pays what an output of the selection says: same amount of the main token, and the asset with its
quantity if there is one. -/
structure PaysAs (o : Output) (x : TxOut) : Prop where
  address : x.address.length ≤ 57
  coin : (x.amount.coin.val : ℚ) = o.value
  plain : o.assets = [] → x.amount.multiasset = none
  asset : ∀ a, o.assets = [a] → ∃ p n q, x.amount.multiasset = some [(p, [(n, q)])] ∧ p.length = 28 ∧ n.length ≤ 32 ∧
    (q.val : ℚ) = a.quantity

/-- An output of a transaction that serialises to at most 147 bytes, which is so whenever it holds at most one asset. -/
def Short (o : Output) (x : TxOut) : Prop := o.assets.length ≤ 1 ∨ x.encode.length ≤ 147

/-- The transaction made from the answer of a selection: one input for each fixed and chosen UTxO, one output for each
fixed output and each change, in this order, the fee of the answer, and signatures and script of the plan. -/
structure MadeFrom (plan : MultisigPlan) (r : Result) (t : Tx) : Prop where
  inputs : t.inputs.length = r.fixedInputs.length + r.chosen.length
  identifiers : ∀ i ∈ t.inputs, i.1.length = 32 ∧ i.2 < 2 ^ 16
  outputs : List.Forall₂ PaysAs (r.fixedOutputs ++ r.changes) t.outputs
  fee : (t.fee : ℚ) = r.fee
  witnesses : t.witnesses.length ≤ plan.quorum ∧ ∀ w ∈ t.witnesses, w.1.length = 32 ∧ w.2.length = 64
  scripts : t.scripts = plan.toScript
  magic : ∀ text hash, t.magic = some (text, hash) → text.length < 2 ^ 8 ∧ hash.length = 32

/-! ### Counting -/

theorem addParts_concat {σ : Type} {E : Estimator σ} : ∀ (ps qs : List TxPart) {s s1 : σ},
    addParts E s ps = .ok s1 → addParts E s (ps ++ qs) = addParts E s1 qs
  | [], _, _, _, h => by cases h; rfl
  | p :: ps, qs, s, s1, h => by
    simp only [addParts, List.cons_append] at h ⊢
    cases hp : addPart E s p with
    | error e => rw [hp] at h; cases h
    | ok s2 =>
      rw [hp] at h
      exact addParts_concat ps qs h

theorem addParts_of_adds {σ : Type} {E : Estimator σ} {s0 s : σ} {i o : Nat} (h : Adds E s0 s i o) :
    ∃ ps, addParts E s0 ps = .ok s ∧ ps.countP (·.isInput) = i ∧ ps.countP (·.isOutput) = o := by
  induction h with
  | refl => exact ⟨[], rfl, rfl, rfl⟩
  | @addIn s s' u i o _ ha ih =>
    obtain ⟨ps, h1, h2, h3⟩ := ih
    refine ⟨ps ++ [.input u], ?_, ?_, ?_⟩
    · rw [addParts_concat _ _ h1]; simp only [addParts, addPart, ha]
    · rw [List.countP_append, h2]; rfl
    · rw [List.countP_append, h3]; rfl
  | @addOut s s' x i o _ ha ih =>
    obtain ⟨ps, h1, h2, h3⟩ := ih
    refine ⟨ps ++ [.output x], ?_, ?_, ?_⟩
    · rw [addParts_concat _ _ h1]; simp only [addParts, addPart, ha]
    · rw [List.countP_append, h2]; rfl
    · rw [List.countP_append, h3]; rfl

/-- The parts the estimator has counted at the end of a selection. -/
theorem thermostat_parts {σ : Type} {E : Estimator σ} {W : World} {st st' : UStore} {est est' : σ} {ins : List Utxo}
    {outs : List Output} {ch : Option Nat} {r : Result}
    (hc : ∀ l, (W.changeOrder l).Perm l)
    (hmv : ∀ s o v s', E.minValueOut s o = .ok (v, s') → s' = s)
    (h : thermostat E W st est (Setup.fromFixed ins outs ch) = (.ok (r, est'), st')) :
    ∃ ps, addParts E est ps = .ok est' ∧ ps.countP (·.isInput) = r.chosen.length ∧
      ps.countP (·.isOutput) = r.changes.length := by
  obtain ⟨s, hs, _, rfl, hsel, hch, _⟩ := thermostat_ok h
  have h1 := select_counted hmv hs (s0 := est) (by unfold Counted; exact .refl)
  have h2 := select_main hs initial_main
  have h3 := allChanges_length hc h2.nodup
  obtain ⟨ps, e1, e2, e3⟩ := addParts_of_adds h1
  exact ⟨ps, e1, by rw [e2, hsel], by rw [e3, hch, h3]⟩

theorem paysAs_one {o : Output} {x : TxOut} (h : PaysAs o x) (h1 : o.assets.length ≤ 1) :
    x.address.length ≤ 57 ∧ AtMostOneAsset x.amount := by
  refine ⟨h.address, ?_⟩
  match ha : o.assets, h1 with
  | [], _ =>
    intro m hm
    rw [h.plain ha] at hm; cases hm
  | [a], _ =>
    obtain ⟨p, n, q, e1, e2, e3, _⟩ := h.asset a ha
    have := atMostOne_one x.amount.coin p n q e2 e3
    intro m hm
    exact this m (by rw [← e1]; exact hm)

theorem paysAs_short {o : Output} {x : TxOut} (h : PaysAs o x) (h1 : Short o x) : x.encode.length ≤ 147 :=
  h1.elim (fun h1 => txOut_le (paysAs_one h h1)) id

theorem forall2_right {α β : Type} {R : α → β → Prop} {l : List α} {m : List β} (h : List.Forall₂ R l m) :
    ∀ b ∈ m, ∃ a ∈ l, R a b := by
  induction h with
  | nil => intro b hb; cases hb
  | cons hr _ ih =>
    intro b hb
    rcases List.mem_cons.mp hb with rfl | hb
    · exact ⟨_, by simp, hr⟩
    · obtain ⟨a, h1, h2⟩ := ih b hb
      exact ⟨a, by simp [h1], h2⟩

theorem paysAs_sum {l : List Output} {m : List TxOut} (h : List.Forall₂ PaysAs l m) :
    (l.map (·.value)).sum = (((m.map (fun x => x.amount.coin.val)).sum : Nat) : ℚ) := by
  induction h with
  | nil => simp
  | cons hr _ ih =>
    simp only [List.map_cons, List.sum_cons, ih, Nat.cast_add, hr.coin]

/-! ## C71 -/

variable {W : World} {st st' : UStore} {est est' : LE} {ins : List Utxo} {outs : List Output} {ch : Option Nat}
  {r : Result}

/-- The transaction made from a thermostat selection pays the fee the ledger asks for its bytes, and spends exactly what
it takes in. The estimator was built for the network and the plan and has counted the fixed inputs and outputs, and the
protocol magic if there is one. As in C50, every available UTxO is worth its own cost and no asset is met exactly;
missing for C71: these cases (`C71_exact_false`), and fixed outputs of more than 147 bytes (C61). -/
theorem C71_accepted_partial {avail : List Utxo} (hC : THCase W avail st ins outs) (hmm : W.cfg.min ≤ W.cfg.max)
    (hdiv : ∀ q, W.div q 2 = q / 2) (hq : ∀ u ∈ avail ++ ins, ∀ a ∈ u.assets, 0 ≤ a.quantity)
    (net : Network) (plan : MultisigPlan) (minAda : Output → Except SelErr ℚ) (c : Costs) (s0 : LE)
    (h0 : LE.new net plan.scriptSize plan.quorum = .ok (c, s0)) (t : Tx)
    (before after : List TxPart)
    (hcount : (before ++ after).countP (·.isInput) = ins.length ∧ (before ++ after).countP (·.isOutput) = outs.length)
    (hest : estimate net (linearEstimator c minAda) s0 before (t.magic.map (·.1.length)) after = .ok est)
    (hone : ∀ o ∈ outs, ∀ x ∈ t.outputs, PaysAs o x → Short o x) (hworth : ∀ u ∈ avail, (net.coefficient * 38 : ℚ) ≤ u.value)
    (hexact : ∀ t ∈ requestTokens ins outs, ∀ used rest, avail.Perm (used ++ rest) →
      assetIn t ins + assetIn t used ≠ assetOut t outs)
    (h : thermostat (linearEstimator c minAda) W st est (Setup.fromFixed ins outs ch) = (.ok (r, est'), st'))
    (hmade : MadeFrom plan r t) :
    t.linearFee net.coefficient net.constant ≤ t.fee ∧
    ((ins ++ r.chosen).map (·.value)).sum = ((t.outputs.map (fun x => x.amount.coin.val)).sum + t.fee : Nat) := by
  have hm := C49_main hC.changeOrder h
  have hfixed : r.fixedInputs = ins ∧ r.fixedOutputs = outs := ⟨hm.2.2.2.2.2.1, hm.2.2.2.2.2.2⟩
  have hsum := paysAs_sum hmade.outputs
  constructor
  · obtain ⟨m, hm1, hm2⟩ := C50_fee_partial hC hmm (linearEstimator_linear c minAda)
      (fun u hu => by rw [(LE_new_ok h0).2.1]; exact hworth u hu) hexact h
    obtain ⟨ps, e1, e2, e3⟩ := thermostat_parts hC.changeOrder (fun s o v s' => C52_min_value_pure s s' o v) h
    have hplan : PlanTx plan t := by
      refine ⟨hmade.identifiers, ?_, hmade.witnesses, hmade.scripts, hmade.magic⟩
      intro x hx
      obtain ⟨o, ho, hp⟩ := forall2_right hmade.outputs x hx
      refine paysAs_short hp ?_
      rw [hfixed.2] at ho
      rcases List.mem_append.mp ho with ho | ho
      · exact hone o ho x hx hp
      · left
        rcases ((C67_shape hC hmm hdiv hq h).1 o ho).2 with e | ⟨a, e, _⟩ <;> rw [e] <;> simp
    have hest' : estimate net (linearEstimator c minAda) s0 before (t.magic.map (·.1.length)) (after ++ ps) =
        .ok est' := by
      unfold estimate at hest ⊢
      simp only [bind, Except.bind] at hest ⊢
      cases h1 : addParts (linearEstimator c minAda) s0 before with
      | error e => rw [h1] at hest; cases hest
      | ok s1 =>
        rw [h1] at hest
        simp only at hest ⊢
        cases hx : Option.map (fun x => x.1.length) t.magic with
        | none =>
          rw [hx] at hest
          simp only at hest ⊢
          rw [addParts_concat _ _ hest, e1]
        | some len =>
          rw [hx] at hest
          simp only at hest ⊢
          cases hy : LE.addProtocolMagic net len s1 with
          | error e => rw [hy] at hest; cases hest
          | ok s2 =>
            rw [hy] at hest
            simp only at hest ⊢
            rw [addParts_concat _ _ hest, e1]
    obtain ⟨f, hf1, hf2⟩ := C61_fee_partial net plan minAda c s0 est' h0 t hplan before (after ++ ps) (by
      have hlen := hmade.outputs.length_eq
      rw [hfixed.2, List.length_append] at hlen
      have hin := hmade.inputs
      rw [hfixed.1] at hin
      unfold Counts
      rw [← List.append_assoc, List.countP_append (l₁ := before ++ after), List.countP_append (l₁ := before ++ after),
        hcount.1, hcount.2, e2, e3]
      exact ⟨hin.symm, hlen⟩) hest'
    rw [hm1] at hf1
    cases hf1
    have : (t.linearFee net.coefficient net.constant : ℚ) ≤ t.fee := by rw [hmade.fee]; linarith
    exact_mod_cast this
  · rw [List.map_append, List.sum_append, hm.1]
    rw [hfixed.2, List.map_append, List.sum_append] at hsum
    rw [hsum, ← hmade.fee]
    push_cast
    ring

/-! ## C72: the size -/

/-- The transaction made from a thermostat selection is within the limit of the network, if it is so with the first `k`
of the UTxOs chosen and two changes for each asset and two for the main token, and these `k` are enough: UTxOs beyond
those needed are added only while there is room. Missing for C72: requests that need too many UTxOs
(`C72_needed_false`), protocol magic (`C61_magic_size_false`), and fees below nine per byte. -/
theorem C72_size_partial (net : Network) (plan : MultisigPlan) (minAda : Output → Except SelErr ℚ) (c : Costs) (s0 : LE)
    (h0 : LE.new net plan.scriptSize plan.quorum = .ok (c, s0)) (hnet : 9 ≤ net.coefficient)
    {avail : List Utxo} {m0 : ℚ}
    (hO : Ordinary (linearEstimator c minAda) W avail st est ins outs (net.coefficient * 38 : Nat)
      (net.coefficient * 151 : Nat) m0)
    (hdiv : ∀ q, W.div q 2 = q / 2) (hroom : net.coefficient * 151 * (requestTokens ins outs).length * 2 < 2 ^ 64)
    (t : Tx) (hone : ∀ o ∈ outs, ∀ x ∈ t.outputs, PaysAs o x → Short o x)
    (parts : List TxPart) (hest : addParts (linearEstimator c minAda) s0 parts = .ok est)
    (hcount : parts.countP (·.isInput) = ins.length ∧ parts.countP (·.isOutput) = outs.length)
    (h : thermostat (linearEstimator c minAda) W st est (Setup.fromFixed ins outs ch) = (.ok (r, est'), st'))
    (hmade : MadeFrom plan r t) (hno : t.magic = none) (k : Nat)
    (hassets : ∀ a ∈ requestTokens ins outs, assetOut a outs ≤ assetIn a ins + assetIn a (r.chosen.take k))
    (hada : (outs.map (·.value)).sum + m0 + net.coefficient * 38 * (r.chosen.take k).length +
      (requestTokens ins outs).length * (W.cfg.max + net.coefficient * 151) ≤
        (ins.map (·.value)).sum + ((r.chosen.take k).map (·.value)).sum)
    (hfits : 117 + plan.scriptSize + 108 * plan.quorum + 38 * (ins.length + k) +
      151 * (outs.length + 2 * ((requestTokens ins outs).length + 1)) ≤ net.maxTxSize) :
    t.encode.length ≤ net.maxTxSize := by
  have hC := hO.case
  obtain ⟨_, k2, k3, k4, k5, k6, k7, _⟩ := LE_new_ok h0
  obtain ⟨ps, e1, e2, e3⟩ := thermostat_parts hC.changeOrder (fun s o v s' => C52_min_value_pure s s' o v) h
  have hm := C49_main hC.changeOrder h
  have hfixed : r.fixedInputs = ins ∧ r.fixedOutputs = outs := ⟨hm.2.2.2.2.2.1, hm.2.2.2.2.2.2⟩
  have hplan : PlanTx plan t := by
    refine ⟨hmade.identifiers, ?_, hmade.witnesses, hmade.scripts, hmade.magic⟩
    intro x hx
    obtain ⟨o, ho, hp⟩ := forall2_right hmade.outputs x hx
    refine paysAs_short hp ?_
    rw [hfixed.2] at ho
    rcases List.mem_append.mp ho with ho | ho
    · exact hone o ho x hx hp
    · left
      rcases ((C67_shape hC hO.max hdiv hO.quantities h).1 o ho).2 with e | ⟨a, e, _⟩ <;> rw [e] <;> simp
  obtain ⟨n, m, hn1, hn2, _, _⟩ := C61_size_partial net plan minAda c s0 est' h0 t hplan hno (parts ++ ps) (by
    have hlen := hmade.outputs.length_eq
    rw [hfixed.2, List.length_append] at hlen
    have hin := hmade.inputs
    rw [hfixed.1] at hin
    unfold Counts
    rw [List.countP_append, List.countP_append, hcount.1, hcount.2, e2, e3]
    exact ⟨hin.symm, hlen⟩) (by rw [addParts_concat _ _ hest, e1])
  cases hn1
  refine le_trans hn2 ?_
  obtain ⟨s, hs, _, rfl, hsel, _, _⟩ := thermostat_ok h
  have hfloor : ∀ n : Nat, ((n : ℚ).floor).toNat = n := fun n => by
    have : (n : ℚ).floor = (n : Int) := by simpa using Rat.floor_intCast (n : Int)
    rw [this]; rfl
  have hin : c.costInput = ((net.coefficient * 38 : Nat) : ℚ) := by rw [k2]; push_cast; ring
  have hout : c.costOutput = ((net.coefficient * 151 : Nat) : ℚ) := by rw [k3]; push_cast; ring
  have hkl : (initial est (Setup.fromFixed ins outs ch)).assets.keys.length = (requestTokens ins outs).length :=
    requestTokens_length.symm
  have hf1 : c.costInput.floor.toNat = net.coefficient * 38 := (congrArg (fun q : ℚ => q.floor.toNat) hin).trans (hfloor _)
  have hf2 : c.costOutput.floor.toNat = net.coefficient * 151 :=
    (congrArg (fun q : ℚ => q.floor.toNat) hout).trans (hfloor _)
  have hp1 : c.sizeOfOneInput + 2 * c.sizeOfOneOutput ≤ c.costInput.floor.toNat := by omega
  have hp2 : c.sizeOfOneOutput ≤ c.costOutput.floor.toNat := by omega
  have hsize := select_size (k := k) (by rw [hin, hout]; exact hO.sure) hC.ord hC.keyOrder hC.changeOrder
    (by rw [hin]; positivity) (by rw [hout]; positivity) hO.fee.2 hC.main hO.max hO.min
    hp1 hp2
    (fun u hu => hO.quantities u (by simp [hu])) hC.main_not initial_assets.1
    (hf2 ▸ hkl.symm ▸ hroom) rfl rfl rfl hC.inv
    (by rw [hin, hout]; exact initial_going hO) hs (by
      rw [← hsel]
      refine ⟨fun a ha => ?_, ?_⟩
      · have := hassets a ((initial_assets.2.1 a).mp ((hC.keyOrder _).mem_iff.mp ha))
        unfold assetIn at this
        unfold assetIn
        linarith
      · rw [(hC.keyOrder _).length_eq, hkl, hin, hout]
        push_cast
        linarith)
  rw [hkl] at hsize
  obtain ⟨_, _, _, b4⟩ := addParts_fields parts s0 est hest
  have hst : (initial est (Setup.fromFixed ins outs ch)).est = est := rfl
  rw [hst, k6, b4, k4, k5, k7, hcount.1, hcount.2] at hsize
  refine le_trans hsize (max_le (le_refl _) ?_)
  refine le_trans (le_of_eq ?_) hfits
  ring

/-! ### Cases -/

/-- The costs of one key on the public networks. -/
def oneCosts : Costs :=
  ⟨(44 * 67 + 155381 : Nat) + ((44 * 39 : Nat) + ((44 * 108 : Nat) : ℚ) * (1 : Nat)), (44 * 38 : Nat),
    (44 * 151 : Nat), 16384, 38, 151⟩

def oneE : Estimator LE := linearEstimator oneCosts (fun _ => .ok 1000000)

/-- The estimator that has counted the fixed output of the example, a payment of 10 of an asset. -/
def oneEst : LE :=
  { currentSize := 67 + (50 + 39 + 108) + 151, outputs := thOuts, assetBalance := adjust (·.subValue 10) [] 7 }

theorem oneEst_ok : estimate Network.public oneE { currentSize := 67 + (50 + 39 + 108) } [.output ⟨9, 10000000, [⟨7, 10, 1, 2⟩]⟩]
    none [] = .ok oneEst := rfl

/-- An output of the ledger without assets, and one with an asset. -/
def plainOut (v : U64) : TxOut := ⟨List.replicate 57 0, ⟨v, none⟩, false⟩
def assetOutput (v q : U64) : TxOut :=
  ⟨List.replicate 57 0, ⟨v, some [(List.replicate 28 2, [(List.replicate 5 3, q)])]⟩, false⟩

theorem plainOut_pays {o : Output} {v : U64} (h1 : o.value = v.val) (h2 : o.assets = []) : PaysAs o (plainOut v) :=
  ⟨by simp [plainOut], h1.symm, fun _ => rfl, fun a h => (by rw [h2] at h; cases h)⟩

theorem assetOutput_pays {o : Output} {v q : U64} {t : Token} (h1 : o.value = v.val)
    (h2 : o.assets.map (fun a => (a.fingerprint, a.quantity)) = [(t, (q.val : ℚ))]) : PaysAs o (assetOutput v q) := by
  refine ⟨by simp [assetOutput], h1.symm, fun h => (by rw [h] at h2; cases h2), ?_⟩
  intro a h
  rw [h] at h2
  simp only [List.map_cons, List.map_nil, List.cons.injEq, Prod.mk.injEq, and_true] at h2
  exact ⟨_, _, _, rfl, by simp, by simp, h2.2.symm⟩

/-- The transaction of one key with the given inputs, outputs and fee. -/
def oneTx (n : Nat) (outs : List TxOut) (fee : Nat) : Tx where
  inputs := List.replicate n (List.replicate 32 7, 0)
  outputs := outs
  fee := fee
  witnesses := [(List.replicate 32 1, List.replicate 64 1)]
  scripts := onePlan.toScript

theorem oneTx_made {r : Result} {n fee : Nat} {l : List TxOut} (h1 : n = r.fixedInputs.length + r.chosen.length)
    (h2 : List.Forall₂ PaysAs (r.fixedOutputs ++ r.changes) l) (h3 : r.fee = fee) :
    MadeFrom onePlan r (oneTx n l fee) where
  inputs := by simp [oneTx, h1]
  identifiers := by
    intro i hi
    have := List.eq_of_mem_replicate hi
    subst this
    exact ⟨by simp, by norm_num⟩
  outputs := h2
  fee := h3.symm
  witnesses := by
    refine ⟨by simp [oneTx, onePlan], ?_⟩
    intro w hw
    simp only [oneTx, List.mem_singleton] at hw
    subst hw
    simp
  scripts := rfl
  magic := by intro text hash h; cases h

/-- The changes of an answer from what can be seen of them. -/
theorem changes_pay {l : List Output} {m : List (ℚ × List (Token × ℚ))} {x : List TxOut}
    (h : l.map (fun o => (o.value, o.assets.map (fun a => (a.fingerprint, a.quantity)))) = m)
    (hx : List.Forall₂ (fun y x => ∀ o : Output, (o.value, o.assets.map (fun a => (a.fingerprint, a.quantity))) = y →
      PaysAs o x) m x) : List.Forall₂ PaysAs l x := by
  subst h
  induction l generalizing x with
  | nil => cases hx; exact .nil
  | cons o l ih =>
    cases hx with
    | cons h1 h2 => exact .cons (h1 o rfl) (ih h2)

/-- What the selection answers for the example, and the transaction made from it. -/
theorem oneSample : ∃ r est' st' t,
    thermostat oneE (thW {}) (thStore thAvail) oneEst (Setup.fromFixed [] thOuts (some 5)) = (.ok (r, est'), st') ∧
    MadeFrom onePlan r t ∧ t.magic = none ∧ t.fee = 199689 := by
  have h1 : thView oneE (thermostat oneE (thW {}) (thStore thAvail) oneEst (Setup.fromFixed [] thOuts (some 5))) =
      (some ⟨199689, some 199689, [1],
        [(99996678, [(7, 45)]), (144903478, []), (99996678, [(7, 45)]), (144903477, [])]⟩, [2]) := by decide +kernel
  obtain ⟨r, est', e1, e2, _, e3, e4⟩ := th_ok h1
  have hm := C49_main (th_sample_case.changeOrder) e1
  have e5 : r.chosen.length = 1 := by simpa using congrArg List.length e4
  refine ⟨r, est', _, oneTx 1 [assetOutput ⟨10000000, by decide⟩ ⟨10, by decide⟩,
    assetOutput ⟨99996678, by decide⟩ ⟨45, by decide⟩, plainOut ⟨144903478, by decide⟩,
    assetOutput ⟨99996678, by decide⟩ ⟨45, by decide⟩, plainOut ⟨144903477, by decide⟩] 199689, e1,
    oneTx_made (by rw [hm.2.2.2.2.2.1, e5]; rfl) ?_ (by rw [e2]; rfl), rfl, rfl⟩
  rw [hm.2.2.2.2.2.2]
  refine .cons (assetOutput_pays (t := 7) (by norm_num) (by norm_num)) (changes_pay e3 ?_)
  refine .cons ?_ (.cons ?_ (.cons ?_ (.cons ?_ .nil))) <;> intro o ho <;>
    simp only [Prod.mk.injEq, List.map_eq_nil_iff] at ho
  · exact assetOutput_pays (t := 7) (by rw [ho.1]; norm_num) (by rw [ho.2]; norm_num)
  · exact plainOut_pays (by rw [ho.1]; norm_num) ho.2
  · exact assetOutput_pays (t := 7) (by rw [ho.1]; norm_num) (by rw [ho.2]; norm_num)
  · exact plainOut_pays (by rw [ho.1]; norm_num) ho.2

theorem th_sample_exact : ∀ t ∈ requestTokens [] thOuts, ∀ used rest, thAvail.Perm (used ++ rest) →
    assetIn t [] + assetIn t used ≠ assetOut t thOuts := by
  intro t ht used rest hp
  have ht7 : t = 7 := by
    have : requestTokens [] thOuts = [7] := by decide +kernel
    rw [this] at ht
    simpa using ht
  subst ht7
  have hout : assetOut 7 thOuts = 10 := by decide +kernel
  have hz : assetIn 7 [] = 0 := rfl
  rw [hout, hz, zero_add]
  match used with
  | [] => simp [assetIn]
  | u :: us =>
    have hall : ∀ w ∈ u :: us, assetSum 7 w.assets = 100 := by
      intro w hw
      have : w ∈ thAvail := hp.mem_iff.mpr (by simp only [List.mem_append]; exact Or.inl hw)
      simp only [thAvail, List.mem_cons, List.not_mem_nil, or_false] at this
      rcases this with rfl | rfl <;> decide +kernel
    have h1 : assetIn 7 (u :: us) = 100 + assetIn 7 us := by
      unfold assetIn
      rw [List.map_cons, List.sum_cons, hall u (by simp)]
    have h2 : 0 ≤ assetIn 7 us := by
      apply List.sum_nonneg
      intro x hx
      obtain ⟨w, hw, rfl⟩ := List.mem_map.mp hx
      rw [hall w (by simp [hw])]; norm_num
    rw [h1]
    intro he
    linarith

/-- The hypotheses of `C71_accepted_partial` hold for the example. -/
example : ∃ t : Tx, t.fee = 199689 ∧ t.linearFee 44 155381 ≤ t.fee := by
  obtain ⟨r, est', st', t, h1, h2, h3, h4⟩ := oneSample
  refine ⟨t, h4, (C71_accepted_partial th_sample_case (by decide +kernel) (fun q => by simp [thW]) ?_ Network.public onePlan _
    oneCosts _ onePlan_new t [.output ⟨9, 10000000, [⟨7, 10, 1, 2⟩]⟩] [] ⟨rfl, rfl⟩ (by rw [h3]; exact oneEst_ok) ?_ ?_ ?_ h1
    h2).1⟩
  · intro u hu a ha
    simp only [thAvail, List.append_nil, List.mem_cons, List.not_mem_nil, or_false] at hu
    rcases hu with rfl | rfl <;> simp only [List.mem_singleton] at ha <;> subst ha <;> norm_num
  · intro o ho x _ _
    simp only [thOuts, List.mem_singleton] at ho
    subst ho; left; simp
  · intro u hu
    simp only [thAvail, List.mem_cons, List.not_mem_nil, or_false] at hu
    rcases hu with rfl | rfl <;> norm_num [Network.public]
  · exact th_sample_exact

/-- An asset met exactly can leave a fee the ledger refuses, although every UTxO is worth a hundred times its cost. -/
theorem C71_exact_false : ¬ ∀ (W : World) (avail : List Utxo) (st st' : UStore) (est est' : LE) (ins : List Utxo)
    (outs : List Output) (ch : Option Nat) (r : Result) (net : Network) (plan : MultisigPlan)
    (minAda : Output → Except SelErr ℚ) (c : Costs) (s0 : LE) (t : Tx) (before after : List TxPart),
    THCase W avail st ins outs → W.cfg.min ≤ W.cfg.max → (∀ q, W.div q 2 = q / 2) →
    (∀ u ∈ avail ++ ins, ∀ a ∈ u.assets, 0 ≤ a.quantity) →
    LE.new net plan.scriptSize plan.quorum = .ok (c, s0) →
    ((before ++ after).countP (·.isInput) = ins.length ∧ (before ++ after).countP (·.isOutput) = outs.length) →
    estimate net (linearEstimator c minAda) s0 before (t.magic.map (·.1.length)) after = .ok est →
    (∀ o ∈ outs, o.assets.length ≤ 1) → (∀ u ∈ avail, (100 * (net.coefficient * 38) : ℚ) ≤ u.value) →
    thermostat (linearEstimator c minAda) W st est (Setup.fromFixed ins outs ch) = (.ok (r, est'), st') →
    MadeFrom plan r t → t.linearFee net.coefficient net.constant ≤ t.fee := by
  intro h
  have h1 : thView oneE (thermostat oneE (thW { accumulators := 1, min := 0 }) (thStore (thExact 10900000 200000)) oneEst
      (Setup.fromFixed [] thOuts (some 5))) =
      (some ⟨106644, some 188073, [1, 2], [(496678, [(7, 1)]), (496678, [(7, 0)])]⟩, [3]) := by
    decide +kernel
  obtain ⟨r, est', e1, e2, _, e3, e4⟩ := th_ok h1
  have hC : THCase (thW { accumulators := 1, min := 0 }) (thExact 10900000 200000) (thStore (thExact 10900000 200000)) []
    thOuts := thExact_case rfl _ _
  have hm := C49_main hC.changeOrder e1
  have e5 : r.chosen.length = 2 := by simpa using congrArg List.length e4
  have hmade : MadeFrom onePlan r (oneTx 2 [assetOutput ⟨10000000, by decide⟩ ⟨10, by decide⟩,
      assetOutput ⟨496678, by decide⟩ ⟨1, by decide⟩, assetOutput ⟨496678, by decide⟩ ⟨0, by decide⟩] 106644) := by
    refine oneTx_made (by rw [hm.2.2.2.2.2.1, e5]; rfl) ?_ (by rw [e2]; rfl)
    rw [hm.2.2.2.2.2.2]
    refine .cons (assetOutput_pays (t := 7) (by norm_num) (by norm_num)) (changes_pay e3 ?_)
    refine .cons ?_ (.cons ?_ .nil) <;> intro o ho <;> simp only [Prod.mk.injEq] at ho
    · exact assetOutput_pays (t := 7) (by rw [ho.1]; norm_num) (by rw [ho.2]; norm_num)
    · exact assetOutput_pays (t := 7) (by rw [ho.1]; norm_num) (by rw [ho.2]; norm_num)
  have := h _ _ _ _ oneEst _ _ _ _ _ Network.public onePlan (fun _ => .ok 1000000) oneCosts _
    (oneTx 2 [assetOutput ⟨10000000, by decide⟩ ⟨10, by decide⟩, assetOutput ⟨496678, by decide⟩ ⟨1, by decide⟩,
      assetOutput ⟨496678, by decide⟩ ⟨0, by decide⟩] 106644)
    [.output ⟨9, 10000000, [⟨7, 10, 1, 2⟩]⟩] [] hC (by decide +kernel) (fun q => by simp [thW]) ?_ onePlan_new ⟨rfl, rfl⟩
    oneEst_ok ?_ ?_ e1 hmade
  · unfold Tx.linearFee at this
    simp only [Network.public, oneTx] at this
    omega
  · intro u hu a ha
    simp only [thExact, List.append_nil, List.mem_cons, List.not_mem_nil, or_false] at hu
    rcases hu with rfl | rfl | rfl <;> simp only [List.mem_singleton] at ha <;> subst ha <;> norm_num
  · intro o ho
    simp only [thOuts, List.mem_singleton] at ho
    subst ho; simp
  · intro u hu
    simp only [thExact, List.mem_cons, List.not_mem_nil, or_false] at hu
    rcases hu with rfl | rfl | rfl <;> norm_num [Network.public]

/-- The linear estimator always answers. -/
theorem linearEstimator_sure (c : Costs) : Sure (linearEstimator c (fun _ => .ok 1000000)) c.costInput c.costOutput where
  toLinear := linearEstimator_linear _ _
  minFee _ := ⟨_, rfl⟩
  addInOk _ _ := ⟨_, rfl⟩
  addOutOk _ _ := ⟨_, rfl⟩
  minValueOut _ _ := ⟨_, _, rfl, by norm_num⟩
  currentSize _ := ⟨_, rfl⟩
  maxSize _ := ⟨_, rfl⟩

theorem oneSample_ordinary : Ordinary oneE (thW {}) thAvail (thStore thAvail) oneEst [] thOuts (44 * 38 : Nat)
    (44 * 151 : Nat) 171441 := by
  have hr : requestTokens [] thOuts = [7] := by decide +kernel
  refine ⟨th_sample_case, by decide +kernel, by decide +kernel, by decide, by decide, linearEstimator_sure _, by norm_num,
    by norm_num, ⟨by decide +kernel, by norm_num⟩, by decide +kernel, by decide +kernel, by decide +kernel, ?_, ?_⟩
  · rw [hr]; decide +kernel
  · intro _
    rw [hr]
    decide +kernel

/-- The hypotheses of `C72_size_partial` hold for the example of C71, with the one UTxO chosen. -/
example : ∃ t : Tx, t.fee = 199689 ∧ t.encode.length ≤ 16384 := by
  obtain ⟨r, est', st', t, h1, h2, h3, h4⟩ := oneSample
  obtain ⟨r', est'', e1, _, _, _, e4⟩ := th_ok (E := oneE) (x := thermostat oneE (thW {}) (thStore thAvail) oneEst
    (Setup.fromFixed [] thOuts (some 5))) (v := ⟨199689, some 199689, [1],
        [(99996678, [(7, 45)]), (144903478, []), (99996678, [(7, 45)]), (144903477, [])]⟩) (l := [2]) (by decide +kernel)
  rw [h1] at e1
  simp only [Prod.mk.injEq, Except.ok.injEq, and_true] at e1
  obtain ⟨rfl, rfl⟩ := e1
  have hr : requestTokens [] thOuts = [7] := by decide +kernel
  have hchosen : r.chosen = [⟨1, 500000000, [⟨7, 100, 1, 2⟩], 0⟩] := by
    have hsel := (C51_selection th_sample_case h1).1
    match hl : r.chosen with
    | [] => rw [hl] at e4; cases e4
    | [u] =>
      rw [hl] at e4 hsel
      have hu : u ∈ thAvail := hsel.mem_iff.mpr (by simp)
      simp only [thAvail, List.mem_cons, List.not_mem_nil, or_false] at hu
      rcases hu with rfl | rfl
      · rfl
      · simp at e4
    | u :: v :: l => rw [hl] at e4; simp at e4
  refine ⟨t, h4, C72_size_partial Network.public onePlan _ oneCosts _ onePlan_new (by decide) oneSample_ordinary
    (fun q => by simp [thW]) ?_ t ?_ [.output ⟨9, 10000000, [⟨7, 10, 1, 2⟩]⟩] (by exact oneEst_ok) ⟨rfl, rfl⟩ h1 h2 h3 1
    ?_ ?_ ?_⟩
  · rw [hr]; decide +kernel
  · intro o ho x _ _
    simp only [thOuts, List.mem_singleton] at ho
    subst ho; left; simp
  · rw [hr, hchosen]
    decide +kernel
  · rw [hr, hchosen]
    decide +kernel
  · rw [hr]
    decide +kernel

/-- 115 keys, all of which have to sign. -/
def bigPlan : MultisigPlan := ⟨115, (List.range 115).map (fun i => List.replicate 28 (UInt8.ofNat i))⟩

def bigCosts : Costs :=
  ⟨(44 * 67 + 155381 : Nat) + ((44 * 3689 : Nat) + ((44 * 108 : Nat) : ℚ) * (115 : Nat)), (44 * 38 : Nat),
    (44 * 151 : Nat), 16384, 38, 151⟩

theorem bigPlan_size : bigPlan.scriptSize = 3689 := by decide +kernel

theorem public_new (script quorum : Nat) (h : 44 * script < 2 ^ 64) : LE.new Network.public script quorum =
    .ok (⟨(44 * 67 + 155381 : Nat) + ((44 * script : Nat) + ((44 * 108 : Nat) : ℚ) * quorum), (44 * 38 : Nat),
      (44 * 151 : Nat), 16384, 38, 151⟩, { currentSize := 67 + (50 + script + quorum * 108) }) := by
  have h1 : Network.public.costOf script = .ok (44 * script) := if_pos h
  unfold LE.new
  rw [h1]
  rfl

theorem bigPlan_new : LE.new Network.public bigPlan.scriptSize bigPlan.quorum =
    .ok (bigCosts, { currentSize := 67 + (50 + 3689 + 115 * 108) }) := by
  rw [bigPlan_size]
  exact public_new 3689 115 (by norm_num)

def bigE : Estimator LE := linearEstimator bigCosts (fun _ => .ok 1000000)

/-- Thirty UTxOs of two ada. -/
def fewAvail : List Utxo := (List.range 30).map (fun i => ⟨i, 2000000, [], 0⟩)

def bigEst : LE := { currentSize := 67 + (50 + 3689 + 115 * 108) + 151, outputs := [⟨9, 50000000, []⟩] }

/-- The transaction of the 115 keys. -/
def bigTx (n : Nat) (outs : List TxOut) (fee : Nat) : Tx where
  inputs := (List.range n).map (fun i => (List.replicate 32 7, i))
  outputs := outs
  fee := fee
  witnesses := (List.range 115).map (fun i => (List.replicate 32 (UInt8.ofNat i), List.replicate 64 1))
  scripts := bigPlan.toScript

/-- A payment that needs many UTxOs is answered with a transaction above the limit of the network. -/
theorem C72_needed_false : ¬ ∀ (W : World) (avail : List Utxo) (st st' : UStore) (est est' : LE) (ins : List Utxo)
    (outs : List Output) (ch : Option Nat) (r : Result) (net : Network) (plan : MultisigPlan)
    (minAda : Output → Except SelErr ℚ) (c : Costs) (s0 : LE) (m0 : ℚ) (parts : List TxPart) (t : Tx),
    LE.new net plan.scriptSize plan.quorum = .ok (c, s0) → 9 ≤ net.coefficient →
    Ordinary (linearEstimator c minAda) W avail st est ins outs (net.coefficient * 38 : Nat)
      (net.coefficient * 151 : Nat) m0 →
    (∀ q, W.div q 2 = q / 2) → net.coefficient * 151 * (requestTokens ins outs).length * 2 < 2 ^ 64 →
    (∀ o ∈ outs, o.assets.length ≤ 1) → addParts (linearEstimator c minAda) s0 parts = .ok est →
    (parts.countP (·.isInput) = ins.length ∧ parts.countP (·.isOutput) = outs.length) →
    est.currentSize ≤ net.maxTxSize →
    thermostat (linearEstimator c minAda) W st est (Setup.fromFixed ins outs ch) = (.ok (r, est'), st') →
    MadeFrom plan r t → t.magic = none → t.encode.length ≤ net.maxTxSize := by
  intro h
  have h1 : thView bigE (thermostat bigE (thW {}) (thStore fewAvail) bigEst
      (Setup.fromFixed [] [⟨9, 50000000, []⟩] (some 5))) =
      (some ⟨930529, some 930529, List.range 26, [(534736, []), (534735, [])]⟩, [26, 27, 28, 29]) := by
    decide +kernel
  obtain ⟨r, est', e1, e2, _, e3, e4⟩ := th_ok h1
  have hd : ∀ u ∈ fewAvail, DistinctAssets u := by
    intro u hu
    obtain ⟨i, _, rfl⟩ := List.mem_map.mp hu
    exact ⟨by simp, by simp⟩
  have hC : THCase (thW {}) fewAvail (thStore fewAvail) [] [⟨9, 50000000, []⟩] :=
    thCase hd (by decide +kernel) rfl (by decide +kernel)
  have hm := C49_main hC.changeOrder e1
  have e5 : r.chosen.length = 26 := by simpa using congrArg List.length e4
  have hr : requestTokens [] [⟨9, 50000000, []⟩] = [] := by decide +kernel
  have hmade : MadeFrom bigPlan r (bigTx 26 [plainOut ⟨50000000, by decide⟩, plainOut ⟨534736, by decide⟩,
      plainOut ⟨534735, by decide⟩] 930529) := by
    refine ⟨by rw [hm.2.2.2.2.2.1, e5]; simp [bigTx], ?_, ?_, by rw [e2]; norm_num [bigTx], ?_, rfl,
      fun text hash h => by cases h⟩
    · intro i hi
      simp only [bigTx, List.mem_map, List.mem_range] at hi
      obtain ⟨j, hj, rfl⟩ := hi
      exact ⟨by simp, by simp only; omega⟩
    · rw [hm.2.2.2.2.2.2]
      refine .cons (plainOut_pays (by norm_num) rfl) (changes_pay e3 ?_)
      refine .cons ?_ (.cons ?_ .nil) <;> intro o ho <;> simp only [Prod.mk.injEq, List.map_eq_nil_iff] at ho
      · exact plainOut_pays (by rw [ho.1]; norm_num) ho.2
      · exact plainOut_pays (by rw [ho.1]; norm_num) ho.2
    · refine ⟨by simp [bigTx, bigPlan], ?_⟩
      intro w hw
      simp only [bigTx, List.mem_map] at hw
      obtain ⟨j, hj, rfl⟩ := hw
      simp
  have hO : Ordinary bigE (thW {}) fewAvail (thStore fewAvail) bigEst [] [⟨9, 50000000, []⟩] (44 * 38 : Nat)
      (44 * 151 : Nat) 873769 := by
    refine ⟨hC, by decide +kernel, by decide +kernel, by decide, by decide, linearEstimator_sure _, by norm_num,
      by norm_num, ⟨by decide +kernel, by norm_num⟩, by decide +kernel, by decide +kernel, by decide +kernel, ?_, ?_⟩
    · rw [hr]; simp
    · rw [hr]; simp
  have := h _ _ _ _ bigEst _ _ _ _ _ Network.public bigPlan (fun _ => .ok 1000000) bigCosts _ _
    [.output ⟨9, 50000000, []⟩] _ bigPlan_new (by decide) hO (fun q => by simp [thW]) (by rw [hr]; decide)
    (by decide) rfl ⟨rfl, rfl⟩ (by decide) e1 hmade rfl
  revert this
  decide +kernel

end Verif.Props
