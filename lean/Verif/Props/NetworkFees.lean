import Verif.Cardano.Multisig
import Verif.Props.LinearEstimator
import Mathlib.Tactic.Positivity

/-!
# Assumed costs against the ledger (C61, C63)
-/

namespace Verif.Props

open Verif Verif.Core Verif.Selection Verif.Cardano

/-! ### The sizes the tests of network_id.rs:480-600 pin down -/

/-- A transaction of network_id.rs:283-292 with the given parts. -/
def testTx (inputs : List (Bytes × Nat)) (outputs : List TxOut) (witnesses : List (Bytes × Bytes)) : Tx :=
  { inputs, outputs, fee := 800000, witnesses }

example : (testTx [] [] []).linearFee 44 155381 = 156041 := by decide +kernel
example : (testTx [(List.replicate 32 0, 0)] [] []).linearFee 44 155381 = 157625 := by decide +kernel
example : (testTx [(List.replicate 32 0, 0), (List.replicate 32 1, 200)] [] []).linearFee 44 155381 = 159253 := by
  decide +kernel
example : (testTx [] [⟨List.replicate 57 0, ⟨⟨45000000000000000, by decide⟩,
    some [(List.replicate 28 2, [(List.replicate 28 3, ⟨45000000000000000, by decide⟩)])]⟩, false⟩]
    []).linearFee 44 155381 = 162245 := by decide +kernel
example : (testTx [] [] [(List.replicate 32 0, List.replicate 64 0)]).linearFee 44 155381 = 160573 := by decide +kernel
example : 44 * (encMagic []).length = 176 := by decide +kernel
example : 44 * (encMagic (List.replicate 22 0x6d)).length = 1144 := by decide +kernel
example : 44 * (encMagic (List.replicate 23 0x6d)).length = 1188 := by decide +kernel

/-! ### Specification -/

/-- A value with at most one native asset. -/
def AtMostOneAsset (v : LedgerValue) : Prop :=
  ∀ m, v.multiasset = some m → m.length ≤ 1 ∧
    ∀ p a, (p, a) ∈ m → p.length = 28 ∧ a.length ≤ 1 ∧ ∀ n q, (n, q) ∈ a → n.length ≤ 32

/-- A transaction spending from the address of a plan: transaction identifiers of 32 bytes and output
indices the ledger allows, outputs of at most 147 bytes, at most as many signatures as the quorum, the script of the
plan, and a protocol magic of less than 256 bytes if there is one. Outputs with at most one asset are never longer
(`C61_one_asset`), and several assets can fit (`shortAssets`). -/
structure PlanTx (plan : MultisigPlan) (t : Tx) : Prop where
  inputs : ∀ i ∈ t.inputs, i.1.length = 32 ∧ i.2 < 2 ^ 16
  outputs : ∀ o ∈ t.outputs, o.encode.length ≤ 147
  witnesses : t.witnesses.length ≤ plan.quorum ∧ ∀ w ∈ t.witnesses, w.1.length = 32 ∧ w.2.length = 64
  scripts : t.scripts = plan.toScript
  magic : ∀ text hash, t.magic = some (text, hash) → text.length < 2 ^ 8 ∧ hash.length = 32

/-- Parts counted, then possibly the protocol magic announced, then more parts counted. -/
def estimate (net : Network) (E : Estimator LE) (s0 : LE) (before : List TxPart) (magic : Option Nat)
    (after : List TxPart) : Except SelErr LE := do
  let s1 ← addParts E s0 before
  let s2 ← match magic with
    | none => .ok s1
    | some len => s1.addProtocolMagic net len
  addParts E s2 after

/-- The parts are as many inputs and outputs as the transaction has. -/
def Counts (ps : List TxPart) (t : Tx) : Prop :=
  ps.countP (·.isInput) = t.inputs.length ∧ ps.countP (·.isOutput) = t.outputs.length

/-! ### Sizes of the parts -/

theorem sum_map_le {α : Type} (f : α → Nat) (k : Nat) : ∀ (l : List α), (∀ x ∈ l, f x ≤ k) → (l.map f).sum ≤ k * l.length
  | [], _ => by simp
  | a :: l, h => by
    have h1 := h a (by simp)
    have h2 := sum_map_le f k l fun x hx => h x (by simp [hx])
    simp only [List.map_cons, List.sum_cons, List.length_cons, Nat.mul_succ]
    omega

theorem encInput_le {i : Bytes × Nat} (h : i.1.length = 32 ∧ i.2 < 2 ^ 16) : (encInput i).length ≤ 38 := by
  have h1 := headSize_short h.2
  simp only [encInput, encArray_length, encBytes_length, encUInt_length, List.length_cons, List.length_nil,
    List.map_cons, List.map_nil, List.sum_cons, List.sum_nil, h.1]
  have h2 : headSize 32 = 2 := rfl
  have h3 : headSize 2 = 1 := rfl
  simp only [Nat.zero_add, Nat.reduceAdd] at *
  omega

theorem encWitness_length {w : Bytes × Bytes} (h : w.1.length = 32 ∧ w.2.length = 64) : (encWitness w).length = 101 := by
  simp only [encWitness, encArray_length, encBytes_length, List.length_cons, List.length_nil,
    List.map_cons, List.map_nil, List.sum_cons, List.sum_nil, h.1, h.2]
  rfl

theorem headSize_eq_one_of_le_one {n : Nat} (h : n ≤ 1) : headSize n = 1 := headSize_small (by omega)

theorem encAssets_le {a : AMap Bytes U64} (h1 : a.length ≤ 1) (h2 : ∀ n q, (n, q) ∈ a → n.length ≤ 32) :
    (encMap (a.map fun nq => (encBytes nq.1, encUInt nq.2.val))).length ≤ 44 := by
  match a, h1, h2 with
  | [], _, _ => decide
  | [(n, q)], _, h2 =>
    have h := h2 n q (by simp)
    have h3 := headSize_le q.val
    have h4 := headSize_mono h
    have h5 : headSize 32 = 2 := rfl
    have h6 : headSize 1 = 1 := rfl
    simp only [encMap_length, encBytes_length, encUInt_length, List.map_cons, List.map_nil, List.length_cons,
      List.length_nil, List.sum_cons, List.sum_nil, Nat.zero_add, h6]
    omega

theorem encValue_le {v : LedgerValue} (h : AtMostOneAsset v) : (encValue v).length ≤ 85 := by
  unfold encValue
  have hc := headSize_le v.coin.val
  cases hm : v.multiasset with
  | none => simp only [encUInt_length]; omega
  | some m =>
    obtain ⟨h1, h2⟩ := h m hm
    have h3 : headSize 2 = 1 := rfl
    have : (encMultiAsset m).length ≤ 75 := by
      match m, h1, h2 with
      | [], _, _ => decide
      | [(p, a)], _, h2 =>
        obtain ⟨k1, k2, k3⟩ := h2 p a (by simp)
        have k4 := encAssets_le k2 k3
        have k5 : headSize 28 = 2 := rfl
        have k6 : headSize 1 = 1 := rfl
        unfold encMultiAsset
        rw [encMap_length]
        simp only [encBytes_length, List.map_cons, List.map_nil, List.length_cons,
          List.length_nil, List.sum_cons, List.sum_nil, Nat.zero_add, k1, k5, k6]
        omega
    simp only [encArray_length, encUInt_length, List.map_cons, List.map_nil, List.length_cons,
      List.length_nil, List.sum_cons, List.sum_nil, Nat.zero_add, Nat.reduceAdd, h3]
    omega

theorem txOut_le {o : TxOut} (h : o.address.length ≤ 57 ∧ AtMostOneAsset o.amount) : o.encode.length ≤ 147 := by
  have h1 := encValue_le h.2
  have h2 := headSize_mono h.1
  have h3 : headSize 57 = 2 := rfl
  have h4 : headSize 0 = 1 := rfl
  have h5 : headSize 1 = 1 := rfl
  have h6 : headSize 2 = 1 := rfl
  unfold TxOut.encode
  split
  · simp only [encMap_length, encBytes_length, encUInt_length, List.map_cons, List.map_nil, List.length_cons,
      List.length_nil, List.sum_cons, List.sum_nil, Nat.zero_add, Nat.reduceAdd, h4, h5, h6]
    omega
  · simp only [encArray_length, encBytes_length, List.map_cons, List.map_nil, List.length_cons,
      List.length_nil, List.sum_cons, List.sum_nil, Nat.zero_add, Nat.reduceAdd, h6]
    omega

theorem encMagic_le {text : Bytes} (h : text.length < 2 ^ 8) : (encMagic text).length ≤ text.length + 5 := by
  have h1 := headSize_byte h
  have h2 : headSize 87 = 2 := rfl
  have h3 : headSize 1 = 1 := rfl
  simp only [encMagic, encMap_length, encText_length, encUInt_length, List.map_cons, List.map_nil, List.length_cons,
      List.length_nil, List.sum_cons, List.sum_nil, Nat.zero_add, h2, h3]
  omega

/-- Bytes the magic is assumed to take. -/
def magicSize : Option (Bytes × Bytes) → Nat
  | none => 0
  | some (text, _) => text.length + 5

/-- The assumed size of a transaction of a plan is never below its real size. -/
theorem planTx_size {plan : MultisigPlan} {t : Tx} (h : PlanTx plan t) :
    t.encode.length ≤ 67 + plan.scriptSize + 108 * plan.quorum + 38 * t.inputs.length + 151 * t.outputs.length +
      magicSize t.magic := by
  obtain ⟨hi, ho, ⟨hw1, hw2⟩, hs, hm⟩ := h
  have i1 : ((t.inputs.map encInput).map List.length).sum ≤ 38 * t.inputs.length := by
    rw [List.map_map]
    exact sum_map_le _ 38 _ fun x hx => encInput_le (hi x hx)
  have o1 : ((t.outputs.map TxOut.encode).map List.length).sum ≤ 147 * t.outputs.length := by
    rw [List.map_map]
    exact sum_map_le _ 147 _ fun x hx => ho x hx
  have w1 : ((t.witnesses.map encWitness).map List.length).sum ≤ 101 * t.witnesses.length := by
    rw [List.map_map]
    exact sum_map_le _ 101 _ fun x hx => le_of_eq (encWitness_length (hw2 x hx))
  have s1 := headSize_le t.inputs.length
  have s2 := headSize_slack t.outputs.length
  have s3 := headSize_slack t.witnesses.length
  have s4 := headSize_le t.fee
  have c0 : headSize 0 = 1 := rfl
  have c1 : headSize 1 = 1 := rfl
  have c2 : headSize 2 = 1 := rfl
  have c3 : headSize 3 = 1 := rfl
  have c4 : headSize 4 = 1 := rfl
  have c7 : headSize 7 = 1 := rfl
  have c32 : headSize 32 = 2 := rfl
  -- the witness set
  have hset : (encWitnessSet t.witnesses t.scripts).length ≤
      plan.scriptSize + 1 + headSize t.witnesses.length + 101 * t.witnesses.length := by
    rw [hs]
    unfold MultisigPlan.scriptSize encWitnessSet
    have hne : plan.toScript.isEmpty = false := rfl
    rw [hne]
    by_cases hw : t.witnesses = []
    · rw [if_pos hw, if_pos rfl]; omega
    · rw [if_neg hw, if_pos rfl]
      simp only [encMap_length, encArray_length, encUInt_length, List.map_cons, List.map_nil, List.length_cons,
        List.length_nil, List.sum_cons, List.sum_nil, Nat.zero_add, Nat.reduceAdd, List.cons_append, List.nil_append,
        Bool.false_eq_true, if_false, List.length_map, c0, c1, c2]
      omega
  -- the body
  have hbody : t.encodeBody.length ≤ 13 + headSize t.inputs.length + 38 * t.inputs.length +
      headSize t.outputs.length + 147 * t.outputs.length + (if t.magic.isSome then 35 else 0) := by
    unfold Tx.encodeBody
    cases hmm : t.magic with
    | none =>
      simp only [encMap_length, encArray_length, encUInt_length, List.map_cons, List.map_nil, List.length_cons,
        List.length_nil, List.sum_cons, List.sum_nil, Nat.zero_add, Nat.reduceAdd,
        List.append_nil, List.length_map, c0, c1, c2, c3]
      omega
    | some th =>
      obtain ⟨text, hash⟩ := th
      have := (hm text hash hmm).2
      simp only [encMap_length, encArray_length, encUInt_length, encBytes_length, List.map_cons, List.map_nil,
        List.length_cons,
        List.length_nil, List.sum_cons, List.sum_nil, Nat.zero_add, Nat.reduceAdd, List.cons_append, List.nil_append,
        List.length_map, c0, c1, c2, c4, c7, this, c32, Option.isSome_some, if_true]
      omega
  have hwq : 108 * t.witnesses.length ≤ 108 * plan.quorum := Nat.mul_le_mul_left _ hw1
  unfold Tx.encode
  cases hmm : t.magic with
  | none =>
    rw [hmm] at hbody
    simp only [encArray_length, List.map_cons, List.map_nil, List.length_cons,
        List.length_nil, List.sum_cons, List.sum_nil, Nat.zero_add, Nat.reduceAdd, c4, encTrue, encNull, magicSize,
        Option.isSome_none, Bool.false_eq_true, if_false] at hbody ⊢
    omega
  | some th =>
    obtain ⟨text, hash⟩ := th
    have := encMagic_le (hm text hash hmm).1
    rw [hmm] at hbody
    simp only [encArray_length, List.map_cons, List.map_nil, List.length_cons,
        List.length_nil, List.sum_cons, List.sum_nil, Nat.zero_add, Nat.reduceAdd, c4, encTrue, magicSize,
        Option.isSome_some, if_true] at hbody ⊢
    omega

/-! ### The estimator -/

theorem addParts_fields {c : Costs} {minAda : Output → Except SelErr ℚ} : ∀ (ps : List TxPart) (s s' : LE),
    addParts (linearEstimator c minAda) s ps = .ok s' →
    s'.costMetadata = s.costMetadata ∧ s'.inputs.length = s.inputs.length + ps.countP (·.isInput) ∧
    s'.outputs.length = s.outputs.length + ps.countP (·.isOutput) ∧
    s'.currentSize = s.currentSize + c.sizeOfOneInput * ps.countP (·.isInput) +
      c.sizeOfOneOutput * ps.countP (·.isOutput)
  | [], s, s', h => by
    cases h
    simp
  | .input u :: ps, s, s', h => by
    obtain ⟨h1, h2, h3, h4⟩ := addParts_fields ps _ s' h
    refine ⟨h1, ?_, ?_, ?_⟩
    · rw [h2]
      simp only [List.length_append, List.length_cons, List.length_nil, List.countP_cons, TxPart.isInput, if_true]
      omega
    · rw [h3]
      simp [TxPart.isInput, TxPart.isOutput]
    · rw [h4]
      simp only [List.countP_cons, TxPart.isInput, TxPart.isOutput, if_true, Bool.not_true, Bool.false_eq_true,
        if_false]
      ring
  | .output o :: ps, s, s', h => by
    obtain ⟨h1, h2, h3, h4⟩ := addParts_fields ps _ s' h
    refine ⟨h1, ?_, ?_, ?_⟩
    · rw [h2]
      simp [TxPart.isInput]
    · rw [h3]
      simp only [List.length_append, List.length_cons, List.length_nil, List.countP_cons, TxPart.isInput,
        TxPart.isOutput, Bool.not_false, if_true]
      omega
    · rw [h4]
      simp only [List.countP_cons, TxPart.isInput, TxPart.isOutput, if_true, Bool.not_false, Bool.false_eq_true,
        if_false]
      ring

/-- Bytes an announced magic is assumed to take. -/
def announcedSize : Option Nat → Nat
  | none => 0
  | some len => len + 5

theorem estimate_fee {net : Network} {script quorum : Nat} {c : Costs} {s0 s : LE}
    {minAda : Output → Except SelErr ℚ} (h0 : LE.new net script quorum = .ok (c, s0))
    (before after : List TxPart) (magic : Option Nat)
    (h : estimate net (linearEstimator c minAda) s0 before magic after = .ok s) :
    (linearEstimator c minAda).minFee s = .ok (((net.coefficient * (67 + script + 108 * quorum +
      38 * (before ++ after).countP (·.isInput) + 151 * (before ++ after).countP (·.isOutput) + announcedSize magic) +
      net.constant : Nat) : ℚ)) := by
  obtain ⟨k1, k2, k3, _, _, _, _, k8, k9, k10⟩ := LE_new_ok h0
  unfold estimate at h
  simp only [bind, Except.bind] at h
  cases h1 : addParts (linearEstimator c minAda) s0 before with
  | error e => rw [h1] at h; cases h
  | ok s1 =>
    rw [h1] at h
    obtain ⟨a1, a2, a3, _⟩ := addParts_fields before s0 s1 h1
    have key : ∀ s2 : LE, s2.inputs = s1.inputs → s2.outputs = s1.outputs →
        s2.costMetadata = net.coefficient * announcedSize magic →
        addParts (linearEstimator c minAda) s2 after = .ok s →
        (linearEstimator c minAda).minFee s = .ok (((net.coefficient * (67 + script + 108 * quorum +
          38 * (before ++ after).countP (·.isInput) + 151 * (before ++ after).countP (·.isOutput) +
          announcedSize magic) + net.constant : Nat) : ℚ)) := by
      intro s2 e1 e2 e3 h2
      obtain ⟨b1, b2, b3, _⟩ := addParts_fields after s2 s h2
      simp only [linearEstimator, b1, b2, b3, e1, e2, e3, a2, a3, k9, k10, k1, k2, k3, List.countP_append,
        List.length_nil, Except.ok.injEq]
      push_cast
      ring
    cases magic with
    | none =>
      exact key s1 rfl rfl (by rw [a1, k8]; simp [announcedSize]) h
    | some len =>
      simp only [LE.addProtocolMagic, Network.costOf, bind, Except.bind] at h
      cases hm : mulCoin net.coefficient (len + 5) with
      | error e => rw [hm] at h; cases h
      | ok a =>
        rw [hm] at h
        have := mulCoin_ok hm
        subst this
        refine key ⟨(net.coefficient * (len + 5) : Nat), len + 5, s1.outputs, s1.inputs, s1.assetBalance⟩ rfl rfl ?_ h
        simp [announcedSize]

/-- The fee the estimator asks for is enough for the ledger: for every plan and network, and every transaction of
the plan, once as many inputs and outputs are counted as the transaction has, in any order, and its protocol magic
announced if it has one, the minimum fee is at least the linear fee of the serialised transaction. -/
theorem C61_fee_partial (net : Network) (plan : MultisigPlan) (minAda : Output → Except SelErr ℚ) (c : Costs)
    (s0 s : LE) (h0 : LE.new net plan.scriptSize plan.quorum = .ok (c, s0)) (t : Tx) (ht : PlanTx plan t)
    (before after : List TxPart) (hc : Counts (before ++ after) t)
    (h : estimate net (linearEstimator c minAda) s0 before (t.magic.map (·.1.length)) after = .ok s) :
    ∃ f, (linearEstimator c minAda).minFee s = .ok f ∧ (t.linearFee net.coefficient net.constant : ℚ) ≤ f := by
  refine ⟨_, estimate_fee h0 before after _ h, ?_⟩
  have h1 := planTx_size ht
  have h2 : announcedSize (t.magic.map (·.1.length)) = magicSize t.magic := by
    cases t.magic <;> rfl
  rw [hc.1, hc.2, h2]
  unfold Tx.linearFee
  exact_mod_cast Nat.add_le_add_right (Nat.mul_le_mul_left _ h1) _

/-- Which outputs the fee covers at least: addresses of at most 57 bytes and at most one asset. -/
theorem C61_one_asset {o : TxOut} (h1 : o.address.length ≤ 57) (h2 : AtMostOneAsset o.amount) :
    o.encode.length ≤ 147 := txOut_le ⟨h1, h2⟩

/-- Exactly when the fee is enough, for any transaction at all: when its bytes are at most those the estimator has
counted, which do not depend on what the outputs hold. -/
theorem C61_exact (net : Network) (plan : MultisigPlan) (minAda : Output → Except SelErr ℚ) (c : Costs)
    (s0 s : LE) (h0 : LE.new net plan.scriptSize plan.quorum = .ok (c, s0)) (hpos : 0 < net.coefficient) (t : Tx)
    (before after : List TxPart) (hc : Counts (before ++ after) t)
    (h : estimate net (linearEstimator c minAda) s0 before (t.magic.map (·.1.length)) after = .ok s) :
    ∃ f, (linearEstimator c minAda).minFee s = .ok f ∧ ((t.linearFee net.coefficient net.constant : ℚ) ≤ f ↔
      t.encode.length ≤ 67 + plan.scriptSize + 108 * plan.quorum + 38 * t.inputs.length + 151 * t.outputs.length +
        magicSize t.magic) := by
  refine ⟨_, estimate_fee h0 before after _ h, ?_⟩
  have h2 : announcedSize (t.magic.map (·.1.length)) = magicSize t.magic := by
    cases t.magic <;> rfl
  rw [hc.1, hc.2, h2]
  unfold Tx.linearFee
  rw [Nat.cast_le, Nat.add_le_add_iff_right]
  exact Nat.mul_le_mul_left_iff hpos

/-- Without protocol magic the size the estimator reports is at least the real size, so a transaction within the
limit of the estimator is within the limit of the network. -/
theorem C61_size_partial (net : Network) (plan : MultisigPlan) (minAda : Output → Except SelErr ℚ) (c : Costs)
    (s0 s : LE) (h0 : LE.new net plan.scriptSize plan.quorum = .ok (c, s0)) (t : Tx) (ht : PlanTx plan t)
    (hno : t.magic = none) (parts : List TxPart) (hc : Counts parts t)
    (h : addParts (linearEstimator c minAda) s0 parts = .ok s) :
    ∃ k m, (linearEstimator c minAda).currentSize s = .ok k ∧ t.encode.length ≤ k ∧
      (linearEstimator c minAda).maxSize s = .ok m ∧ m = net.maxTxSize := by
  obtain ⟨_, _, _, k4, k5, k6, k7, _, _, _⟩ := LE_new_ok h0
  obtain ⟨_, _, _, b4⟩ := addParts_fields parts s0 s h
  refine ⟨_, _, rfl, ?_, rfl, k6⟩
  have h1 := planTx_size ht
  rw [hno] at h1
  simp only [magicSize] at h1
  rw [b4, k4, k5, k7, hc.1, hc.2]
  omega

/-! ### Examples and counterexamples -/

/-- Two of three keys. -/
def samplePlan : MultisigPlan := ⟨2, [List.replicate 28 1, List.replicate 28 2, List.replicate 28 3]⟩

/-- Two inputs, an output with an asset and one without, two signatures and a protocol magic. -/
def samplePlanTx : Tx where
  inputs := [(List.replicate 32 7, 0), (List.replicate 32 8, 300)]
  outputs := [⟨List.replicate 57 0, ⟨⟨2000000, by decide⟩,
      some [(List.replicate 28 2, [(List.replicate 32 3, ⟨2 ^ 63, by decide⟩)])]⟩, false⟩,
    ⟨List.replicate 29 0, ⟨⟨2 ^ 40, by decide⟩, none⟩, true⟩]
  fee := 200000
  witnesses := [(List.replicate 32 1, List.replicate 64 1), (List.replicate 32 2, List.replicate 64 2)]
  scripts := samplePlan.toScript
  magic := some (List.replicate 22 0x6d, List.replicate 32 9)

theorem atMostOne_none (c : U64) : AtMostOneAsset ⟨c, none⟩ := fun m h => by cases h

theorem atMostOne_one (c : U64) (p n : Bytes) (q : U64) (hp : p.length = 28) (hn : n.length ≤ 32) :
    AtMostOneAsset ⟨c, some [(p, [(n, q)])]⟩ := by
  intro m h
  cases h
  refine ⟨by simp, ?_⟩
  intro p' a' hpa
  simp only [List.mem_singleton, Prod.mk.injEq] at hpa
  obtain ⟨rfl, rfl⟩ := hpa
  refine ⟨hp, by simp, ?_⟩
  intro n' q' hnq
  simp only [List.mem_singleton, Prod.mk.injEq] at hnq
  obtain ⟨rfl, rfl⟩ := hnq
  exact hn

example : PlanTx samplePlan samplePlanTx where
  inputs := by decide
  outputs := by
    intro o ho
    simp only [samplePlanTx, List.mem_cons, List.not_mem_nil, or_false] at ho
    rcases ho with rfl | rfl
    · exact C61_one_asset (by decide) (atMostOne_one _ _ _ _ (by decide) (by decide))
    · exact C61_one_asset (by decide) (atMostOne_none _)
  witnesses := by decide
  scripts := rfl
  magic := by
    intro text hash h
    cases h
    decide

/-- The transaction of the example has 639 bytes; the estimator charges for more. -/
example : samplePlanTx.encode.length = 639 ∧
    67 + samplePlan.scriptSize + 108 * 2 + 38 * 2 + 151 * 2 + (22 + 5) = 791 := by decide +kernel

/-- One key. -/
def onePlan : MultisigPlan := ⟨1, [List.replicate 28 1]⟩

/-- A transaction of a plan whose only output holds assets of two policies. -/
def twoAssetsTx : Tx where
  inputs := [(List.replicate 32 7, 0)]
  outputs := [⟨List.replicate 57 0, ⟨⟨2 ^ 40, by decide⟩,
      some [(List.replicate 28 2, [(List.replicate 32 3, ⟨2 ^ 63, by decide⟩)]),
        (List.replicate 28 4, [(List.replicate 32 3, ⟨2 ^ 63, by decide⟩)])]⟩, false⟩]
  fee := 200000
  witnesses := [(List.replicate 32 1, List.replicate 64 1)]
  scripts := onePlan.toScript

theorem onePlan_new : LE.new Network.public onePlan.scriptSize onePlan.quorum = .ok
    (⟨(44 * 67 + 155381 : Nat) + ((44 * 39 : Nat) + ((44 * 108 : Nat) : ℚ) * (1 : Nat)), (44 * 38 : Nat),
      (44 * 151 : Nat), 16384, 38, 151⟩, { currentSize := 67 + (50 + 39 + 108) }) := by
  have h : onePlan.scriptSize = 39 := by decide +kernel
  rw [h]
  rfl

/-- An output with three assets of one policy, with names of four bytes. -/
def shortAssets : TxOut := ⟨List.replicate 57 0, ⟨⟨2 ^ 40, by decide⟩,
  some [(List.replicate 28 2, [(List.replicate 4 3, ⟨2 ^ 20, by decide⟩), (List.replicate 4 4, ⟨2 ^ 20, by decide⟩),
    (List.replicate 4 5, ⟨2 ^ 20, by decide⟩)])]⟩, false⟩

example : PlanTx onePlan { twoAssetsTx with outputs := [shortAssets] } where
  inputs := by decide
  outputs := by decide +kernel
  witnesses := by decide
  scripts := rfl
  magic := by intro text hash h; cases h

/-- The fee can be too low for the ledger when an output holds two assets. -/
theorem C61_two_assets_false : ∃ (c : Costs) (s0 s : LE) (parts : List TxPart) (f : ℚ),
    LE.new Network.public onePlan.scriptSize onePlan.quorum = .ok (c, s0) ∧ Counts parts twoAssetsTx ∧
    (∀ minAda, addParts (linearEstimator c minAda) s0 parts = .ok s ∧
      (linearEstimator c minAda).minFee s = .ok f) ∧
    f < twoAssetsTx.linearFee Network.public.coefficient Network.public.constant := by
  refine ⟨_, _, _, [.input ⟨1, 5, [], 0⟩, .output ⟨9, 3, []⟩], _, onePlan_new, ⟨rfl, rfl⟩, fun minAda => ⟨rfl, rfl⟩, ?_⟩
  have h : twoAssetsTx.linearFee Network.public.coefficient Network.public.constant = 44 * 411 + 155381 := by
    decide +kernel
  rw [h]
  simp only [List.length_append, List.length_cons, List.length_nil]
  norm_num

/-- A transaction of a plan with a protocol magic. -/
def magicTx : Tx where
  inputs := [(List.replicate 32 7, 0)]
  outputs := [⟨List.replicate 57 0, ⟨⟨2 ^ 40, by decide⟩, none⟩, false⟩]
  fee := 200000
  witnesses := [(List.replicate 32 1, List.replicate 64 1)]
  scripts := onePlan.toScript
  magic := some (List.replicate 22 0x6d, List.replicate 32 9)

/-- With a protocol magic the size the estimator reports can be far below the real size, so that a
transaction above the limit is built. -/
theorem C61_magic_size_false : PlanTx onePlan magicTx ∧ ∃ (c : Costs) (s0 s : LE) (before : List TxPart) (k : Nat),
    LE.new Network.public onePlan.scriptSize onePlan.quorum = .ok (c, s0) ∧ Counts (before ++ []) magicTx ∧
    (∀ minAda, estimate Network.public (linearEstimator c minAda) s0 before (some 22) [] = .ok s ∧
      (linearEstimator c minAda).currentSize s = .ok k) ∧
    k = 27 ∧ magicTx.encode.length = 321 := by
  constructor
  · refine ⟨by decide, ?_, by decide, rfl, ?_⟩
    · intro o ho
      simp only [magicTx, List.mem_singleton] at ho
      subst ho
      exact C61_one_asset (by decide) (atMostOne_none _)
    · intro text hash h
      cases h
      decide
  · exact ⟨_, _, _, [.input ⟨1, 5, [], 0⟩, .output ⟨9, 3, []⟩], _, onePlan_new, ⟨rfl, rfl⟩, fun minAda => ⟨rfl, rfl⟩,
      rfl, by decide +kernel⟩

/-! ### The minimum value of an output (C63) -/

/-- The ledger's rule for outputs: price of a byte times the size with 160 bytes of overhead. -/
def ledgerMinimum (perByte : Nat) (o : TxOut) : Nat := perByte * (160 + o.encode.length)

/-- An output of the same form with nothing but a coin. -/
def coinOnly (o : TxOut) (coin : U64) : TxOut := ⟨o.address, ⟨coin, none⟩, o.asMap⟩

/-- What `min_pure_ada` computes: the least coin the ledger accepts at the address. -/
structure PureMinimum (perByte : Nat) (o : TxOut) (r : U64) : Prop where
  accepted : ledgerMinimum perByte (coinOnly o r) ≤ r.val
  least : ∀ c : U64, ledgerMinimum perByte (coinOnly o c) ≤ c.val → r.val ≤ c.val

/-- Bytes around address and value. -/
def formSize : Bool → Nat
  | true => 3
  | false => 1

theorem txOut_length (o : TxOut) : o.encode.length =
    formSize o.asMap + (encBytes o.address).length + (encValue o.amount).length := by
  have h4 : headSize 0 = 1 := rfl
  have h5 : headSize 1 = 1 := rfl
  have h6 : headSize 2 = 1 := rfl
  unfold TxOut.encode
  cases o.asMap
  rotate_left
  · simp only [encMap_length, encUInt_length, if_true, formSize, List.map_cons, List.map_nil, List.length_cons,
      List.length_nil, List.sum_cons, List.sum_nil, Nat.zero_add, Nat.reduceAdd, h4, h5, h6]
    omega
  · simp only [encArray_length, Bool.false_eq_true, if_false, formSize, List.map_cons, List.map_nil, List.length_cons,
      List.length_nil, List.sum_cons, List.sum_nil, Nat.zero_add, Nat.reduceAdd, h6]
    omega

/-- The minimum value the estimator names for an output without assets is one the ledger accepts. -/
theorem C63_pure_partial (c : Costs) (perByte : Nat) (toLedger : Output → TxOut) (least : Output → U64)
    (hleast : ∀ o, PureMinimum perByte (toLedger o) (least o)) (s s' : LE) (o : Output) (v : ℚ)
    (h : (linearEstimator c fun o => .ok ((least o).val : ℚ)).minValueOut s o = .ok (v, s'))
    (coin : U64) (hv : v = coin.val) (hpure : (toLedger o).amount = ⟨coin, none⟩) :
    ledgerMinimum perByte (toLedger o) ≤ coin.val := by
  have hr : v = (least o).val := by
    simp only [linearEstimator, bind, Except.bind, Except.ok.injEq, Prod.mk.injEq] at h
    exact h.1.symm
  have hc : (least o).val = coin.val := by
    rw [hr] at hv; exact_mod_cast hv
  have := (hleast o).accepted
  have he : coinOnly (toLedger o) (least o) = toLedger o := by
    have : least o = coin := by
      cases hl : least o; cases coin; rw [hl] at hc; simp only [U64.mk.injEq]; exact hc
    rw [this]
    unfold coinOnly
    rw [← hpure]
  rw [he, hc] at this
  exact this

/-- The minimum value the estimator names for an output with assets is never enough for the ledger: the output
with exactly that value is refused, whatever its address and assets, if bytes cost anything. -/
theorem C63_assets_false (c : Costs) (perByte : Nat) (hp : 0 < perByte) (toLedger : Output → TxOut)
    (least : Output → U64) (hleast : ∀ o, PureMinimum perByte (toLedger o) (least o)) (s s' : LE) (o : Output) (v : ℚ)
    (h : (linearEstimator c fun o => .ok ((least o).val : ℚ)).minValueOut s o = .ok (v, s'))
    (coin : U64) (hv : v = coin.val) (m : MultiAsset) (hassets : (toLedger o).amount = ⟨coin, some m⟩) :
    coin.val < ledgerMinimum perByte (toLedger o) := by
  have hr : v = (least o).val := by
    simp only [linearEstimator, bind, Except.bind, Except.ok.injEq, Prod.mk.injEq] at h
    exact h.1.symm
  have hc : (least o).val = coin.val := by
    rw [hr] at hv; exact_mod_cast hv
  by_contra hle
  have hle := not_lt.mp hle
  -- the output with assets is longer than the one without
  have hlong : (coinOnly (toLedger o) (least o)).encode.length < (toLedger o).encode.length := by
    rw [txOut_length, txOut_length]
    simp only [coinOnly, hassets, encValue, encArray_length, encUInt_length, hc, List.map_cons, List.map_nil,
      List.sum_cons, List.sum_nil, List.length_cons, List.length_nil]
    have := headSize_pos (0 + 1 + 1)
    omega
  have hlt : ledgerMinimum perByte (coinOnly (toLedger o) (least o)) < (least o).val := by
    refine lt_of_lt_of_le ?_ (hc ▸ hle)
    unfold ledgerMinimum
    exact Nat.mul_lt_mul_of_pos_left (by omega) hp
  -- so a smaller coin would do for an output without assets
  let c' : U64 := ⟨ledgerMinimum perByte (coinOnly (toLedger o) (least o)), lt_trans hlt (least o).lt⟩
  have hacc : ledgerMinimum perByte (coinOnly (toLedger o) c') ≤ c'.val := by
    show ledgerMinimum perByte (coinOnly (toLedger o) c') ≤ ledgerMinimum perByte (coinOnly (toLedger o) (least o))
    unfold ledgerMinimum
    apply Nat.mul_le_mul_left
    rw [txOut_length, txOut_length]
    simp only [coinOnly, encValue, encUInt_length]
    have : headSize c'.val ≤ headSize (least o).val := headSize_mono (le_of_lt hlt)
    omega
  have := (hleast o).least c' hacc
  exact absurd hlt (not_lt.mpr this)

/-- The public networks ask 4310 for a byte: 969750 at an address of 57 bytes. -/
example : ∃ r : U64, r.val = 969750 ∧ PureMinimum 4310 ⟨List.replicate 57 0, ⟨r, none⟩, false⟩ r := by
  have size (x : U64) : ledgerMinimum 4310 (coinOnly ⟨List.replicate 57 0, ⟨x, none⟩, false⟩ x) =
      4310 * (220 + headSize x.val) := by
    unfold ledgerMinimum
    rw [txOut_length]
    simp only [coinOnly, encBytes_length, List.length_replicate, encValue, encUInt_length]
    have : headSize 57 = 2 := rfl
    simp only [this, formSize]
    omega
  refine ⟨⟨969750, by decide⟩, rfl, ?_, ?_⟩
  · rw [size]; decide
  · intro c hc
    have hs : ledgerMinimum 4310 (coinOnly ⟨List.replicate 57 0, ⟨⟨969750, by decide⟩, none⟩, false⟩ c) =
        4310 * (220 + headSize c.val) := size c
    rw [hs] at hc
    show 969750 ≤ c.val
    unfold headSize at hc
    repeat' split at hc
    all_goals omega

end Verif.Props
