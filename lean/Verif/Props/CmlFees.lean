import Verif.Selection.ThermostatCml
import Verif.Selection.LedgerBuilder
import Verif.Props.Payment

/-!
# Fees with the estimator that asks the ledger library (C78)

The builder starts with the fixed inputs and outputs of the request in it. `B.fee ins outs` is the least fee of the
transaction with these inputs and outputs; a builder is `Fair` if this does not depend on the order of the outputs and
does not rise when the value of an output shrinks. `LedgerView.fair` shows this for the fee by bytes.
-/

namespace Verif.Props

open Verif Verif.Core Verif.Selection Verif.Cardano Verif.Selection.Thermostat

section

variable {B : CmlBuilder}

/-- Largest-first selection reports exactly the least fee of the transaction with the chosen inputs. -/
theorem C78_largest_first (hB : B.Fair) {ord : List Utxo → List Utxo} (hord : ∀ l, (ord l).Perm l)
    {avail : List Utxo} {st st' : UStore} (hst : StoreOK avail st) (ins : List Utxo) (outs : List Output)
    (hs : Sensible (ins ++ avail) outs) (ch : Option Nat) {r : Result} {p : Parts}
    (h : largestFirst (cmlEstimator B) ord st ⟨ins, outs⟩ (Setup.fromFixed ins outs ch) = (.ok (r, p), st')) :
    r.fee = B.fee (ins ++ r.chosen) outs ∧ p = ⟨ins ++ r.chosen, outs⟩ := by
  have hcase : LFCase (cmlEstimator B) ord avail st ⟨ins, outs⟩ (Setup.fromFixed ins outs ch) := by
    refine ⟨hord, hst, fun u hu => hs.inputs u (by simp [hu]), ?_, ?_, (hs.tables ch).2.2.2⟩
    · intro s u f hf; exact (cml_feeIn hf).2
    · intro f hf; cases hf; exact hB.nonneg _ _
  obtain ⟨_, _, _, _, _, ⟨mn, h1, h2⟩, _⟩ := C39_books hcase h
  cases h1
  obtain ⟨h3, h4⟩ := cml_runFee _ h2
  exact ⟨by rw [h4]; ring, h3⟩

/-- The balancer that makes one change covers the least fee of the transaction with this change; the fee is exactly the
least fee of the transaction in which the change has not paid for itself yet. -/
theorem C78_single_change (hB : B.Fair) (p p' : Parts) (io : Setup) (r : Result)
    (h : singleChange (cmlEstimator B) p io = .ok (r, p')) :
    B.fee p.ins (p.outs ++ r.changes) ≤ r.fee ∧ p' = ⟨p.ins, p.outs ++ r.changes⟩ ∧
    ∃ c, r.changes = [c] ∧
      r.fee = B.fee p.ins (p.outs ++ [{ c with value := c.value + (r.fee - B.fee p.ins p.outs) }]) := by
  have fin : ∀ addr cas v, finishChange (cmlEstimator B) p io addr cas (B.fee p.ins p.outs) v = .ok (r, p') →
      B.fee p.ins (p.outs ++ r.changes) ≤ r.fee ∧ p' = ⟨p.ins, p.outs ++ r.changes⟩ ∧
      ∃ c, r.changes = [c] ∧
        r.fee = B.fee p.ins (p.outs ++ [{ c with value := c.value + (r.fee - B.fee p.ins p.outs) }]) := by
    intro addr cas v hf
    unfold finishChange at hf
    simp only at hf
    split at hf
    · cases hf
    · rename_i f hfo
      split at hf
      · cases hf
      · rename_i p1 hao
        cases hf
        obtain ⟨e1, e2⟩ := cml_feeOut hfo
        refine ⟨?_, cml_addOut hao, _, rfl, ?_⟩
        swap
        · simp only [add_sub_cancel_left, sub_add_cancel]
          linarith
        have hm := hB.forall₂ p.ins (.cons (a := { address := addr, value := v - f, assets := cas })
          (b := { address := addr, value := v, assets := cas }) ⟨rfl, rfl, by simp only; linarith⟩ .nil) p.outs
        simp only
        linarith
  unfold singleChange at h
  split at h
  · cases h
  split at h
  · cases h
  simp only [cmlEstimator] at h
  split at h
  · cases h
  · exact fin _ _ _ h
  · exact fin _ _ _ h

/-- The thermostat covers the least fee of the transaction with its inputs and changes when the request has no assets
and no available UTxO costs more than it is worth. Missing for C78: requests with assets
(`C78_thermostat_false`). -/
theorem C78_thermostat_partial (hB : B.Fair) {W : Thermostat.World} {avail : List Utxo} {st st' : UStore}
    {ins : List Utxo} {outs : List Output} (hC : THCase W avail st ins outs) (hdiv : ∀ q n, W.div q n = q / n)
    (hno : requestTokens ins outs = [])
    (hworth : ∀ u ∈ avail, ∀ i o, B.fee (i ++ [u]) o ≤ B.fee i o + u.value) {ch : Option Nat} {r : Result} {p : Parts}
    (h : thermostat (cmlEstimator B) W st ⟨ins, outs⟩ (Setup.fromFixed ins outs ch) = (.ok (r, p), st')) :
    B.fee (ins ++ r.chosen) (outs ++ r.changes) ≤ r.fee := by
  obtain ⟨s, hs, hf, rfl, hsel, hchg, _⟩ := thermostat_ok h
  have hkeys : (initial (⟨ins, outs⟩ : Parts) (Setup.fromFixed ins outs ch)).assets = [] := by
    have : (initial (⟨ins, outs⟩ : Parts) (Setup.fromFixed ins outs ch)).assets.keys = [] := by
      apply List.eq_nil_iff_forall_not_mem.mpr
      intro t ht
      have := (initial_assets.2.1 t).mp ht
      rw [hno] at this
      simp at this
    exact List.map_eq_nil_iff.mp this
  obtain ⟨hp, m, h1, h2⟩ := select_plain (p0 := ⟨ins, outs⟩) hB hC.ord hC.keyOrder hC.main hdiv hs hC.inv hworth rfl
    hkeys rfl rfl rfl
  obtain ⟨L, hL, hb⟩ := hp.outs
  cases h1
  have hperm : (s.changes.map (·.2) ++ s.extra).Perm r.changes := by
    rw [hchg]
    unfold allChanges
    refine List.Perm.append_right _ ?_
    rw [← values_filterMap _ hp.nodup]
    exact ((hC.changeOrder _).filterMap _).symm
  have := hB.below (ins ++ r.chosen) outs (hb.perm hperm)
  rw [hf]
  rw [hp.ins, hL, ← hsel] at h2
  exact le_trans this h2

end

/-- The whole way with the estimator of the library: largest-first selection and one change. The transaction made from
the answers, with the signatures and scripts the builder counted on, pays the fee the ledger asks for its bytes. -/
theorem C78_accepted (V : LedgerView) (hV : V.Grows) (minAda : Output → Except SelErr ℚ)
    {ord : List Utxo → List Utxo} (hord : ∀ l, (ord l).Perm l)
    {avail : List Utxo} {st st' : UStore} (hst : StoreOK avail st) (ins : List Utxo) (outs : List Output)
    (hs : Sensible (ins ++ avail) outs) (addr : Nat) {r r' : Result} {p p' : Parts}
    (h1 : largestFirst (cmlEstimator (V.builder minAda)) ord st ⟨ins, outs⟩ (Setup.fromFixed ins outs (some addr)) =
      (.ok (r, p), st'))
    (h2 : singleChange (cmlEstimator (V.builder minAda)) p (Setup.fromFixed (ins ++ r.chosen) outs (some addr)) =
      .ok (r', p')) (fee : Nat) (hfee : (fee : ℚ) = r'.fee) :
    (V.tx (ins ++ r.chosen) (outs ++ r'.changes) fee).linearFee V.coefficient V.constant ≤ fee ∧
    ((ins ++ r.chosen).map (·.value)).sum = ((outs ++ r'.changes).map (·.value)).sum + fee := by
  have hB := V.fair minAda hV
  obtain ⟨_, rfl⟩ := C78_largest_first hB hord hst ins outs hs _ h1
  constructor
  · have h3 := (C78_single_change hB _ _ _ _ h2).1
    rw [← hfee] at h3
    have h4 : (V.tx (ins ++ r.chosen) (outs ++ r'.changes) (2 ^ 32)).linearFee V.coefficient V.constant ≤ fee := by
      have : (((V.tx (ins ++ r.chosen) (outs ++ r'.changes) (2 ^ 32)).linearFee V.coefficient V.constant : Nat) : ℚ) ≤
        fee := h3
      exact_mod_cast this
    have h5 := tx_length_fee V (ins ++ r.chosen) (outs ++ r'.changes) (fee := fee) (fee' := 2 ^ 32)
      (by rw [show headSize (2 ^ 32) = 9 by decide]; exact headSize_le fee)
    refine le_trans ?_ h4
    exact Nat.add_le_add_right (Nat.mul_le_mul_left _ h5) _
  · have hs2 : Sensible (ins ++ r.chosen) outs := by
      have hcase : LFCase (cmlEstimator (V.builder minAda)) ord avail st ⟨ins, outs⟩
          (Setup.fromFixed ins outs (some addr)) := by
        refine ⟨hord, hst, fun u hu => hs.inputs u (by simp [hu]), ?_, ?_, (hs.tables (some addr)).2.2.2⟩
        · intro s u f hf; exact (cml_feeIn hf).2
        · intro f hf; cases hf; exact hB.nonneg _ _
      obtain ⟨_, _, q3, _⟩ := C39_books hcase h1
      refine ⟨fun u hu => hs.inputs u ?_, hs.outputs⟩
      rcases List.mem_append.mp hu with hu | hu
      · simp [hu]
      · simp [q3.mem_iff.mpr (List.mem_append_left _ hu)]
    obtain ⟨t1, t2, t3, t4⟩ := hs2.tables (some addr)
    obtain ⟨b1, _, b3, _, _, _, _, c, addr', mn, f, c1, _, _, _, _, _, _, c2, _⟩ :=
      C46_success_partial _ _ _ _ _ t1 t2 t3 t4 (fun f hf => by cases hf; exact hB.nonneg _ _) h2
    rw [hfee]
    have d1 := (C48_setup_totals (ins ++ r.chosen) outs (some addr)).1
    have d2 := (C48_setup_totals (ins ++ r.chosen) outs (some addr)).2.1
    rw [← d1, ← b3, b1, c2, d2, c1]
    simp

/-- With the fee by bytes, a payment without assets gets its change exactly when what is left after the outputs pays the fee of
the transaction in which the change has not paid for itself yet. -/
theorem C78_answered (V : LedgerView) (minAda : Output → Except SelErr ℚ) (ins : List Utxo) (outs : List Output)
    (hins : ∀ u ∈ ins, u.assets = []) (houts : ∀ o ∈ outs, o.assets = [] ∧ 0 ≤ o.value) (addr : Nat) {left : ℚ}
    (hleft : left = (ins.map (·.value)).sum - (outs.map (·.value)).sum) :
    (∃ r p, singleChange (cmlEstimator (V.builder minAda)) ⟨ins, outs⟩ (Setup.fromFixed ins outs (some addr)) = .ok (r, p)) ↔
      (V.builder minAda).fee ins (outs ++ [⟨addr, left - (V.builder minAda).fee ins outs, []⟩]) ≤ left := by
  obtain ⟨t1, t2, _, _, t3, t4, _, _, _, _, _, _, t5⟩ := C48_setup_totals ins outs (some addr)
  have hia : (Setup.fromFixed ins outs (some addr)).inputAssets = [] := by
    have : AMap.keys (Setup.fromFixed ins outs (some addr)).inputAssets = [] := by
      refine List.eq_nil_iff_forall_not_mem.mpr fun t ht => ?_
      obtain ⟨u, hu, a, ha, _⟩ := (t3 t).1 ht
      rw [hins u hu] at ha
      cases ha
    exact List.map_eq_nil_iff.mp this
  have hoa : (Setup.fromFixed ins outs (some addr)).outputAssets = [] := by
    have : AMap.keys (Setup.fromFixed ins outs (some addr)).outputAssets = [] := by
      refine List.eq_nil_iff_forall_not_mem.mpr fun t ht => ?_
      obtain ⟨u, hu, a, ha, _⟩ := (t4 t).1 ht
      rw [(houts u hu).1] at ha
      cases ha
    exact List.map_eq_nil_iff.mp this
  have hgrow : ∀ o, (V.builder minAda).fee ins outs ≤ (V.builder minAda).fee ins (outs ++ [o]) := by
    intro o
    have e1 := tx_length V ins (2 ^ 32) outs
    have e2 := tx_length V ins (2 ^ 32) (outs ++ [o])
    have e3 : headSize outs.length ≤ headSize (outs ++ [o]).length := headSize_mono (by simp)
    rw [List.map_append, List.sum_append] at e2
    have : (V.tx ins outs (2 ^ 32)).encode.length ≤ (V.tx ins (outs ++ [o]) (2 ^ 32)).encode.length := by omega
    have := Nat.add_le_add_right (Nat.mul_le_mul_left V.coefficient this) V.constant
    simp only [LedgerView.builder, Tx.linearFee]
    exact_mod_cast this
  have hfee0 : 0 ≤ (V.builder minAda).fee ins outs := by
    simp only [LedgerView.builder]
    positivity
  have hob : 0 ≤ (Setup.fromFixed ins outs (some addr)).outputBalance := by
    rw [t2]
    apply List.sum_nonneg
    intro x hx
    obtain ⟨o, ho, rfl⟩ := List.mem_map.1 hx
    exact (houts o ho).2
  have hok : ∀ o, (V.builder minAda).okOut o = decide (0 ≤ o.value) := fun _ => rfl
  have hmf : (cmlEstimator (V.builder minAda)).minFee ⟨ins, outs⟩ = .ok ((V.builder minAda).fee ins outs) := rfl
  have hfin : ∀ v, v = left - (V.builder minAda).fee ins outs → 0 ≤ v →
      ((∃ r p, finishChange (cmlEstimator (V.builder minAda)) ⟨ins, outs⟩ (Setup.fromFixed ins outs (some addr)) addr []
        ((V.builder minAda).fee ins outs) v = .ok (r, p)) ↔
      (V.builder minAda).fee ins (outs ++ [⟨addr, left - (V.builder minAda).fee ins outs, []⟩]) ≤ left) := by
    intro v hv hv0
    have hg := hgrow ⟨addr, v, []⟩
    rw [← hv]
    unfold finishChange
    simp only [cmlEstimator, hok, hv0, decide_true, if_true, feeDiff, if_neg (not_lt.2 hg)]
    by_cases h : (V.builder minAda).fee ins (outs ++ [⟨addr, v, []⟩]) ≤ left
    · rw [if_pos (by simp only [decide_eq_true_eq]; linarith)]
      simp [h]
    · rw [if_neg (by simp only [decide_eq_true_eq]; intro hh; apply h; linarith)]
      simp [h]
  unfold singleChange
  simp only [t5, hia, hoa, assetBalance, List.foldl_nil, changeAssets, hmf, mainBalance_spec hfee0 hob]
  rw [t1, t2]
  unfold Balance.ofNet
  by_cases h1 : (ins.map (·.value)).sum - (V.builder minAda).fee ins outs - (outs.map (·.value)).sum < 0
  · simp only [if_pos h1]
    have := hgrow ⟨addr, left - (V.builder minAda).fee ins outs, []⟩
    constructor
    · rintro ⟨_, _, h⟩; cases h
    · intro h; linarith
  · simp only [if_neg h1]
    by_cases h2 : (ins.map (·.value)).sum - (V.builder minAda).fee ins outs - (outs.map (·.value)).sum = 0
    · simp only [if_pos h2]
      exact hfin 0 (by rw [hleft]; linarith) (le_refl _)
    · simp only [if_neg h2]
      exact hfin _ (by rw [hleft]; ring) (not_lt.1 h1)

/-! ### Cases -/

/-- Amounts above the largest the ledger writes are written as the largest. -/
def writeAmount (q : ℚ) : U64 := ⟨min q.floor.toNat (2 ^ 64 - 1), by unfold u64Bound; omega⟩

/-- The public networks: addresses of 57 bytes, policies of 28 and names of 32 bytes, one signature. -/
def publicView : LedgerView where
  coefficient := 44
  constant := 155381
  input u := (List.replicate 32 (UInt8.ofNat u.ptr), 0)
  output o := ⟨List.replicate 57 (UInt8.ofNat o.address), ⟨writeAmount o.value,
    if o.assets = [] then none else some (o.assets.map fun a =>
      (List.replicate 28 (UInt8.ofNat a.policy), [(List.replicate 32 (UInt8.ofNat a.name), writeAmount a.quantity)]))⟩,
    false⟩
  witnesses _ := [(List.replicate 32 0, List.replicate 64 0)]
  scripts _ := []

theorem publicView_grows : publicView.Grows := by
  intro o o' h
  have hc : (writeAmount o.value).val ≤ (writeAmount o'.value).val := by
    have h1 : o.value.floor ≤ o'.value.floor := Rat.floor_monotone h.value
    simp only [writeAmount]
    omega
  have hh := headSize_mono hc
  simp only [publicView, TxOut.encode, h.assets, h.address, encArray_length, List.map_cons, List.map_nil,
    List.sum_cons, List.sum_nil, encValue, Bool.false_eq_true, if_false]
  by_cases ha : o'.assets = []
  · simp only [ha, if_true, encUInt_length, List.length_cons, List.length_nil]
    omega
  · simp only [ha, if_false, encArray_length, encUInt_length, List.map_cons, List.map_nil, List.sum_cons,
      List.sum_nil]
    simp only [List.length_cons, List.length_nil]
    omega

def publicB : CmlBuilder := publicView.builder (fun _ => .ok 1000000)

/-- The fee of an answer and the least fee of its transaction. -/
def feeView (ins : List Utxo) (outs : List Output) (x : Except SelErr (Result × Parts) × UStore) : Option (ℚ × ℚ) :=
  x.1.toOption.map fun y => (y.1.fee, publicB.fee (ins ++ y.1.chosen) (outs ++ y.1.changes))

/-- With an estimator that knows the bytes, the fee of a thermostat selection with assets is too small: a change is
counted before the asset is put into it. -/
theorem C78_thermostat_false : ¬ ∀ (V : LedgerView) (minAda : Output → Except SelErr ℚ) (W : Thermostat.World)
    (avail : List Utxo) (st st' : UStore) (ins : List Utxo) (outs : List Output) (ch : Option Nat) (r : Result)
    (p : Parts), V.Grows → THCase W avail st ins outs → W.cfg.min ≤ W.cfg.max → (∀ q n, W.div q n = q / n) →
    thermostat (cmlEstimator (V.builder minAda)) W st ⟨ins, outs⟩ (Setup.fromFixed ins outs ch) = (.ok (r, p), st') →
    (V.builder minAda).fee (ins ++ r.chosen) (outs ++ r.changes) ≤ r.fee := by
  intro h
  have h1 : feeView [] thOuts (thermostat (cmlEstimator publicB) (thW {}) (thStore thAvail) ⟨[], thOuts⟩
      (Setup.fromFixed [] thOuts (some 5))) = some (182661, 185697) := by decide +kernel
  generalize hx : thermostat (cmlEstimator publicB) (thW {}) (thStore thAvail) ⟨[], thOuts⟩
      (Setup.fromFixed [] thOuts (some 5)) = x at h1
  obtain ⟨y, st'⟩ := x
  cases y with
  | error e => simp [feeView, Except.toOption] at h1
  | ok z =>
    obtain ⟨r, p⟩ := z
    simp only [feeView, Except.toOption, Option.map_some, Option.some.injEq, Prod.mk.injEq] at h1
    have h2 := h publicView (fun _ => .ok 1000000) (thW {}) thAvail (thStore thAvail) st' [] thOuts (some 5) r p
      publicView_grows th_sample_case (by decide +kernel) (fun _ _ => rfl) hx
    change publicB.fee ([] ++ r.chosen) (thOuts ++ r.changes) ≤ r.fee at h2
    rw [h1.1, h1.2] at h2
    exact absurd h2 (by decide +kernel)

/-- One more input costs at most 49 bytes. -/
theorem public_worth (u : Utxo) (hu : 2156 ≤ u.value) (i : List Utxo) (o : List Output) :
    publicB.fee (i ++ [u]) o ≤ publicB.fee i o + u.value := by
  have h0 : (publicView.tx (i ++ [u]) o (2 ^ 32)).encode.length ≤ (publicView.tx i o (2 ^ 32)).encode.length + 49 := by
    have h1 := headSize_le (i.length + 1)
    have h2 := headSize_pos i.length
    have h3 : headSize 0 = 1 := rfl
    have h4 : headSize 32 = 2 := rfl
    simp only [Tx.encode, Tx.encodeBody, LedgerView.tx, publicView, List.append_nil, encArray_length, encMap_length,
      encUInt_length, List.map_cons, List.map_nil, List.sum_cons, List.sum_nil, List.length_cons, List.length_nil,
      List.length_map, encTrue, encNull, List.map_map, Function.comp_def, List.map_append, List.sum_append,
      List.length_append, encInput, encBytes_length, List.length_replicate, h3, h4]
    have h5 : headSize (0 + 1 + 1) = 1 := rfl
    have h6 : i.length + (0 + 1) = i.length + 1 := rfl
    rw [h6]
    omega
  have h1 : ((publicView.tx (i ++ [u]) o (2 ^ 32)).encode.length : ℚ) ≤
      (publicView.tx i o (2 ^ 32)).encode.length + 49 := by exact_mod_cast h0
  have h2 : ∀ j, publicB.fee j o = 44 * ((publicView.tx j o (2 ^ 32)).encode.length : ℚ) + 155381 := by
    intro j
    simp only [publicB, LedgerView.builder, Tx.linearFee, Nat.cast_add, Nat.cast_mul]
    rfl
  rw [h2, h2]
  linarith

/-- A payment of one ada out of UTxOs of twenty. -/
def cmlAvail : List Utxo := [⟨1, 20000000, [], 0⟩, ⟨2, 20000000, [], 0⟩]

def cmlPay : List Output := [⟨9, 1000000, []⟩]

theorem cmlAvail_ok : StoreOK cmlAvail (thStore cmlAvail) := by
  refine thStore_ok ?_ (by decide)
  intro u hu
  simp only [cmlAvail, List.mem_cons, List.not_mem_nil, or_false] at hu
  rcases hu with rfl | rfl <;> exact ⟨by decide, by decide⟩

/-- The hypotheses of `C78_thermostat_partial` hold, and there are changes. -/
example : ∃ r p st', thermostat (cmlEstimator publicB) (thW {}) (thStore cmlAvail) ⟨[], cmlPay⟩
      (Setup.fromFixed [] cmlPay (some 5)) = (.ok (r, p), st') ∧ r.changes.length = 2 ∧
    publicB.fee ([] ++ r.chosen) (cmlPay ++ r.changes) ≤ r.fee := by
  have h1 : ((thermostat (cmlEstimator publicB) (thW {}) (thStore cmlAvail) ⟨[], cmlPay⟩
      (Setup.fromFixed [] cmlPay (some 5))).1.toOption.map (·.1.changes.length)) = some 2 := by decide +kernel
  generalize hx : thermostat (cmlEstimator publicB) (thW {}) (thStore cmlAvail) ⟨[], cmlPay⟩
      (Setup.fromFixed [] cmlPay (some 5)) = x at h1
  obtain ⟨y, st'⟩ := x
  cases y with
  | error e => simp [Except.toOption] at h1
  | ok z =>
    obtain ⟨r, p⟩ := z
    refine ⟨r, p, st', rfl, by simpa [Except.toOption] using h1, ?_⟩
    refine C78_thermostat_partial (publicView.fair _ publicView_grows) (W := thW {}) (avail := cmlAvail)
      ⟨fun l => List.Perm.refl l, fun l => List.Perm.refl l, fun l => List.Perm.refl l, cmlAvail_ok, rfl,
        by decide +kernel⟩ (fun _ _ => rfl) (by decide +kernel) ?_ hx
    intro u hu i o
    simp only [cmlAvail, List.mem_cons, List.not_mem_nil, or_false] at hu
    rcases hu with rfl | rfl <;> exact public_worth _ (by norm_num) i o

/-- The hypotheses of `C78_accepted` hold. -/
example : ∃ r p st' r' p', largestFirst (cmlEstimator publicB) id (thStore cmlAvail) ⟨[], cmlPay⟩
      (Setup.fromFixed [] cmlPay (some 5)) = (.ok (r, p), st') ∧
    singleChange (cmlEstimator publicB) p (Setup.fromFixed ([] ++ r.chosen) cmlPay (some 5)) = .ok (r', p') ∧
    (publicView.tx ([] ++ r.chosen) (cmlPay ++ r'.changes) 168053).linearFee 44 155381 ≤ 168053 := by
  have h1 : ((largestFirst (cmlEstimator publicB) id (thStore cmlAvail) ⟨[], cmlPay⟩
      (Setup.fromFixed [] cmlPay (some 5))).1.toOption.bind fun y =>
        (singleChange (cmlEstimator publicB) y.2 (Setup.fromFixed ([] ++ y.1.chosen) cmlPay (some 5))).toOption.map
          (·.1.fee)) = some 168053 := by decide +kernel
  generalize hx : largestFirst (cmlEstimator publicB) id (thStore cmlAvail) ⟨[], cmlPay⟩
      (Setup.fromFixed [] cmlPay (some 5)) = x at h1
  obtain ⟨y, st'⟩ := x
  cases y with
  | error e => simp [Except.toOption] at h1
  | ok z =>
    obtain ⟨r, p⟩ := z
    simp only [Except.toOption, Option.bind_some] at h1
    generalize hy : singleChange (cmlEstimator publicB) p (Setup.fromFixed ([] ++ r.chosen) cmlPay (some 5)) = w at h1
    cases w with
    | error e => simp at h1
    | ok v =>
      obtain ⟨r', p'⟩ := v
      simp only [Option.map_some, Option.some.injEq] at h1
      refine ⟨r, p, st', r', p', rfl, hy, ?_⟩
      have hs : Sensible ([] ++ cmlAvail) cmlPay := by
        constructor
        · intro u hu a ha
          simp only [List.nil_append, cmlAvail, List.mem_cons, List.not_mem_nil, or_false] at hu
          rcases hu with rfl | rfl <;> simp at ha
        · intro o ho
          simp only [cmlPay, List.mem_singleton] at ho
          subst ho
          exact ⟨by norm_num, by simp⟩
      exact (C78_accepted publicView publicView_grows (fun _ => .ok 1000000) (fun l => List.Perm.refl l) cmlAvail_ok []
        cmlPay hs 5 hx hy 168053 (by rw [h1]; norm_num)).1

/-- The hypotheses of `C78_answered` hold, and there is a change. -/
example : (∀ u ∈ cmlAvail, u.assets = []) ∧ (∀ o ∈ cmlPay, o.assets = [] ∧ 0 ≤ o.value) ∧
    publicB.fee cmlAvail (cmlPay ++ [⟨5, 39000000 - publicB.fee cmlAvail cmlPay, []⟩]) ≤ 39000000 := by
  refine ⟨by decide, by decide +kernel, by decide +kernel⟩

end Verif.Props
