import Verif.Props.Payment
import Verif.Props.Wallet

/-!
# A wallet and a ledger (C87)

The ledger is a list of unspent outputs. A wallet hands unspent outputs to an algorithm, makes payments with it, one after the
other, and submits the transactions made from the answers. Transactions arrive later, in any order, or never; others change the
ledger meanwhile.
-/

namespace Verif.Props

open Verif Verif.Core Verif.Selection Verif.Cardano

/-! ### The ledger -/

/-- How the ledger names what the selection knows by pointers and fingerprints: the input that spends an output, and the
fingerprint of an asset (C53). -/
structure Naming where
  input : Pointer → Bytes × Nat
  token : Bytes → Bytes → Token
  injective : ∀ p q, input p = input q → p = q

/-- Quantity of an asset in an output of a transaction. -/
def TxOut.holds (x : TxOut) (p n : Bytes) : ℚ := ((x.amount.quantity p n).elim 0 (·.val) : ℕ)

/-- What a transaction spends on a ledger. -/
def spentBy (N : Naming) (ledger : List Utxo) (t : Tx) : List Utxo := ledger.filter (fun u => N.input u.ptr ∈ t.inputs)

/-- The rules of the ledger for inputs, fee and balance of a transaction. -/
structure Accepts (net : Network) (N : Naming) (ledger : List Utxo) (t : Tx) : Prop where
  some : t.inputs ≠ []
  distinct : t.inputs.Nodup
  unspent : ∀ i ∈ t.inputs, ∃ u ∈ ledger, N.input u.ptr = i
  fee : t.linearFee net.coefficient net.constant ≤ t.fee
  coin : ((spentBy N ledger t).map (·.value)).sum = ((t.outputs.map (fun x => x.amount.coin.val)).sum + t.fee : Nat)
  assets : ∀ p n, ((spentBy N ledger t).map (fun u => assetSum (N.token p n) u.assets)).sum =
    (t.outputs.map (fun x => TxOut.holds x p n)).sum

/-- The ledger after a transaction: what it spends is gone, its outputs are there under new pointers. -/
def After (N : Naming) (ledger : List Utxo) (t : Tx) (ledger' : List Utxo) : Prop :=
  ∃ made, List.Forall₂ (fun (u : Utxo) (x : TxOut) => u.value = x.amount.coin.val ∧
      ∀ p n, assetSum (N.token p n) u.assets = TxOut.holds x p n) made t.outputs ∧
    ledger' = ledger.filter (fun u => N.input u.ptr ∉ t.inputs) ++ made ∧ ((ledger ++ made).map (·.ptr)).Nodup

/-! ### The wallet -/

/-- The transaction made from an answer, which names its inputs and holds its assets. -/
structure MadeOf (plan : MultisigPlan) (N : Naming) (r : Result) (t : Tx) : Prop extends MadeFrom plan r t where
  names : t.inputs = (r.fixedInputs ++ r.chosen).map (fun u => N.input u.ptr)
  quantities : List.Forall₂ (fun (o : Output) (x : TxOut) => ∀ p n, TxOut.holds x p n = assetSum (N.token p n) o.assets)
    (r.fixedOutputs ++ r.changes) t.outputs

/-- The algorithm a wallet uses: largest-first and the thermostat keep a store, random-improve a list and positions. -/
inductive Algo where
  | kept (st : UStore)
  | random (ri : Random.RI)

/-- The UTxOs it can choose from. (Random-improve keeps its positions when it is handed another list, C44; those behind the end of the
list stand for nothing.) -/
def Algo.available : Algo → List Utxo
  | .kept st => availableInputs st
  | .random ri => ri.indices.filterMap (fun i => ri.inputs[i]?)

/-- The ledger, the algorithm, and the transactions submitted that have not arrived. -/
structure Scene where
  ledger : List Utxo
  algo : Algo
  pending : List Tx

/-- An output of the ledger that no submitted transaction spends. -/
def Scene.Unspent (N : Naming) (s : Scene) (u : Utxo) : Prop :=
  u ∈ s.ledger ∧ ∀ t ∈ s.pending, N.input u.ptr ∉ t.inputs

/-- A request: distinct fixed inputs, unspent and not handed to the algorithm; no negative amounts. -/
structure Request (N : Naming) (s : Scene) (ins : List Utxo) (outs : List Output) : Prop where
  distinct : (ins.map (·.ptr)).Nodup
  unspent : ∀ u ∈ ins, s.Unspent N u
  fixed : ∀ u ∈ ins, u.ptr ∉ s.algo.available.map (·.ptr)
  sensible : Sensible ins outs

/-- The estimator of the network and the plan, after it has counted inputs and outputs of the request and the protocol magic. -/
structure Counted (net : Network) (plan : MultisigPlan) (minAda : Output → Except SelErr ℚ) (c : Costs) (est : LE)
    (ins : List Utxo) (outs : List Output) (magic : Option Nat) : Prop where
  counted : ∃ s0 before after, LE.new net plan.scriptSize plan.quorum = .ok (c, s0) ∧
    (before ++ after).countP (·.isInput) = ins.length ∧ (before ++ after).countP (·.isOutput) = outs.length ∧
    estimate net (linearEstimator c minAda) s0 before magic after = .ok est

/-- A payment: what is submitted and the algorithm afterwards, from the answers of the algorithms. Outputs have at most 147 bytes
(C61). -/
inductive Pays (net : Network) (N : Naming) (s : Scene) : Tx → Algo → Prop where
  /-- Largest-first, then the single-output change balancer. -/
  | change {plan : MultisigPlan} {minAda : Output → Except SelErr ℚ} {c : Costs} {est est1 est2 : LE}
      {ord : List Utxo → List Utxo} {ins : List Utxo} {outs : List Output} {addr : Nat} {r r' : Result} {st0 st : UStore} {t : Tx} :
      s.algo = .kept st0 → Request N s ins outs → (∀ l, (ord l).Perm l) → Counted net plan minAda c est ins outs (t.magic.map (·.1.length)) →
      largestFirst (linearEstimator c minAda) ord st0 est (Setup.fromFixed ins outs (some addr)) = (.ok (r, est1), st) →
      singleChange (linearEstimator c minAda) est1 (Setup.fromFixed (ins ++ r.chosen) outs (some addr)) = .ok (r', est2) →
      MadeOf plan N r' t → (∀ o ∈ outs ++ r'.changes, ∀ x ∈ t.outputs, PaysAs o x → Short o x) → Pays net N s t (.kept st)
  /-- Largest-first, then the fee-change balancer. -/
  | fee {plan : MultisigPlan} {minAda : Output → Except SelErr ℚ} {c : Costs} {est est1 : LE}
      {ord : List Utxo → List Utxo} {ins : List Utxo} {outs : List Output} {ch : Option Nat} {r r' : Result} {st0 st : UStore} {t : Tx} :
      s.algo = .kept st0 → Request N s ins outs → (∀ l, (ord l).Perm l) → Counted net plan minAda c est ins outs (t.magic.map (·.1.length)) →
      largestFirst (linearEstimator c minAda) ord st0 est (Setup.fromFixed ins outs ch) = (.ok (r, est1), st) →
      feeChange (linearEstimator c minAda) est1 (Setup.fromFixed (ins ++ r.chosen) outs ch) = .ok r' →
      MadeOf plan N r' t → (∀ o ∈ outs, ∀ x ∈ t.outputs, PaysAs o x → Short o x) → Pays net N s t (.kept st)
  /-- The thermostat, with a minimum whose half pays for an output (C49), when every available UTxO is worth its cost and no
  asset is met exactly (C71). -/
  | thermostat {plan : MultisigPlan} {minAda : Output → Except SelErr ℚ} {c : Costs} {est est1 : LE} {W : Thermostat.World}
      {ins : List Utxo} {outs : List Output} {ch : Option Nat} {r : Result} {st0 st : UStore} {t : Tx} :
      s.algo = .kept st0 → Request N s ins outs → (∀ l, (W.ord l).Perm l) → (∀ l, (W.keyOrder l).Perm l) → (∀ l, (W.changeOrder l).Perm l) →
      W.cfg.main = mainToken → (∀ q, W.div q 2 = q / 2) → W.cfg.min ≤ W.cfg.max →
      (net.coefficient * 151 : ℚ) < ((W.cfg.min / 2).floor : ℚ) →
      (∀ x ∈ ins.map (·.assets) ++ outs.map (·.assets), ∀ a ∈ x, a.fingerprint ≠ mainToken) →
      (∀ u ∈ availableInputs st0, (net.coefficient * 38 : ℚ) ≤ u.value) →
      (∀ a ∈ requestTokens ins outs, ∀ used rest, (availableInputs st0).Perm (used ++ rest) →
        assetIn a ins + assetIn a used ≠ assetOut a outs) →
      Counted net plan minAda c est ins outs (t.magic.map (·.1.length)) →
      Thermostat.thermostat (linearEstimator c minAda) W st0 est (Setup.fromFixed ins outs ch) = (.ok (r, est1), st) →
      MadeOf plan N r t → (∀ o ∈ outs, ∀ x ∈ t.outputs, PaysAs o x → Short o x) → Pays net N s t (.kept st)
  /-- Random-improve, then the single-output change balancer. No output is listed twice (C42). -/
  | randomChange {plan : MultisigPlan} {minAda : Output → Except SelErr ℚ} {c : Costs} {est est1 est2 : LE} {wraps : Bool}
      {rnd : Nat → Nat} {fmt : Nat → Nat → Token} {ord : List Nat → List Nat} {ins : List Utxo} {outs : List Output} {addr : Nat}
      {r r' : Result} {ri ri' : Random.RI} {t : Tx} :
      s.algo = .random ri → Request N s ins outs → outs.Nodup → (∀ l, (ord l).Perm l) →
      Counted net plan minAda c est ins outs (t.magic.map (·.1.length)) →
      ri.select wraps rnd fmt ord (linearEstimator c minAda) est (Setup.fromFixed ins outs (some addr)) = (.ok (r, est1), ri') →
      singleChange (linearEstimator c minAda) est1 (Setup.fromFixed (ins ++ r.chosen) outs (some addr)) = .ok (r', est2) →
      MadeOf plan N r' t → (∀ o ∈ outs ++ r'.changes, ∀ x ∈ t.outputs, PaysAs o x → Short o x) → Pays net N s t (.random ri')
  /-- Random-improve, then the fee-change balancer. -/
  | randomFee {plan : MultisigPlan} {minAda : Output → Except SelErr ℚ} {c : Costs} {est est1 : LE} {wraps : Bool}
      {rnd : Nat → Nat} {fmt : Nat → Nat → Token} {ord : List Nat → List Nat} {ins : List Utxo} {outs : List Output} {ch : Option Nat}
      {r r' : Result} {ri ri' : Random.RI} {t : Tx} :
      s.algo = .random ri → Request N s ins outs → outs.Nodup → (∀ l, (ord l).Perm l) →
      Counted net plan minAda c est ins outs (t.magic.map (·.1.length)) →
      ri.select wraps rnd fmt ord (linearEstimator c minAda) est (Setup.fromFixed ins outs ch) = (.ok (r, est1), ri') →
      feeChange (linearEstimator c minAda) est1 (Setup.fromFixed (ins ++ r.chosen) outs ch) = .ok r' →
      MadeOf plan N r' t → (∀ o ∈ outs, ∀ x ∈ t.outputs, PaysAs o x → Short o x) → Pays net N s t (.random ri')

/-- A call that takes nothing to the ledger: it fails, or its answer is not used. -/
inductive Idles : Algo → Algo → Prop where
  | refused {l : List Utxo} {e : SelErr} {st0 st : UStore} : setAvailable st0 l = (.error e, st) → Idles (.kept st0) (.kept st)
  | unused {σ : Type} {E : Estimator σ} {ord : List Utxo → List Utxo} {est est' : σ} {io : Setup} {r : Result} {st0 st : UStore} :
      (∀ l, (ord l).Perm l) → (∀ s u f, E.feeIn s u = .ok f → 0 ≤ f) → (∀ f, E.minFee est = .ok f → 0 ≤ f) →
      0 ≤ io.outputBalance → largestFirst E ord st0 est io = (.ok (r, est'), st) → Idles (.kept st0) (.kept st)
  | failed {σ : Type} {E : Estimator σ} {ord : List Utxo → List Utxo} {est : σ} {io : Setup} {e : SelErr} {st0 st : UStore} :
      largestFirst E ord st0 est io = (.error e, st) → Idles (.kept st0) (.kept st)
  | thermostatUnused {σ : Type} {E : Estimator σ} {W : Thermostat.World} {est est' : σ} {ins : List Utxo} {outs : List Output}
      {ch : Option Nat} {r : Result} {st0 st : UStore} : (∀ l, (W.ord l).Perm l) → (∀ l, (W.keyOrder l).Perm l) →
      (∀ l, (W.changeOrder l).Perm l) → W.cfg.main = mainToken →
      (∀ x ∈ ins.map (·.assets) ++ outs.map (·.assets), ∀ a ∈ x, a.fingerprint ≠ mainToken) →
      Thermostat.thermostat E W st0 est (Setup.fromFixed ins outs ch) = (.ok (r, est'), st) → Idles (.kept st0) (.kept st)
  | thermostatFailed {σ : Type} {E : Estimator σ} {W : Thermostat.World} {est : σ} {ins : List Utxo} {outs : List Output}
      {ch : Option Nat} {e : SelErr} {st0 st : UStore} : (∀ l, (W.ord l).Perm l) → (∀ l, (W.keyOrder l).Perm l) →
      (∀ l, (W.changeOrder l).Perm l) → W.cfg.main = mainToken →
      (∀ x ∈ ins.map (·.assets) ++ outs.map (·.assets), ∀ a ∈ x, a.fingerprint ≠ mainToken) →
      Thermostat.thermostat E W st0 est (Setup.fromFixed ins outs ch) = (.error e, st) → Idles (.kept st0) (.kept st)
  | randomIdle {σ : Type} {E : Estimator σ} {wraps : Bool} {rnd : Nat → Nat} {fmt : Nat → Nat → Token} {ord : List Nat → List Nat}
      {est : σ} {io : Setup} {x : Except SelErr (Result × σ)} {ri ri' : Random.RI} : (∀ l, (ord l).Perm l) →
      ri.select wraps rnd fmt ord E est io = (x, ri') → Idles (.random ri) (.random ri')

/-- The wallet hands UTxOs over: to an algorithm it has, or to a new one. -/
inductive Hands (l : List Utxo) : Algo → Algo → Prop where
  | kept {st0 st : UStore} : setAvailable st0 l = (.ok (), st) → Hands l (.kept st0) (.kept st)
  | random {ri : Random.RI} : (l.map (·.ptr)).Nodup → Hands l (.random ri) (.random (ri.setAvailable l))
  | newKept {a : Algo} {st : UStore} : setAvailable UStore.new l = (.ok (), st) → Hands l a (.kept st)
  | newRandom {a : Algo} : (l.map (·.ptr)).Nodup → Hands l a (.random (Random.RI.ofList l))

/-- What happens. -/
inductive Happens (net : Network) (N : Naming) : Scene → Scene → Prop where
  /-- The wallet hands unspent outputs over. -/
  | handOver {s : Scene} {l : List Utxo} {a : Algo} : (∀ u ∈ l, SoundUtxo u ∧ s.Unspent N u) → Hands l s.algo a →
      Happens net N s { s with algo := a }
  | pay {s : Scene} {t : Tx} {a : Algo} : Pays net N s t a →
      Happens net N s { s with algo := a, pending := t :: s.pending }
  | idle {s : Scene} {a : Algo} : Idles s.algo a → Happens net N s { s with algo := a }
  /-- A transaction arrives and is accepted. -/
  | arrive {s : Scene} {t : Tx} {rest : List Tx} {ledger : List Utxo} : s.pending.Perm (t :: rest) →
      Accepts net N s.ledger t → After N s.ledger t ledger → Happens net N s { s with ledger := ledger, pending := rest }
  /-- A transaction arrives and is not accepted. -/
  | reject {s : Scene} {t : Tx} {rest : List Tx} : s.pending.Perm (t :: rest) → ¬ Accepts net N s.ledger t →
      Happens net N s { s with pending := rest }
  /-- A transaction expires. -/
  | expire {s : Scene} {t : Tx} {rest : List Tx} : s.pending.Perm (t :: rest) → Happens net N s { s with pending := rest }
  /-- Others change the ledger. They do not spend what the wallet has handed over or is spending. -/
  | others {s : Scene} {ledger : List Utxo} : (ledger.map (·.ptr)).Nodup →
      (∀ u ∈ s.ledger, u ∈ s.algo.available ∨ (∃ t ∈ s.pending, N.input u.ptr ∈ t.inputs) → u ∈ ledger) →
      Happens net N s { s with ledger := ledger }

/-- Everything that can happen, from a ledger and a new algorithm. -/
inductive Reaches (net : Network) (N : Naming) : Scene → Prop where
  | start {ledger : List Utxo} : (ledger.map (·.ptr)).Nodup → Reaches net N ⟨ledger, .kept UStore.new, []⟩
  | step {s s' : Scene} : Reaches net N s → Happens net N s s' → Reaches net N s'

/-! ### Invariant -/

/-- The assets in the outputs of a transaction are those of some outputs of a selection. -/
def OutputsWritten (N : Naming) (t : Tx) : Prop :=
  ∃ os : List Output, List.Forall₂ (fun (o : Output) (x : TxOut) => ∀ p n, TxOut.holds x p n =
    assetSum (N.token p n) o.assets) os t.outputs

/-- The state of an algorithm is in order. -/
def Algo.OK : Algo → Prop
  | .kept st => StoreOK (availableInputs st) st
  | .random ri => ri.indices.Nodup ∧ (ri.inputs.map (·.ptr)).Nodup

theorem Algo.OK.distinct : ∀ {a : Algo}, a.OK → (a.available.map (·.ptr)).Nodup
  | .kept _, h => h.contents.nodup
  | .random ri, h => by
    have h2 := h.2
    have : (Algo.random ri).available.map (·.ptr) = ri.indices.filterMap (fun i => (ri.inputs.map (·.ptr))[i]?) := by
      simp only [Algo.available, List.map_filterMap, List.getElem?_map]
    rw [this]
    refine List.Nodup.filterMap (fun i j p hi hj => ?_) h.1
    obtain ⟨hi1, hi2⟩ := List.getElem?_eq_some_iff.mp hi
    obtain ⟨hj1, hj2⟩ := List.getElem?_eq_some_iff.mp hj
    exact (List.Nodup.getElem_inj_iff h2).mp (hi2.trans hj2.symm)

/-- The positions of random-improve as a list, when they are in range. -/
theorem random_available : ∀ {inputs : List Utxo} {ix : List Nat} {l : List Utxo}, Random.atAll inputs ix = .ok l →
    l = ix.filterMap (fun i => inputs[i]?)
  | _, [], _, h => by cases h; rfl
  | inputs, i :: ix, l, h => by
    simp only [Random.atAll, Random.at'] at h
    cases hi : inputs[i]? with
    | none => simp [hi] at h
    | some u =>
      cases hr : Random.atAll inputs ix with
      | error e => simp [hi, hr] at h
      | ok us =>
        simp only [hi, hr] at h
        cases h
        rw [List.filterMap_cons_some hi, ← random_available hr]

/-- After any selection of random-improve its list is the same, and its positions are some of those before. -/
theorem random_after {σ : Type} {E : Estimator σ} {wraps : Bool} {rnd : Nat → Nat} {fmt : Nat → Nat → Token}
    {ord : List Nat → List Nat} {est : σ} {io : Setup} {x : Except SelErr (Result × σ)} {ri ri' : Random.RI}
    (hn : ri.indices.Nodup) (hord : ∀ l, (ord l).Perm l) (h : ri.select wraps rnd fmt ord E est io = (x, ri')) :
    ri'.inputs = ri.inputs ∧ ri'.indices.Nodup ∧ ∀ i ∈ ri'.indices, i ∈ ri.indices := by
  have sub : ∀ {av : List Nat}, av.Subperm ri.indices → av.Nodup ∧ ∀ i ∈ av, i ∈ ri.indices := by
    intro av h
    obtain ⟨l, h1, h2⟩ := h
    exact ⟨h1.nodup_iff.1 (hn.sublist h2), fun i hi => h2.subset (h1.mem_iff.2 hi)⟩
  by_cases hin : ∀ i ∈ ri.indices, i < ri.inputs.length
  · cases x with
    | error e =>
      rcases random_error ⟨hn, hin⟩ hord h with ⟨_, rfl⟩ | ⟨av, rfl, h', _⟩
      · exact ⟨rfl, hn, fun _ hi => hi⟩
      · exact ⟨rfl, sub h'⟩
    | ok x =>
      obtain ⟨r, est'⟩ := x
      obtain ⟨_, b, av, _, h1, _, _, rfl, _⟩ := random_ok ⟨hn, hin⟩ hord h
      exact ⟨rfl, sub (h1.avail hn).2⟩
  · obtain ⟨e, he⟩ := select_range (wraps := wraps) (rnd := rnd) (fmt := fmt) (ord := ord) (E := E) (est := est) (io := io) hin
    rw [he] at h
    cases h
    exact ⟨rfl, hn, fun _ hi => hi⟩

structure Settled (net : Network) (N : Naming) (s : Scene) : Prop where
  nodup : (s.ledger.map (·.ptr)).Nodup
  algo : s.algo.OK
  sound : ∀ u ∈ s.algo.available, SoundUtxo u
  unspent : ∀ u ∈ s.algo.available, s.Unspent N u
  apart : s.pending.Pairwise (fun t t' => t.inputs.Disjoint t'.inputs)
  accepted : ∀ t ∈ s.pending, Accepts net N s.ledger t
  written : ∀ t ∈ s.pending, OutputsWritten N t

theorem eq_of_ptr {l : List Utxo} (h : (l.map (·.ptr)).Nodup) {u w : Utxo} (hu : u ∈ l) (hw : w ∈ l) (he : u.ptr = w.ptr) :
    u = w := List.inj_on_of_nodup_map h hu hw he

theorem nodup_of_ptr {l : List Utxo} (h : (l.map (·.ptr)).Nodup) : l.Nodup := List.Nodup.of_map _ h

/-- A transaction that names distinct outputs of a ledger spends them. -/
theorem spentBy_perm {N : Naming} {ledger us : List Utxo} {t : Tx} (h : (ledger.map (·.ptr)).Nodup)
    (hu : (us.map (·.ptr)).Nodup) (hm : ∀ u ∈ us, u ∈ ledger) (ht : t.inputs = us.map (fun u => N.input u.ptr)) :
    (spentBy N ledger t).Perm us := by
  unfold spentBy
  rw [List.perm_ext_iff_of_nodup ((nodup_of_ptr h).filter _) (nodup_of_ptr hu)]
  intro u
  simp only [List.mem_filter, ht, List.mem_map, decide_eq_true_eq]
  constructor
  · rintro ⟨h1, w, h2, h3⟩
    rw [← eq_of_ptr h (hm w h2) h1 (N.injective _ _ h3)]
    exact h2
  · exact fun h1 => ⟨hm u h1, u, h1, rfl⟩

/-- If the ledger changes and keeps what a transaction spends, it accepts it as before. -/
theorem accepts_kept {net : Network} {N : Naming} {ledger ledger' : List Utxo} {t : Tx} (h : (ledger.map (·.ptr)).Nodup)
    (h' : (ledger'.map (·.ptr)).Nodup) (hk : ∀ u ∈ ledger, N.input u.ptr ∈ t.inputs → u ∈ ledger')
    (ha : Accepts net N ledger t) : Accepts net N ledger' t := by
  have hp : (spentBy N ledger' t).Perm (spentBy N ledger t) := by
    unfold spentBy
    rw [List.perm_ext_iff_of_nodup ((nodup_of_ptr h').filter _) ((nodup_of_ptr h).filter _)]
    intro u
    simp only [List.mem_filter, decide_eq_true_eq]
    constructor
    · rintro ⟨h1, h2⟩
      obtain ⟨w, h3, h4⟩ := ha.unspent _ h2
      have := eq_of_ptr h' (hk w h3 (h4 ▸ h2)) h1 (N.injective _ _ h4)
      exact ⟨this ▸ h3, h2⟩
    · exact fun ⟨h1, h2⟩ => ⟨hk u h1 h2, h2⟩
  refine ⟨ha.some, ha.distinct, fun i hi => ?_, ha.fee, ?_, fun p n => ?_⟩
  · obtain ⟨w, h3, h4⟩ := ha.unspent i hi
    exact ⟨w, hk w h3 (h4 ▸ hi), h4⟩
  · rw [(hp.map _).sum_eq]; exact ha.coin
  · rw [(hp.map _).sum_eq]; exact ha.assets p n

theorem holds_sum {N : Naming} {os : List Output} {xs : List TxOut} (p n : Bytes)
    (h : List.Forall₂ (fun (o : Output) (x : TxOut) => ∀ p n, TxOut.holds x p n = assetSum (N.token p n) o.assets) os xs) :
    (xs.map (fun x => TxOut.holds x p n)).sum = (os.map (fun o => assetSum (N.token p n) o.assets)).sum := by
  induction h with
  | nil => rfl
  | cons h1 _ ih => simp only [List.map_cons, List.sum_cons, ih, h1 p n]

/-- The estimator counts what an algorithm chooses. -/
theorem counted_chosen {net : Network} {N : Naming} {s : Scene} {plan : MultisigPlan} {minAda : Output → Except SelErr ℚ} {c : Costs}
    {est est1 : LE} {ins chosen order : List Utxo} {outs : List Output} {magic : Option Nat} {mn fee : ℚ} (hr : Request N s ins outs)
    (hc : Counted net plan minAda c est ins outs magic) (hsound : ∀ u ∈ chosen, SoundUtxo u) (ho : order.Perm chosen)
    (hf : runFee (linearEstimator c minAda) est mn order = .ok (fee, est1)) :
    Sensible (ins ++ chosen) outs ∧
    ∃ s0 before after, LE.new net plan.scriptSize plan.quorum = .ok (c, s0) ∧
      (before ++ after).countP (·.isInput) = (ins ++ chosen).length ∧ (before ++ after).countP (·.isOutput) = outs.length ∧
      estimate net (linearEstimator c minAda) s0 before magic after = .ok est1 := by
  obtain ⟨s0, before, after, h0, c1, c2, hest⟩ := hc
  obtain ⟨f1, _⟩ := runFee_linear _ _ _ _ _ hf
  refine ⟨⟨fun u hu => ?_, hr.sensible.outputs⟩, s0, before, after ++ order.map .input, h0, ?_, ?_, estimate_more hest f1⟩
  · rcases List.mem_append.mp hu with hu | hu
    · exact hr.sensible.inputs u hu
    · exact (hsound u hu).2
  · rw [← List.append_assoc, List.countP_append (l₁ := before ++ after), c1, (countP_inputs _).1, List.length_append, ho.length_eq]
  · rw [← List.append_assoc, List.countP_append (l₁ := before ++ after), c2, (countP_inputs _).2, Nat.add_zero]

/-- What a payment gives: the UTxOs chosen leave the algorithm, and the transaction spends them and the fixed inputs. -/
theorem pays_books {net : Network} (hconst : 0 < net.constant) {N : Naming} {s : Scene} (hs : Settled net N s) {t : Tx}
    {a : Algo} (h : Pays net N s t a) :
    ∃ ins chosen, (ins.map (·.ptr)).Nodup ∧ (∀ u ∈ ins, s.Unspent N u) ∧
      (∀ u ∈ ins, u.ptr ∉ s.algo.available.map (·.ptr)) ∧
      t.inputs = (ins ++ chosen).map (fun u => N.input u.ptr) ∧
      s.algo.available.Perm (chosen ++ a.available) ∧ a.OK ∧
      OutputsWritten N t ∧ Accepts net N s.ledger t := by
  have key : ∀ (ins chosen : List Utxo), (ins.map (·.ptr)).Nodup → (∀ u ∈ ins, s.Unspent N u) →
      (∀ u ∈ ins, u.ptr ∉ s.algo.available.map (·.ptr)) →
      s.algo.available.Perm (chosen ++ a.available) →
      t.inputs = (ins ++ chosen).map (fun u => N.input u.ptr) →
      t.linearFee net.coefficient net.constant ≤ t.fee →
      ((ins ++ chosen).map (·.value)).sum = ((t.outputs.map (fun x => x.amount.coin.val)).sum + t.fee : Nat) →
      (∀ p n, ((ins ++ chosen).map (fun u => assetSum (N.token p n) u.assets)).sum =
        (t.outputs.map (fun x => TxOut.holds x p n)).sum) → Accepts net N s.ledger t := by
    intro ins chosen k1 k2 k3 k4 k5 k6 k7 k8
    have hd : ((ins ++ chosen).map (·.ptr)).Nodup := inputs_distinct k4 hs.algo.distinct k1 k3
    have hm : ∀ u ∈ ins ++ chosen, u ∈ s.ledger := by
      intro u hu
      rcases List.mem_append.mp hu with hu | hu
      · exact (k2 u hu).1
      · exact (hs.unspent u (k4.mem_iff.mpr (List.mem_append_left _ hu))).1
    have hp := spentBy_perm hs.nodup hd hm k5
    refine ⟨?_, ?_, ?_, k6, ?_, fun p n => ?_⟩
    · intro he
      rw [k5] at he
      rw [List.map_eq_nil_iff.mp he] at k7
      simp only [List.map_nil, List.sum_nil] at k7
      have h1 : (t.outputs.map (fun x => x.amount.coin.val)).sum + t.fee = 0 := by exact_mod_cast k7.symm
      have h2 : net.constant ≤ t.linearFee net.coefficient net.constant := Nat.le_add_left _ _
      omega
    · rw [k5]
      have : (ins ++ chosen).map (fun u => N.input u.ptr) = ((ins ++ chosen).map (·.ptr)).map N.input := by
        rw [List.map_map]; rfl
      rw [this]
      exact hd.map (fun p q => N.injective p q)
    · intro i hi
      rw [k5] at hi
      obtain ⟨u, hu, rfl⟩ := List.mem_map.mp hi
      exact ⟨u, hm u hu, rfl⟩
    · rw [(hp.map _).sum_eq]; exact k7
    · rw [(hp.map _).sum_eq]; exact k8 p n
  have hsound : ∀ chosen, s.algo.available.Perm (chosen ++ a.available) → ∀ u ∈ chosen, SoundUtxo u :=
    fun chosen hp u hu => hs.sound u (hp.mem_iff.mpr (List.mem_append_left _ hu))
  have hchange : ∀ {plan : MultisigPlan} {minAda : Output → Except SelErr ℚ} {c : Costs} {est est1 est2 : LE}
      {ins chosen order : List Utxo} {outs : List Output} {addr : Nat} {r' : Result} {mn f : ℚ}, Request N s ins outs →
      Counted net plan minAda c est ins outs (t.magic.map (·.1.length)) →
      s.algo.available.Perm (chosen ++ a.available) → a.OK → order.Perm chosen →
      runFee (linearEstimator c minAda) est mn order = .ok (f, est1) →
      singleChange (linearEstimator c minAda) est1 (Setup.fromFixed (ins ++ chosen) outs (some addr)) = .ok (r', est2) →
      MadeOf plan N r' t → (∀ o ∈ outs ++ r'.changes, ∀ x ∈ t.outputs, PaysAs o x → Short o x) →
      ∃ ins chosen, (ins.map (·.ptr)).Nodup ∧ (∀ u ∈ ins, s.Unspent N u) ∧
        (∀ u ∈ ins, u.ptr ∉ s.algo.available.map (·.ptr)) ∧ t.inputs = (ins ++ chosen).map (fun u => N.input u.ptr) ∧
        s.algo.available.Perm (chosen ++ a.available) ∧ a.OK ∧ OutputsWritten N t ∧ Accepts net N s.ledger t := by
    intro plan minAda c est est1 est2 ins chosen order outs addr r' mn f hr hc q3 q5 ho hf h2 hmade hone
    obtain ⟨hs2, s0, before, after, h0, c1, c2, hest⟩ := counted_chosen hr hc (hsound _ q3) ho hf
    obtain ⟨b1, b2, b3, b4⟩ := hs2.tables (some addr)
    obtain ⟨_, _, _, _, e5, _, e7, _⟩ := C46_success_partial _ est1 est2 _ r' b1 b2 b3 b4 (minFee_nonneg h0 hest) h2
    have hfi : r'.fixedInputs = ins ++ chosen := e5
    obtain ⟨a1, a2, a3⟩ := C73_single_change_partial net plan minAda c s0 est1 h0 _ outs hs2 (some addr) t before after
      ⟨c1, c2⟩ hest r' est2 h2 hone hmade.toMadeFrom
    have hn : t.inputs = (ins ++ chosen).map (fun u => N.input u.ptr) := by
      rw [hmade.names, hfi, e7, List.append_nil]
    exact ⟨ins, chosen, hr.distinct, hr.unspent, hr.fixed, hn, q3, q5, ⟨_, hmade.quantities⟩,
      key ins chosen hr.distinct hr.unspent hr.fixed q3 hn a1 a2 (fun p n => by
        rw [holds_sum p n hmade.quantities]; exact a3 _)⟩
  have hfee : ∀ {plan : MultisigPlan} {minAda : Output → Except SelErr ℚ} {c : Costs} {est est1 : LE}
      {ins chosen order : List Utxo} {outs : List Output} {ch : Option Nat} {r' : Result} {mn f : ℚ}, Request N s ins outs →
      Counted net plan minAda c est ins outs (t.magic.map (·.1.length)) →
      s.algo.available.Perm (chosen ++ a.available) → a.OK → order.Perm chosen →
      runFee (linearEstimator c minAda) est mn order = .ok (f, est1) →
      feeChange (linearEstimator c minAda) est1 (Setup.fromFixed (ins ++ chosen) outs ch) = .ok r' →
      MadeOf plan N r' t → (∀ o ∈ outs, ∀ x ∈ t.outputs, PaysAs o x → Short o x) →
      ∃ ins chosen, (ins.map (·.ptr)).Nodup ∧ (∀ u ∈ ins, s.Unspent N u) ∧
        (∀ u ∈ ins, u.ptr ∉ s.algo.available.map (·.ptr)) ∧ t.inputs = (ins ++ chosen).map (fun u => N.input u.ptr) ∧
        s.algo.available.Perm (chosen ++ a.available) ∧ a.OK ∧ OutputsWritten N t ∧ Accepts net N s.ledger t := by
    intro plan minAda c est est1 ins chosen order outs ch r' mn f hr hc q3 q5 ho hf h2 hmade hone
    obtain ⟨hs2, s0, before, after, h0, c1, c2, hest⟩ := counted_chosen hr hc (hsound _ q3) ho hf
    obtain ⟨b1, b2, b3, b4⟩ := hs2.tables ch
    obtain ⟨_, _, _, _, _, _, _, e9, _, e11, _⟩ := C45_success _ est1 _ r' b1 b2 b4 (minFee_nonneg h0 hest) h2
    have hfi : r'.fixedInputs = ins ++ chosen := e9
    obtain ⟨a1, a2, a3⟩ := C73_fee_change_partial net plan minAda c s0 est1 h0 _ outs hs2 ch t before after
      ⟨c1, c2⟩ hest hone r' h2 hmade.toMadeFrom
    have hn : t.inputs = (ins ++ chosen).map (fun u => N.input u.ptr) := by
      rw [hmade.names, hfi, e11, List.append_nil]
    exact ⟨ins, chosen, hr.distinct, hr.unspent, hr.fixed, hn, q3, q5, ⟨_, hmade.quantities⟩,
      key ins chosen hr.distinct hr.unspent hr.fixed q3 hn a1 a2 (fun p n => by
        rw [holds_sum p n hmade.quantities]; exact a3 _)⟩
  have hlf : ∀ {plan : MultisigPlan} {minAda : Output → Except SelErr ℚ} {c : Costs} {est est1 : LE}
      {ord : List Utxo → List Utxo} {ins : List Utxo} {outs : List Output} {ch : Option Nat} {r : Result} {magic : Option Nat}
      {st0 st : UStore}, s.algo = .kept st0 →
      Request N s ins outs → (∀ l, (ord l).Perm l) → Counted net plan minAda c est ins outs magic →
      largestFirst (linearEstimator c minAda) ord st0 est (Setup.fromFixed ins outs ch) = (.ok (r, est1), st) →
      s.algo.available.Perm (r.chosen ++ (Algo.kept st).available) ∧ (Algo.kept st).OK ∧
      ∃ mn, runFee (linearEstimator c minAda) est mn r.chosen = .ok (r.fee, est1) := by
    rintro plan minAda c est est1 ord ins outs ch r magic st0 st hst hr hord ⟨s0, before, after, h0, c1, c2, hest⟩ h1
    have hso := hs.sound
    have hok := hs.algo
    rw [hst] at hok hso ⊢
    obtain ⟨_, k2, k3, _⟩ := LE_new_ok h0
    have hcase : LFCase (linearEstimator c minAda) ord (availableInputs st0) st0 est (Setup.fromFixed ins outs ch) := by
      refine ⟨hord, hok, fun u hu => (hso u hu).2, ?_, minFee_nonneg h0 hest, (hr.sensible.tables ch).2.2.2⟩
      intro s u f hf
      cases hf
      rw [k2]; positivity
    obtain ⟨_, _, q3, _, q5, ⟨mn, _, q6⟩, _⟩ := C39_books hcase h1
    exact ⟨q3, q5, mn, q6⟩
  have hri : ∀ {plan : MultisigPlan} {minAda : Output → Except SelErr ℚ} {c : Costs} {est est1 : LE} {wraps : Bool}
      {rnd : Nat → Nat} {fmt : Nat → Nat → Token} {ord : List Nat → List Nat} {ins : List Utxo} {outs : List Output}
      {ch : Option Nat} {r : Result} {ri ri' : Random.RI}, s.algo = .random ri → outs.Nodup → (∀ l, (ord l).Perm l) →
      ri.select wraps rnd fmt ord (linearEstimator c minAda) est (Setup.fromFixed ins outs ch) = (.ok (r, est1), ri') →
      s.algo.available.Perm (r.chosen ++ (Algo.random ri').available) ∧ (Algo.random ri').OK ∧
      ∃ mn order, order.Perm r.chosen ∧ runFee (linearEstimator c minAda) est mn order = .ok (r.fee, est1) := by
    intro plan minAda c est est1 wraps rnd fmt ord ins outs ch r ri ri' hst hd hord h1
    have hok := hs.algo
    rw [hst] at hok ⊢
    obtain ⟨hn, hp⟩ := hok
    by_cases hin : ∀ i ∈ ri.indices, i < ri.inputs.length
    swap
    · obtain ⟨e, he⟩ := select_range (wraps := wraps) (rnd := rnd) (fmt := fmt) (ord := ord) (E := linearEstimator c minAda)
        (est := est) (io := Setup.fromFixed ins outs ch) hin
      rw [he] at h1
      cases h1
    obtain ⟨before, after, e1, e2, e3, e4, _⟩ := C42_available ⟨hn, hin⟩ hord h1
    obtain ⟨_, _, mn, order, _, e5, e6⟩ := C42_books_partial ⟨hn, hin⟩ hord hd h1
    obtain ⟨_, g2, _⟩ := random_after hn hord h1
    refine ⟨?_, ⟨g2, by rw [e4]; exact hp⟩, mn, order, e5, e6⟩
    have a1 := random_available e1
    have a2 := random_available e2
    simp only [Algo.available]
    rw [← a1, ← a2]
    exact e3
  cases h with
  | @change plan minAda c est est1 est2 ord ins outs addr r r' st0 st _ hst hr hord hc h1 h2 hmade hone =>
    obtain ⟨q3, q5, mn, q6⟩ := hlf hst hr hord hc h1
    exact hchange hr hc q3 q5 (.refl _) q6 h2 hmade hone
  | @fee plan minAda c est est1 ord ins outs ch r r' st0 st _ hst hr hord hc h1 h2 hmade hone =>
    obtain ⟨q3, q5, mn, q6⟩ := hlf hst hr hord hc h1
    exact hfee hr hc q3 q5 (.refl _) q6 h2 hmade hone
  | @randomChange plan minAda c est est1 est2 wraps rnd fmt ord ins outs addr r r' ri ri' _ hst hr hd hord hc h1 h2 hmade hone =>
    obtain ⟨q3, q5, mn, order, q6, q7⟩ := hri (plan := plan) hst hd hord h1
    exact hchange hr hc q3 q5 q6 q7 h2 hmade hone
  | @randomFee plan minAda c est est1 wraps rnd fmt ord ins outs ch r r' ri ri' _ hst hr hd hord hc h1 h2 hmade hone =>
    obtain ⟨q3, q5, mn, order, q6, q7⟩ := hri (plan := plan) hst hd hord h1
    exact hfee hr hc q3 q5 q6 q7 h2 hmade hone
  | @thermostat plan minAda c est est1 W ins outs ch r st0 st _ hst hr k1 k2 k3 k4 k5 k6 k7 k8 k9 k10 hc h1 hmade hone =>
    obtain ⟨s0, before, after, h0, c1, c2, hest⟩ := hc
    have hok := hs.algo
    have hso := hs.sound
    have hkey := key
    rw [hst] at hok hso hkey ⊢
    have hC : THCase W _ st0 ins outs := ⟨k1, k2, k3, hok, k4, noMain_of k8⟩
    obtain ⟨b1, b2, _⟩ := C51_selection hC h1
    have hq : ∀ u ∈ availableInputs st0 ++ ins, ∀ a ∈ u.assets, 0 ≤ a.quantity := by
      intro u hu
      rcases List.mem_append.mp hu with hu | hu
      · exact (hso u hu).2
      · exact hr.sensible.inputs u hu
    obtain ⟨a1, a2⟩ := C71_accepted_partial hC k6 k5 hq net plan minAda c s0 h0 t before after ⟨c1, c2⟩ hest hone k9 k10 h1
      hmade.toMadeFrom
    obtain ⟨_, kk2, kk3, _⟩ := LE_new_ok h0
    have a3 := C49_assets_partial hC k6 k5 (fun s o f hf => by
      cases hf
      rw [kk3]
      exact ⟨by positivity, k7⟩) h1
    obtain ⟨_, _, _, _, _, b6, b7⟩ := C49_main k3 h1
    have hn : t.inputs = (ins ++ r.chosen).map (fun u => N.input u.ptr) := by
      rw [hmade.names, b6]
    refine ⟨ins, r.chosen, hr.distinct, hr.unspent, hst ▸ hr.fixed, hn, b1, b2, ⟨_, hmade.quantities⟩,
      hkey ins r.chosen hr.distinct hr.unspent (hst ▸ hr.fixed) b1 hn a1 a2 (fun p n => ?_)⟩
    rw [holds_sum p n hmade.quantities, b7, List.map_append, List.map_append, List.sum_append, List.sum_append]
    exact a3 _

/-- What an idle call leaves is some of what was available. -/
theorem idles_books {a a' : Algo} (hok : a.OK) (hso : ∀ u ∈ a.available, SoundUtxo u) (h : Idles a a') :
    a'.OK ∧ ∀ u ∈ a'.available, u ∈ a.available := by
  cases h with
  | refused h1 => rw [setAvailable_refused h1]; exact ⟨hok, fun _ h => h⟩
  | unused k1 k2 k3 k4 h1 =>
    obtain ⟨_, _, q3, _, q5, _⟩ := C39_books ⟨k1, hok, fun u hu => (hso u hu).2, k2, k3, k4⟩ h1
    exact ⟨q5, fun u hu => q3.mem_iff.mpr (List.mem_append_right _ hu)⟩
  | failed h1 => rw [C40_failure_keeps h1]; exact ⟨hok, fun _ h => h⟩
  | thermostatUnused k1 k2 k3 k4 k5 h1 =>
    obtain ⟨b1, b2, _⟩ := C51_selection ⟨k1, k2, k3, hok, k4, noMain_of k5⟩ h1
    exact ⟨b2, fun u hu => b1.mem_iff.mpr (List.mem_append_right _ hu)⟩
  | thermostatFailed k1 k2 k3 k4 k5 h1 =>
    obtain ⟨lost, b1, b2, _⟩ := thermostat_failed ⟨k1, k2, k3, hok, k4, noMain_of k5⟩ h1
    exact ⟨b2, fun u hu => b1.mem_iff.mpr (List.mem_append_right _ hu)⟩
  | randomIdle k1 h1 =>
    obtain ⟨b1, b2, b3⟩ := random_after hok.1 k1 h1
    refine ⟨⟨b2, by rw [b1]; exact hok.2⟩, fun u hu => ?_⟩
    simp only [Algo.available, b1, List.mem_filterMap] at hu ⊢
    obtain ⟨i, hi, hu⟩ := hu
    exact ⟨i, b3 i hi, hu⟩

/-- What is handed over is all there is to choose from. -/
theorem hands_books {l : List Utxo} {a a' : Algo} (hok : a.OK) (hso : ∀ u ∈ l, SoundUtxo u) (h : Hands l a a') :
    a'.OK ∧ ∀ u ∈ a'.available, u ∈ l := by
  have hset : ∀ {st0 st : UStore}, setAvailable st0 l = (.ok (), st) → (Algo.kept st).OK ∧ ∀ u ∈ (Algo.kept st).available, u ∈ l := by
    intro st0 st h1
    have hst := setAvailable_ok (fun u hu => (hso u hu).1) h1
    have he := availableInputs_eq hst
    refine ⟨?_, fun u hu => ?_⟩
    · change StoreOK (availableInputs st) st
      rw [he]; exact hst
    · have hu : u ∈ availableInputs st := hu
      rwa [he] at hu
  cases h with
  | kept h1 => exact hset h1
  | newKept h1 => exact hset h1
  | random h1 =>
    refine ⟨⟨hok.1, h1⟩, fun u hu => ?_⟩
    simp only [Algo.available, List.mem_filterMap] at hu
    obtain ⟨i, _, hu⟩ := hu
    exact List.mem_of_getElem? hu
  | newRandom h1 =>
    refine ⟨⟨(IndicesOk.ofList l).1, h1⟩, fun u hu => ?_⟩
    simp only [Algo.available, List.mem_filterMap] at hu
    obtain ⟨i, _, hu⟩ := hu
    exact List.mem_of_getElem? hu

theorem after_nodup {N : Naming} {ledger ledger' : List Utxo} {t : Tx} (h : After N ledger t ledger') :
    (ledger'.map (·.ptr)).Nodup := by
  obtain ⟨made, _, rfl, hn⟩ := h
  refine List.Nodup.sublist ?_ hn
  exact (List.Sublist.append List.filter_sublist (List.Sublist.refl _)).map _

theorem after_mem {N : Naming} {ledger ledger' : List Utxo} {t : Tx} (h : After N ledger t ledger') {u : Utxo}
    (hu : u ∈ ledger) (hn : N.input u.ptr ∉ t.inputs) : u ∈ ledger' := by
  obtain ⟨made, _, rfl, _⟩ := h
  exact List.mem_append_left _ (List.mem_filter.mpr ⟨hu, by simpa using hn⟩)

/-- Pending transactions that a permutation splits. -/
theorem settled_rest {net : Network} {N : Naming} {s : Scene} (hs : Settled net N s) {t : Tx} {rest : List Tx}
    (hp : s.pending.Perm (t :: rest)) : Settled net N { s with pending := rest } := by
  have ha : (t :: rest).Pairwise (fun t t' => t.inputs.Disjoint t'.inputs) :=
    (hp.pairwise_iff (fun h => h.symm)).mp hs.apart
  have hm : ∀ t' ∈ rest, t' ∈ s.pending := fun t' h => hp.mem_iff.mpr (List.mem_cons_of_mem _ h)
  exact ⟨hs.nodup, hs.algo, hs.sound, fun u hu => ⟨(hs.unspent u hu).1, fun t' h => (hs.unspent u hu).2 t' (hm t' h)⟩,
    (List.pairwise_cons.mp ha).2, fun t' h => hs.accepted t' (hm t' h), fun t' h => hs.written t' (hm t' h)⟩

theorem settled_step {net : Network} (hconst : 0 < net.constant) {N : Naming} {s s' : Scene} (hs : Settled net N s)
    (h : Happens net N s s') : Settled net N s' := by
  cases h with
  | @handOver l a hl h1 =>
    obtain ⟨k1, k2⟩ := hands_books hs.algo (fun u hu => (hl u hu).1) h1
    exact ⟨hs.nodup, k1, fun u hu => (hl u (k2 u hu)).1, fun u hu => (hl u (k2 u hu)).2, hs.apart, hs.accepted, hs.written⟩
  | @pay t a h1 =>
    obtain ⟨ins, chosen, k1, k2, k3, k4, k5, k6, k8, k7⟩ := pays_books hconst hs h1
    have hmem : ∀ u ∈ a.available, u ∈ s.algo.available := fun u hu =>
      k5.mem_iff.mpr (List.mem_append_right _ hu)
    have hinp : ∀ i ∈ t.inputs, ∃ u ∈ ins ++ chosen, N.input u.ptr = i := by
      intro i hi
      rw [k4] at hi
      exact List.mem_map.mp hi
    have hnd := hs.algo.distinct
    rw [(k5.map _).nodup_iff, List.map_append, List.nodup_append] at hnd
    refine ⟨hs.nodup, k6, fun u hu => hs.sound u (hmem u hu), fun u hu => ⟨(hs.unspent u (hmem u hu)).1, fun t' ht' => ?_⟩,
      List.pairwise_cons.mpr ⟨fun t' ht' => ?_, hs.apart⟩, fun t' ht' => ?_, fun t' ht' => ?_⟩
    · rcases List.mem_cons.mp ht' with rfl | ht'
      · intro hi
        obtain ⟨w, hw, he⟩ := hinp _ hi
        have he := N.injective _ _ he
        rcases List.mem_append.mp hw with hw | hw
        · exact k3 w hw (he ▸ List.mem_map_of_mem (hmem u hu))
        · exact hnd.2.2 _ (List.mem_map_of_mem hw) _ (List.mem_map_of_mem hu) he
      · exact (hs.unspent u (hmem u hu)).2 t' ht'
    · intro i hi hi'
      obtain ⟨w, hw, rfl⟩ := hinp _ hi
      rcases List.mem_append.mp hw with hw | hw
      · exact (k2 w hw).2 t' ht' hi'
      · exact (hs.unspent w (k5.mem_iff.mpr (List.mem_append_left _ hw))).2 t' ht' hi'
    · rcases List.mem_cons.mp ht' with rfl | ht'
      · exact k7
      · exact hs.accepted t' ht'
    · rcases List.mem_cons.mp ht' with rfl | ht'
      · exact k8
      · exact hs.written t' ht'
  | @idle a h1 =>
    obtain ⟨k1, k2⟩ := idles_books hs.algo hs.sound h1
    exact ⟨hs.nodup, k1, fun u hu => hs.sound u (k2 u hu), fun u hu => hs.unspent u (k2 u hu), hs.apart, hs.accepted, hs.written⟩
  | @arrive t rest ledger hp ha h1 =>
    have hr := settled_rest hs hp
    have hd : ∀ t' ∈ rest, t.inputs.Disjoint t'.inputs :=
      (List.pairwise_cons.mp ((hp.pairwise_iff (fun h => h.symm)).mp hs.apart)).1
    have ht : t ∈ s.pending := hp.mem_iff.mpr (List.mem_cons_self ..)
    refine ⟨after_nodup h1, hr.algo, hr.sound, fun u hu => ⟨after_mem h1 (hr.unspent u hu).1 ((hs.unspent u hu).2 t ht),
      (hr.unspent u hu).2⟩, hr.apart, fun t' ht' => ?_, hr.written⟩
    exact accepts_kept hs.nodup (after_nodup h1) (fun u hu hi => after_mem h1 hu (fun hi' => hd t' ht' hi' hi))
      (hr.accepted t' ht')
  | reject hp _ => exact settled_rest hs hp
  | expire hp => exact settled_rest hs hp
  | @others ledger hn hk =>
    refine ⟨hn, hs.algo, hs.sound, fun u hu => ⟨hk u (hs.unspent u hu).1 (.inl hu), (hs.unspent u hu).2⟩, hs.apart,
      fun t ht => ?_, hs.written⟩
    exact accepts_kept hs.nodup hn (fun u hu hi => hk u hu (.inr ⟨t, ht, hi⟩)) (hs.accepted t ht)

theorem settled_reach {net : Network} (hconst : 0 < net.constant) {N : Naming} {s : Scene} (h : Reaches net N s) :
    Settled net N s := by
  induction h with
  | start hn =>
    have he : availableInputs UStore.new = [] := availableInputs_eq StoreOK.new
    exact ⟨hn, by change StoreOK (availableInputs UStore.new) _; rw [he]; exact StoreOK.new, by simp only [Algo.available, he]; simp,
      by simp only [Algo.available, he]; simp, List.Pairwise.nil, by simp, by simp⟩
  | step _ h1 ih => exact settled_step hconst ih h1

/-! ## C87 -/

/-- Whatever has happened, the ledger accepts every transaction that is on its way: its inputs are unspent, it pays the fee for
its bytes, and it spends exactly what it takes in. -/
theorem C87_accepted (net : Network) (hconst : 0 < net.constant) (N : Naming) (s : Scene) (h : Reaches net N s) :
    ∀ t ∈ s.pending, Accepts net N s.ledger t := (settled_reach hconst h).accepted

/-- Two transactions on their way never spend the same output, nor one the algorithm still has; and everything the algorithm has is
unspent on the ledger. -/
theorem C87_apart (net : Network) (hconst : 0 < net.constant) (N : Naming) (s : Scene) (h : Reaches net N s) :
    s.pending.Pairwise (fun t t' => t.inputs.Disjoint t'.inputs) ∧
    ∀ u ∈ s.algo.available, u ∈ s.ledger ∧ ∀ t ∈ s.pending, N.input u.ptr ∉ t.inputs :=
  ⟨(settled_reach hconst h).apart, (settled_reach hconst h).unspent⟩

/-- Transactions that arrive one after the other and are accepted. -/
inductive Arrivals (net : Network) (N : Naming) : List Utxo → List Tx → List Utxo → Prop where
  | done {ledger : List Utxo} : Arrivals net N ledger [] ledger
  | next {ledger ledger1 ledger2 : List Utxo} {t : Tx} {ts : List Tx} : Accepts net N ledger t → After N ledger t ledger1 →
      Arrivals net N ledger1 ts ledger2 → Arrivals net N ledger (t :: ts) ledger2

/-- The value on a ledger, and the quantity of an asset. -/
def worth (ledger : List Utxo) : ℚ := (ledger.map (·.value)).sum
def amount (a : Token) (ledger : List Utxo) : ℚ := (ledger.map (fun u => assetSum a u.assets)).sum

theorem sum_split (f : Utxo → ℚ) (q : Utxo → Bool) (l : List Utxo) :
    (l.map f).sum = ((l.filter q).map f).sum + ((l.filter (fun u => !q u)).map f).sum := by
  induction l with
  | nil => simp
  | cons u l ih =>
    cases hq : q u <;> simp [hq, ih] <;> ring

/-- A transaction that is accepted takes its fee from the ledger, and nothing of any asset. -/
theorem accepted_conserves {net : Network} {N : Naming} {ledger ledger' : List Utxo} {t : Tx} (ha : Accepts net N ledger t)
    (h : After N ledger t ledger') : worth ledger = worth ledger' + t.fee ∧
      ∀ p n, amount (N.token p n) ledger = amount (N.token p n) ledger' := by
  obtain ⟨made, h1, rfl, hn⟩ := h
  clear hn
  have e1 : (made.map (·.value)).sum = ((t.outputs.map (fun x => x.amount.coin.val)).sum : ℕ) := by
    clear ha
    generalize t.outputs = xs at h1
    induction h1 with
    | nil => simp
    | cons h1 _ ih => simp only [List.map_cons, List.sum_cons, ih, h1.1]; push_cast; rfl
  have e2 : ∀ p n, (made.map (fun u => assetSum (N.token p n) u.assets)).sum =
      (t.outputs.map (fun x => TxOut.holds x p n)).sum := by
    intro p n
    clear ha e1
    generalize t.outputs = xs at h1
    induction h1 with
    | nil => simp
    | cons h1 _ ih => simp only [List.map_cons, List.sum_cons, ih, h1.2 p n]
  have ef : (fun u : Utxo => decide (N.input u.ptr ∉ t.inputs)) = (fun u => !decide (N.input u.ptr ∈ t.inputs)) := by
    funext u; simp
  refine ⟨?_, fun p n => ?_⟩
  · have := ha.coin
    unfold worth
    rw [List.map_append, List.sum_append, e1, ef, sum_split _ (fun u => decide (N.input u.ptr ∈ t.inputs)) ledger]
    unfold spentBy at this
    rw [this]
    push_cast
    ring
  · have := ha.assets p n
    unfold amount
    rw [List.map_append, List.sum_append, e2, ef, sum_split _ (fun u => decide (N.input u.ptr ∈ t.inputs)) ledger]
    unfold spentBy at this
    rw [this]
    ring

theorem made_from (N : Naming) : ∀ (os : List Output) (xs : List TxOut) (k : Nat),
    List.Forall₂ (fun (o : Output) (x : TxOut) => ∀ p n, TxOut.holds x p n = assetSum (N.token p n) o.assets) os xs →
    ∃ made : List Utxo, List.Forall₂ (fun (u : Utxo) (x : TxOut) => u.value = x.amount.coin.val ∧
      ∀ p n, assetSum (N.token p n) u.assets = TxOut.holds x p n) made xs ∧
      (made.map (·.ptr)).Nodup ∧ ∀ u ∈ made, k ≤ u.ptr
  | _, _, _, .nil => ⟨[], .nil, by simp, by simp⟩
  | o :: os, x :: xs, k, .cons h h' => by
    obtain ⟨made, h1, h2, h3⟩ := made_from N os xs (k + 1) h'
    refine ⟨⟨k, x.amount.coin.val, o.assets, 0⟩ :: made, .cons ⟨rfl, fun p n => (h p n).symm⟩ h1, ?_, ?_⟩
    · rw [List.map_cons, List.nodup_cons]
      refine ⟨fun hm => ?_, h2⟩
      obtain ⟨u, hu, he⟩ := List.mem_map.mp hm
      have he : @Eq Nat u.ptr k := he
      have := h3 u hu
      omega
    · intro u hu
      rcases List.mem_cons.mp hu with rfl | hu
      · exact le_refl _
      · exact (Nat.le_succ k).trans (h3 u hu)

/-- A ledger has new pointers for the outputs of a transaction. -/
theorem after_exists {N : Naming} {ledger : List Utxo} {t : Tx} (hn : (ledger.map (·.ptr)).Nodup) (hw : OutputsWritten N t) :
    ∃ ledger', After N ledger t ledger' := by
  obtain ⟨os, ho⟩ := hw
  obtain ⟨made, h1, h2, h3⟩ := made_from N os t.outputs ((ledger.map (·.ptr)).sum + 1) ho
  refine ⟨_, made, h1, rfl, ?_⟩
  rw [List.map_append, List.nodup_append]
  refine ⟨hn, h2, ?_⟩
  intro a ha b hb he
  obtain ⟨u, hu, rfl⟩ := List.mem_map.mp hb
  have he : @Eq Nat a u.ptr := he
  have := h3 u hu
  have : @LE.le Nat _ a (ledger.map (·.ptr)).sum := List.single_le_sum (by simp) a ha
  omega

theorem arrivals_of_settled {net : Network} (hconst : 0 < net.constant) {N : Naming} :
    ∀ (ts : List Tx) (s : Scene), Settled net N s → s.pending.Perm ts → ∃ ledger', Arrivals net N s.ledger ts ledger'
  | [], s, _, _ => ⟨s.ledger, .done⟩
  | t :: ts, s, hs, hp => by
    have ht := hp.mem_iff.mpr (List.mem_cons_self ..)
    have ha := hs.accepted t ht
    obtain ⟨l1, h1⟩ := after_exists hs.nodup (hs.written t ht)
    have hs1 := settled_step hconst hs (.arrive hp ha h1)
    obtain ⟨l2, h2⟩ := arrivals_of_settled hconst ts _ hs1 (.refl _)
    exact ⟨l2, .next ha h1 h2⟩

/-- In whatever order the transactions on their way arrive, all of them are accepted; together they take their fees from the ledger
and nothing of any asset. -/
theorem C87_any_order (net : Network) (hconst : 0 < net.constant) (N : Naming)
    (s : Scene) (h : Reaches net N s) (ts : List Tx) (hp : s.pending.Perm ts) :
    ∃ ledger', Arrivals net N s.ledger ts ledger' ∧ worth s.ledger = worth ledger' + (ts.map (·.fee)).sum ∧
      ∀ p n, amount (N.token p n) s.ledger = amount (N.token p n) ledger' := by
  obtain ⟨l, hl⟩ := arrivals_of_settled hconst ts s (settled_reach hconst h) hp
  refine ⟨l, hl, ?_⟩
  clear hp
  generalize s.ledger = l0 at hl
  clear h
  induction hl with
  | done => simp
  | next ha h1 _ ih =>
    obtain ⟨e1, e2⟩ := accepted_conserves ha h1
    refine ⟨?_, fun p n => (e2 p n).trans (ih.2 p n)⟩
    rw [e1, ih.1, List.map_cons, List.sum_cons]
    push_cast
    ring

/-- Largest-first: a payment that can be afforded with what the algorithm has, is answered at every moment. -/
theorem C87_affordable (net : Network) (hconst : 0 < net.constant) (N : Naming) (s : Scene) (h : Reaches net N s)
    (plan : MultisigPlan) (minAda : Output → Except SelErr ℚ) (c : Costs) (est : LE) (ord : List Utxo → List Utxo)
    (hord : ∀ l, (ord l).Perm l) (st0 : UStore) (hst : s.algo = .kept st0) (ins : List Utxo) (outs : List Output) (hr : Request N s ins outs) (magic : Option Nat)
    (hc : Counted net plan minAda c est ins outs magic) (addr : Nat) {m0 : ℚ} (hm0 : (linearEstimator c minAda).minFee est = .ok m0)
    (hassets : ∀ a, (outs.map (fun o => assetSum a o.assets)).sum ≤
      ((ins ++ availableInputs st0).map (fun u => assetSum a u.assets)).sum)
    (hada : (outs.map (·.value)).sum + m0 + net.coefficient * 38 * (availableInputs st0).length ≤
      ((ins ++ availableInputs st0).map (·.value)).sum) :
    ∃ r est1 st r' est2,
      largestFirst (linearEstimator c minAda) ord st0 est (Setup.fromFixed ins outs (some addr)) = (.ok (r, est1), st) ∧
      singleChange (linearEstimator c minAda) est1 (Setup.fromFixed (ins ++ r.chosen) outs (some addr)) = .ok (r', est2) := by
  have hs := settled_reach hconst h
  have hok := hs.algo
  have hso := hs.sound
  rw [hst] at hok hso
  obtain ⟨s0, before, after, h0, _, _, hest⟩ := hc
  have hsens : Sensible (ins ++ availableInputs st0) outs := by
    refine ⟨fun u hu => ?_, hr.sensible.outputs⟩
    rcases List.mem_append.mp hu with hu | hu
    · exact hr.sensible.inputs u hu
    · exact (hso u hu).2
  obtain ⟨r, e1, st, r', e2, _, h1, h2, _⟩ := C74_affordable net plan minAda c s0 est hord hok ins outs hsens addr h0 before
    after magic hest hm0 hassets hada
  exact ⟨r, e1, st, r', e2, h1, h2⟩

/-! ### A case -/

def oneNames : Naming := ⟨fun p => (List.replicate 32 7, p), fun _ _ => 7, fun _ _ h => (Prod.mk.inj h).2⟩

/-- The transaction that spends one output, pays one ada and has a change. -/
def oneSpend (k : Nat) (v : U64) (fee : Nat) : Tx :=
  { oneTx 1 [plainOut ⟨1000000, by decide⟩, plainOut v] fee with inputs := [(List.replicate 32 7, k)] }

/-- What can be seen of the payment of one ada from a store. -/
def payView (st : UStore) : Option (List Pointer × Nat × List Output × List Output × ℚ) :=
  match (largestFirst oneE id st payEst (Setup.fromFixed [] payOuts (some 8))).1 with
  | .error _ => none
  | .ok (r, est1) => match singleChange oneE est1 (Setup.fromFixed ([] ++ r.chosen) payOuts (some 8)) with
    | .error _ => none
    | .ok (r', _) => some (r'.fixedInputs.map (·.ptr), r'.chosen.length, r'.fixedOutputs, r'.changes, r'.fee)

theorem spend_made {k fee : Nat} {v : U64} (hk : k < 2 ^ 16) {r' : Result} (e1 : r'.fixedInputs.map (·.ptr) = [k])
    (e2 : r'.chosen = []) (e3 : r'.fixedOutputs = payOuts) (e4 : r'.changes = [⟨8, (v.val : ℚ), []⟩]) (e5 : r'.fee = (fee : ℚ)) :
    MadeOf onePlan oneNames r' (oneSpend k v fee) ∧
    ∀ o ∈ payOuts ++ r'.changes, ∀ x ∈ (oneSpend k v fee).outputs, PaysAs o x → Short o x := by
  have hlen : r'.fixedInputs.length = 1 := by simpa using congrArg List.length e1
  refine ⟨?_, ?_⟩
  · have hm : MadeFrom onePlan r' (oneTx 1 [plainOut ⟨1000000, by decide⟩, plainOut v] fee) := by
      refine oneTx_made (by rw [hlen, e2]; rfl) ?_ e5
      rw [e3, e4]
      exact .cons (plainOut_pays (by norm_num) rfl) (.cons (plainOut_pays rfl rfl) .nil)
    refine ⟨⟨by rw [hlen, e2]; rfl, ?_, hm.outputs, hm.fee, hm.witnesses, hm.scripts, hm.magic⟩, ?_, ?_⟩
    · intro i hi
      simp only [oneSpend, List.mem_singleton] at hi
      subst hi
      exact ⟨by simp, hk⟩
    · rw [e2, List.append_nil]
      have : r'.fixedInputs.map (fun u => oneNames.input u.ptr) = (r'.fixedInputs.map (·.ptr)).map oneNames.input := by
        rw [List.map_map]; rfl
      rw [this, e1]
      rfl
    · rw [e3, e4]
      refine .cons (fun p n => ?_) (.cons (fun p n => ?_) .nil)
      · simp [TxOut.holds, plainOut, LedgerValue.quantity, assetSum]
      · simp [TxOut.holds, plainOut, LedgerValue.quantity, assetSum]
  · intro o ho x _ _
    left
    rw [e4] at ho
    simp only [payOuts, List.cons_append, List.nil_append, List.mem_cons, List.not_mem_nil, or_false] at ho
    rcases ho with rfl | rfl <;> simp

theorem spend_pays {s : Scene} {st0 : UStore} (hst : s.algo = .kept st0) {k fee : Nat} {v : U64} (hk : k < 2 ^ 16)
    (hv : payView st0 = some ([k], 0, payOuts, [⟨8, (v.val : ℚ), []⟩], (fee : ℚ))) :
    Pays Network.public oneNames s (oneSpend k v fee)
      (.kept (largestFirst oneE id st0 payEst (Setup.fromFixed [] payOuts (some 8))).2) := by
  unfold payView at hv
  cases h1 : (largestFirst oneE id st0 payEst (Setup.fromFixed [] payOuts (some 8))).1 with
  | error e => rw [h1] at hv; cases hv
  | ok x =>
    obtain ⟨r, est1⟩ := x
    rw [h1] at hv
    simp only at hv
    cases h2 : singleChange oneE est1 (Setup.fromFixed ([] ++ r.chosen) payOuts (some 8)) with
    | error e => rw [h2] at hv; cases hv
    | ok y =>
      obtain ⟨r', est2⟩ := y
      rw [h2] at hv
      simp only [Option.some.injEq, Prod.mk.injEq, List.length_eq_zero_iff] at hv
      obtain ⟨e1, e2, e3, e4, e5⟩ := hv
      obtain ⟨hm, hone⟩ := spend_made hk e1 e2 e3 e4 e5
      exact .change (plan := onePlan) (est1 := est1) (est2 := est2) (addr := 8) (r := r) (r' := r')
        hst ⟨by simp, by simp, by simp, ⟨by simp, (pay_sensible 0 0).outputs⟩⟩ (fun l => .refl l)
        ⟨_, [.output ⟨9, 1000000, []⟩], [], onePlan_new, rfl, rfl, payEst_ok⟩ (Prod.ext h1 rfl) h2 hm hone

/-- The same payment with random-improve; every random number is 1. -/
def payRandom (ri : Random.RI) : Except SelErr (Result × LE) × Random.RI :=
  ri.select false (fun _ => 1) (fun p n => p + n) id oneE payEst (Setup.fromFixed [] payOuts (some 8))

def payRandomView (ri : Random.RI) : Option (List Pointer × Nat × List Output × List Output × ℚ) :=
  match (payRandom ri).1 with
  | .error _ => none
  | .ok (r, est1) => match singleChange oneE est1 (Setup.fromFixed ([] ++ r.chosen) payOuts (some 8)) with
    | .error _ => none
    | .ok (r', _) => some (r'.fixedInputs.map (·.ptr), r'.chosen.length, r'.fixedOutputs, r'.changes, r'.fee)

theorem spend_pays_random {s : Scene} {ri : Random.RI} (hst : s.algo = .random ri) {k fee : Nat} {v : U64} (hk : k < 2 ^ 16)
    (hv : payRandomView ri = some ([k], 0, payOuts, [⟨8, (v.val : ℚ), []⟩], (fee : ℚ))) :
    Pays Network.public oneNames s (oneSpend k v fee) (.random (payRandom ri).2) := by
  unfold payRandomView at hv
  cases h1 : (payRandom ri).1 with
  | error e => rw [h1] at hv; cases hv
  | ok x =>
    obtain ⟨r, est1⟩ := x
    rw [h1] at hv
    simp only at hv
    cases h2 : singleChange oneE est1 (Setup.fromFixed ([] ++ r.chosen) payOuts (some 8)) with
    | error e => rw [h2] at hv; cases hv
    | ok y =>
      obtain ⟨r', est2⟩ := y
      rw [h2] at hv
      simp only [Option.some.injEq, Prod.mk.injEq, List.length_eq_zero_iff] at hv
      obtain ⟨e1, e2, e3, e4, e5⟩ := hv
      obtain ⟨hm, hone⟩ := spend_made hk e1 e2 e3 e4 e5
      have hsel : payRandom ri = (.ok (r, est1), (payRandom ri).2) := Prod.ext h1 rfl
      exact .randomChange (plan := onePlan) (est1 := est1) (est2 := est2) (addr := 8) (r := r) (r' := r')
        hst ⟨by simp, by simp, by simp, ⟨by simp, (pay_sensible 0 0).outputs⟩⟩ (by simp [payOuts]) (fun l => .refl l)
        ⟨_, [.output ⟨9, 1000000, []⟩], [], onePlan_new, rfl, rfl, payEst_ok⟩ hsel h2 hm hone

/-- The hypotheses are met: two outputs of five ada are handed over and two payments are made; both transactions are on their way. -/
theorem settlement_example : ∃ s, Reaches Network.public oneNames s ∧ s.pending.map (·.inputs) =
    [[(List.replicate 32 7, 2)], [(List.replicate 32 7, 1)]] := by
  have h0 : Reaches Network.public oneNames ⟨payAvail 5000000 5000000, .kept UStore.new, []⟩ := .start (by simp [payAvail])
  have h1 : Reaches Network.public oneNames ⟨payAvail 5000000 5000000, .kept (payStore 5000000 5000000), []⟩ := by
    refine .step h0 (.handOver (l := payAvail 5000000 5000000) ?_ ?_)
    · intro u hu
      refine ⟨?_, hu, by simp⟩
      simp only [payAvail, List.mem_cons, List.not_mem_nil, or_false] at hu
      rcases hu with rfl | rfl <;> exact ⟨by simp [DistinctAssets], by simp⟩
    · have : (setAvailable UStore.new (payAvail 5000000 5000000)).1 = .ok () := by decide +kernel
      exact .kept (Prod.ext this rfl)
  have v1 : payView (payStore 5000000 5000000) = some ([1], 0, payOuts, [⟨8, ((3820243 : ℕ) : ℚ), []⟩], ((179757 : ℕ) : ℚ)) := by
    decide +kernel
  have h2 := Reaches.step h1 (.pay (spend_pays (st0 := payStore 5000000 5000000) (s := ⟨payAvail 5000000 5000000, .kept (payStore 5000000 5000000), []⟩) rfl (k := 1)
    (v := ⟨3820243, by decide⟩) (by norm_num) v1))
  have v2 : payView (largestFirst oneE id (payStore 5000000 5000000) payEst (Setup.fromFixed [] payOuts (some 8))).2 =
      some ([2], 0, payOuts, [⟨8, ((3820243 : ℕ) : ℚ), []⟩], ((179757 : ℕ) : ℚ)) := by decide +kernel
  exact ⟨_, .step h2 (.pay (spend_pays rfl (k := 2) (v := ⟨3820243, by decide⟩) (by norm_num) v2)), rfl⟩

/-- The same with random-improve, which is made anew from the two outputs. -/
example : ∃ s, Reaches Network.public oneNames s ∧ s.pending.map (·.inputs) =
    [[(List.replicate 32 7, 1)], [(List.replicate 32 7, 2)]] := by
  have h0 : Reaches Network.public oneNames ⟨payAvail 5000000 5000000, .kept UStore.new, []⟩ := .start (by simp [payAvail])
  have h1 : Reaches Network.public oneNames ⟨payAvail 5000000 5000000, .random (Random.RI.ofList (payAvail 5000000 5000000)), []⟩ := by
    refine .step h0 (.handOver (l := payAvail 5000000 5000000) ?_ (.newRandom (by simp [payAvail])))
    intro u hu
    refine ⟨?_, hu, by simp⟩
    simp only [payAvail, List.mem_cons, List.not_mem_nil, or_false] at hu
    rcases hu with rfl | rfl <;> exact ⟨by simp [DistinctAssets], by simp⟩
  have v1 : payRandomView (Random.RI.ofList (payAvail 5000000 5000000)) =
      some ([2], 0, payOuts, [⟨8, ((3820243 : ℕ) : ℚ), []⟩], ((179757 : ℕ) : ℚ)) := by decide +kernel
  have h2 := Reaches.step h1 (.pay (spend_pays_random (ri := Random.RI.ofList (payAvail 5000000 5000000))
    (s := ⟨payAvail 5000000 5000000, .random (Random.RI.ofList (payAvail 5000000 5000000)), []⟩) rfl (k := 2)
    (v := ⟨3820243, by decide⟩) (by norm_num) v1))
  have v2 : payRandomView (payRandom (Random.RI.ofList (payAvail 5000000 5000000))).2 =
      some ([1], 0, payOuts, [⟨8, ((3820243 : ℕ) : ℚ), []⟩], ((179757 : ℕ) : ℚ)) := by decide +kernel
  exact ⟨_, .step h2 (.pay (spend_pays_random rfl (k := 1) (v := ⟨3820243, by decide⟩) (by norm_num) v2)), rfl⟩

/-- What is submitted must not be handed over again, although it is still unspent on the ledger: the algorithm would choose it again,
and the ledger refuses the second transaction when the first has arrived. -/
theorem C87_again_false : ∃ (s : Scene) (t t' : Tx) (st0 st : UStore) (a : Algo), Reaches Network.public oneNames s ∧ t ∈ s.pending ∧
    s.algo = .kept st0 ∧ setAvailable st0 s.ledger = (.ok (), st) ∧ Pays Network.public oneNames { s with algo := .kept st } t' a ∧
    ∀ ledger', After oneNames s.ledger t ledger' → ¬ Accepts Network.public oneNames ledger' t' := by
  have h0 : Reaches Network.public oneNames ⟨payAvail 5000000 5000000, .kept UStore.new, []⟩ := .start (by simp [payAvail])
  have h1 : Reaches Network.public oneNames ⟨payAvail 5000000 5000000, .kept (payStore 5000000 5000000), []⟩ := by
    refine .step h0 (.handOver (l := payAvail 5000000 5000000) ?_ ?_)
    · intro u hu
      refine ⟨?_, hu, by simp⟩
      simp only [payAvail, List.mem_cons, List.not_mem_nil, or_false] at hu
      rcases hu with rfl | rfl <;> exact ⟨by simp [DistinctAssets], by simp⟩
    · have : (setAvailable UStore.new (payAvail 5000000 5000000)).1 = .ok () := by decide +kernel
      exact .kept (Prod.ext this rfl)
  have v1 : payView (payStore 5000000 5000000) = some ([1], 0, payOuts, [⟨8, ((3820243 : ℕ) : ℚ), []⟩], ((179757 : ℕ) : ℚ)) := by
    decide +kernel
  have h2 := Reaches.step h1 (.pay (spend_pays (st0 := payStore 5000000 5000000) (s := ⟨payAvail 5000000 5000000, .kept (payStore 5000000 5000000), []⟩) rfl (k := 1)
    (v := ⟨3820243, by decide⟩) (by norm_num) v1))
  have hset : (setAvailable (largestFirst oneE id (payStore 5000000 5000000) payEst (Setup.fromFixed [] payOuts (some 8))).2
      (payAvail 5000000 5000000)).1 = .ok () := by decide +kernel
  have v2 : payView (setAvailable (largestFirst oneE id (payStore 5000000 5000000) payEst (Setup.fromFixed [] payOuts (some 8))).2
      (payAvail 5000000 5000000)).2 = some ([1], 0, payOuts, [⟨8, ((3820243 : ℕ) : ℚ), []⟩], ((179757 : ℕ) : ℚ)) := by
    decide +kernel
  refine ⟨_, _, oneSpend 1 ⟨3820243, by decide⟩ 179757, _, _, _, h2, List.mem_cons_self .., rfl, Prod.ext hset rfl,
    spend_pays rfl (k := 1) (by norm_num) v2, ?_⟩
  rintro ledger' ⟨made, _, rfl, hn⟩ ha
  obtain ⟨u, hu, he⟩ := ha.unspent (List.replicate 32 7, 1) (List.mem_singleton.mpr rfl)
  have he : u.ptr = 1 := (Prod.mk.inj he).2
  rcases List.mem_append.mp hu with hu | hu
  · have := (List.mem_filter.mp hu).2
    simp [oneNames, oneSpend, he] at this
  · rw [List.map_append, List.nodup_append] at hn
    exact hn.2.2 1 (by simp [payAvail]) u.ptr (List.mem_map_of_mem hu) he.symm

end Verif.Props
