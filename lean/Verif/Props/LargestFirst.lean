import Verif.Selection.LargestFirstLemmas
import Verif.Props.Balancers

/-!
# Largest-first selection (C38–C41)

The available inputs are a list `avail` with distinct pointers, each input naming an asset
once, non-negative asset amounts; the estimator never charges a negative fee. `ord` is
the order in which hash maps list UTxOs of equal amount, any permutation. `runFee E est f us` is the fee
after adding the inputs `us` one by one to the estimator state `est` starting from fee `f`.
-/

namespace Verif.Props

open Verif Verif.Core Verif.Selection

/-- The situation the theorems are about. -/
structure LFCase {σ : Type} (E : Estimator σ) (ord : List Utxo → List Utxo) (avail : List Utxo)
    (st : UStore) (est : σ) (io : Setup) : Prop where
  ord : ∀ l, (ord l).Perm l
  store : StoreOK avail st
  quantities : ∀ u ∈ avail, ∀ a ∈ u.assets, 0 ≤ a.quantity
  fees : ∀ s u f, E.feeIn s u = .ok f → 0 ≤ f
  minFee : ∀ f, E.minFee est = .ok f → 0 ≤ f
  out : 0 ≤ io.outputBalance

theorem setAvailable_go {inputs L : List Utxo} {st0 st : UStore} (h : StoreOK L st0)
    (hd : ∀ u ∈ inputs, DistinctAssets u) (hr : setAvailable.go inputs st0 = .ok st) :
    StoreOK (L ++ inputs) st := by
  induction inputs generalizing L st0 with
  | nil => simp only [setAvailable.go] at hr; cases hr; simpa using h
  | cons u us ih =>
    simp only [setAvailable.go] at hr
    cases hi : st0.insert u with
    | error e => simp [hi] at hr
    | ok st1 =>
      simp only [hi] at hr
      have := ih (h.insert (hd u (by simp)) hi) (fun w hw => hd w (by simp [hw])) hr
      simpa using this

theorem setAvailable_go_ok {inputs L : List Utxo} {st0 : UStore} (h : Contents L st0)
    (hn : ((L ++ inputs).map (·.ptr)).Nodup) : ∃ st, setAvailable.go inputs st0 = .ok st := by
  induction inputs generalizing L st0 with
  | nil => exact ⟨st0, rfl⟩
  | cons u us ih =>
    simp only [setAvailable.go]
    have hc := h.insert u
    have hnot : u.ptr ∉ L.map (·.ptr) := by
      rw [List.map_append, List.nodup_append] at hn
      intro hm
      exact hn.2.2 _ hm _ (by simp) rfl
    rw [if_neg hnot] at hc
    obtain ⟨st1, h1, h2⟩ := hc
    simp only [h1]
    exact ih h2 (by simpa using hn)

theorem availableInputs_eq {L : List Utxo} {st : UStore} (h : StoreOK L st) :
    availableInputs st = L := by
  unfold availableInputs UStore.iter
  rw [h.contents.set_eq]; simp [ptrMap, Function.comp_def]

/-- Handing over available inputs with distinct pointers succeeds, and exactly those are
available afterwards, whatever was available before. -/
theorem C39_set_available (old : UStore) (inputs : List Utxo) (hd : ∀ u ∈ inputs, DistinctAssets u)
    (hn : (inputs.map (·.ptr)).Nodup) :
    ∃ st, setAvailable old inputs = (.ok (), st) ∧ StoreOK inputs st ∧ availableInputs st = inputs := by
  obtain ⟨st, hst⟩ := setAvailable_go_ok Contents.new (inputs := inputs) (by simpa using hn)
  have h := setAvailable_go StoreOK.new hd hst
  rw [List.nil_append] at h
  exact ⟨st, by simp [setAvailable, hst], h, availableInputs_eq h⟩

theorem setAvailable_go_refused {inputs L : List Utxo} {st0 : UStore} (h : Contents L st0)
    (hL : (L.map (·.ptr)).Nodup) (hn : ¬ ((L ++ inputs).map (·.ptr)).Nodup) :
    setAvailable.go inputs st0 = .error .store := by
  induction inputs generalizing L st0 with
  | nil => rw [List.append_nil] at hn; exact absurd hL hn
  | cons u us ih =>
    have hi := h.insert u
    simp only [setAvailable.go]
    split at hi
    · rw [hi]
    · rename_i hu
      obtain ⟨st', h1, h2⟩ := hi
      simp only [h1]
      refine ih h2 ?_ (by simpa using hn)
      rw [List.map_append, List.nodup_append]
      refine ⟨hL, by simp, ?_⟩
      intro a ha b hb e
      simp only [List.map_cons, List.map_nil, List.mem_singleton] at hb
      exact hu (hb ▸ e ▸ ha)

/-- Handing over two inputs with the same pointer is refused, and what was available before stays available. -/
theorem C39_refused (old : UStore) (inputs : List Utxo) (hn : ¬ (inputs.map (·.ptr)).Nodup) :
    setAvailable old inputs = (.error .store, old) := by
  have h := setAvailable_go_refused Contents.new (inputs := inputs) (by simp) (by simpa using hn)
  simp [setAvailable, h]

/-- The starting point of a selection. -/
def startOf {σ : Type} (avail : List Utxo) (est : σ) (io : Setup) (fee : ℚ) : Start σ :=
  { available := avail, est := est, assets := io.inputAssets, input := io.inputBalance, fee := fee,
    outs := io.outputAssets, out := io.outputBalance }

theorem largestFirst_spec {σ : Type} {E : Estimator σ} {ord : List Utxo → List Utxo}
    {avail : List Utxo} {st : UStore} {est : σ} {io : Setup} (h : LFCase E ord avail st est io)
    {fee : ℚ} (hf : E.minFee est = .ok fee) :
    (∃ s L, Inv E (startOf avail est io fee) L s ∧
      io.outputBalance + s.fee ≤ s.input ∧
      (∀ t o, (t, o) ∈ io.outputAssets → o.quantity ≤ qty s.assets t) ∧
      largestFirst E ord st est io =
        (.ok ({ inputBalance := s.input, inputAssets := s.assets,
                outputBalance := io.outputBalance, outputAssets := io.outputAssets,
                fixedInputs := io.fixedInputs, fixedOutputs := io.fixedOutputs,
                chosen := s.selected, changes := [], fee := s.fee }, s.est), s.utxos)) ∨
    (∃ e, largestFirst E ord st est io = (.error e, st) ∧
      (E.Answers → ((startOf avail est io fee).Short ∨ (startOf avail est io fee).ShortMain E) ∧
        e = .noInput)) := by
  have h0 : Inv E (startOf avail est io fee) avail
      { utxos := st, est := est, assets := io.inputAssets, input := io.inputBalance,
        fee := fee, selected := [] } := by
    refine ⟨h.store, by simp [startOf], by simp [Start.inputAfter, startOf],
      fun t => by simp [Start.assetAfter, startOf], rfl, h.quantities, ?_⟩
    intro pre u post e; simp at e
  have hlen : avail.length < st.len + 1 := by
    have : st.len = avail.length := by
      unfold UStore.len USet.len
      rw [h.store.contents.set_eq]; simp [ptrMap]
    omega
  unfold largestFirst
  simp only [hf]
  rcases tokensLoop_spec h.ord (st.len + 1) io.outputAssets (fun p hp => hp) h0 hlen with
    ⟨s1, L1, e1, i1, l1, p1, c1⟩ | ⟨e, e1, he⟩
  swap
  · right
    simp only [e1]
    exact ⟨e, rfl, fun ha => ⟨Or.inl (he ha).1, (he ha).2⟩⟩
  simp only [e1]
  have hfee : ∀ us f0 s0 f s, 0 ≤ f0 → runFee E s0 f0 us = .ok (f, s) → 0 ≤ f := by
    intro us
    induction us with
    | nil => intro f0 s0 f s h0 hr; simp only [runFee] at hr; cases hr; exact h0
    | cons u us ih =>
      intro f0 s0 f s h0 hr
      simp only [runFee] at hr
      cases hu : E.feeIn s0 u with
      | error e => simp [hu] at hr
      | ok g =>
        simp only [hu] at hr
        cases hu' : E.addIn s0 u with
        | error e => simp [hu'] at hr
        | ok s' =>
          simp only [hu'] at hr
          exact ih _ _ _ _ (add_nonneg h0 (h.fees _ _ _ hu)) hr
  rcases mainLoop_spec (c := startOf avail est io fee) h.ord h.fees h.out (st.len + 1) i1
    (hfee _ _ _ _ _ (h.minFee _ hf) i1.fee) c1 (by omega) with
    ⟨s2, L2, e2, i2, p2, m2, c2⟩ | ⟨e, e2, he⟩
  · left
    refine ⟨s2, L2, i2, m2, c2, ?_⟩
    have : mainLoop E ord io.outputBalance (st.len + 1) s1 = .ok s2 := e2
    simp only [this]
  · right
    have : mainLoop E ord io.outputBalance (st.len + 1) s1 = .error e := e2
    simp only [this]
    exact ⟨e, rfl, fun ha => ⟨Or.inr (he ha).1, (he ha).2⟩⟩

theorem largestFirst_ok {σ : Type} {E : Estimator σ} {ord : List Utxo → List Utxo}
    {avail : List Utxo} {st st' : UStore} {est est' : σ} {io : Setup} {r : Result}
    (h : LFCase E ord avail st est io)
    (hr : largestFirst E ord st est io = (.ok (r, est'), st')) :
    ∃ fee s L, E.minFee est = .ok fee ∧ Inv E (startOf avail est io fee) L s ∧
      io.outputBalance + s.fee ≤ s.input ∧
      (∀ t o, (t, o) ∈ io.outputAssets → o.quantity ≤ qty s.assets t) ∧
      st' = s.utxos ∧ est' = s.est ∧
      r = { inputBalance := s.input, inputAssets := s.assets,
            outputBalance := io.outputBalance, outputAssets := io.outputAssets,
            fixedInputs := io.fixedInputs, fixedOutputs := io.fixedOutputs,
            chosen := s.selected, changes := [], fee := s.fee } := by
  cases hf : E.minFee est with
  | error e => unfold largestFirst at hr; simp [hf] at hr
  | ok fee =>
    rcases largestFirst_spec h hf with ⟨s, L, i, m, c, e⟩ | ⟨e, e1, _⟩
    · rw [e] at hr
      cases hr
      exact ⟨fee, s, L, rfl, i, m, c, rfl, rfl, rfl⟩
    · rw [e1] at hr; cases hr

/-! ## C38 -/

/-- On success every asset demanded by the outputs is covered, and the main input covers the output
plus the reported fee. -/
theorem C38_covers {σ : Type} {E : Estimator σ} {ord : List Utxo → List Utxo}
    {avail : List Utxo} {st st' : UStore} {est est' : σ} {io : Setup} {r : Result}
    (h : LFCase E ord avail st est io)
    (hr : largestFirst E ord st est io = (.ok (r, est'), st')) :
    (∀ t o, (t, o) ∈ io.outputAssets → o.quantity ≤ qty r.inputAssets t) ∧
    io.outputBalance + r.fee ≤ r.inputBalance ∧
    r.outputBalance = io.outputBalance ∧ r.outputAssets = io.outputAssets := by
  obtain ⟨fee, s, L, _, i, m, c, _, _, rfl⟩ := largestFirst_ok h hr
  exact ⟨c, m, rfl, rfl⟩

/-! ## C39 -/

/-- The books of a successful selection: totals are the starting totals plus the chosen inputs;
chosen and still available inputs together are exactly the inputs available before; the fee
is the minimum fee plus what the estimator charged for the chosen inputs in order; nothing else
changes. -/
theorem C39_books {σ : Type} {E : Estimator σ} {ord : List Utxo → List Utxo}
    {avail : List Utxo} {st st' : UStore} {est est' : σ} {io : Setup} {r : Result}
    (h : LFCase E ord avail st est io)
    (hr : largestFirst E ord st est io = (.ok (r, est'), st')) :
    r.inputBalance = io.inputBalance + (r.chosen.map (·.value)).sum ∧
    (∀ t, qty r.inputAssets t =
      qty io.inputAssets t + (r.chosen.map (fun u => assetSum t u.assets)).sum) ∧
    avail.Perm (r.chosen ++ availableInputs st') ∧
    (avail.map (·.ptr)).Nodup ∧
    StoreOK (availableInputs st') st' ∧
    (∃ min, E.minFee est = .ok min ∧ runFee E est min r.chosen = .ok (r.fee, est')) ∧
    r.fixedInputs = io.fixedInputs ∧ r.fixedOutputs = io.fixedOutputs ∧ r.changes = [] := by
  obtain ⟨fee, s, L, hf, i, m, c, rfl, rfl, rfl⟩ := largestFirst_ok h hr
  have ha := availableInputs_eq i.store
  refine ⟨i.input, i.assets, ?_, h.store.contents.nodup, ?_, ⟨fee, hf, i.fee⟩, rfl, rfl, rfl⟩
  · rw [ha]; exact i.perm
  · rw [ha]; exact i.store

/-! ## C40 -/

/-- With an estimator that answers, selection fails only when all the available inputs together
miss the demand of some asset, or, taken in some order, do not pay for the output and the fee. The
error is always "no more inputs". -/
theorem C40_complete {σ : Type} {E : Estimator σ} {ord : List Utxo → List Utxo}
    {avail : List Utxo} {st st' : UStore} {est : σ} {io : Setup} {e : SelErr} {min : ℚ}
    (h : LFCase E ord avail st est io) (ha : E.Answers) (hm : E.minFee est = .ok min)
    (hr : largestFirst E ord st est io = (.error e, st')) :
    ((∃ t o, (t, o) ∈ io.outputAssets ∧
        qty io.inputAssets t + (avail.map (fun u => assetSum t u.assets)).sum < o.quantity) ∨
     (∃ order f s, order.Perm avail ∧ runFee E est min order = .ok (f, s) ∧
        io.inputBalance + (avail.map (·.value)).sum < io.outputBalance + f)) ∧
    e = .noInput ∧ st' = st := by
  rcases largestFirst_spec h hm with ⟨s, L, i, m, c, e1⟩ | ⟨e', e1, he⟩
  · rw [e1] at hr; cases hr
  · rw [e1] at hr
    cases hr
    obtain ⟨h1, h2⟩ := he ha
    refine ⟨?_, h2, rfl⟩
    rcases h1 with ⟨t, o, h3, h4⟩ | ⟨order, f, s, h3, h4, h5, _⟩
    · exact Or.inl ⟨t, o, h3, h4⟩
    · exact Or.inr ⟨order, f, s, h3, h4, h5⟩

/-- Conversely it fails whenever all the available inputs together miss the demand of an asset. -/
theorem C40_short_fails {σ : Type} {E : Estimator σ} {ord : List Utxo → List Utxo}
    {avail : List Utxo} {st : UStore} {est : σ} {io : Setup}
    (h : LFCase E ord avail st est io)
    (hs : ∃ t o, (t, o) ∈ io.outputAssets ∧
        qty io.inputAssets t + (avail.map (fun u => assetSum t u.assets)).sum < o.quantity) :
    ∃ e, largestFirst E ord st est io = (.error e, st) := by
  cases hf : E.minFee est with
  | error e => exact ⟨e, by simp [largestFirst, hf]⟩
  | ok fee =>
    rcases largestFirst_spec h hf with ⟨s, L, i, m, c, e1⟩ | ⟨e', e1, he⟩
    · exfalso
      obtain ⟨t, o, h1, h2⟩ := hs
      have h3 := c t o h1
      rw [i.assets] at h3
      have h4 : (avail.map (fun u => assetSum t u.assets)).sum =
          (s.selected.map (fun u => assetSum t u.assets)).sum +
          (L.map (fun u => assetSum t u.assets)).sum := by
        have hp : avail.Perm (s.selected ++ L) := i.perm
        rw [perm_sum _ hp, List.map_append, List.sum_append]
      have h5 : 0 ≤ (L.map (fun u => assetSum t u.assets)).sum := by
        apply List.sum_nonneg
        intro x hx
        obtain ⟨u, hu, rfl⟩ := List.mem_map.mp hx
        apply assetSum_nonneg
        apply h.quantities u
        have hp : avail.Perm (s.selected ++ L) := i.perm
        rw [hp.mem_iff]; simp [hu]
      have h6 : (startOf avail est io fee).assetAfter s.selected t =
        qty io.inputAssets t + (s.selected.map (fun u => assetSum t u.assets)).sum := rfl
      rw [h6] at h3
      linarith
    · exact ⟨e', e1⟩

/-- Any failure, for whatever reason, leaves the available inputs as they were. -/
theorem C40_failure_keeps {σ : Type} {E : Estimator σ} {ord : List Utxo → List Utxo}
    {st st' : UStore} {est : σ} {io : Setup} {e : SelErr}
    (hr : largestFirst E ord st est io = (.error e, st')) : st' = st := by
  unfold largestFirst at hr
  cases hf : E.minFee est with
  | error e => simp [hf] at hr; exact hr.2.symm
  | ok fee =>
    simp only [hf] at hr
    split at hr
    · cases hr; rfl
    · split at hr
      · cases hr; rfl
      · cases hr

/-! ## C41 -/

/-- Each chosen input was, when taken, a largest one among those still available for a token
that was still needed: an asset whose demand the earlier choices do not meet, or, once all
assets are covered, the main token while it is below output plus fee. -/
theorem C41_takes_largest {σ : Type} {E : Estimator σ} {ord : List Utxo → List Utxo}
    {avail : List Utxo} {st st' : UStore} {est est' : σ} {io : Setup} {r : Result} {min : ℚ}
    (h : LFCase E ord avail st est io) (hm : E.minFee est = .ok min)
    (hr : largestFirst E ord st est io = (.ok (r, est'), st'))
    (pre : List Utxo) (u : Utxo) (post : List Utxo) (hsplit : r.chosen = pre ++ u :: post) :
    ∃ t a, amountOf t u = some a ∧
      (∀ w b, w ∈ avail → w ∉ pre → amountOf t w = some b → b ≤ a) ∧
      ((∃ o, (t, o) ∈ io.outputAssets ∧
          qty io.inputAssets t + (pre.map (fun u => assetSum t u.assets)).sum < o.quantity) ∨
       (t = mainToken ∧
        (∀ t' o, (t', o) ∈ io.outputAssets →
          o.quantity ≤ qty io.inputAssets t' + (pre.map (fun u => assetSum t' u.assets)).sum) ∧
        ∃ f s, runFee E est min pre = .ok (f, s) ∧
          io.inputBalance + (pre.map (·.value)).sum < io.outputBalance + f)) := by
  obtain ⟨fee, s, L, hf, i, m, c, rfl, rfl, rfl⟩ := largestFirst_ok h hr
  rw [hm] at hf; cases hf
  obtain ⟨t, h1, h2, h3⟩ := i.picks pre u post hsplit
  obtain ⟨a, ha⟩ := Option.isSome_iff_exists.mp h2
  refine ⟨t, a, ha, ?_, h1⟩
  intro w b hw hns hb
  rcases h3 w hw hns with h4 | h4
  · rw [ha, hb] at h4; exact h4
  · rw [hb] at h4; cases h4

/-! ### A concrete case -/

section Example

def lfAvail : List Utxo := [⟨1, 5, [⟨7, 2, 0, 0⟩], 0⟩, ⟨2, 9, [], 0⟩, ⟨3, 4, [⟨7, 3, 0, 0⟩], 0⟩]

def lfIo : Setup :=
  { inputBalance := 0, outputBalance := 10, outputAssets := [(7, ⟨7, 3, 0, 0⟩)] }

def lfStore : UStore :=
  match setAvailable UStore.new lfAvail with
  | (_, st) => st

theorem lfCase : LFCase (flatEstimator 1 (1/2) 0) id lfAvail lfStore () lfIo := by
  have hd : ∀ u ∈ lfAvail, DistinctAssets u := by unfold DistinctAssets lfAvail; decide
  obtain ⟨st, h1, h2, _⟩ := C39_set_available UStore.new lfAvail hd (by unfold lfAvail; decide)
  have : lfStore = st := by unfold lfStore; rw [h1]
  refine ⟨fun l => List.Perm.refl l, this ▸ h2, ?_, ?_, ?_, ?_⟩
  · unfold lfAvail; decide +kernel
  · intro s u f h; simp only [flatEstimator] at h; cases h; norm_num
  · intro f h; simp only [flatEstimator] at h; cases h; norm_num
  · norm_num [lfIo]

example : (setAvailable lfStore (lfAvail ++ lfAvail)).2 = lfStore := by
  rw [C39_refused lfStore (lfAvail ++ lfAvail) (by unfold lfAvail; decide)]

/-- The example selects the input with most of asset 7, then the largest main amount. -/
example : (match (largestFirst (flatEstimator 1 (1/2) 0) id lfStore () lfIo).1 with
    | .ok (r, _) => r.chosen.map (·.ptr)
    | .error _ => []) = [3, 2] := by
  decide +kernel

end Example

end Verif.Props
