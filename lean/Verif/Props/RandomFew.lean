import Verif.Selection.RandomImproveFew
import Verif.Props.RandomImproveComplete

/-!
# Random-improve takes few inputs (C112)

A payment is cut into pieces: an amount of which every UTxO that holds the token holds at least `d` is covered by
`⌈amount / d⌉` UTxOs. The selection never takes more UTxOs than the amounts asked for have pieces.
-/

namespace Verif.Props

open Verif Verif.Core Verif.Selection Verif.Selection.Random

/-- The pieces of an output: of its main amount, and of each of its assets. -/
def outputPieces (d : ℚ) (dt : Token → ℚ) (o : Output) : Nat :=
  ⌈o.value / d⌉₊ + (o.assets.map (fun a => ⌈a.quantity / dt a.fingerprint⌉₊)).sum

theorem sum_indicator_le {T : List Token} (hT : T.Nodup) (t : Token) (c : Nat) :
    (T.map (fun x => if t = x then c else 0)).sum ≤ c := by
  induction T with
  | nil => simp
  | cons x T ih =>
    rw [List.nodup_cons] at hT
    rw [List.map_cons, List.sum_cons]
    by_cases hx : t = x
    · subst hx
      have h0 : (T.map (fun x => if t = x then c else 0)).sum = 0 := by
        refine List.sum_eq_zero (fun y hy => ?_)
        obtain ⟨z, hz, rfl⟩ := List.mem_map.1 hy
        have : t ≠ z := fun e => hT.1 (e ▸ hz)
        simp [this]
      rw [h0]
      simp
    · simpa [hx] using ih hT.2

theorem sum_tokens_le {T : List Token} (hT : T.Nodup) (dt : Token → ℚ) (as : List Asset) :
    (T.map (fun t => pieces (dt t) ((firstOf t as).getD 0))).sum ≤
      (as.map (fun a => pieces (dt a.fingerprint) a.quantity)).sum := by
  induction as with
  | nil => simp [firstOf, pieces]
  | cons a as ih =>
    have h1 : (T.map (fun t => pieces (dt t) ((firstOf t (a :: as)).getD 0))).sum ≤
        (T.map (fun t => (if a.fingerprint = t then pieces (dt a.fingerprint) a.quantity else 0) +
          pieces (dt t) ((firstOf t as).getD 0))).sum := by
      refine List.sum_le_sum (fun t _ => ?_)
      by_cases ht : a.fingerprint = t
      · simp [firstOf, ht]
      · simp [firstOf, ht]
    rw [List.sum_map_add] at h1
    have h2 := sum_indicator_le hT a.fingerprint (pieces (dt a.fingerprint) a.quantity)
    rw [List.map_cons, List.sum_cons]
    omega

theorem rf_sum_swap {α β : Type} (f : α → β → Nat) (l : List α) (m : List β) :
    (l.map (fun x => (m.map (fun y => f x y)).sum)).sum = (m.map (fun y => (l.map (fun x => f x y)).sum)).sum := by
  induction l with
  | nil => simp
  | cons x l ih =>
    simp only [List.map_cons, List.sum_cons]
    rw [ih, List.sum_map_add]

section

variable {σ : Type} {wraps : Bool} {rnd : Nat → Nat} {fmt : Nat → Nat → Token} {ord : List Nat → List Nat}
  {E : Estimator σ} {s s' : RI} {est est' : σ} {r : Result}

/-- C112: every UTxO holds at least `d`, and at least `dt t` of a token `t` it holds: the selection takes no more UTxOs than
the outputs have pieces, whatever is drawn and improved. -/
theorem C112_few {ins : List Utxo} {outs : List Output} {ch : Option Nat} (hs : IndicesOk s)
    (hord : ∀ l, (ord l).Perm l) {d : ℚ} {dt : Token → ℚ} (hd : 0 < d) (hdt : ∀ t, 0 < dt t)
    (hv : ∀ u ∈ s.inputs, d ≤ u.value) (hq : ∀ u ∈ s.inputs, ∀ a ∈ u.assets, dt a.fingerprint ≤ a.quantity)
    (hins : ∀ u ∈ ins, 0 ≤ u.value)
    (hfmt : ∀ o ∈ outs, ∀ a ∈ o.assets, fmt a.policy a.name = a.fingerprint)
    (hr : s.select wraps rnd fmt ord E est (Setup.fromFixed ins outs ch) = (.ok (r, est'), s')) :
    r.chosen.length ≤ (outs.map (outputPieces d dt)).sum := by
  obtain ⟨hin, hout, _⟩ := C48_setup_totals ins outs ch
  obtain ⟨hI, hlt⟩ := id hs
  obtain ⟨fee', b', av', _, hS, hch, _, hs', _⟩ := random_ok hs hord hr
  have hlen : r.chosen.length = b'.added.dedup.length := by
    rw [atAll_map hch, List.length_map, (hord _).length_eq]
  have hperm := hS.perm.length_eq
  rw [List.length_append] at hperm
  have hT := (wanted_tokens (fmt := fmt) (ins := ins) (ch := ch) hfmt).1
  unfold RI.select at hr
  cases hfee : E.minFee est with
  | error e => simp [hfee] at hr
  | ok fee =>
  simp only [hfee] at hr
  have hfix : (Setup.fromFixed ins outs ch).fixedOutputs = outs := rfl
  rw [hfix] at hr
  have h0 : SInv E s.inputs (startOf [] est (Setup.fromFixed ins outs ch) fee) outs s.indices s.indices
      ⟨est, (Setup.fromFixed ins outs ch).inputAssets, (Setup.fromFixed ins outs ch).inputBalance, fee, []⟩ := by
    refine ⟨⟨[], rfl, ?_, ?_, rfl⟩, by simp, fun _ => by simp⟩
    · simp [Start.inputAfter, startOf]
    · intro t
      simp [Start.assetAfter, startOf]
  cases h1 : assetPasses wraps rnd fmt E s.inputs outs (wanted (Setup.fromFixed ins outs ch).outputAssets)
      s.indices 0 ⟨est, (Setup.fromFixed ins outs ch).inputAssets, (Setup.fromFixed ins outs ch).inputBalance, fee, []⟩ with
  | error f => simp [h1] at hr
  | ok y =>
  obtain ⟨av1, k1, b1⟩ := y
  simp only [h1] at hr
  have c1 := assetPasses_few hI hlt hdt hq _ h0 h1
  have i1 : SInv E s.inputs (startOf [] est (Setup.fromFixed ins outs ch) fee) outs s.indices av1 b1 := by
    rcases assetPasses_spec (wraps := wraps) (rnd := rnd) (fmt := fmt) hI hlt
      (wanted (Setup.fromFixed ins outs ch).outputAssets) h0 (k := 0) with ⟨_, _, _, _, g1, g2, _⟩ | ⟨_, _, g1, _⟩
    · rw [h1] at g1; cases g1; exact g2
    · rw [h1] at g1; cases g1
  obtain ⟨n1, s1⟩ := i1.avail hI
  cases h2 : selectPass wraps rnd E s.inputs outs (fun u => some u.value) (fun o => some o.value) av1 k1 b1 with
  | error f => simp [h2] at hr
  | ok y =>
  obtain ⟨av2, k2, b2⟩ := y
  simp only [h2] at hr
  have c2 := selectPass_few hd (fun u hu a ha => by cases ha; exact hv u hu) n1 (fun i hi => hlt i (s1.subset hi)) h2
  have i2 : SInv E s.inputs (startOf [] est (Setup.fromFixed ins outs ch) fee) outs s.indices av2 b2 := by
    rcases selectPass_spec (wraps := wraps) (rnd := rnd) (outs := outs) (k := k1)
      (amt := fun u => some u.value) (want := fun o => some o.value) n1 (fun i hi => hlt i (s1.subset hi)) i1.books with
      ⟨_, _, _, _, g1, g2, g3, g4, g5, _⟩ | ⟨_, _, g1, _⟩
    · rw [h2] at g1; cases g1; exact i1.step hI g2 g3 g4 g5
    · rw [h2] at g1; cases g1
  cases h3 : topUp rnd E s.inputs (Setup.fromFixed ins outs ch).outputBalance av2.length av2 k2 b2 with
  | error f => simp [h3] at hr
  | ok y =>
  obtain ⟨av3, b3⟩ := y
  simp only [h3] at hr
  have c3 := topUp_few hd hv _ h3
  have hav : av' = av3 := by
    split at hr
    · cases hr
    · cases hr
      injection hs' with _ e
      exact e.symm
  subst hav
  -- the inputs taken before the last phase
  have hp2 := i2.perm.length_eq
  rw [List.length_append] at hp2
  have hval : (Setup.fromFixed ins outs ch).outputBalance - b2.input ≤
      (outs.map (·.value)).sum - d * (b2.added.dedup.length : ℚ) := by
    obtain ⟨vs, w1, w2, w3⟩ := i2.books
    have hb : b2.input = (Setup.fromFixed ins outs ch).inputBalance + (vs.map (·.value)).sum := w2
    have hi0 : 0 ≤ (Setup.fromFixed ins outs ch).inputBalance := by
      rw [hin]
      refine List.sum_nonneg (fun x hx => ?_)
      obtain ⟨u, hu, rfl⟩ := List.mem_map.1 hx
      exact hins u hu
    have hvs : d * (vs.length : ℚ) ≤ (vs.map (·.value)).sum := by
      have hm : ∀ u ∈ vs, d ≤ u.value := by
        intro u hu
        rw [atAll_map w1] at hu
        obtain ⟨i, hi, rfl⟩ := List.mem_map.1 hu
        have hi' := atAll_lt w1 i hi
        unfold utxoAt
        rw [List.getD_eq_getElem _ _ hi']
        exact hv _ (List.getElem_mem hi')
      clear hb w1 w2 w3
      induction vs with
      | nil => simp
      | cons u vs ih =>
        have h1 := hm u (by simp)
        have h2 := ih (fun x hx => hm x (by simp [hx]))
        rw [List.map_cons, List.sum_cons, List.length_cons]
        push_cast
        linarith
    have hl : b2.added.dedup.length ≤ vs.length := by
      rw [atAll_map w1, List.length_map]
      exact (List.dedup_sublist _).length_le
    have hl' : (b2.added.dedup.length : ℚ) ≤ (vs.length : ℚ) := by exact_mod_cast hl
    have := mul_le_mul_of_nonneg_left hl' hd.le
    rw [hout, hb]
    linarith
  have c4 : pieces d ((Setup.fromFixed ins outs ch).outputBalance - b2.input) ≤
      pieces d (outs.map (·.value)).sum - b2.added.dedup.length := by
    unfold pieces
    rw [← Nat.ceil_sub_natCast]
    refine Nat.ceil_mono ?_
    rw [div_le_iff₀ hd, sub_mul, div_mul_cancel₀ _ hd.ne']
    linarith
  have c5 := pieces_sum (d := d) (outs.map (·.value))
  rw [List.map_map] at c5
  -- the pieces
  have e1 : (outs.map (outputPieces d dt)).sum = (outs.map (fun o => pieces d o.value)).sum +
      (outs.map (fun o => (o.assets.map (fun a => pieces (dt a.fingerprint) a.quantity)).sum)).sum := by
    rw [← List.sum_map_add]
    rfl
  have e2 : ((wanted (Setup.fromFixed ins outs ch).outputAssets).map (fun x => (outs.map (fun o =>
      pieces (dt (fmt x.1 x.2)) ((firstOf (fmt x.1 x.2) o.assets).getD 0))).sum)).sum ≤
      (outs.map (fun o => (o.assets.map (fun a => pieces (dt a.fingerprint) a.quantity)).sum)).sum := by
    rw [rf_sum_swap]
    refine List.sum_le_sum (fun o _ => ?_)
    have := sum_tokens_le hT dt o.assets
    rw [List.map_map] at this
    exact this
  simp only [Option.getD_some] at c2
  have c5' : pieces d (outs.map (·.value)).sum ≤ (outs.map (fun o => pieces d o.value)).sum := c5
  rw [e1, hlen]
  omega

end

/-- Six UTxOs of 5 to 9 with two or three of the token, or none. -/
def rfAvail : List Utxo :=
  [⟨1, 5, [⟨7, 2, 3, 4⟩], 0⟩, ⟨2, 6, [⟨7, 3, 3, 4⟩], 0⟩, ⟨3, 7, [], 0⟩, ⟨4, 8, [], 0⟩, ⟨5, 9, [], 0⟩, ⟨6, 9, [], 0⟩]

theorem rf_runs : riView ((RI.ofList rfAvail).select false (fun _ => 0) riFmt id (flatEstimator 1 1 0) ()
    (Setup.fromFixed [] [⟨9, 10, [⟨7, 5, 3, 4⟩]⟩] none)) = (some (29, 5, 5, [1, 2, 5, 6]), [2, 3]) := by decide +kernel

/-- Whatever is drawn, at most two for the main amount of 10 and at most three for 5 of the token. -/
example (wraps : Bool) (rnd : Nat → Nat) {r : Result} {s' : RI}
    (h : (RI.ofList rfAvail).select wraps rnd riFmt id (flatEstimator 1 1 0) ()
      (Setup.fromFixed [] [⟨9, 10, [⟨7, 5, 3, 4⟩]⟩] none) = (.ok (r, ()), s')) : r.chosen.length ≤ 5 := by
  have := C112_few (d := 5) (dt := fun _ => 2) ⟨by decide, by decide⟩ (fun l => List.Perm.refl l) (by decide)
    (fun _ => by decide) (by decide) (by decide) (by decide) (by decide) h
  have e : (List.map (outputPieces 5 (fun _ => 2)) [⟨9, 10, [⟨7, 5, 3, 4⟩]⟩]).sum = 5 := by decide +kernel
  rw [← e]
  exact this

/-- C112: it is not the fewest: one UTxO pays the output, but the pass for the main amount takes another one. -/
theorem C112_fewest_false : ¬ ∀ (s : RI) (rnd : Nat → Nat) (o : Output) (r : Result) (s' : RI),
    (∃ u ∈ s.inputs, o.value ≤ u.value ∧ ∀ t, assetSum t o.assets ≤ assetSum t u.assets) →
    s.select false rnd riFmt id (flatEstimator 0 0 0) () (Setup.fromFixed [] [o] none) = (.ok (r, ()), s') →
    r.chosen.length ≤ 1 := by
  intro h
  have h1 : riView ((RI.ofList [⟨1, 100, [⟨7, 5, 3, 4⟩], 0⟩, ⟨2, 20, [], 0⟩]).select false (fun _ => 0) riFmt id
      (flatEstimator 0 0 0) () (Setup.fromFixed [] [riOut] none)) = (some (120, 5, 0, [1, 2]), []) := by decide +kernel
  obtain ⟨r, e1, e2, _⟩ := ri_ok h1
  have h2 := h _ _ _ r _ ⟨⟨1, 100, [⟨7, 5, 3, 4⟩], 0⟩, by simp [RI.ofList], by decide, fun t => by
    by_cases ht : 7 = t
    · subst ht; decide +kernel
    · simp [riOut, assetSum_cons, ht]⟩ e1
  simp only [Prod.mk.injEq] at e2
  have h3 : r.chosen.length = 2 := by rw [← List.length_map (f := fun u : Utxo => u.ptr), e2.2.2.2]; rfl
  omega

end Verif.Props
