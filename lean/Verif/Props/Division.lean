import Verif.Core.Division
import Verif.Props.CoreValues
import Verif.Props.ThermostatSplit
import Verif.Selection.ThermostatDiv

/-!
# Dividing an amount (C99)

`v.div n` is `Value / usize`; `none` is its panic. A quotient is computed to 100 digits, so it is exact if it has fewer
digits and otherwise off by half a unit of the last of them. For whole amounts this is enough: the quotient is on the
right side of every whole number, its integer part is that of the exact quotient, and the thermostat, which divides
nowhere else, answers as with exact division.
-/

namespace Verif.Props

open Verif Verif.Core Verif.Selection Verif.Selection.Thermostat

/-! ## The quotient -/

/-- Division panics for the divisor zero only, and is right to 99 digits after the first. -/
theorem C99_close {r : Rep} (v : Value r) (n : Nat) :
    (v.div n = none ↔ n = 0) ∧
    ∀ w, v.div n = some w → |w.toRat - v.toRat / n| ≤ |v.toRat / n| / (2 * 10 ^ 99) := by
  unfold Value.div
  by_cases hn : n = 0
  · subst hn; simp [Dec.divNat]
  · obtain ⟨d, h1, h2⟩ := Dec.divNat_some v.value n hn
    rw [h1]
    refine ⟨by simp [hn], ?_⟩
    intro w hw
    simp only [Option.map_some, Option.some.injEq] at hw
    subst hw
    exact h2

/-- A quotient of fewer than 100 digits is exact. -/
theorem C99_exact {r : Rep} (v w : Value r) (n : Nat) (h : v.div n = some w) (m t : Int) (hm : |m| < 10 ^ 99)
    (hx : v.toRat / n = m * (10 : ℚ) ^ (-t)) : w.toRat = v.toRat / n := by
  have hn : n ≠ 0 := fun e => by rw [((C99_close v n).1).2 e] at h; cases h
  obtain ⟨d, h1, h2⟩ := Dec.divNat_exact v.value n hn m t hm hx
  unfold Value.div at h
  rw [h1] at h
  simp only [Option.map_some, Option.some.injEq] at h
  subst h
  exact h2

/-- The quotient of a whole amount is on the right side of every whole number, in whatever way the amount is written. -/
theorem C99_whole {r : Rep} (v w : Value r) (n : Nat) (h : v.div n = some w) (z : Int) (hz : v.toRat = z)
    (hb : |z| < 10 ^ 99) (c : Int) : ((c : ℚ) ≤ w.toRat ↔ (c : ℚ) ≤ z / n) ∧ (w.toRat ≤ c ↔ (z : ℚ) / n ≤ c) := by
  have hn : n ≠ 0 := fun e => by rw [((C99_close v n).1).2 e] at h; cases h
  obtain ⟨d, h1, h2⟩ := Dec.divNat_whole v.value n hn z hz hb
  unfold Value.div at h
  rw [h1] at h
  simp only [Option.map_some, Option.some.injEq] at h
  subst h
  exact h2 c

/-- Half of a whole amount, a third of it and so on, truncated as the code does, is the quotient of the integers. -/
theorem C99_truncate {r : Rep} (lead trail : Nat) (v w : Value r) (n : Nat) (hn : n < 2 ^ 64) (h : v.div n = some w)
    (z : Nat) (hz : v.toRat = z) (hb : z < 10 ^ 99) (hs : v.value.scale.natAbs < 2 ^ 62) :
    (w.truncate lead trail).toRat = ((z / n : Nat) : ℚ) := by
  have hw := C99_whole v w n h z (by rw [hz]; simp) (by
    rw [abs_of_nonneg (by omega)]; exact_mod_cast hb)
  have h0 : 0 ≤ w.toRat := by
    have := ((hw 0).1).2 (by push_cast; positivity)
    simpa using this
  have hsc : w.value.SmallScale := by
    unfold Value.div at h
    cases hd : v.value.divNat n with
    | none => rw [hd] at h; simp at h
    | some d =>
      rw [hd] at h
      simp only [Option.map_some, Option.some.injEq] at h
      subst h
      have := Dec.divNat_scale _ _ _ hn hd
      unfold Dec.SmallScale
      simp only
      omega
  rw [C32_truncate lead trail w h0 hsc]
  have : ⌊w.toRat⌋ = ((z / n : Nat) : ℤ) := by
    have hd : ⌊((z : ℚ) / n)⌋ = ((z / n : Nat) : ℤ) := by
      rw [Rat.floor_natCast_div_natCast]; simp
    rw [← hd]
    apply le_antisymm
    · rw [Int.le_floor]
      have := ((hw ⌊w.toRat⌋).1).1 (Int.floor_le _)
      push_cast at this
      exact this
    · rw [Int.le_floor]
      refine ((hw ⌊((z : ℚ) / n)⌋).1).2 ?_
      push_cast
      exact Int.floor_le _
  rw [this, Int.cast_natCast]

/-- `core/src/value.rs:1032-1040`, the test `div`. -/
example : (Value.div (r := .regulated) (.ofNat 1) 1).map (·.value) = some ⟨1, 0⟩ ∧
    (Value.div (r := .regulated) (.ofNat 2) 2).map (·.value) = some ⟨1, 0⟩ ∧
    ((Value.div (r := .regulated) (.ofNat 3) 2).map (fun v => (v.truncate 5 15).value.beq ⟨1, 0⟩)) = some true ∧
    ((Value.div (r := .regulated) (.ofNat 1) 2).map (fun v => (v.truncate 5 15).value.beq ⟨0, 0⟩)) = some true ∧
    ((Value.div (r := .regulated) (.ofNat 4) 3).map (fun v => (v.truncate 5 15).value.beq ⟨1, 0⟩)) = some true := by
  decide +kernel

/-- The hypotheses hold for a third of 100 ada, written with a point. -/
example : ∃ w : Value .lovelace, Value.div ⟨⟨1000000000, 1⟩⟩ 3 = some w ∧ (w.truncate 5 15).toRat = 33333333 := by
  cases hd : Value.div (r := .lovelace) ⟨⟨1000000000, 1⟩⟩ 3 with
  | none => exact absurd (((C99_close _ _).1).1 hd) (by decide)
  | some w =>
    refine ⟨w, rfl, ?_⟩
    rw [C99_truncate 5 15 _ w 3 (by norm_num) hd 100000000 (by norm_num [Value.toRat, Dec.toRat]) (by norm_num)
      (by norm_num)]
    norm_num

/-- Quotients are not exact in general: three thirds are not one. -/
theorem C99_exact_false : ¬ ∀ (v w : Value .normalized) (n : Nat), v.div n = some w → w.toRat = v.toRat / n := by
  intro h
  cases hd : Value.div (r := .normalized) ⟨⟨1, 0⟩⟩ 3 with
  | none => exact absurd (((C99_close _ _).1).1 hd) (by decide)
  | some w =>
    have h1 := h _ _ _ hd
    have h2 : (Value.div (r := .normalized) ⟨⟨1, 0⟩⟩ 3).map (·.value) = some ⟨(10 ^ 100 - 1) / 3, 100⟩ := by decide +kernel
    rw [hd] at h2
    simp only [Option.map_some, Option.some.injEq] at h2
    rw [Value.toRat, h2] at h1
    norm_num [Value.toRat, Dec.toRat] at h1

/-- For amounts that are not whole the last digit may be carried up to the next whole number: half of an amount just below
two is one. -/
theorem C99_truncate_false : ¬ ∀ (v w : Value .normalized) (n : Nat), 0 ≤ v.toRat → v.div n = some w →
    (w.truncate 5 15).toRat = ⌊v.toRat / n⌋ := by
  intro h
  have hv : (0 : ℚ) ≤ (⟨⟨2 * 10 ^ 101 - 1, 101⟩⟩ : Value .normalized).toRat := by norm_num [Value.toRat, Dec.toRat]
  cases hd : Value.div (r := .normalized) ⟨⟨2 * 10 ^ 101 - 1, 101⟩⟩ 2 with
  | none => exact absurd (((C99_close _ _).1).1 hd) (by decide)
  | some w =>
    have h1 := h _ _ _ hv hd
    have h2 : (Value.div (r := .normalized) ⟨⟨2 * 10 ^ 101 - 1, 101⟩⟩ 2).map
        (fun v => (v.truncate 5 15).value.beq ⟨1, 0⟩) = some true := by decide +kernel
    rw [hd] at h2
    simp only [Option.map_some, Option.some.injEq] at h2
    rw [Dec.beq_iff] at h2
    have h3 : ⌊(⟨⟨2 * 10 ^ 101 - 1, 101⟩⟩ : Value .normalized).toRat / (2 : Nat)⌋ = 0 := by
      rw [Int.floor_eq_iff]
      norm_num [Value.toRat, Dec.toRat]
    rw [h3, Value.toRat, h2] at h1
    norm_num [Dec.toRat] at h1

/-! ## The thermostat -/

/-- A division that agrees with the exact one, for whole amounts below `10^99`, on the side of every whole number. -/
def RightForWhole (d : ℚ → Nat → ℚ) : Prop := ∀ (z : Nat) (n : Nat), z < 10 ^ 99 → n ≠ 0 → ∀ c : Int,
  ((c : ℚ) ≤ d z n ↔ (c : ℚ) ≤ z / n) ∧ (d z n ≤ c ↔ (z : ℚ) / n ≤ c)

/-- The division of the code, for amounts written as whole numbers. -/
def bigDiv (q : ℚ) (n : Nat) : ℚ := ((Value.div (r := .regulated) ⟨⟨q.num, 0⟩⟩ n).map (·.toRat)).getD 0

theorem bigDiv_right : RightForWhole bigDiv := by
  intro z n hz hn c
  cases hd : Value.div (r := .regulated) ⟨⟨((z : ℚ)).num, 0⟩⟩ n with
  | none => exact absurd (((C99_close _ _).1).1 hd) hn
  | some w =>
    have := C99_whole _ w n hd z (by simp [Value.toRat, Dec.toRat]) (by
      rw [abs_of_nonneg (by omega)]; exact_mod_cast hz) c
    unfold bigDiv
    rw [hd]
    simpa using this

theorem RightForWhole.rightDiv {d : ℚ → Nat → ℚ} (h : RightForWhole d) : RightDiv (10 ^ 99) d := by
  rintro q ⟨z, rfl⟩ h0 hB n hn c ⟨k, rfl⟩
  have h0' : 0 ≤ z := by exact_mod_cast h0
  obtain ⟨m, rfl⟩ := Int.eq_ofNat_of_zero_le h0'
  have := h m n (by exact_mod_cast hB) hn k
  simpa using this

variable {σ : Type} {E : Estimator σ} {W : Thermostat.World} {st st' : UStore} {est est' : σ} {ins : List Utxo}
  {outs : List Output} {ch : Option Nat} {r : Result}

/-- Whole amounts, not negative. -/
def WholeAmount (q : ℚ) : Prop := ∃ z : Nat, q = z

/-- What the thermostat is given in practice: whole amounts, whose sum is below `10^99` for each token, whole bounds in
order, and an estimator with whole fees and minimums in the states `I` it can get to. -/
structure WholeRequest (E : Estimator σ) (I : σ → Prop) (est : σ) (W : Thermostat.World) (avail ins : List Utxo) (outs : List Output) : Prop where
  utxos : ∀ u ∈ avail ++ ins, WholeAmount u.value ∧ ∀ a ∈ u.assets, WholeAmount a.quantity
  outs : ∀ o ∈ outs, WholeAmount o.value ∧ ∀ a ∈ o.assets, WholeAmount a.quantity
  sums : ∀ t, ((avail ++ ins).map (held t)).sum < 10 ^ 99
  bounds : WholeAmount W.cfg.min ∧ WholeAmount W.cfg.max ∧ W.cfg.min ≤ W.cfg.max ∧ W.cfg.max < 10 ^ 99
  keeps : Keeps E I
  est : I est
  minFee : ∀ s f, I s → E.minFee s = .ok f → WholeAmount f
  feeOut : ∀ s o f, I s → E.feeOut s o = .ok f → WholeAmount f ∧ f < 10 ^ 99
  minValue : ∀ s o v s', I s → E.minValueOut s o = .ok (v, s') → WholeAmount v

theorem WholeAmount.whole {q : ℚ} (h : WholeAmount q) : Whole q := by obtain ⟨z, rfl⟩ := h; exact ⟨z, by simp⟩

theorem WholeAmount.nonneg {q : ℚ} (h : WholeAmount q) : 0 ≤ q := by obtain ⟨z, rfl⟩ := h; positivity

theorem whole_sum (l : List ℚ) (h : ∀ x ∈ l, Whole x) : Whole l.sum := by
  induction l with
  | nil => exact whole_zero
  | cons x l ih => rw [List.sum_cons]; exact (h x (by simp)).add (ih (fun y hy => h y (by simp [hy])))

theorem whole_assetSum (t : Token) (as : List Asset) (ha : ∀ a ∈ as, Whole a.quantity) : Whole (assetSum t as) := by
  apply whole_sum
  intro x hx
  obtain ⟨a, h1, rfl⟩ := List.mem_map.mp hx
  exact ha a (List.mem_of_mem_filter h1)

theorem initial_whole {I : σ → Prop} (hest : I est) (hu : ∀ u ∈ ins, Whole u.value ∧ ∀ a ∈ u.assets, Whole a.quantity)
    (houts : ∀ o ∈ outs, Whole o.value ∧ ∀ a ∈ o.assets, Whole a.quantity) :
    WholeState I (initial est (Setup.fromFixed ins outs ch)) := by
  refine ⟨hest, ?_, ?_, by intro t o h; simp [initial] at h, by simp [initial]⟩
  · rw [initial_main.net]
    have : changeValue (initial est (Setup.fromFixed ins outs ch)) = 0 := by simp [initial, changeValue, mapSum]
    rw [this]
    refine Whole.sub (Whole.add (Whole.sub (whole_sum _ ?_) (whole_sum _ ?_)) ?_) whole_zero
    · intro x hx
      obtain ⟨u, hu', rfl⟩ := List.mem_map.mp hx
      exact (hu u hu').1
    · intro x hx
      obtain ⟨o, ho, rfl⟩ := List.mem_map.mp hx
      exact (houts o ho).1
    · simp [initial]; exact whole_zero
  · intro t b hb
    have := (initial_assets (est := est) (ins := ins) (outs := outs) (ch := ch)).2.2 t
    unfold assetNet at this
    rw [hb] at this
    simp only [Option.getD_some] at this
    rw [this]
    refine Whole.sub (whole_sum _ ?_) (whole_sum _ ?_)
    · intro x hx
      obtain ⟨u, hu', rfl⟩ := List.mem_map.mp hx
      exact whole_assetSum t _ (hu u hu').2
    · intro x hx
      obtain ⟨o, ho, rfl⟩ := List.mem_map.mp hx
      exact whole_assetSum t _ (houts o ho).2

theorem held_nonneg {u : Utxo} (h : WholeAmount u.value ∧ ∀ a ∈ u.assets, WholeAmount a.quantity) (t : Token) :
    Whole (held t u) ∧ 0 ≤ held t u := by
  unfold held
  split
  · exact ⟨h.1.whole, h.1.nonneg⟩
  · exact ⟨whole_assetSum t _ (fun a ha => (h.2 a ha).whole), assetSum_nonneg (fun a ha => (h.2 a ha).nonneg) t⟩

/-- With whole amounts the rounding of the division never shows: the answer, the error or the panic, the estimator and
the UTxOs left are those of exact division. So what is proved of the thermostat with exact division holds of the code. -/
theorem C99_thermostat {avail : List Utxo} (hC : THCase W avail st ins outs) {I : σ → Prop}
    (hW : WholeRequest E I est W avail ins outs)
    (hd : RightForWhole W.div) :
    thermostat E W st est (Setup.fromFixed ins outs ch) =
      thermostat E { W with div := fun q n => q / n } st est (Setup.fromFixed ins outs ch) := by
  have hsel : select E W ⟨(Setup.fromFixed ins outs ch).changeAddress, (Setup.fromFixed ins outs ch).fixedOutputs⟩ st
      (initial est (Setup.fromFixed ins outs ch)) =
      select E W.exact ⟨(Setup.fromFixed ins outs ch).changeAddress, (Setup.fromFixed ins outs ch).fixedOutputs⟩ st
      (initial est (Setup.fromFixed ins outs ch)) := by
    rw [select_noSplit (W := W), select_noSplit (W := W.exact)]
    have hns : W.exact.noSplit = W.noSplit := rfl
    rw [hns]
    cases hx : select E W.noSplit
        ⟨(Setup.fromFixed ins outs ch).changeAddress, (Setup.fromFixed ins outs ch).fixedOutputs⟩ st
        (initial est (Setup.fromFixed ins outs ch)) with
    | error e => rfl
    | ok x =>
      obtain ⟨s5, st5⟩ := x
      have ha : ∀ u ∈ avail, Whole u.value ∧ ∀ a ∈ u.assets, Whole a.quantity := fun u hu =>
        ⟨(hW.utxos u (by simp [hu])).1.whole, fun a h => ((hW.utxos u (by simp [hu])).2 a h).whole⟩
      obtain ⟨⟨L, hL⟩, hn, hw, hcs⟩ := select_unsplit (W := W.noSplit) hC.ord hC.keyOrder (fun _ => rfl)
        hW.bounds.2.2.1 hW.bounds.1.nonneg
        ⟨hW.keeps, fun s f i h => (hW.minFee s f i h).whole, fun s o f i h => (hW.feeOut s o f i h).1.whole,
          fun s o v s' i h => (hW.minValue s o v s' i h).whole⟩
        (fun s f i h => (hW.minFee s f i h).nonneg) (fun s o f i h => (hW.feeOut s o f i h).1.nonneg)
        (fun s o v s' i h => (hW.minValue s o v s' i h).nonneg) hW.bounds.2.1.whole hx hC.inv
        (by show W.cfg.main ∉ _; rw [hC.main]; exact hC.main_not) rfl rfl
        (initial_pos (fun u hu a h => ((hW.utxos u (by simp [hu])).2 a h).nonneg)) ha
        (initial_whole hW.est (fun u hu => ⟨(hW.utxos u (by simp [hu])).1.whole,
            fun a h => ((hW.utxos u (by simp [hu])).2 a h).whole⟩)
          (fun o ho => ⟨(hW.outs o ho).1.whole, fun a h => ((hW.outs o ho).2 a h).whole⟩))
        (fun u hu a h => ((hW.utxos u (by simp [hu])).2 a h).nonneg) hC.main
        (base := fun t => assetIn t ins - assetOut t outs) initial_main
        (fun t => by rw [initial_assets.2.2]; simp [initial, changeAsset, mapSum])
      have hfees : FeesBelow E I (10 ^ 99) := fun s o f i h =>
        ⟨(hW.feeOut s o f i h).1.whole, (hW.feeOut s o f i h).1.nonneg, (hW.feeOut s o f i h).2⟩
      have hLm : ∀ u ∈ L, u ∈ avail := fun u hu => hL.perm.mem_iff.mpr (by simp [hu])
      have hsm : ∀ u ∈ s5.selected, u ∈ avail := fun u hu => hL.perm.mem_iff.mpr (by simp [hu])
      have sumNN : ∀ t (l : List Utxo), (∀ u ∈ l, u ∈ avail ++ ins) → 0 ≤ (l.map (held t)).sum := by
        intro t l hl
        apply List.sum_nonneg
        intro x hx
        obtain ⟨u, hu, rfl⟩ := List.mem_map.mp hx
        exact (held_nonneg (hW.utxos u (hl u hu)) t).2
      have hall : ∀ t, (s5.selected.map (held t)).sum + (L.map (held t)).sum + (ins.map (held t)).sum < 10 ^ 99 := by
        intro t
        have h1 := hW.sums t
        rw [List.map_append, List.sum_append, (hL.perm.map (held t)).sum_eq, List.map_append, List.sum_append] at h1
        exact h1
      have hmain : ∀ l : List Utxo, l.map (held mainToken) = l.map (·.value) := by
        intro l
        apply List.map_congr_left
        intro u _
        simp [held]
      have hasset : ∀ t, t ≠ mainToken → ∀ l : List Utxo, (l.map (held t)).sum = assetIn t l := by
        intro t ht l
        unfold assetIn
        congr 1
        apply List.map_congr_left
        intro u _
        simp [held, ht, assetSum]
      have houtA : ∀ t, 0 ≤ assetOut t outs := by
        intro t
        apply List.sum_nonneg
        intro x hx
        obtain ⟨o, ho, rfl⟩ := List.mem_map.mp hx
        exact assetSum_nonneg (fun a ha => ((hW.outs o ho).2 a ha).nonneg) t
      have houtV : 0 ≤ (outs.map (·.value)).sum := by
        apply List.sum_nonneg
        intro x hx
        obtain ⟨o, ho, rfl⟩ := List.mem_map.mp hx
        exact (hW.outs o ho).1.nonneg
      have htot : ∀ t total, st5.balanceOf t = some total → total = (L.map (held t)).sum := by
        intro t total h
        rw [balanceOf_left hL.store] at h
        split at h
        · exact (Option.some.inj h).symm
        · cases h
      have hLs : ∀ t, Whole (L.map (held t)).sum ∧ 0 ≤ (L.map (held t)).sum := by
        intro t
        refine ⟨whole_sum _ ?_, sumNN t L (fun u hu => by simp [hLm u hu])⟩
        intro x hx
        obtain ⟨u, hu, rfl⟩ := List.mem_map.mp hx
        exact (held_nonneg (hW.utxos u (by simp [hLm u hu])) t).1
      have key := splits_exact (W := W) hd.rightDiv hfees hW.keeps (st := st5) (ts := W.changeOrder s5.changes.keys)
        ((hC.changeOrder _).nodup_iff.mpr hn) (s := s5) hw.est (by
          intro t _ o ho
          have hwo := hw.changes t o ho
          rcases hcs t o ho with ⟨e1, e2, e3⟩ | ⟨rfl, e2, e3, e4⟩
          · have ht : t ≠ mainToken := fun e => e1 (by rw [e]; exact hC.main.symm)
            obtain ⟨a, a1, a2, _, a3⟩ := e2.asset
            have hqa : a.quantity = assetIn t ins - assetOut t outs + assetIn t s5.selected := by
              have : assetSum t o.assets = a.quantity := by simp [a1, assetSum, a2]
              rw [← this, ← e3]
              rfl
            have h1 := hall t
            simp only [hasset t ht] at h1
            have h2 := houtA t
            have h3 := (hLs t).2
            rw [hasset t ht] at h3
            refine ⟨hwo, le_trans hW.bounds.1.nonneg e2.low, lt_of_le_of_lt e2.high hW.bounds.2.2.2, ?_, ?_⟩
            · intro b hb
              rw [a1, List.mem_singleton] at hb
              subst hb
              exact ⟨a3.le, by linarith⟩
            · intro total h
              rw [htot t total h]
              refine ⟨(hLs t).1, (hLs t).2, ?_, ?_⟩
              · intro b hb
                rw [a1, List.mem_singleton] at hb
                subst hb
                rw [hasset t ht]
                linarith
              · intro h; rw [a1] at h; cases h
          · have hm : W.noSplit.cfg.main = mainToken := hC.main
            have h1 := hall mainToken
            have h3 := (hLs mainToken).2
            simp only [hmain] at h1 h3
            refine ⟨hwo, e3, by linarith, by intro a ha; rw [e2] at ha; simp at ha, ?_⟩
            intro total h
            rw [htot _ total h, hm]
            refine ⟨(hLs _).1, (hLs _).2, by intro a ha; rw [e2] at ha; simp at ha, ?_⟩
            intro _
            rw [hmain]
            linarith)
      simp only [Except.bind]
      rw [key]
      rfl
  unfold thermostat
  rw [hsel]
  rfl

/-- For example, no assets are lost (C49) with the division of the code. -/
theorem C99_assets {avail : List Utxo} (hC : THCase W avail st ins outs) {I : σ → Prop}
    (hW : WholeRequest E I est W avail ins outs) (hd : RightForWhole W.div)
    (hfee : ∀ s o f, E.feeOut s o = .ok f → 0 ≤ f ∧ f < ((W.cfg.min / 2).floor : ℚ))
    (h : thermostat E W st est (Setup.fromFixed ins outs ch) = (.ok (r, est'), st')) (t : Token) :
    assetIn t ins + assetIn t r.chosen = assetOut t outs + assetOut t r.changes := by
  rw [C99_thermostat hC hW hd] at h
  exact C49_assets_partial (W := { W with div := fun q n => q / n })
    ⟨hC.ord, hC.keyOrder, hC.changeOrder, hC.store, hC.main, hC.noMain⟩ hW.bounds.2.2.1 (fun _ => by simp) hfee h t

/-- The hypotheses hold in the case `th_sample`, in which both changes are split, with the division of the code. -/
example : thView thE (thermostat thE { thW {} with div := bigDiv } (thStore thAvail) thEst
    (Setup.fromFixed [] thOuts (some 5))) =
    (some ⟨195729, some 195729, [1],
      [(99996678, [(7, 45)]), (144905458, []), (99996678, [(7, 45)]), (144905457, [])]⟩, [2]) := by
  have hC := th_sample_case
  have nat : ∀ q : ℚ, 0 ≤ q.num → q.den = 1 → WholeAmount q := fun q h0 h1 => ⟨q.num.toNat, by
    have := Rat.num_div_den q
    rw [h1] at this
    rw [← this]
    have h2 : ((q.num.toNat : ℤ)) = q.num := Int.toNat_of_nonneg h0
    simp only [Nat.cast_one, div_one, Rat.num_intCast]
    exact_mod_cast h2.symm⟩
  rw [C99_thermostat (W := { thW {} with div := bigDiv }) (avail := thAvail) (I := fun s => s.costMetadata = 0)
    ⟨hC.ord, hC.keyOrder, hC.changeOrder, hC.store, hC.main, hC.noMain⟩ ?_ bigDiv_right]
  · exact th_sample
  · refine ⟨?_, ?_, ?_, ?_, ⟨?_, ?_, ?_⟩, rfl, ?_, ?_, ?_⟩
    · intro u hu
      simp only [thAvail, List.append_nil, List.mem_cons, List.not_mem_nil, or_false] at hu
      rcases hu with rfl | rfl
      all_goals
        refine ⟨⟨500000000, by norm_num⟩, ?_⟩
        intro a ha
        simp only [List.mem_singleton] at ha
        subst ha
        exact ⟨100, by norm_num⟩
    · intro o ho
      simp only [thOuts, List.mem_singleton] at ho
      subst ho
      refine ⟨⟨10000000, by norm_num⟩, ?_⟩
      intro a ha
      simp only [List.mem_singleton] at ha
      subst ha
      exact ⟨10, by norm_num⟩
    · intro t
      by_cases h : t = mainToken
      · simp [thAvail, held, h]; norm_num
      · by_cases h7 : 7 = t
        · simp [thAvail, held, h, h7]; norm_num
        · simp [thAvail, held, h, h7]
    · exact ⟨nat _ (by decide +kernel) (by decide +kernel), nat _ (by decide +kernel) (by decide +kernel),
        by decide +kernel, by decide +kernel⟩
    · rintro s u s' hs he; cases he; exact hs
    · rintro s o s' hs he; cases he; exact hs
    · rintro s o v s' hs he; cases he; exact hs
    · rintro s f hs he
      cases he
      simp only [hs, thCosts]
      exact ⟨167481 + 6644 * s.outputs.length + 1672 * s.inputs.length, by push_cast; ring⟩
    · rintro s o f hs he; cases he; exact ⟨⟨6644, by norm_num [thCosts]⟩, by norm_num [thCosts]⟩
    · rintro s o v s' hs he; cases he; exact ⟨1000000, by norm_num⟩

end Verif.Props
