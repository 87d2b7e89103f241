import Verif.Selection.Alike
import Verif.Selection.ThermostatComplete
import Verif.Selection.ThermostatKeep
import Verif.Selection.ThermostatDiv
import Verif.Props.ThermostatSplit

/-!
# Thermostat runs that differ in the order of hash maps

Two runs over stores whose UTxOs hold the same, compared step by step.
-/

namespace Verif.Selection.Thermostat

open Verif Verif.Core Verif.Props

/-- What a UTxO holds. -/
def content (u : Utxo) : ℚ × List Asset := (u.value, u.assets)

variable {σ : Type} {E : Estimator σ} {W : World} {req : Request}

/-! ### States that look the same -/

/-- The estimator only looks at what an input holds. `R` relates states it reads the same way. -/
structure SeesContent (E : Estimator σ) (R : σ → σ → Prop) : Prop where
  minFee : ∀ s s', R s s' → E.minFee s = E.minFee s'
  feeIn : ∀ s s' u w, R s s' → content u = content w → E.feeIn s u = E.feeIn s' w
  addIn : ∀ s s' u w, R s s' → content u = content w → Both R (E.addIn s u) (E.addIn s' w)
  feeOut : ∀ s s' o, R s s' → E.feeOut s o = E.feeOut s' o
  addOut : ∀ s s' o, R s s' → Both R (E.addOut s o) (E.addOut s' o)
  minValueOut : ∀ s s' o, R s s' → Both (fun x y => x.1 = y.1 ∧ R x.2 y.2) (E.minValueOut s o) (E.minValueOut s' o)
  currentSize : ∀ s s', R s s' → E.currentSize s = E.currentSize s'
  maxSize : ∀ s s', R s s' → E.maxSize s = E.maxSize s'

/-- States of two runs. -/
structure SameState (R : σ → σ → Prop) (s s' : TS σ) : Prop where
  est : R s.est s'.est
  changes : s'.changes = s.changes
  extra : s'.extra = s.extra
  balance : s'.balance = s.balance
  assets : s'.assets = s.assets
  selected : s.selected.map content = s'.selected.map content

variable {R : σ → σ → Prop}

theorem currentBalance_same (hE : SeesContent E R) {s s' : TS σ} (h : SameState R s s') :
    currentBalance E s = currentBalance E s' := by
  unfold currentBalance
  rw [hE.minFee _ _ h.est, h.balance]

theorem openChange_same (hE : SeesContent E R) (t : Token) (a : Nat) (w : ℚ) {s s' : TS σ} (h : SameState R s s') :
    Both (fun x y => SameState R x.1 y.1 ∧ x.2 = y.2) (openChange E t a w s) (openChange E t a w s') := by
  unfold openChange
  rw [h.changes, h.balance]
  cases s.changes.get t with
  | some o => exact ⟨⟨h.est, rfl, h.extra, rfl, h.assets, h.selected⟩, rfl⟩
  | none =>
    refine Both.bind (hE.minValueOut _ _ _ h.est) ?_
    rintro ⟨need, e⟩ ⟨need', e'⟩ ⟨h1, h2⟩
    simp only at h1 h2
    subst h1
    simp only
    refine Both.bind (Both.of_eq (hE.feeOut _ _ _ h2)) ?_
    intro f _ hf
    subst hf
    refine Both.bind (hE.addOut _ _ _ h2) ?_
    intro e1 e2 h3
    exact ⟨⟨h3, rfl, h.extra, rfl, h.assets, h.selected⟩, rfl⟩

theorem addToChange_ids {st1 st2 : UStore} (h : ∀ t, st1.getAssetIds t = st2.getAssetIds t) (t : Token) (x : ℚ)
    (o : Output) : addToChange st1 t x o = addToChange st2 t x o := by
  unfold addToChange
  rw [h]

theorem balanceExcessOf_states (hE : SeesContent E R) {st1 st2 : UStore} (hi : ∀ t, st1.getAssetIds t = st2.getAssetIds t)
    (t : Token) {s s' : TS σ} (h : SameState R s s') :
    Both (SameState R) (balanceExcessOf E W req st1 t s) (balanceExcessOf E W req st2 t s') := by
  unfold balanceExcessOf
  have e1 : currentOf W s' t = currentOf W s t := by unfold currentOf; rw [h.assets]
  rw [e1]
  cases currentOf W s t with
  | error e => exact rfl
  | ok b =>
    cases b with
    | excess x =>
      simp only
      cases req.address with
      | none => exact rfl
      | some a =>
        refine Both.bind (Both.of_eq (currentBalance_same hE h)) ?_
        intro b _ hb
        subst hb
        refine Both.bind (openChange_same hE t a _ h) ?_
        rintro ⟨s1, o1⟩ ⟨s2, o2⟩ ⟨h1, h2⟩
        simp only at h1 h2
        subst h2
        simp only
        refine Both.bind (Both.of_eq (addToChange_ids hi t x o1)) ?_
        intro o2 _ ho
        subst ho
        rw [h1.balance]
        exact ⟨h1.est, by simp only [h1.changes], h1.extra, rfl, by simp only [h1.assets], h1.selected⟩
    | balanced => exact h
    | debt x => exact h

theorem balanceExcess_states (hE : SeesContent E R) {s s' : TS σ} (h : SameState R s s') :
    Both (SameState R) (balanceExcess E W req s) (balanceExcess E W req s') := by
  unfold balanceExcess
  refine Both.bind (Both.of_eq (currentBalance_same hE h)) ?_
  intro b _ hb
  subst hb
  cases b with
  | excess x =>
    simp only
    cases req.address with
    | none => exact rfl
    | some a =>
      simp only
      rw [h.changes, h.balance]
      cases s.changes.get W.cfg.main with
      | some o => exact ⟨h.est, rfl, h.extra, rfl, h.assets, h.selected⟩
      | none =>
        simp only
        refine Both.bind (hE.minValueOut _ _ _ h.est) ?_
        rintro ⟨need, e⟩ ⟨need', e'⟩ ⟨h1, h2⟩
        simp only at h1 h2
        subst h1
        simp only
        split
        · exact ⟨h2, rfl, h.extra, rfl, h.assets, h.selected⟩
        · refine Both.bind (Both.of_eq (hE.feeOut _ _ _ h2)) ?_
          intro f _ hf
          subst hf
          split
          · exact ⟨h2, rfl, h.extra, rfl, h.assets, h.selected⟩
          · refine Both.bind (hE.addOut _ _ _ h2) ?_
            intro e1 e2 h3
            exact ⟨h3, rfl, h.extra, rfl, h.assets, h.selected⟩
  | balanced => exact h
  | debt x => exact h

theorem splitOne_states (hE : SeesContent E R) {st1 st2 : UStore} (t : Token) (hb : st1.balanceOf t = st2.balanceOf t)
    {s s' : TS σ} (h : SameState R s s') :
    Both (SameState R) (splitOne E W st1 t s) (splitOne E W st2 t s') := by
  unfold splitOne
  rw [h.changes, hb]
  cases s.changes.get t with
  | none => exact h
  | some ch =>
    cases st2.balanceOf t with
    | none => exact h
    | some total =>
      simp only
      cases ch.assets with
      | cons a rest =>
        simp only [splitAsset]
        refine Both.bind (Both.of_eq rfl) ?_
        intro pv _ hpv
        subst hpv
        split
        · refine Both.bind (Both.of_eq (hE.feeOut _ _ _ h.est)) ?_
          intro f _ hf
          subst hf
          split
          · exact ⟨h.est, by simp only [h.changes], h.extra, h.balance, h.assets, h.selected⟩
          · refine Both.bind (hE.addOut _ _ _ h.est) ?_
            intro e1 e2 h3
            exact ⟨h3, by simp only [h.changes], by simp only [h.extra], by simp only [h.balance], h.assets, h.selected⟩
        · exact h
      | nil =>
        simp only
        split
        · simp only [splitMain]
          refine Both.bind (Both.of_eq rfl) ?_
          intro pv _ hpv
          subst hpv
          refine Both.bind (Both.of_eq (hE.feeOut _ _ _ h.est)) ?_
          intro f _ hf
          subst hf
          split
          · exact h
          · split
            · refine Both.bind (hE.addOut _ _ _ h.est) ?_
              intro e1 e2 h3
              exact ⟨h3, by simp only [h.changes], by simp only [h.extra], by simp only [h.balance], h.assets, h.selected⟩
            · exact h
        · exact h

/-! ### Two runs -/

/-- The states of two runs: what they hold is the same, and so is what is left. -/
structure SameTS (R : σ → σ → Prop) (avail : List Utxo) (x y : TS σ × UStore) : Prop where
  state : SameState R x.1 y.1
  stores : ∃ L1 L2, L1 ⊆ avail ∧ StoreOK L1 x.2 ∧ StoreOK L2 y.2 ∧ (L1.map content).Perm (L2.map content)
  ids : ∀ t, x.2.getAssetIds t = y.2.getAssetIds t

/-- Ties among the UTxOs that only hold a token hold the same. -/
def Ties (avail : List Utxo) (t : Token) : Prop :=
  ∀ u ∈ avail, ∀ w ∈ avail, Plain t u → Plain t w → amountOf t u ≠ none → amountOf t u = amountOf t w →
    content u = content w

theorem candidate_max (ho : ∀ l, (W.ord l).Perm l) {L : List Utxo} {st : UStore} (h : StoreOK L st)
    {t : Token} {u : Utxo} (hc : candidate W st t = some u) {w : Utxo} (hw : w ∈ holders t L) (hp : Plain t w) :
    (amountOf t w).getD 0 ≤ (amountOf t u).getD 0 := by
  unfold candidate at hc
  obtain ⟨_, as, bs, hl, hn⟩ := List.find?_eq_some_iff_append.mp hc
  have hs := descending_sorted ho h t
  have hm := (descending_perm ho h t).mem_iff.mpr hw
  rw [hl] at hs hm
  rcases List.mem_append.mp hm with hm | hm
  · have := hn w hm
    simp only [Bool.not_eq_true', Bool.and_eq_false_iff, decide_eq_false_iff_not, List.all_eq_false, decide_eq_true_eq] at this
    rcases this with h1 | ⟨a, ha, h1⟩
    · exact absurd hp.1 h1
    · exact absurd (hp.2 a ha) h1
  · rcases List.mem_cons.mp hm with rfl | hm
    · exact le_refl _
    · exact (List.pairwise_cons.mp (List.pairwise_append.mp hs).2.1).1 w hm

theorem amountOf_content {t : Token} {u w : Utxo} (h : content u = content w) : amountOf t u = amountOf t w := by
  have h1 : u.value = w.value := congrArg Prod.fst h
  have h2 : u.assets = w.assets := congrArg Prod.snd h
  simp [amountOf, h1, h2]

theorem plain_content {t : Token} {u w : Utxo} (h : content u = content w) : Plain t u ↔ Plain t w := by
  have h2 : u.assets = w.assets := congrArg Prod.snd h
  simp [Plain, h2]

/-- The same configuration with other hash maps. -/
def reorder (W : World) (o : List Utxo → List Utxo) (k c : List Token → List Token) : World :=
  { W with ord := o, keyOrder := k, changeOrder := c }

variable {o : List Utxo → List Utxo} {k c : List Token → List Token} {avail : List Utxo}

theorem candidate_same (ho1 : ∀ l, (W.ord l).Perm l) (ho2 : ∀ l, (o l).Perm l) {L1 L2 : List Utxo} {st1 st2 : UStore}
    (h1 : StoreOK L1 st1) (h2 : StoreOK L2 st2) (hp : (L1.map content).Perm (L2.map content)) {t : Token}
    (ht : Ties L1 t) :
    (candidate W st1 t = none ∧ candidate (reorder W o k c) st2 t = none) ∨
    ∃ u1 u2, candidate W st1 t = some u1 ∧ candidate (reorder W o k c) st2 t = some u2 ∧ content u1 = content u2 ∧
      u1 ∈ L1 ∧ u2 ∈ L2 := by
  have ho2' : ∀ l, ((reorder W o k c).ord l).Perm l := ho2
  have hmv : ∀ {A B : List Utxo}, (A.map content).Perm (B.map content) → ∀ u ∈ holders t A, Plain t u →
      ∃ w ∈ holders t B, Plain t w := by
    intro A B hp u hu hpu
    obtain ⟨w, hw, e⟩ := List.mem_map.mp (hp.mem_iff.mp (List.mem_map.mpr ⟨u, (mem_holders.mp hu).1, rfl⟩))
    exact ⟨w, mem_holders.mpr ⟨hw, by rw [amountOf_content e]; exact (mem_holders.mp hu).2⟩, (plain_content e).mpr hpu⟩
  cases e1 : candidate W st1 t with
  | none =>
    cases e2 : candidate (reorder W o k c) st2 t with
    | none => exact Or.inl ⟨rfl, rfl⟩
    | some u2 =>
      obtain ⟨a, b⟩ := candidate_spec ho2' h2 e2
      obtain ⟨w, hw, hpw⟩ := hmv hp.symm u2 a b
      exact absurd hpw (no_candidate ho1 h1 e1 hw)
  | some u1 =>
    obtain ⟨a1, b1⟩ := candidate_spec ho1 h1 e1
    cases e2 : candidate (reorder W o k c) st2 t with
    | none =>
      obtain ⟨w, hw, hpw⟩ := hmv hp u1 a1 b1
      exact absurd hpw (no_candidate ho2' h2 e2 hw)
    | some u2 =>
      obtain ⟨a2, b2⟩ := candidate_spec ho2' h2 e2
      refine Or.inr ⟨u1, u2, rfl, rfl, ?_, (mem_holders.mp a1).1, (mem_holders.mp a2).1⟩
      apply same_largest hp (p := fun u => (amountOf t u).isSome ∧ Plain t u) (f := fun u => (amountOf t u).getD 0)
        (fun u w e => by simp [amountOf_content (t := t) e, plain_content (t := t) e]) ?_
        (mem_holders.mp a1).1 ⟨(mem_holders.mp a1).2, b1⟩
        (fun w hw pw => candidate_max ho1 h1 e1 (mem_holders.mpr ⟨hw, pw.1⟩) pw.2)
        (mem_holders.mp a2).1 ⟨(mem_holders.mp a2).2, b2⟩
        (fun w hw pw => candidate_max ho2' h2 e2 (mem_holders.mpr ⟨hw, pw.1⟩) pw.2)
      intro u hu w hw pu pw e
      obtain ⟨x, hx⟩ := Option.isSome_iff_exists.mp pu.1
      obtain ⟨y, hy⟩ := Option.isSome_iff_exists.mp pw.1
      refine ht u hu w hw pu.2 pw.2 (by simp [hx]) ?_
      simp only [hx, hy, Option.getD_some] at e ⊢
      rw [e]

theorem selectInput_same (hE : SeesContent E R) (ho1 : ∀ l, (W.ord l).Perm l) (ho2 : ∀ l, (o l).Perm l)
    {t : Token} (ht : Ties avail t) {s1 s2 : TS σ} {st1 st2 : UStore} (h : SameTS R avail (s1, st1) (s2, st2)) :
    (∃ e, selectInput E W st1 t s1 = (s1, .error e) ∧
      selectInput E (reorder W o k c) st2 t s2 = (s2, .error e)) ∨
    ∃ s1' st1' s2' st2', selectInput E W st1 t s1 = (s1', .ok st1') ∧
      selectInput E (reorder W o k c) st2 t s2 = (s2', .ok st2') ∧ SameTS R avail (s1', st1') (s2', st2') := by
  have hst := h.state
  obtain ⟨L1, L2, hL, k1, k2, hp⟩ := h.stores
  simp only at hst k1 k2
  unfold selectInput
  rcases candidate_same (W := W) (o := o) (k := k) (c := c) ho1 ho2 k1 k2 hp
    (fun u hu w hw => ht u (hL hu) w (hL hw)) with ⟨c1, c2⟩ | ⟨u1, u2, c1, c2, e, m1, m2⟩
  · left; exact ⟨.noInput, by simp [c1], by simp [c2]⟩
  · have ha := hE.addIn _ _ _ _ hst.est e
    simp only [c1, c2]
    revert ha
    cases E.addIn s1.est u1 with
    | error x => cases E.addIn s2.est u2 with
      | error y => intro ha; cases ha; left; exact ⟨x, rfl, rfl⟩
      | ok y => exact False.elim
    | ok e1 => cases E.addIn s2.est u2 with
      | error y => exact False.elim
      | ok e2 =>
        intro ha
        right
        obtain ⟨st1', r1, j1⟩ := remove_of_mem k1 m1
        obtain ⟨st2', r2, j2⟩ := remove_of_mem k2 m2
        simp only [r1, r2]
        have h1 : u1.value = u2.value := congrArg Prod.fst e
        have h2 : u1.assets = u2.assets := congrArg Prod.snd e
        refine ⟨_, _, _, _, rfl, rfl, ⟨ha, hst.changes, hst.extra, ?_, ?_, ?_⟩, ⟨_, _, ?_, j1, j2, ?_⟩, ?_⟩
        · simp only [addInput, hst.balance, h1]
        · simp only [addInput, hst.assets, h2]
        · simp only [addInput, List.map_append, hst.selected, List.map_cons, List.map_nil, e]
        · intro u hu; exact hL (List.mem_filter.mp hu).1
        · exact same_rest k1.contents.nodup k2.contents.nodup hp m1 m2 e
        · intro t
          rw [ids_remove _ _ _ r1 (fun t => rfl), ids_remove _ _ _ r2 (fun t => rfl)]
          exact h.ids t

theorem untilAsset_same (hE : SeesContent E R) (ho1 : ∀ l, (W.ord l).Perm l) (ho2 : ∀ l, (o l).Perm l)
    {t : Token} (ht : Ties avail t) (fuel : Nat) : ∀ {s1 s2 : TS σ} {st1 st2 : UStore}
    (_ : SameTS R avail (s1, st1) (s2, st2)),
    Both (SameTS R avail) (untilAsset E W t fuel s1 st1) (untilAsset E (reorder W o k c) t fuel s2 st2) := by
  induction fuel with
  | zero =>
    intro s1 s2 st1 st2 h
    unfold untilAsset
    have hc : currentOf (reorder W o k c) s2 t = currentOf W s1 t := by
      have := h.state.assets
      simp only at this
      unfold currentOf; rw [this]; rfl
    rw [hc]
    cases currentOf W s1 t with
    | error e => exact rfl
    | ok b => cases b <;> first | exact rfl | exact h
  | succ fuel ih =>
    intro s1 s2 st1 st2 h
    unfold untilAsset
    have hc : currentOf (reorder W o k c) s2 t = currentOf W s1 t := by
      have := h.state.assets
      simp only at this
      unfold currentOf; rw [this]; rfl
    rw [hc]
    cases currentOf W s1 t with
    | error e => exact rfl
    | ok b =>
      cases b with
      | debt d =>
        simp only
        rcases selectInput_same (k := k) (c := c) hE ho1 ho2 ht h with ⟨e, e1, e2⟩ | ⟨a1, b1, a2, b2, e1, e2, h'⟩
        · simp only [e1, e2]; exact rfl
        · simp only [e1, e2]; exact ih h'
      | excess x => exact h
      | balanced => exact h

theorem untilMain_same (hE : SeesContent E R) (ho1 : ∀ l, (W.ord l).Perm l) (ho2 : ∀ l, (o l).Perm l)
    (ht : Ties avail W.cfg.main) (fuel : Nat) : ∀ {s1 s2 : TS σ} {st1 st2 : UStore}
    (_ : SameTS R avail (s1, st1) (s2, st2)),
    Both (SameTS R avail) (untilMain E W fuel s1 st1) (untilMain E (reorder W o k c) fuel s2 st2) := by
  induction fuel with
  | zero =>
    intro s1 s2 st1 st2 h
    unfold untilMain
    have hc : currentBalance E s2 = currentBalance E s1 := (currentBalance_same hE h.state).symm
    rw [hc]
    cases currentBalance E s1 with
    | error e => exact rfl
    | ok b => cases b <;> first | exact rfl | exact h
  | succ fuel ih =>
    intro s1 s2 st1 st2 h
    unfold untilMain
    have hc : currentBalance E s2 = currentBalance E s1 := (currentBalance_same hE h.state).symm
    rw [hc]
    cases currentBalance E s1 with
    | error e => exact rfl
    | ok b =>
      cases b with
      | debt d =>
        simp only
        have hm : (reorder W o k c).cfg.main = W.cfg.main := rfl
        rw [hm]
        rcases selectInput_same (k := k) (c := c) hE ho1 ho2 ht h with ⟨e, e1, e2⟩ | ⟨a1, b1, a2, b2, e1, e2, h'⟩
        · simp only [e1, e2]; exact rfl
        · simp only [e1, e2]; exact ih h'
      | excess x => exact h
      | balanced => exact h

theorem balanceExcessOf_same (hE : SeesContent E R) (t : Token) {s1 s2 : TS σ} {st1 st2 : UStore}
    (h : SameTS R avail (s1, st1) (s2, st2)) :
    Both (fun a b => SameTS R avail (a, st1) (b, st2)) (balanceExcessOf E W req st1 t s1)
      (balanceExcessOf E (reorder W o k c) req st2 t s2) :=
  Both.mono (fun _ _ hs => ⟨hs, h.stores, h.ids⟩) (balanceExcessOf_states (W := W) hE h.ids t h.state)

theorem balanceExcess_same (hE : SeesContent E R) {s1 s2 : TS σ} {st1 st2 : UStore}
    (h : SameTS R avail (s1, st1) (s2, st2)) :
    Both (fun a b => SameTS R avail (a, st1) (b, st2)) (balanceExcess E W req s1)
      (balanceExcess E (reorder W o k c) req s2) :=
  Both.mono (fun _ _ hs => ⟨hs, h.stores, h.ids⟩) (balanceExcess_states (W := W) hE h.state)

theorem balanceOf_same {x y : TS σ × UStore} (h : SameTS R avail x y) (t : Token) : x.2.balanceOf t = y.2.balanceOf t := by
  obtain ⟨L1, L2, _, k1, k2, hp⟩ := h.stores
  rw [balanceOf_left k1, balanceOf_left k2]
  let g : ℚ × List Asset → ℚ := fun c => held t ⟨0, c.1, c.2, 0⟩
  have hg : ∀ L : List Utxo, L.map (held t) = (L.map content).map g := by
    intro L; rw [List.map_map]; rfl
  rw [hg, hg, (hp.map g).sum_eq]
  have hh : ∀ {A B : List Utxo}, (A.map content).Perm (B.map content) → (∃ u ∈ A, Holds t u) → ∃ u ∈ B, Holds t u := by
    rintro A B hp ⟨u, hu, hH⟩
    obtain ⟨w, hw, e⟩ := List.mem_map.mp (hp.mem_iff.mp (List.mem_map.mpr ⟨u, hu, rfl⟩))
    refine ⟨w, hw, ?_⟩
    have h2 : w.assets = u.assets := congrArg Prod.snd e
    unfold Holds; rw [h2]; exact hH
  by_cases hx : ∃ u ∈ L1, Holds t u
  · rw [if_pos hx, if_pos (hh hp hx)]
  · rw [if_neg hx, if_neg (fun h => hx (hh hp.symm h))]

theorem splitOne_same (hE : SeesContent E R) (t : Token) {s1 s2 : TS σ} {st1 st2 : UStore}
    (h : SameTS R avail (s1, st1) (s2, st2)) :
    Both (fun a b => SameTS R avail (a, st1) (b, st2)) (splitOne E W st1 t s1)
      (splitOne E (reorder W o k c) st2 t s2) :=
  Both.mono (fun _ _ hs => ⟨hs, h.stores, h.ids⟩) (splitOne_states (W := W) hE t (balanceOf_same h t) h.state)

theorem forTokens_same {st1 st2 : UStore} {f g : Token → TS σ → Except SelErr (TS σ)}
    (hfg : ∀ t s1 s2, SameTS R avail (s1, st1) (s2, st2) →
      Both (fun a b => SameTS R avail (a, st1) (b, st2)) (f t s1) (g t s2)) : ∀ (ts : List Token) {s1 s2 : TS σ},
    SameTS R avail (s1, st1) (s2, st2) →
      Both (fun a b => SameTS R avail (a, st1) (b, st2)) (forTokens f ts s1) (forTokens g ts s2)
  | [], _, _, h => h
  | t :: ts, s1, s2, h => by
    unfold forTokens
    have hb := hfg t s1 s2 h
    cases e1 : f t s1 with
    | error x => cases e2 : g t s2 with
      | error y => rw [e1, e2] at hb; exact hb
      | ok y => rw [e1, e2] at hb; exact hb.elim
    | ok x => cases e2 : g t s2 with
      | error y => rw [e1, e2] at hb; exact hb.elim
      | ok y => rw [e1, e2] at hb; exact forTokens_same hfg ts hb

theorem round1_same (hE : SeesContent E R) (ho1 : ∀ l, (W.ord l).Perm l) (ho2 : ∀ l, (o l).Perm l) (fuel : Nat) :
    ∀ (ts : List Token) (_ : ∀ t ∈ ts, Ties avail t) {s1 s2 : TS σ} {st1 st2 : UStore}
    (_ : SameTS R avail (s1, st1) (s2, st2)),
    Both (SameTS R avail) (round1 E W req fuel ts s1 st1) (round1 E (reorder W o k c) req fuel ts s2 st2)
  | [], _, _, _, _, _, h => h
  | t :: ts, ht, s1, s2, st1, st2, h => by
    unfold round1
    have hb := untilAsset_same (k := k) (c := c) hE ho1 ho2 (ht t (by simp)) fuel h
    revert hb
    generalize untilAsset E W t fuel s1 st1 = x1
    generalize untilAsset E (reorder W o k c) t fuel s2 st2 = x2
    intro hb
    cases x1 with
    | error x => cases x2 with
      | error y => exact hb
      | ok y => exact hb.elim
    | ok x => cases x2 with
      | error y => exact hb.elim
      | ok y =>
        obtain ⟨a1, b1⟩ := x
        obtain ⟨a2, b2⟩ := y
        simp only
        have hb' := balanceExcessOf_same (E := E) (W := W) (req := req) (o := o) (k := k) (c := c) hE t hb
        revert hb'
        generalize balanceExcessOf E W req b1 t a1 = x1
        generalize balanceExcessOf E (reorder W o k c) req b2 t a2 = x2
        intro hb'
        cases x1 with
        | error x => cases x2 with
          | error y => exact hb'
          | ok y => exact hb'.elim
        | ok x => cases x2 with
          | error y => exact hb'.elim
          | ok y => exact round1_same hE ho1 ho2 fuel ts (fun t h => ht t (by simp [h])) hb'

theorem remaining_same (hE : SeesContent E R) {x y : TS σ × UStore} (h : SameTS R avail x y) :
    remaining E (reorder W o k c) req y.1 = remaining E W req x.1 := by
  have hst := h.state
  unfold remaining
  have hd : (reorder W o k c).debug = W.debug := rfl
  rw [hd, hst.assets]
  cases req.outputs.head? with
  | none => rfl
  | some out =>
    simp only [orErr, bind, Except.bind, ← hE.feeOut _ _ _ hst.est, ← hE.maxSize _ _ hst.est,
      ← hE.currentSize _ _ hst.est]
    have hs := hst.selected
    cases hx : x.1.selected with
    | nil =>
      rw [hx] at hs
      have : y.1.selected = [] := by simpa using hs.symm
      rw [this]; rfl
    | cons u us =>
      rw [hx] at hs
      cases hy : y.1.selected with
      | nil => rw [hy] at hs; simp at hs
      | cons w ws =>
        rw [hy] at hs
        simp only [List.map_cons, List.cons.injEq] at hs
        simp only [List.head?_cons, hE.feeIn _ _ _ _ hst.est hs.1]

theorem number_same {x y : TS σ × UStore} (h : SameTS R avail x y) (t : Token) :
    y.2.numberUtxosForToken t = x.2.numberUtxosForToken t := by
  obtain ⟨L1, L2, _, k1, k2, hp⟩ := h.stores
  rw [number_eq k1, number_eq k2]
  let g : ℚ × List Asset → Bool := fun c => (amountOf t ⟨0, c.1, c.2, 0⟩).isSome
  have hg : ∀ L : List Utxo, (holders t L).length = ((L.map content).filter g).length := by
    intro L; rw [List.filter_map, List.length_map]; rfl
  rw [hg, hg]
  exact ((hp.filter g).length_eq).symm

theorem fill_same (hE : SeesContent E R) (ho1 : ∀ l, (W.ord l).Perm l) (ho2 : ∀ l, (o l).Perm l) {toks : List Token}
    (ht : ∀ t ∈ toks, Ties avail t) (fuel : Nat) : ∀ (empty : List Bool) (ix : Nat) {s1 s2 : TS σ} {st1 st2 : UStore}
    (_ : SameTS R avail (s1, st1) (s2, st2)),
    Both (SameTS R avail) (fill E W req toks fuel empty ix s1 st1)
      (fill E (reorder W o k c) req toks fuel empty ix s2 st2) := by
  induction fuel with
  | zero =>
    intro empty ix s1 s2 st1 st2 h
    unfold fill
    have := remaining_same (W := W) (req := req) (o := o) (k := k) (c := c) hE h
    simp only at this
    rw [this]
    cases remaining E W req s1 with
    | error e => exact rfl
    | ok n => cases n with
      | zero => exact h
      | succ n => exact rfl
  | succ fuel ih =>
    intro empty ix s1 s2 st1 st2 h
    unfold fill
    have hr := remaining_same (W := W) (req := req) (o := o) (k := k) (c := c) hE h
    simp only at hr
    rw [hr]
    cases remaining E W req s1 with
    | error e => exact rfl
    | ok n => cases n with
      | zero => exact h
      | succ n =>
        simp only
        cases hi : toks[ix]? with
        | none => exact rfl
        | some t =>
          cases empty[ix]? with
          | none => exact rfl
          | some flag =>
            simp only
            cases flag with
            | true =>
              simp only [Bool.true_eq_false, if_false]
              split
              · exact h
              · exact ih _ _ h
            | false =>
              simp only [if_true]
              have hn := number_same h t
              simp only at hn
              have hcfg : (reorder W o k c).cfg = W.cfg := rfl
              rw [hn, hcfg]
              split
              · exact ih _ _ h
              · rcases selectInput_same (k := k) (c := c) hE ho1 ho2 (ht t (List.mem_of_getElem? hi)) h with
                  ⟨e, e1, e2⟩ | ⟨a1, b1, a2, b2, e1, e2, h'⟩
                · simp only [e1, e2]
                  cases e <;> first | exact rfl | exact ih _ _ h
                · simp only [e1, e2]; exact ih _ _ h'

/-! ### The whole run -/

theorem select_same (hE : SeesContent E R) (ho1 : ∀ l, (W.ord l).Perm l) (ho2 : ∀ l, (o l).Perm l)
    {s1 s2 : TS σ} {st1 st2 : UStore} (hk : k s1.assets.keys = W.keyOrder s1.assets.keys)
    (hc : ∀ l, c l = W.changeOrder l) (hkp : ∀ l, (W.keyOrder l).Perm l)
    (ht : ∀ t ∈ s1.assets.keys, Ties avail t) (htm : Ties avail W.cfg.main)
    (h : SameTS R avail (s1, st1) (s2, st2)) :
    Both (SameTS R avail) (select E W req st1 s1) (select E (reorder W o k c) req st2 s2) := by
  have hlen : st2.len = st1.len := by
    obtain ⟨L1, L2, _, k1, k2, hp⟩ := h.stores
    rw [store_len k1, store_len k2]; simpa using hp.length_eq.symm
  have r1 : (reorder W o k c).keyOrder = k := rfl
  have r2 : (reorder W o k c).changeOrder = c := rfl
  have r3 : (reorder W o k c).cfg = W.cfg := rfl
  have e0 : s2.assets = s1.assets := h.state.assets
  unfold select
  simp only [hlen, r1, r2, r3, e0, hk, bind]
  have htk : ∀ t ∈ W.keyOrder s1.assets.keys, Ties avail t := fun t h => ht t ((hkp _).mem_iff.mp h)
  refine Both.bind (round1_same hE ho1 ho2 _ _ htk h) ?_
  rintro ⟨a1, b1⟩ ⟨a2, b2⟩ h1
  refine Both.bind (untilMain_same hE ho1 ho2 htm _ h1) ?_
  rintro ⟨a1, b1⟩ ⟨a2, b2⟩ h2
  have e2 : a2.assets = a1.assets := h2.state.assets
  simp only [e2]
  have htf : ∀ t ∈ (if a1.assets.isEmpty || (W.keyOrder s1.assets.keys).isEmpty
      then W.keyOrder s1.assets.keys ++ [W.cfg.main] else W.keyOrder s1.assets.keys), Ties avail t := by
    intro t
    split
    · intro h
      rcases List.mem_append.mp h with h | h
      · exact htk t h
      · rw [List.mem_singleton.mp h]; exact htm
    · exact htk t
  refine Both.bind (fill_same hE ho1 ho2 htf _ _ _ h2) ?_
  rintro ⟨a1', b1'⟩ ⟨a2', b2'⟩ h3
  have e3 : a2'.assets = a1'.assets := h3.state.assets
  simp only [e3]
  refine Both.bind (forTokens_same (fun t _ _ h => balanceExcessOf_same hE t h) _ h3) ?_
  intro s4 s4' h4
  refine Both.bind (balanceExcess_same hE h4) ?_
  intro s5 s5' h5
  have e5 : s5'.changes = s5.changes := h5.state.changes
  simp only [e5, hc]
  refine Both.bind (forTokens_same (fun t _ _ h => splitOne_same hE t h) _ h5) ?_
  intro s6 s6' h6
  exact h6

/-! ### Requests without assets -/

theorem Takes.changes_eq {T : Token → Prop} {s s' : TS σ} {st st' : UStore} (h : Takes E W T s st s' st') :
    s'.changes = s.changes := by
  induction h with
  | refl => rfl
  | head h _ ih => rw [ih]; cases h <;> rfl

/-- Without assets there is at most one change before the split. -/
theorem changes_plain {s s' : TS σ} {st st' : UStore} (hk : W.keyOrder [] = [])
    (h : select E W req st s = .ok (s', st')) (ha : s.assets = []) (hch : s.changes = []) (hn : ∀ l, W.changeOrder l = []) :
    s'.changes = [] ∨ ∃ x, s'.changes = [(W.cfg.main, x)] := by
  obtain ⟨s1, st1, s2, st2, s3, s4, s5, h1, h2, h3, h4, h5, h6⟩ := select_ok h
  have hks : W.keyOrder s.assets.keys = [] := by rw [ha]; exact hk
  rw [hks] at h1 h3 h4
  rw [hn] at h6
  cases h6
  simp only [round1] at h1
  cases h1
  have c2 := (untilMain_ok _ h2).1.changes_eq
  have c3 := h3.changes_eq
  have hl : lastTokens W s3.assets (fillTokens W s2.assets []) = [] := by
    simp [lastTokens, fillTokens]
  rw [hl] at h4
  cases h4
  have hc : s3.changes = [] := by rw [c3, c2, hch]
  obtain ⟨b, _, ⟨rfl, _⟩ | ⟨x, addr, _, hr, ⟨o, ho, rfl⟩ |
    ⟨hg, need, est, hneed, rfl | ⟨fee, est', hfee, hge, _, rfl⟩⟩⟩⟩ := balanceExcess_ok h5
  · exact Or.inl hc
  · rw [hc] at ho; simp at ho
  · exact Or.inl hc
  · right; exact ⟨_, by simp only [hc]; rfl⟩

/-- At most one change, for the main token. -/
def Single (W : World) (m : AMap Token Output) : Prop := m = [] ∨ ∃ x, m = [(W.cfg.main, x)]

theorem Single.insert {m : AMap Token Output} (h : Single W m) {t : Token} (ht : t ∈ m.keys) (x : Output) :
    Single W (m.insert t x) := by
  rcases h with rfl | ⟨y, rfl⟩
  · simp [AMap.keys] at ht
  · right
    simp only [AMap.keys, List.map_cons, List.map_nil, List.mem_singleton] at ht
    subst ht
    exact ⟨x, by simp [AMap.insert]⟩

theorem Single.order {m : AMap Token Output} (h : Single W m) {f g : List Token → List Token}
    (hf : ∀ l, (f l).Perm l) (hg : ∀ l, (g l).Perm l) : f m.keys = g m.keys := by
  rcases h with rfl | ⟨y, rfl⟩
  · have a := (hf []).eq_nil
    have b := (hg []).eq_nil
    simp only [AMap.keys, List.map_nil]
    rw [a, b]
  · have a := List.perm_singleton.mp (hf [W.cfg.main])
    have b := List.perm_singleton.mp (hg [W.cfg.main])
    simp only [AMap.keys, List.map_cons, List.map_nil]
    rw [a, b]

theorem splits_single {st : UStore} {ts : List Token} {s s' : TS σ} (h : forTokens (splitOne E W st) ts s = .ok s')
    (hs : Single W s.changes) : Single W s'.changes := by
  refine forTokens_inv (fun x => Single W x.changes) ?_ h hs
  intro t a b hab ha
  have hmem : ∀ ch, a.changes.get t = some ch → t ∈ a.changes.keys := by
    intro ch hch
    by_contra hn
    rw [(AMap.get_eq_none_iff _ _).mpr hn] at hch
    cases hch
  rcases splitOne_ok hab with rfl | ⟨ch, x, rest, fee, hg, has, _, _, rfl⟩ |
    ⟨ch, as, as', fee, est', hg, _, _, _, _, _, rfl⟩
  · exact ha
  · exact ha.insert (hmem _ hg) _
  · exact ha.insert (hmem _ hg) _

theorem select_same_plain (hE : SeesContent E R) (ho1 : ∀ l, (W.ord l).Perm l) (ho2 : ∀ l, (o l).Perm l)
    {s1 s2 : TS σ} {st1 st2 : UStore} (hk1 : ∀ l, (W.keyOrder l).Perm l) (hk2 : ∀ l, (k l).Perm l)
    (hc1 : ∀ l, (W.changeOrder l).Perm l) (hc2 : ∀ l, (c l).Perm l) (ha : s1.assets = []) (hch : s1.changes = [])
    (htm : Ties avail W.cfg.main) (h : SameTS R avail (s1, st1) (s2, st2)) :
    Both (fun x y => SameTS R avail x y ∧ Single W x.1.changes) (select E W req st1 s1)
      (select E (reorder W o k c) req st2 s2) := by
  have n1 : W.keyOrder [] = [] := (hk1 []).eq_nil
  have n2 : k [] = [] := (hk2 []).eq_nil
  rw [select_noSplit, select_noSplit (W := reorder W o k c)]
  have hb := select_same (W := W.noSplit) (E := E) (req := req) (o := o) (k := k) (c := fun _ => []) hE ho1 ho2
    (s1 := s1) (s2 := s2) (st1 := st1) (st2 := st2) (by rw [ha]; simp only [AMap.keys, List.map_nil, n2]; exact n1.symm) (fun _ => rfl) hk1
    (by rw [ha]; intro t ht; simp [AMap.keys] at ht) htm h
  have hr : (reorder W o k c).noSplit = reorder W.noSplit o k (fun _ => []) := rfl
  rw [hr]
  have hb' : Both (fun x y => SameTS R avail x y ∧ Single W x.1.changes) (select E W.noSplit req st1 s1)
      (select E (reorder W.noSplit o k (fun _ => [])) req st2 s2) := by
    revert hb
    cases e1 : select E W.noSplit req st1 s1 with
    | error x => cases select E (reorder W.noSplit o k (fun _ => [])) req st2 s2 with
      | error y => exact id
      | ok y => exact False.elim
    | ok x => cases select E (reorder W.noSplit o k (fun _ => [])) req st2 s2 with
      | error y => exact False.elim
      | ok y =>
        obtain ⟨x1, x2⟩ := x
        exact fun hb => ⟨hb, changes_plain (W := W.noSplit) n1 e1 ha hch (fun _ => rfl)⟩
  refine Both.bind hb' ?_
  rintro ⟨a1, b1⟩ ⟨a2, b2⟩ ⟨h1, hs⟩
  have e1 : a2.changes = a1.changes := h1.state.changes
  have r2 : (reorder W o k c).changeOrder = c := rfl
  simp only [e1, r2]
  simp only at hs
  rw [hs.order (f := c) (g := W.changeOrder) hc2 hc1]
  have hb := forTokens_same (f := splitOne E W b1) (g := splitOne E (reorder W o k c) b2)
    (fun t _ _ h => splitOne_same hE t h) (W.changeOrder a1.changes.keys) h1
  revert hb
  cases e2 : forTokens (splitOne E W b1) (W.changeOrder a1.changes.keys) a1 with
  | error x => cases forTokens (splitOne E (reorder W o k c) b2) (W.changeOrder a1.changes.keys) a2 with
    | error y => exact id
    | ok y => exact False.elim
  | ok x => cases forTokens (splitOne E (reorder W o k c) b2) (W.changeOrder a1.changes.keys) a2 with
    | error y => exact False.elim
    | ok y => exact fun hb => ⟨hb, splits_single e2 hs⟩

/-! ### Answers -/

/-- Answers that look the same. -/
structure SameAnswer (R : σ → σ → Prop) (x y : Result × σ) : Prop where
  chosen : x.1.chosen.map content = y.1.chosen.map content
  rest : { x.1 with chosen := [] } = { y.1 with chosen := [] }
  est : R x.2 y.2

theorem answer_same (io : Setup) {x y : TS σ × UStore} (h : SameTS R avail x y)
    (hc : c x.1.changes.keys = W.changeOrder x.1.changes.keys) :
    Both (fun r r' => SameAnswer R (r, x.1.est) (r', y.1.est)) (answer W io x.1) (answer (reorder W o k c) io y.1) := by
  obtain ⟨s, st⟩ := x
  obtain ⟨s', st'⟩ := y
  have hst := h.state
  have hs := h.state.selected
  simp only at hst hs hc
  have hall : allChanges (reorder W o k c) s' = allChanges W s := by
    have : allChanges (reorder W o k c) s' = (c s'.changes.keys).filterMap s'.changes.get ++ s'.extra := rfl
    rw [this, hst.changes, hst.extra, hc]; rfl
  have hv : (s'.selected ++ io.fixedInputs).foldl (fun b u => b + u.value) (0 : ℚ) =
      (s.selected ++ io.fixedInputs).foldl (fun b u => b + u.value) 0 := by
    have : ∀ L : List Utxo, L.foldl (fun b u => b + u.value) (0 : ℚ) = (L.map content).foldl (fun b x => b + x.1) 0 := by
      intro L; rw [List.foldl_map]; rfl
    rw [this, this, List.map_append, List.map_append, hs]
  have ha : (s'.selected ++ io.fixedInputs).foldl (fun m u => u.assets.foldl addAsset m) ([] : AssetMap) =
      (s.selected ++ io.fixedInputs).foldl (fun m u => u.assets.foldl addAsset m) [] := by
    have : ∀ L : List Utxo, L.foldl (fun m u => u.assets.foldl addAsset m) ([] : AssetMap) =
        (L.map content).foldl (fun m x => x.2.foldl addAsset m) [] := by
      intro L; rw [List.foldl_map]; rfl
    rw [this, this, List.map_append, List.map_append, hs]
  unfold answer
  simp only [hall]
  rw [hst.balance, hv, ha]
  cases s.balance with
  | debt d => exact rfl
  | balanced => exact ⟨hs, rfl, hst.est⟩
  | excess d => exact ⟨hs, rfl, hst.est⟩

theorem thermostat_same {st1 st2 : UStore} {est1 est2 : σ} (io : Setup)
    (hc : ∀ s st', select E W ⟨io.changeAddress, io.fixedOutputs⟩ st1 (initial est1 io) = .ok (s, st') →
      c s.changes.keys = W.changeOrder s.changes.keys) {avail2 : List Utxo}
    (k1 : StoreOK avail st1) (k2 : StoreOK avail2 st2) (hp : (avail.map content).Perm (avail2.map content))
    (h : Both (SameTS R avail) (select E W ⟨io.changeAddress, io.fixedOutputs⟩ st1 (initial est1 io))
      (select E (reorder W o k c) ⟨io.changeAddress, io.fixedOutputs⟩ st2 (initial est2 io))) :
    Both (SameAnswer R) (thermostat E W st1 est1 io).1 (thermostat E (reorder W o k c) st2 est2 io).1 ∧
    ∃ M1 M2, StoreOK M1 (thermostat E W st1 est1 io).2 ∧ StoreOK M2 (thermostat E (reorder W o k c) st2 est2 io).2 ∧
      (M1.map content).Perm (M2.map content) := by
  unfold thermostat
  revert h hc
  cases select E W ⟨io.changeAddress, io.fixedOutputs⟩ st1 (initial est1 io) with
  | error x => cases select E (reorder W o k c) ⟨io.changeAddress, io.fixedOutputs⟩ st2 (initial est2 io) with
    | error y => exact fun _ h => ⟨h, _, _, k1, k2, hp⟩
    | ok y => exact fun _ h => h.elim
  | ok x => cases select E (reorder W o k c) ⟨io.changeAddress, io.fixedOutputs⟩ st2 (initial est2 io) with
    | error y => exact fun _ h => h.elim
    | ok y =>
      intro hc h
      obtain ⟨x1, x2⟩ := x
      obtain ⟨y1, y2⟩ := y
      obtain ⟨M1, M2, _, j1, j2, hq⟩ := h.stores
      have ha := answer_same (W := W) (o := o) (k := k) io h (hc _ _ rfl)
      revert ha
      simp only
      cases answer W io x1 with
      | error a => cases answer (reorder W o k c) io y1 with
        | error b => exact fun ha => ⟨ha, _, _, j1, j2, hq⟩
        | ok b => exact fun ha => ha.elim
      | ok a => cases answer (reorder W o k c) io y1 with
        | error b => exact fun ha => ha.elim
        | ok b => exact fun ha => ⟨ha, _, _, j1, j2, hq⟩

end Verif.Selection.Thermostat
