import Verif.Selection.LargestFirstLemmas

/-!
# Runs that differ in the order of hash maps

Two largest-first runs over stores whose UTxOs hold the same, compared step by step.
-/

namespace Verif.Selection

open Verif Verif.Core

/-- Two answers are errors of the same kind, or both values, and related. -/
def Both {ε α β : Type} (R : α → β → Prop) : Except ε α → Except ε β → Prop
  | .ok a, .ok b => R a b
  | .error e, .error f => e = f
  | _, _ => False

theorem Both.mono {ε α β : Type} {R R' : α → β → Prop} (h : ∀ a b, R a b → R' a b) :
    ∀ {x : Except ε α} {y : Except ε β}, Both R x y → Both R' x y
  | .ok _, .ok _, hb => h _ _ hb
  | .error _, .error _, hb => hb

theorem Both.bind {ε α β γ δ : Type} {R : α → β → Prop} {S : γ → δ → Prop} {f : α → Except ε γ} {g : β → Except ε δ} :
    ∀ {x : Except ε α} {y : Except ε β}, Both R x y → (∀ a b, R a b → Both S (f a) (g b)) →
      Both S (x.bind f) (y.bind g)
  | .ok _, .ok _, h, hf => hf _ _ h
  | .error _, .error _, h, _ => h

theorem Both.of_eq {ε α : Type} {x y : Except ε α} (h : x = y) : Both Eq x y := by
  subst h
  cases x <;> exact rfl

section Pick

variable {κ : Type} {key : Utxo → κ} {L1 L2 : List Utxo}

/-- The largest of two lists that look the same look the same, when ties do. -/
theorem same_largest (hp : (L1.map key).Perm (L2.map key)) {p : Utxo → Prop} {f : Utxo → ℚ}
    (hk : ∀ u w, key u = key w → (p u ↔ p w) ∧ f u = f w)
    (ht : ∀ u ∈ L1, ∀ w ∈ L1, p u → p w → f u = f w → key u = key w) {u1 u2 : Utxo}
    (h1 : u1 ∈ L1) (p1 : p u1) (m1 : ∀ w ∈ L1, p w → f w ≤ f u1)
    (h2 : u2 ∈ L2) (p2 : p u2) (m2 : ∀ w ∈ L2, p w → f w ≤ f u2) : key u1 = key u2 := by
  obtain ⟨w2, hw2, e2⟩ := List.mem_map.mp (hp.mem_iff.mp (List.mem_map.mpr ⟨u1, h1, rfl⟩))
  obtain ⟨w1, hw1, e1⟩ := List.mem_map.mp (hp.symm.mem_iff.mp (List.mem_map.mpr ⟨u2, h2, rfl⟩))
  have a2 := m2 w2 hw2 ((hk _ _ e2).1.mpr p1)
  have a1 := m1 w1 hw1 ((hk _ _ e1).1.mpr p2)
  rw [(hk _ _ e2).2] at a2
  rw [(hk _ _ e1).2] at a1
  rw [← e1]
  exact ht u1 h1 w1 hw1 p1 ((hk _ _ e1).1.mpr p2) (by rw [(hk _ _ e1).2]; exact le_antisymm a2 a1)

theorem same_rest (n1 : (L1.map (·.ptr)).Nodup) (n2 : (L2.map (·.ptr)).Nodup)
    (hp : (L1.map key).Perm (L2.map key)) {u1 u2 : Utxo} (h1 : u1 ∈ L1) (h2 : u2 ∈ L2) (e : key u1 = key u2) :
    ((L1.filter (fun w => w.ptr ≠ u1.ptr)).map key).Perm ((L2.filter (fun w => w.ptr ≠ u2.ptr)).map key) := by
  have q1 := (perm_cons_filter n1 h1).map key
  have q2 := (perm_cons_filter n2 h2).map key
  have := q1.symm.trans (hp.trans q2)
  simp only [List.map_cons, e] at this
  exact this.cons_inv

variable {ord1 ord2 : List Utxo → List Utxo} {st1 st2 : UStore}

theorem selectLargest_same (ho1 : ∀ l, (ord1 l).Perm l) (ho2 : ∀ l, (ord2 l).Perm l) (h1 : StoreOK L1 st1)
    (h2 : StoreOK L2 st2) (hp : (L1.map key).Perm (L2.map key)) (t : Token)
    (hk : ∀ u w, key u = key w → amountOf t u = amountOf t w)
    (ht : ∀ u ∈ L1, ∀ w ∈ L1, amountOf t u ≠ none → amountOf t u = amountOf t w → key u = key w) :
    (selectLargest ord1 st1 t = .error .noInput ∧ selectLargest ord2 st2 t = .error .noInput) ∨
    ∃ u1 st1' u2 st2' L1' L2', selectLargest ord1 st1 t = .ok (u1, st1') ∧
      selectLargest ord2 st2 t = .ok (u2, st2') ∧ key u1 = key u2 ∧ L1' ⊆ L1 ∧
      StoreOK L1' st1' ∧ StoreOK L2' st2' ∧ (L1'.map key).Perm (L2'.map key) := by
  have hh : ∀ {A B : List Utxo}, (A.map key).Perm (B.map key) → holders t A = [] → holders t B = [] := by
    intro A B hp ha
    rw [List.eq_nil_iff_forall_not_mem]
    intro u hu
    obtain ⟨w, hw, e⟩ := List.mem_map.mp
      (hp.symm.mem_iff.mp (List.mem_map.mpr ⟨u, (mem_holders.mp hu).1, rfl⟩))
    have : w ∈ holders t A := mem_holders.mpr ⟨hw, by rw [hk _ _ e]; exact (mem_holders.mp hu).2⟩
    simp [ha] at this
  rcases selectLargest_spec ho1 h1 t with ⟨a1, b1⟩ | ⟨u1, s1, e1, a1, m1, k1⟩
  · rcases selectLargest_spec ho2 h2 t with ⟨a2, b2⟩ | ⟨u2, s2, e2, a2, m2, k2⟩
    · exact Or.inl ⟨b1, b2⟩
    · rw [hh hp a1] at a2; simp at a2
  · rcases selectLargest_spec ho2 h2 t with ⟨a2, b2⟩ | ⟨u2, s2, e2, a2, m2, k2⟩
    · rw [hh hp.symm a2] at a1; simp at a1
    · right
      have hkk : key u1 = key u2 := by
        apply same_largest hp (p := fun u => (amountOf t u).isSome) (f := fun u => (amountOf t u).getD 0)
          (fun u w e => by simp [hk u w e]) ?_ (mem_holders.mp a1).1 (mem_holders.mp a1).2
          (fun w hw pw => m1 w (mem_holders.mpr ⟨hw, pw⟩)) (mem_holders.mp a2).1 (mem_holders.mp a2).2
          (fun w hw pw => m2 w (mem_holders.mpr ⟨hw, pw⟩))
        intro u hu w hw pu pw e
        obtain ⟨x, hx⟩ := Option.isSome_iff_exists.mp pu
        obtain ⟨y, hy⟩ := Option.isSome_iff_exists.mp pw
        refine ht u hu w hw (by simp [hx]) ?_
        simp only [hx, hy, Option.getD_some] at e ⊢
        rw [e]
      exact ⟨u1, s1, u2, s2, _, _, e1, e2, hkk, fun _ hx => (List.mem_filter.mp hx).1, k1, k2,
        same_rest h1.contents.nodup h2.contents.nodup hp (mem_holders.mp a1).1 (mem_holders.mp a2).1 hkk⟩

end Pick

theorem store_len {L : List Utxo} {st : UStore} (h : StoreOK L st) : st.len = L.length := by
  simp [UStore.len, USet.len, h.contents.set_eq, ptrMap]

/-! ### Largest-first -/

section Largest

variable {σ κ : Type}

/-- What the comparison of two runs needs: how the UTxOs look (`key`), and for which tokens ties look alike. -/
structure Looks (E : Estimator σ) (R : σ → σ → Prop) (key : Utxo → κ) (Q : Prop) (T : Token → Prop)
    (avail : List Utxo) : Prop where
  value : ∀ u w, key u = key w → u.value = w.value
  assets : Q → ∀ u w, key u = key w → u.assets = w.assets
  fee : ∀ s s' u w, R s s' → key u = key w → E.feeIn s u = E.feeIn s' w
  add : ∀ s s' u w, R s s' → key u = key w → Both R (E.addIn s u) (E.addIn s' w)
  tie : ∀ t, T t → ∀ u ∈ avail, ∀ w ∈ avail, amountOf t u ≠ none → amountOf t u = amountOf t w → key u = key w

/-- The states of two runs. -/
structure SameLF (R : σ → σ → Prop) (key : Utxo → κ) (Q : Prop) (avail : List Utxo) (s1 s2 : LF σ) : Prop where
  stores : ∃ L1 L2, L1 ⊆ avail ∧ StoreOK L1 s1.utxos ∧ StoreOK L2 s2.utxos ∧ (L1.map key).Perm (L2.map key)
  est : R s1.est s2.est
  assets : Q → s1.assets = s2.assets
  input : s1.input = s2.input
  fee : s1.fee = s2.fee
  selected : s1.selected.map key = s2.selected.map key

variable {E : Estimator σ} {R : σ → σ → Prop} {key : Utxo → κ} {Q : Prop} {T : Token → Prop} {avail : List Utxo}
  {ord1 ord2 : List Utxo → List Utxo}

theorem selectForMain_same (hl : Looks E R key Q T avail) (hT : T mainToken) (ho1 : ∀ l, (ord1 l).Perm l)
    (ho2 : ∀ l, (ord2 l).Perm l) {s1 s2 : LF σ} (h : SameLF R key Q avail s1 s2) :
    Both (SameLF R key Q avail) (selectForMain E ord1 s1) (selectForMain E ord2 s2) := by
  obtain ⟨L1, L2, hs, k1, k2, hp⟩ := h.stores
  unfold selectForMain
  rcases selectLargest_same ho1 ho2 k1 k2 hp mainToken
    (fun u w e => by simp [amountOf, hl.value u w e])
    (fun u hu w hw => hl.tie _ hT u (hs hu) w (hs hw)) with ⟨e1, e2⟩ | ⟨u1, t1, u2, t2, M1, M2, e1, e2, e, hs', j1, j2, hq⟩
  · simp only [e1, e2]; exact rfl
  · simp only [e1, e2]
    rw [← hl.fee _ _ _ _ h.est e]
    have hadd := hl.add _ _ _ _ h.est e
    cases E.feeIn s1.est u1 with
    | error x => exact rfl
    | ok f =>
      simp only
      revert hadd
      cases E.addIn s1.est u1 with
      | error x => cases E.addIn s2.est u2 with
        | error y => exact id
        | ok y => exact False.elim
      | ok est1 => cases E.addIn s2.est u2 with
        | error y => exact False.elim
        | ok est2 =>
        intro hadd
        refine ⟨⟨M1, M2, fun u hu => hs (hs' hu), j1, j2, hq⟩, hadd, fun q => ?_, ?_, ?_, ?_⟩
        · simp only [h.assets q, hl.assets q _ _ e]
        · simp only [h.input, hl.value _ _ e]
        · simp only [h.fee]
        · simp only [List.map_append, h.selected, List.map_cons, e]

theorem selectFor_same (hl : Looks E R key Q T avail) (q : Q) {t : Token} (hT : T t) (ho1 : ∀ l, (ord1 l).Perm l)
    (ho2 : ∀ l, (ord2 l).Perm l) {s1 s2 : LF σ} (h : SameLF R key Q avail s1 s2) (b : ℚ) :
    Both (fun x y => SameLF R key Q avail x.1 y.1 ∧ x.2 = y.2) (selectFor E ord1 t b s1) (selectFor E ord2 t b s2) := by
  obtain ⟨L1, L2, hs, k1, k2, hp⟩ := h.stores
  unfold selectFor
  rcases selectLargest_same ho1 ho2 k1 k2 hp t
    (fun u w e => by simp [amountOf, hl.value u w e, hl.assets q u w e])
    (fun u hu w hw => hl.tie _ hT u (hs hu) w (hs hw)) with ⟨e1, e2⟩ | ⟨u1, t1, u2, t2, M1, M2, e1, e2, e, hs', j1, j2, hq⟩
  · simp only [e1, e2]; exact rfl
  · simp only [e1, e2]
    rw [← hl.fee _ _ _ _ h.est e]
    have hadd := hl.add _ _ _ _ h.est e
    cases E.feeIn s1.est u1 with
    | error x => exact rfl
    | ok f =>
      simp only
      revert hadd
      cases E.addIn s1.est u1 with
      | error x => cases E.addIn s2.est u2 with
        | error y => exact id
        | ok y => exact False.elim
      | ok est1 => cases E.addIn s2.est u2 with
        | error y => exact False.elim
        | ok est2 =>
        intro hadd
        refine ⟨⟨⟨M1, M2, fun u hu => hs (hs' hu), j1, j2, hq⟩, hadd, fun q => ?_, ?_, ?_, ?_⟩, ?_⟩
        · simp only [h.assets q, hl.assets q _ _ e]
        · simp only [h.input, hl.value _ _ e]
        · simp only [h.fee]
        · simp only [List.map_append, h.selected, List.map_cons, e]
        · simp only [hl.assets q _ _ e]

theorem tokenLoop_same (hl : Looks E R key Q T avail) (q : Q) {t : Token} (hT : T t) (ho1 : ∀ l, (ord1 l).Perm l)
    (ho2 : ∀ l, (ord2 l).Perm l) (d : ℚ) (fuel : Nat) : ∀ {s1 s2 : LF σ} (_ : SameLF R key Q avail s1 s2) (b : ℚ),
    Both (SameLF R key Q avail) (tokenLoop E ord1 t d fuel b s1) (tokenLoop E ord2 t d fuel b s2) := by
  induction fuel with
  | zero =>
    intro s1 s2 h b
    unfold tokenLoop
    split
    · exact rfl
    · exact h
  | succ fuel ih =>
    intro s1 s2 h b
    unfold tokenLoop
    split
    · have hb := selectFor_same hl q hT ho1 ho2 h b
      cases e1 : selectFor E ord1 t b s1 with
      | error x =>
        cases e2 : selectFor E ord2 t b s2 with
        | error y => rw [e1, e2] at hb; exact hb
        | ok y => rw [e1, e2] at hb; exact hb.elim
      | ok x =>
        cases e2 : selectFor E ord2 t b s2 with
        | error y => rw [e1, e2] at hb; exact hb.elim
        | ok y =>
          rw [e1, e2] at hb
          obtain ⟨x1, x2⟩ := x
          obtain ⟨y1, y2⟩ := y
          obtain ⟨ha, rfl⟩ := hb
          exact ih ha _
    · exact h

theorem tokensLoop_same (hl : Looks E R key Q T avail) (ho1 : ∀ l, (ord1 l).Perm l)
    (ho2 : ∀ l, (ord2 l).Perm l) (fuel : Nat) : ∀ (outs : List (Token × Asset)) {s1 s2 : LF σ}
    (_ : SameLF R key Q avail s1 s2) (_ : ∀ x ∈ outs, T x.1 ∧ Q),
    Both (SameLF R key Q avail) (tokensLoop E ord1 fuel outs s1) (tokensLoop E ord2 fuel outs s2) := by
  intro outs
  induction outs with
  | nil => intro s1 s2 h _; exact h
  | cons x outs ih =>
    intro s1 s2 h hT
    obtain ⟨t, o⟩ := x
    obtain ⟨h1, q⟩ := hT (t, o) (by simp)
    unfold tokensLoop
    simp only
    rw [h.assets q]
    have hb := tokenLoop_same hl q h1 ho1 ho2 o.quantity fuel
      (s1 := { s1 with assets := s2.assets.insert t ((s2.assets.get t).getD (newAsset o.policy o.name o.fingerprint)) })
      (s2 := { s2 with assets := s2.assets.insert t ((s2.assets.get t).getD (newAsset o.policy o.name o.fingerprint)) })
      ⟨h.stores, h.est, fun _ => rfl, h.input, h.fee, h.selected⟩
      ((s2.assets.get t).getD (newAsset o.policy o.name o.fingerprint)).quantity
    revert hb
    generalize tokenLoop E ord1 t o.quantity fuel _ _ = x1
    generalize tokenLoop E ord2 t o.quantity fuel _ _ = x2
    intro hb
    cases x1 with
    | error x => cases x2 with
      | error y => exact hb
      | ok y => exact hb.elim
    | ok x => cases x2 with
      | error y => exact hb.elim
      | ok y => exact ih hb (fun x hx => hT x (by simp [hx]))

theorem mainLoop_same (hl : Looks E R key Q T avail) (hT : T mainToken) (ho1 : ∀ l, (ord1 l).Perm l)
    (ho2 : ∀ l, (ord2 l).Perm l) (out : ℚ) (fuel : Nat) : ∀ {s1 s2 : LF σ} (_ : SameLF R key Q avail s1 s2),
    Both (SameLF R key Q avail) (mainLoop E ord1 out fuel s1) (mainLoop E ord2 out fuel s2) := by
  induction fuel with
  | zero =>
    intro s1 s2 h
    unfold mainLoop
    rw [h.input, h.fee]
    split
    · exact rfl
    · exact h
  | succ fuel ih =>
    intro s1 s2 h
    unfold mainLoop
    rw [h.input, h.fee]
    split
    · have hb := selectForMain_same hl hT ho1 ho2 h
      cases e1 : selectForMain E ord1 s1 with
      | error x =>
        cases e2 : selectForMain E ord2 s2 with
        | error y => rw [e1, e2] at hb; exact hb
        | ok y => rw [e1, e2] at hb; exact hb.elim
      | ok x =>
        cases e2 : selectForMain E ord2 s2 with
        | error y => rw [e1, e2] at hb; exact hb.elim
        | ok y => rw [e1, e2] at hb; exact ih hb
    · exact h

/-- Answers that look the same. -/
structure SameResult (R : σ → σ → Prop) (key : Utxo → κ) (Q : Prop) (x y : Result × σ) : Prop where
  chosen : x.1.chosen.map key = y.1.chosen.map key
  assets : Q → x.1.inputAssets = y.1.inputAssets
  rest : { x.1 with chosen := [], inputAssets := [] } = { y.1 with chosen := [], inputAssets := [] }
  est : R x.2 y.2

theorem largestFirst_same (hl : Looks E R key Q T avail) (hT : T mainToken) (ho1 : ∀ l, (ord1 l).Perm l)
    (ho2 : ∀ l, (ord2 l).Perm l) {avail2 : List Utxo} {st1 st2 : UStore} (h1 : StoreOK avail st1)
    (h2 : StoreOK avail2 st2) (hp : (avail.map key).Perm (avail2.map key)) {est1 est2 : σ} (hR : R est1 est2)
    (hmin : E.minFee est1 = E.minFee est2) (io : Setup) (hTs : ∀ x ∈ io.outputAssets, T x.1 ∧ Q) :
    Both (SameResult R key Q) (largestFirst E ord1 st1 est1 io).1 (largestFirst E ord2 st2 est2 io).1 ∧
    ∃ M1 M2, StoreOK M1 (largestFirst E ord1 st1 est1 io).2 ∧ StoreOK M2 (largestFirst E ord2 st2 est2 io).2 ∧
      (M1.map key).Perm (M2.map key) := by
  have hlen : st2.len = st1.len := by
    rw [store_len h1, store_len h2]; simpa using hp.length_eq.symm
  unfold largestFirst
  rw [← hmin]
  cases E.minFee est1 with
  | error e => exact ⟨rfl, _, _, h1, h2, hp⟩
  | ok fee =>
    simp only [hlen]
    have hb := tokensLoop_same hl ho1 ho2 (st1.len + 1) io.outputAssets
      (s1 := { utxos := st1, est := est1, assets := io.inputAssets, input := io.inputBalance, fee := fee, selected := [] })
      (s2 := { utxos := st2, est := est2, assets := io.inputAssets, input := io.inputBalance, fee := fee, selected := [] })
      ⟨⟨_, _, fun _ hu => hu, h1, h2, hp⟩, hR, fun _ => rfl, rfl, rfl, rfl⟩ hTs
    revert hb
    generalize tokensLoop E ord1 _ _ _ = x1
    generalize tokensLoop E ord2 _ _ _ = x2
    intro hb
    cases x1 with
    | error x => cases x2 with
      | error y => exact ⟨hb, _, _, h1, h2, hp⟩
      | ok y => exact hb.elim
    | ok x => cases x2 with
      | error y => exact hb.elim
      | ok y =>
        simp only
        have hb := mainLoop_same hl hT ho1 ho2 io.outputBalance (st1.len + 1) hb
        revert hb
        generalize mainLoop E ord1 _ _ _ = x1
        generalize mainLoop E ord2 _ _ _ = x2
        intro hb
        cases x1 with
        | error x => cases x2 with
          | error y => exact ⟨hb, _, _, h1, h2, hp⟩
          | ok y => exact hb.elim
        | ok x => cases x2 with
          | error y => exact hb.elim
          | ok y =>
            obtain ⟨M1, M2, _, j1, j2, hq⟩ := hb.stores
            refine ⟨⟨hb.selected, hb.assets, ?_, hb.est⟩, M1, M2, j1, j2, hq⟩
            simp only [hb.input, hb.fee]

end Largest

end Verif.Selection
