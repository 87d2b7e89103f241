import Verif.Selection.CmlEstimator

/-!
# The thermostat and an estimator that knows the bytes: requests without assets
-/

namespace Verif.Selection

open Verif Verif.Core

theorem BelowAll.nil : BelowAll [] [] := ⟨[], List.Perm.refl _, .nil⟩

theorem BelowAll.snoc {l m : List Output} {o o' : Output} (h : BelowAll l m) (ho : Below o o') :
    BelowAll (l ++ [o]) (m ++ [o']) := by
  obtain ⟨l', hp, hf⟩ := h
  exact ⟨l' ++ [o], hp.append_right _, List.rel_append hf (.cons ho .nil)⟩

theorem BelowAll.perm {l l2 m : List Output} (h : BelowAll l m) (hp : l.Perm l2) : BelowAll l2 m := by
  obtain ⟨l', hp', hf⟩ := h
  exact ⟨l', hp'.trans hp, hf⟩

theorem forall₂_replace {o o' : Output} (ho : Below o' o) : ∀ {a b m : List Output},
    List.Forall₂ Below (a ++ o :: b) m → List.Forall₂ Below (a ++ o' :: b) m
  | [], b, m, h => by
    cases h with
    | cons h1 h2 => exact .cons (ho.trans h1) h2
  | x :: a, b, m, h => by
    cases h with
    | cons h1 h2 => exact .cons h1 (forall₂_replace ho h2)

theorem BelowAll.lower {l m : List Output} {o o' : Output} (h : BelowAll (o :: l) m) (ho : Below o' o) :
    BelowAll (o' :: l) m := by
  obtain ⟨l', hp, hf⟩ := h
  obtain ⟨a, b, rfl⟩ := List.append_of_mem (hp.mem_iff.mpr (List.mem_cons_self ..))
  have h1 : (a ++ b).Perm l := (List.perm_cons o).mp (List.perm_middle.symm.trans hp)
  exact ⟨a ++ o' :: b, List.perm_middle.trans (h1.cons o'), forall₂_replace ho hf⟩

theorem values_insert_new {K V : Type} [DecidableEq K] (m : AMap K V) (k : K) (v : V) (h : m.get k = none) :
    ((m.insert k v).map (·.2)).Perm (v :: m.map (·.2)) := by
  induction m with
  | nil => exact List.Perm.refl _
  | cons kv m ih =>
    obtain ⟨k', w⟩ := kv
    rw [AMap.get_cons] at h
    by_cases he : k' = k
    · simp [he] at h
    · simp only [he, if_false] at h
      simp only [AMap.insert, he, if_false, List.map_cons]
      exact ((ih h).cons w).trans (List.Perm.swap _ _ _)

theorem values_insert_old {K V : Type} [DecidableEq K] (m : AMap K V) (k : K) (v o : V) (h : m.get k = some o) :
    ∃ rest, (m.map (·.2)).Perm (o :: rest) ∧ ((m.insert k v).map (·.2)).Perm (v :: rest) := by
  induction m with
  | nil => simp at h
  | cons kv m ih =>
    obtain ⟨k', w⟩ := kv
    rw [AMap.get_cons] at h
    by_cases he : k' = k
    · simp only [he, if_true, Option.some.injEq] at h
      subst h
      exact ⟨m.map (·.2), by simp, by simp [AMap.insert, he]⟩
    · simp only [he, if_false] at h
      obtain ⟨rest, h1, h2⟩ := ih h
      refine ⟨w :: rest, ?_, ?_⟩
      · rw [List.map_cons]
        exact (h1.cons w).trans (List.Perm.swap _ _ _)
      · simp only [AMap.insert, he, if_false, List.map_cons]
        exact (h2.cons w).trans (List.Perm.swap _ _ _)

theorem values_filterMap {K V : Type} [DecidableEq K] (m : AMap K V) (hn : m.keys.Nodup) :
    m.keys.filterMap m.get = m.map (·.2) := by
  have : ∀ (l : List (K × V)), (∀ kv ∈ l, m.get kv.1 = some kv.2) →
      (l.map (·.1)).filterMap m.get = l.map (·.2) := by
    intro l
    induction l with
    | nil => intro _; rfl
    | cons kv l ih =>
      intro h
      rw [List.map_cons, List.map_cons, List.filterMap_cons, h kv (by simp)]
      simp only
      rw [ih (fun x hx => h x (by simp [hx]))]
  exact this m (fun kv h => AMap.get_of_mem hn h)

namespace Thermostat

variable {B : CmlBuilder} {W : World} {req : Request}

/-- The builder holds the inputs selected, and the changes with values that are not smaller than the real ones; there
are no assets. -/
structure PlainOK (p0 : Parts) (s : TS Parts) : Prop where
  ins : s.est.ins = p0.ins ++ s.selected
  outs : ∃ L, s.est.outs = p0.outs ++ L ∧ BelowAll (s.changes.map (·.2) ++ s.extra) L
  plain : ∀ t o, s.changes.get t = some o → o.assets = []
  assets : s.assets = []
  nodup : s.changes.keys.Nodup

theorem addInput_plain {p0 : Parts} {s : TS Parts} {u : Utxo} {est' : Parts} (hu : u.assets = [])
    (ha : (cmlEstimator B).addIn s.est u = .ok est') (h : PlainOK p0 s) :
    PlainOK p0 (addInput { s with est := est' } u) := by
  have he := cml_addIn ha
  subst he
  refine ⟨?_, h.outs, h.plain, ?_, h.nodup⟩
  · simp only [addInput, h.ins, List.append_assoc]
  · simp only [addInput, hu, List.foldl_nil]
    exact h.assets

theorem balanceExcess_plain {p0 : Parts} {s s' : TS Parts} (hB : B.Fair)
    (hc : s.changes = []) (hx : s.extra = [])
    (h : balanceExcess (cmlEstimator B) W req s = .ok s') (hp : PlainOK p0 s) (hf : FeeOK (cmlEstimator B) s) :
    PlainOK p0 s' ∧ FeeOK (cmlEstimator B) s' := by
  obtain ⟨L, hL, hb⟩ := hp.outs
  obtain ⟨m, h1, h2⟩ := hf
  obtain ⟨b, hcb, ⟨rfl, _⟩ | ⟨x, addr, rfl, _, ⟨o, ho, rfl⟩ |
    ⟨hg, need, est, hv, rfl | ⟨fee, est', hfo, _, hao, rfl⟩⟩⟩⟩ := balanceExcess_ok h
  · exact ⟨hp, m, h1, h2⟩
  · rw [hc] at ho; simp at ho
  · have := cml_minValue hv
    subst this
    exact ⟨hp, m, h1, h2⟩
  · have := cml_minValue hv
    subst this
    obtain ⟨e1, e2⟩ := cml_feeOut hfo
    have e3 := cml_addOut hao
    subst e3
    have hbe : Below { address := addr, value := x - fee, assets := [] }
        { address := addr, value := x, assets := [] } := ⟨rfl, rfl, by simp only; linarith⟩
    refine ⟨⟨hp.ins, ⟨L ++ [{ address := addr, value := x - fee, assets := [] }], ?_, ?_⟩, ?_, hp.assets,
      AMap.nodup_insert hp.nodup _ _⟩, ?_⟩
    · simp only [hL, List.append_assoc]
    · have := hb.snoc (Below.refl { address := addr, value := x - fee, assets := [] })
      refine this.perm ?_
      simp only [hc, hx]
      simp [AMap.insert]
    · intro t o ho
      simp only [hc, AMap.get_insert] at ho
      split at ho
      · cases ho; rfl
      · simp at ho
    · have h3 := (excessOr0_spec h1 hcb h2).2
      simp only [excessOr0] at h3
      cases h1
      refine ⟨_, rfl, ?_⟩
      simp only [net_subValue]
      have hm := hB.forall₂ s.est.ins (.cons hbe .nil) s.est.outs
      linarith

theorem trunc_ge (q : ℚ) : 0 ≤ trunc q := by
  unfold trunc
  split
  · exact le_refl _
  · rename_i h
    have : (0 : ℤ) ≤ q.floor := Rat.le_floor_iff.mpr (by push_cast; linarith)
    exact_mod_cast this

theorem trunc_half_le {x : ℚ} (h : 0 ≤ x) : trunc (x / 2) ≤ x := by
  unfold trunc
  split
  · rename_i hn; linarith
  · have := Rat.floor_le (x / 2)
    linarith

theorem splitOne_plain {p0 : Parts} {st : UStore} {t : Token} {s s' : TS Parts} (hB : B.Fair)
    (hdiv : ∀ q n, W.div q n = q / n)
    (h : splitOne (cmlEstimator B) W st t s = .ok s') (hp : PlainOK p0 s ∧ FeeOK (cmlEstimator B) s) :
    PlainOK p0 s' ∧ FeeOK (cmlEstimator B) s' := by
  obtain ⟨hp, m, h1, h2⟩ := hp
  obtain ⟨L, hL, hb⟩ := hp.outs
  rcases splitOne_ok h with rfl | ⟨ch, a, rest, fee, hg, has, _, _, rfl⟩ |
    ⟨ch, as, as', fee, est', hg, hk, hfo, hlt1, hlt2, hao, rfl⟩
  · exact ⟨hp, m, h1, h2⟩
  · rw [hp.plain _ _ hg] at has; cases has
  · obtain ⟨a, rest, has, _⟩ | ⟨has, rfl, rfl⟩ := hk
    · rw [hp.plain _ _ hg] at has; cases has
    rw [hdiv, hdiv] at *
    obtain ⟨e1, e2⟩ := cml_feeOut hfo
    have e3 := cml_addOut hao
    subst e3
    have hfh := trunc_ge (fee / (2 : Nat))
    have hpos : 0 ≤ ch.value := by
      by_contra hneg
      push Not at hneg
      have : trunc (ch.value / (2 : Nat)) = 0 := by
        have hd : ch.value / (2 : Nat) < 0 := div_neg_of_neg_of_pos hneg (by norm_num)
        unfold trunc
        rw [if_pos (by linarith)]
      linarith
    have hle : trunc (ch.value / (2 : Nat)) ≤ ch.value := by
      have := trunc_half_le hpos
      simpa using this
    set v := trunc (ch.value / (2 : Nat)) - trunc (fee / (2 : Nat)) with hv
    have hbe : Below { ch with assets := [], value := v } { ch with assets := [] } :=
      ⟨rfl, rfl, by simp only; linarith⟩
    obtain ⟨rest, r1, r2⟩ := values_insert_old s.changes t { ch with assets := [], value := ch.value - v - fee } ch hg
    refine ⟨⟨hp.ins, ⟨L ++ [{ ch with assets := [], value := v }], ?_, ?_⟩, ?_, hp.assets,
      AMap.nodup_insert hp.nodup _ _⟩, ?_⟩
    · simp only [splitState, hL, List.append_assoc]
    · have b1 : BelowAll (ch :: (rest ++ s.extra)) L := hb.perm (r1.append_right _)
      have b2 := b1.lower (o' := { ch with assets := [], value := ch.value - v - fee })
        ⟨rfl, has.symm, by simp only; linarith⟩
      have b3 := b2.snoc (Below.refl { ch with assets := [], value := v })
      refine b3.perm ?_
      simp only [splitState]
      have := (r2.append_right (s.extra ++ [{ ch with assets := [], value := v }])).symm
      simpa using this
    · intro t' o ho
      simp only [splitState, AMap.get_insert] at ho
      split at ho
      · cases ho; rfl
      · exact hp.plain _ _ ho
    · cases h1
      refine ⟨_, rfl, ?_⟩
      simp only [splitState, net_addValue]
      have hm := hB.forall₂ s.est.ins (.cons hbe .nil) s.est.outs
      linarith

/-- A selection without assets: the builder holds at least what the answer has, and the fee covers the builder. -/
theorem select_plain (hB : B.Fair) (ho : ∀ l, (W.ord l).Perm l) (hk : ∀ l, (W.keyOrder l).Perm l)
    (hmt : W.cfg.main = mainToken) (hdiv : ∀ q n, W.div q n = q / n) {avail L : List Utxo} {s s' : TS Parts}
    {st st' : UStore} {p0 : Parts} (h : select (cmlEstimator B) W req st s = .ok (s', st'))
    (hi : SelInv avail L s st)
    (hworth : ∀ u ∈ avail, ∀ ins outs, B.fee (ins ++ [u]) outs ≤ B.fee ins outs + u.value)
    (hest : s.est = p0) (has : s.assets = []) (hch : s.changes = []) (hex : s.extra = []) (hsel : s.selected = []) :
    PlainOK p0 s' ∧ FeeOK (cmlEstimator B) s' := by
  obtain ⟨s1, st1, s2, st2, s3, s4, s5, h1, h2, h3, h4, h5, h6⟩ := select_ok h
  have hkeys : W.keyOrder s.assets.keys = [] := by
    have := hk s.assets.keys
    rw [has] at this ⊢
    exact List.Perm.eq_nil this
  rw [hkeys] at h1 h3 h4
  simp only [round1, Except.ok.injEq, Prod.mk.injEq] at h1
  obtain ⟨rfl, rfl⟩ := h1
  have p1 : PlainOK p0 s := by
    refine ⟨by rw [hest, hsel]; simp, ⟨[], by rw [hest]; simp, ?_⟩, ?_, has, by rw [hch]; simp⟩
    · rw [hch, hex]; exact BelowAll.nil
    · intro t o hg; rw [hch] at hg; simp at hg
  obtain ⟨ht2, b, hb1, hb2⟩ := untilMain_ok _ h2
  obtain ⟨⟨p2, c2, x2⟩, L2, i2⟩ := Takes.induct ho (fun x _ => PlainOK p0 x ∧ x.changes = [] ∧ x.extra = [])
    (fun L x st t u est' st' hi hp ht hu hh hpl ha hr => by
      have hu0 : u.assets = [] := by
        by_contra hne
        obtain ⟨a, l, hal⟩ := List.exists_cons_of_ne_nil hne
        have := hpl.2 a (by rw [hal]; simp)
        exact StoreOK.fingerprints hi.store hu a (by rw [hal]; simp) (by rw [this, ht, hmt])
      exact ⟨addInput_plain hu0 ha hp.1, hp.2⟩) ht2 hi ⟨p1, hch, hex⟩
  have f2 := feeOK_of_noDebt hb1 hb2
  have hft : fillTokens W s2.assets [] = [W.cfg.main] := by simp [fillTokens]
  rw [hft] at h3 h4
  obtain ⟨⟨p3, c3, x3, f3⟩, _⟩ := Takes.induct ho
    (fun x _ => PlainOK p0 x ∧ x.changes = [] ∧ x.extra = [] ∧ FeeOK (cmlEstimator B) x)
    (fun L x st t u est' st' hi hp ht hu hh hpl ha hr => by
      have hu0 : u.assets = [] := by
        by_contra hne
        obtain ⟨a, l, hal⟩ := List.exists_cons_of_ne_nil hne
        have := hpl.2 a (by rw [hal]; simp)
        exact StoreOK.fingerprints hi.store hu a (by rw [hal]; simp)
          (by rw [this, List.mem_singleton.mp ht, hmt])
      refine ⟨addInput_plain hu0 ha hp.1, hp.2.1, hp.2.2.1, ?_⟩
      obtain ⟨m, m1, m2⟩ := hp.2.2.2
      have he := cml_addIn ha
      subst he
      cases m1
      refine ⟨_, rfl, ?_⟩
      simp only [addInput, net_addValue]
      have := hworth u (hi.perm.mem_iff.mpr (by simp [hu])) x.est.ins x.est.outs
      linarith) h3 i2 ⟨p2, c2, x2, f2⟩
  have hlt : lastTokens W s3.assets [W.cfg.main] = [] := by
    unfold lastTokens
    rw [p3.assets]
    rfl
  rw [hlt] at h4
  simp only [forTokens, Except.ok.injEq] at h4
  subst h4
  have p5 := balanceExcess_plain hB c3 x3 h5 p3 f3
  exact forTokens_inv (fun x => PlainOK p0 x ∧ FeeOK (cmlEstimator B) x)
    (fun t a b => splitOne_plain hB hdiv) h6 p5

end Thermostat

end Verif.Selection
