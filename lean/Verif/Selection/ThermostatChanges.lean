import Verif.Selection.ThermostatErrors
import Verif.Selection.ThermostatRun

/-!
# The changes the thermostat makes
-/

namespace Verif.Selection.Thermostat

open Verif Verif.Core

section

variable {σ : Type} {E : Estimator σ} {W : World} {req : Request}

/-! ### Positive excesses -/

/-- Every excess tracked is positive. -/
def PosExcess (m : AMap Token Balance) : Prop := ∀ t x, m.get t = some (.excess x) → 0 < x

theorem addValue_pos {b : Balance} {q x : ℚ} (hq : 0 ≤ q) (hb : ∀ y, b = .excess y → 0 < y)
    (h : b.addValue q = .excess x) : 0 < x := by
  cases b with
  | debt l =>
    simp only [Balance.addValue] at h
    split at h
    · cases h; linarith
    · split at h <;> cases h
  | balanced =>
    simp only [Balance.addValue] at h
    split at h
    · cases h
    · rename_i hne
      cases h
      exact lt_of_le_of_ne hq (Ne.symm hne)
  | excess l =>
    simp only [Balance.addValue] at h
    cases h
    linarith [hb l rfl]

theorem PosExcess.adjust {m : AMap Token Balance} (h : PosExcess m) {f : Balance → Balance}
    (hf : ∀ b x, (∀ y, b = .excess y → 0 < y) → f b = .excess x → 0 < x) (t : Token) :
    PosExcess (adjust f m t) := by
  intro t' x hx
  unfold Selection.adjust at hx
  rw [AMap.get_insert] at hx
  split at hx
  · cases hx' : m.get t with
    | none =>
      rw [hx'] at hx
      simp only [Option.getD_none, Option.some.injEq] at hx
      exact hf _ _ (by simp) hx
    | some b =>
      rw [hx'] at hx
      simp only [Option.getD_some, Option.some.injEq] at hx
      exact hf _ _ (fun y hy => h t y (by rw [hx', hy])) hx
  · exact h t' x hx

theorem PosExcess.addAll {as : List Asset} (ha : ∀ a ∈ as, 0 ≤ a.quantity) {m : AMap Token Balance}
    (h : PosExcess m) :
    PosExcess (as.foldl (fun m a => Selection.adjust (·.addValue a.quantity) m a.fingerprint) m) := by
  induction as generalizing m with
  | nil => exact h
  | cons a as ih =>
    exact ih (fun b hb => ha b (by simp [hb]))
      (h.adjust (fun b x hb hx => addValue_pos (ha a (by simp)) hb hx) _)

/-! ### Changes before the split -/

/-- A change made for an asset, before the split. -/
structure AssetChange (W : World) (req : Request) (ids : Token → Option (Nat × Nat)) (t : Token) (o : Output) :
    Prop where
  address : req.address = some o.address
  asset : ∃ a, o.assets = [a] ∧ a.fingerprint = t ∧ ids t = some (a.policy, a.name) ∧ 0 < a.quantity
  low : W.cfg.min ≤ o.value
  high : o.value ≤ W.cfg.max

/-- The changes before the last step of `select`: one for each asset in excess. -/
structure Opened (W : World) (req : Request) (ids : Token → Option (Nat × Nat)) (toks : List Token) (s : TS σ) :
    Prop where
  changes : ∀ t o, s.changes.get t = some o → t ∈ toks ∧ AssetChange W req ids t o
  extra : s.extra = []
  nodup : s.changes.keys.Nodup
  pos : PosExcess s.assets

theorem openChange_address {t : Token} {addr : Nat} {w : ℚ} {s s1 : TS σ} {o : Output}
    (h : openChange E t addr w s = .ok (s1, o)) :
    o.address = ((s.changes.get t).map (·.address)).getD addr := by
  unfold openChange at h
  cases hg : s.changes.get t with
  | some o0 => simp only [hg] at h; cases h; rfl
  | none =>
    simp only [hg, bind_ok] at h
    obtain ⟨⟨need, est1⟩, _, fee, _, est2, _, h⟩ := h
    cases h
    simp only [Option.map_none, Option.getD_none]
    split <;> split <;> rfl

theorem clamp_address (o : Output) (b : Balance) : (clamp W o b).1.address = o.address := by
  unfold clamp
  split
  · rfl
  · split <;> rfl

theorem Opened.take {ids : Token → Option (Nat × Nat)} {toks : List Token} {s : TS σ} {u : Utxo} {est' : σ}
    (h : Opened W req ids toks s) (hu : ∀ a ∈ u.assets, 0 ≤ a.quantity) :
    Opened W req ids toks (addInput { s with est := est' } u) :=
  ⟨h.changes, h.extra, h.nodup, h.pos.addAll hu⟩

theorem Opened.excess (hmm : W.cfg.min ≤ W.cfg.max) {ids : Token → Option (Nat × Nat)} {toks : List Token}
    {st : UStore} {t : Token} {s s' : TS σ} (hids : ∀ t, st.getAssetIds t = ids t) (ht : t ∈ toks)
    (h : balanceExcessOf E W req st t s = .ok s') (hp : Opened W req ids toks s) : Opened W req ids toks s' := by
  rcases balanceExcessOf_ok h with ⟨rfl, _⟩ | ⟨x, addr, b, s1, o, o1, hc, hr, _, h2, h3, rfl⟩
  · exact hp
  · obtain ⟨_, h5, h6, h7, h8, h9⟩ := openChange_main h2
    have h10 := openChange_address h2
    have hx : 0 < x := hp.pos t x (currentOf_ok hc)
    refine ⟨?_, h6.trans hp.extra, by simp only [h5]; exact AMap.nodup_insert hp.nodup _ _, ?_⟩
    · intro t' o' ho'
      simp only [AMap.get_insert] at ho'
      split at ho'
      · rename_i e
        subst e
        cases ho'
        refine ⟨ht, ?_, ?_, (clamp_min hmm _ _).1, (clamp_min hmm _ _).2⟩
        · rw [clamp_address]
          have : o1.address = o.address := by
            unfold addToChange at h3
            split at h3
            · cases h3; rfl
            · split at h3
              · cases h3
              · cases h3; rfl
          rw [this, h10]
          cases hg : s.changes.get t with
          | none => exact hr
          | some o0 => exact (hp.changes t o0 hg).2.address
        · rw [clamp_assets]
          unfold addToChange at h3
          cases hg : s.changes.get t with
          | none =>
            rw [hg] at h9
            simp only [Option.map_none, Option.getD_none] at h9
            simp only [h9] at h3
            split at h3
            · cases h3
            · rename_i p n hpn
              cases h3
              exact ⟨_, rfl, rfl, by rw [← hids]; exact hpn, hx⟩
          | some o0 =>
            rw [hg] at h9
            simp only [Option.map_some, Option.getD_some] at h9
            obtain ⟨a, ha, hf, hi, hq⟩ := (hp.changes t o0 hg).2.asset
            simp only [h9, ha] at h3
            cases h3
            exact ⟨_, rfl, hf, hi, by simp only; linarith⟩
      · rw [h5] at ho'; exact hp.changes t' o' ho'
    · simp only [h8]
      exact hp.pos.adjust (fun b y _ hy => subValue_pos b x hy) t

/-- The change of the main token before the split. -/
structure MainChange (E : Estimator σ) (req : Request) (o : Output) : Prop where
  address : req.address = some o.address
  assets : o.assets = []
  need : ∃ e e' o' need fee, E.minValueOut e o' = .ok (need, e') ∧ E.feeOut e' o' = .ok fee ∧ o'.address = o.address ∧
    o'.assets = [] ∧ o'.value = o.value + fee ∧ need ≤ o.value

/-- A change just before the split. -/
def Unsplit (E : Estimator σ) (W : World) (req : Request) (ids : Token → Option (Nat × Nat)) (toks : List Token)
    (t : Token) (o : Output) : Prop :=
  (t ∈ toks ∧ t ≠ W.cfg.main ∧ AssetChange W req ids t o) ∨ (t = W.cfg.main ∧ MainChange E req o)

theorem Opened.last {ids : Token → Option (Nat × Nat)} {toks : List Token} {s s' : TS σ} (hm : W.cfg.main ∉ toks)
    (h : balanceExcess E W req s = .ok s') (hp : Opened W req ids toks s) :
    (∀ t o, s'.changes.get t = some o → Unsplit E W req ids toks t o) ∧ s'.extra = [] ∧ s'.changes.keys.Nodup := by
  have hold : ∀ t o, s.changes.get t = some o → Unsplit E W req ids toks t o := fun t o ho =>
    Or.inl ⟨(hp.changes t o ho).1, fun e => hm (e ▸ (hp.changes t o ho).1), (hp.changes t o ho).2⟩
  obtain ⟨b, _, ⟨rfl, _⟩ | ⟨x, addr, _, hr, ⟨o, ho, rfl⟩ |
    ⟨hg, need, est, hneed, rfl | ⟨fee, est', hfee, hge, _, rfl⟩⟩⟩⟩ := balanceExcess_ok h
  · exact ⟨hold, hp.extra, hp.nodup⟩
  · exact absurd (hp.changes _ o ho).1 hm
  · exact ⟨hold, hp.extra, hp.nodup⟩
  · refine ⟨?_, hp.extra, AMap.nodup_insert hp.nodup _ _⟩
    intro t o ho
    simp only [AMap.get_insert] at ho
    split at ho
    · rename_i e
      cases ho
      exact Or.inr ⟨e.symm, hr, rfl, ⟨_, _, _, need, fee, hneed, hfee, rfl, rfl, by simp, by simp only; linarith⟩⟩
    · exact hold t o ho

/-! ### The split -/

/-- What is left of a change after the split: the change, the change without half of its asset, or one of the two
parts. -/
inductive Piece (E : Estimator σ) (W : World) (ch : Output) : Output → Prop
  | whole : Piece E W ch ch
  | dropped {a : Asset} {rest : List Asset} (h : ch.assets = a :: rest) :
      Piece E W ch { ch with assets := { a with quantity := a.quantity - trunc (W.div a.quantity 2) } :: rest }
  | first {as as' : List Asset} {fee : ℚ} {e : σ} {o : Output}
      (hcase : (∃ a rest, ch.assets = a :: rest ∧
          as = { a with quantity := a.quantity - trunc (W.div a.quantity 2) } :: rest ∧
          as' = { a with quantity := trunc (W.div a.quantity 2) } :: rest) ∨ (ch.assets = [] ∧ as = [] ∧ as' = []))
      (hf : E.feeOut e o = .ok fee) (h1 : trunc (W.div fee 2) < trunc (W.div ch.value 2))
      (h2 : fee < trunc (W.div ch.value 2)) :
      Piece E W ch { ch with assets := as, value := ch.value - (trunc (W.div ch.value 2) - trunc (W.div fee 2)) - fee }
  | second {as as' : List Asset} {fee : ℚ} {e : σ} {o : Output}
      (hcase : (∃ a rest, ch.assets = a :: rest ∧
          as = { a with quantity := a.quantity - trunc (W.div a.quantity 2) } :: rest ∧
          as' = { a with quantity := trunc (W.div a.quantity 2) } :: rest) ∨ (ch.assets = [] ∧ as = [] ∧ as' = []))
      (hf : E.feeOut e o = .ok fee) (h1 : trunc (W.div fee 2) < trunc (W.div ch.value 2))
      (h2 : fee < trunc (W.div ch.value 2)) :
      Piece E W ch { ch with assets := as', value := trunc (W.div ch.value 2) - trunc (W.div fee 2) }

theorem splits_pieces {Pre : Token → Output → Prop} {st : UStore} {ts : List Token} {s s' : TS σ} (hn : ts.Nodup)
    (h : forTokens (splitOne E W st) ts s = .ok s') (hpre : ∀ t ∈ ts, ∀ o, s.changes.get t = some o → Pre t o)
    (hall : ∀ t o, s.changes.get t = some o → ∃ ch, Pre t ch ∧ Piece E W ch o) (hk : s.changes.keys.Nodup) :
    (∀ t o, s'.changes.get t = some o → ∃ ch, Pre t ch ∧ Piece E W ch o) ∧ s'.changes.keys.Nodup ∧
    ∃ l : List (Token × Output), s'.extra = s.extra ++ l.map (·.2) ∧ (l.map (·.1)).Sublist ts ∧
      ∀ x ∈ l, ∃ ch, Pre x.1 ch ∧ Piece E W ch x.2 := by
  induction ts generalizing s with
  | nil => cases h; exact ⟨hall, hk, [], by simp, by simp, by simp⟩
  | cons t ts ih =>
    simp only [forTokens] at h
    split at h
    · cases h
    · rename_i s1 h1
      rw [List.nodup_cons] at hn
      have hother : ∀ t' ∈ ts, ∀ o, s1.changes.get t' = some o → Pre t' o := by
        intro t' ht' o ho
        have : t' ≠ t := fun e => hn.1 (e ▸ ht')
        rw [(splitOne_keeps h1).2.2 t' this] at ho
        exact hpre t' (by simp [ht']) o ho
      rcases splitOne_ok h1 with rfl | ⟨ch, a, rest, fee, hg, has, hf, hdrop, rfl⟩ |
        ⟨ch, as, as', fee, est', hg, hcase, hf, hl1, hl2, _, rfl⟩
      · obtain ⟨q1, q2, l, q3, q4, q5⟩ := ih hn.2 h hother hall hk
        exact ⟨q1, q2, l, q3, q4.cons _, q5⟩
      · obtain ⟨q1, q2, l, q3, q4, q5⟩ := ih hn.2 h hother (by
          intro t' o ho
          simp only [AMap.get_insert] at ho
          split at ho
          · rename_i e
            subst e
            cases ho
            exact ⟨ch, hpre t (by simp) ch hg, .dropped has⟩
          · exact hall t' o ho) (AMap.nodup_insert hk _ _)
        exact ⟨q1, q2, l, q3, q4.cons _, q5⟩
      · obtain ⟨q1, q2, l, q3, q4, q5⟩ := ih hn.2 h hother (by
          intro t' o ho
          simp only [splitState, AMap.get_insert] at ho
          split at ho
          · rename_i e
            subst e
            cases ho
            exact ⟨ch, hpre t (by simp) ch hg, .first hcase hf hl1 hl2⟩
          · exact hall t' o ho) (AMap.nodup_insert hk _ _)
        refine ⟨q1, q2, (t, { ch with assets := as', value := trunc (W.div ch.value 2) - trunc (W.div fee 2) }) :: l,
          ?_, by simpa using q4, ?_⟩
        · rw [q3]; simp [splitState]
        · intro x hx
          rcases List.mem_cons.mp hx with rfl | hx
          · exact ⟨ch, hpre t (by simp) ch hg, .second hcase hf hl1 hl2⟩
          · exact q5 x hx

/-- The changes of a run, each with the token it was made for. -/
theorem select_changes (ho : ∀ l, (W.ord l).Perm l) (hk : ∀ l, (W.keyOrder l).Perm l)
    (hc : ∀ l, (W.changeOrder l).Perm l) (hmm : W.cfg.min ≤ W.cfg.max)
    {avail L : List Utxo} {s s' : TS σ} {st st' : UStore}
    (h : select E W req st s = .ok (s', st')) (hi : SelInv avail L s st)
    (hmain : W.cfg.main ∉ s.assets.keys) (hch : s.changes = []) (hex : s.extra = []) (hpos : PosExcess s.assets)
    (hq : ∀ u ∈ avail, ∀ a ∈ u.assets, 0 ≤ a.quantity) :
    ∃ l1 l2 : List (Token × Output), allChanges W s' = l1.map (·.2) ++ l2.map (·.2) ∧
      (l1.map (·.1)).Nodup ∧ (l2.map (·.1)).Nodup ∧
      ∀ x ∈ l1 ++ l2, ∃ ch, Unsplit E W req st.getAssetIds s.assets.keys x.1 ch ∧ Piece E W ch x.2 := by
  have hmem : ∀ t, t ∈ W.keyOrder s.assets.keys ↔ t ∈ s.assets.keys := fun t => (hk _).mem_iff
  obtain ⟨s2, st2, s3, L3, s4, s5, b, p2, d2, hb1, hb2, _, ht, p3, d3, i3, h4, p4, h5, h6⟩ :=
    select_phases (E := E) (req := req) ho (toks := W.keyOrder s.assets.keys)
      (fun x => Opened W req st.getAssetIds (W.keyOrder s.assets.keys) x) (fun x => x.dictionary = st.dictionary)
      (fun a b p hr he => (remove_dictionary hr).trans he)
      (fun L s st t u est' hi hp ht hu hh hpl ha =>
        hp.take (hq u (hi.perm.mem_iff.mpr (by simp [hu]))))
      (fun t a b st hd ht he hp => hp.excess hmm (fun t => by unfold UStore.getAssetIds; rw [hd]) ht he)
      (fun _ _ => True) (fun _ _ _ _ _ => trivial) (fun _ _ _ _ _ _ _ => trivial)
      (fun _ _ _ _ _ _ _ _ _ _ _ _ => trivial)
      h rfl (hk _) hmain hi rfl ⟨by intro t o h; rw [hch] at h; simp at h, hex, by rw [hch]; simp, hpos⟩
  obtain ⟨r1, r2, r3⟩ := p4.last (fun hm => hmain ((hmem _).mp hm)) h5
  obtain ⟨q1, q2, l, q3, q4, q5⟩ := splits_pieces ((hc _).nodup_iff.mpr r3) h6 (fun t _ o ho => r1 t o ho)
    (fun t o ho => ⟨o, r1 t o ho, .whole⟩) r3
  rw [r2, List.nil_append] at q3
  have weaken : ∀ t ch, Unsplit E W req st.getAssetIds (W.keyOrder s.assets.keys) t ch →
      Unsplit E W req st.getAssetIds s.assets.keys t ch := by
    rintro t ch (⟨a, b⟩ | b)
    · exact Or.inl ⟨(hmem t).mp a, b⟩
    · exact Or.inr b
  refine ⟨(W.changeOrder s'.changes.keys).filterMap (fun t => (s'.changes.get t).map (fun o => (t, o))), l, ?_, ?_,
    q4.nodup ((hc _).nodup_iff.mpr r3), ?_⟩
  · unfold allChanges
    rw [q3, List.map_filterMap]
    congr 2
    funext t
    simp
  · rw [List.map_filterMap]
    have hnd := (hc s'.changes.keys).nodup_iff.mpr q2
    refine List.Nodup.filterMap ?_ hnd
    intro a a' b hb hb'
    simp only [Option.map_map, Option.mem_def, Option.map_eq_some_iff, Function.comp] at hb hb'
    obtain ⟨_, _, rfl⟩ := hb
    obtain ⟨_, _, rfl⟩ := hb'
    rfl
  · intro x hx
    rcases List.mem_append.mp hx with hx | hx
    · obtain ⟨t, _, hx⟩ := List.mem_filterMap.mp hx
      simp only [Option.map_eq_some_iff] at hx
      obtain ⟨o, ho, rfl⟩ := hx
      obtain ⟨ch, h1, h2⟩ := q1 t o ho
      exact ⟨ch, weaken _ _ h1, h2⟩
    · obtain ⟨ch, h1, h2⟩ := q5 x hx
      exact ⟨ch, weaken _ _ h1, h2⟩

/-! ### Whole numbers -/

/-- A whole number. -/
def Whole (q : ℚ) : Prop := ∃ z : ℤ, q = z

theorem Whole.add {p q : ℚ} (hp : Whole p) (hq : Whole q) : Whole (p + q) := by
  obtain ⟨a, rfl⟩ := hp
  obtain ⟨b, rfl⟩ := hq
  exact ⟨a + b, by push_cast; rfl⟩

theorem Whole.sub {p q : ℚ} (hp : Whole p) (hq : Whole q) : Whole (p - q) := by
  obtain ⟨a, rfl⟩ := hp
  obtain ⟨b, rfl⟩ := hq
  exact ⟨a - b, by push_cast; rfl⟩

theorem Whole.neg {p : ℚ} (hp : Whole p) : Whole (-p) := by
  obtain ⟨a, rfl⟩ := hp
  exact ⟨-a, by push_cast; rfl⟩

theorem whole_trunc (q : ℚ) : Whole (trunc q) := by
  unfold trunc
  split
  · exact ⟨0, by simp⟩
  · exact ⟨_, rfl⟩

theorem whole_zero : Whole 0 := ⟨0, by simp⟩

/-- An output with whole amounts. -/
def WholeOut (o : Output) : Prop := Whole o.value ∧ ∀ a ∈ o.assets, Whole a.quantity

/-- A property of the estimator's states that its updates keep. -/
structure Keeps (E : Estimator σ) (I : σ → Prop) : Prop where
  addIn : ∀ s u s', I s → E.addIn s u = .ok s' → I s'
  addOut : ∀ s o s', I s → E.addOut s o = .ok s' → I s'
  minValue : ∀ s o v s', I s → E.minValueOut s o = .ok (v, s') → I s'

/-- A state with whole amounts, and an estimator's state with `I`. -/
structure WholeState (I : σ → Prop) (s : TS σ) : Prop where
  est : I s.est
  balance : Whole s.balance.net
  assets : ∀ t b, s.assets.get t = some b → Whole b.net
  changes : ∀ t o, s.changes.get t = some o → WholeOut o
  extra : ∀ o ∈ s.extra, WholeOut o

/-- An estimator with whole fees and minimums in the states with `I`. -/
structure WholeFees (E : Estimator σ) (I : σ → Prop) : Prop where
  keeps : Keeps E I
  minFee : ∀ s f, I s → E.minFee s = .ok f → Whole f
  feeOut : ∀ s o f, I s → E.feeOut s o = .ok f → Whole f
  minValue : ∀ s o v s', I s → E.minValueOut s o = .ok (v, s') → Whole v

variable {I : σ → Prop}

theorem wholeAssets_adjust {m : AMap Token Balance} {f : Balance → Balance} {t : Token}
    (h : ∀ t b, m.get t = some b → Whole b.net) (hf : ∀ b : Balance, Whole b.net → Whole (f b).net) :
    ∀ t' b, (adjust f m t).get t' = some b → Whole b.net := by
  intro t' b hb
  unfold adjust at hb
  rw [AMap.get_insert] at hb
  split at hb
  · cases hb
    apply hf
    cases hg : m.get t with
    | none => exact whole_zero
    | some b => exact h t b hg
  · exact h t' b hb

theorem wholeAssets_addAll {as : List Asset} (ha : ∀ a ∈ as, Whole a.quantity) {m : AMap Token Balance}
    (h : ∀ t b, m.get t = some b → Whole b.net) :
    ∀ t b, (as.foldl (fun m a => adjust (·.addValue a.quantity) m a.fingerprint) m).get t = some b → Whole b.net := by
  induction as generalizing m with
  | nil => exact h
  | cons a as ih =>
    exact ih (fun b hb => ha b (by simp [hb])) (wholeAssets_adjust h (fun b hb => by
      simp only [net_addValue]; exact hb.add (ha a (by simp))))

theorem WholeState.take {s : TS σ} {u : Utxo} {est' : σ} (h : WholeState I s) (he : I est') (hv : Whole u.value)
    (hu : ∀ a ∈ u.assets, Whole a.quantity) : WholeState I (addInput { s with est := est' } u) :=
  ⟨he, by simp only [addInput, net_addValue]; exact h.balance.add hv, wholeAssets_addAll hu h.assets, h.changes, h.extra⟩

theorem whole_excessOr0 {b : Balance} (h : Whole b.net) : Whole (excessOr0 b) := by
  cases b with
  | debt v => exact whole_zero
  | balanced => exact whole_zero
  | excess v => exact h

theorem openChange_whole (hE : WholeFees E I) {t : Token} {addr : Nat} {w : ℚ} {s s1 : TS σ} {o : Output}
    (hw : Whole w) (h : openChange E t addr w s = .ok (s1, o)) (hs : WholeState I s) :
    WholeOut o ∧ I s1.est := by
  unfold openChange at h
  cases hg : s.changes.get t with
  | some o0 =>
    simp only [hg] at h
    cases h
    exact ⟨⟨(hs.changes t o0 hg).1.add hw, (hs.changes t o0 hg).2⟩, hs.est⟩
  | none =>
    simp only [hg, bind_ok] at h
    obtain ⟨⟨need, est1⟩, hn, fee, hf, est2, ha, h⟩ := h
    cases h
    have h1 := hE.minValue _ _ _ _ hs.est hn
    have i1 := hE.keeps.minValue _ _ _ _ hs.est hn
    have h2 := hE.feeOut _ _ _ i1 hf
    refine ⟨⟨?_, ?_⟩, hE.keeps.addOut _ _ _ i1 ha⟩
    · split <;> split
      · exact hw.add (h1.sub hw)
      · exact (hw.add (h1.sub hw)).sub h2
      · exact hw
      · exact hw.sub h2
    · split <;> split <;> simp

theorem WholeState.excess (hE : WholeFees E I) (hmin : Whole W.cfg.max) {st : UStore} {t : Token} {s s' : TS σ}
    (h : balanceExcessOf E W req st t s = .ok s') (hs : WholeState I s) : WholeState I s' := by
  rcases balanceExcessOf_ok h with ⟨rfl, _⟩ | ⟨x, addr, b, s1, o, o1, hc, hr, hb, h2, h3, rfl⟩
  · exact hs
  · obtain ⟨h4, h5, h6, h7, h8, h9⟩ := openChange_main h2
    have hx : Whole x := hs.assets t _ (currentOf_ok hc)
    have hw : Whole (excessOr0 b) := by
      obtain ⟨m, h1, rfl⟩ := currentBalance_ok hb
      refine whole_excessOr0 ?_
      rw [net_subValue]
      exact hs.balance.sub (hE.minFee _ _ hs.est h1)
    obtain ⟨ho, ie⟩ := openChange_whole hE hw h2 hs
    have ho1 : WholeOut o1 := by
      refine ⟨by rw [addToChange_value h3]; exact ho.1, ?_⟩
      unfold addToChange at h3
      split at h3
      · rename_i a rest has
        cases h3
        intro a' ha'
        simp only [List.mem_cons] at ha'
        rcases ha' with rfl | ha'
        · exact (ho.2 a (by rw [has]; simp)).add hx
        · exact ho.2 a' (by rw [has]; simp [ha'])
      · split at h3
        · cases h3
        · cases h3
          intro a' ha'
          simp only [List.mem_singleton] at ha'
          subst ha'
          exact hx
    have hcl : Whole (clamp W o1 s1.balance).1.value := by
      unfold clamp
      split
      · exact hmin
      · split
        · exact hmin
        · exact ho1.1
    refine ⟨ie, ?_, ?_, ?_, by simp only [h6]; exact hs.extra⟩
    · simp only [clamp_net]
      rw [h4]
      refine Whole.sub (Whole.add ?_ ho1.1) hcl
      refine (hs.balance.sub ho.1).add ?_
      cases hg : s.changes.get t with
      | none => exact whole_zero
      | some o0 => exact (hs.changes t o0 hg).1
    · simp only [h8]
      exact wholeAssets_adjust hs.assets (fun b hb => by simp only [net_subValue]; exact hb.sub hx)
    · intro t' o' ho'
      simp only [AMap.get_insert] at ho'
      split at ho'
      · cases ho'
        refine ⟨hcl, ?_⟩
        rw [clamp_assets]
        exact ho1.2
      · rw [h5] at ho'; exact hs.changes t' o' ho'

theorem WholeState.last (hE : WholeFees E I) {s s' : TS σ} (h : balanceExcess E W req s = .ok s') (hs : WholeState I s) :
    WholeState I s' := by
  obtain ⟨b, hb, ⟨rfl, _⟩ | ⟨x, addr, hx, hr, ⟨o, ho, rfl⟩ |
    ⟨hg, need, est, hneed, rfl | ⟨fee, est', hfee, hge, hadd, rfl⟩⟩⟩⟩ := balanceExcess_ok h
  · exact hs
  · have hw : Whole x := by
      obtain ⟨m, h1, rfl⟩ := currentBalance_ok hb
      have : (s.balance.subValue m).net = x := by rw [hx]; rfl
      rw [← this, net_subValue]
      exact hs.balance.sub (hE.minFee _ _ hs.est h1)
    refine ⟨hs.est, by simp only [net_subValue]; exact hs.balance.sub hw, hs.assets, ?_, hs.extra⟩
    intro t' o' ho'
    simp only [AMap.get_insert] at ho'
    split at ho'
    · cases ho'; exact ⟨(hs.changes _ o ho).1.add hw, (hs.changes _ o ho).2⟩
    · exact hs.changes t' o' ho'
  · exact ⟨hE.keeps.minValue _ _ _ _ hs.est hneed, hs.balance, hs.assets, hs.changes, hs.extra⟩
  · have hw : Whole x := by
      obtain ⟨m, h1, rfl⟩ := currentBalance_ok hb
      have : (s.balance.subValue m).net = x := by rw [hx]; rfl
      rw [← this, net_subValue]
      exact hs.balance.sub (hE.minFee _ _ hs.est h1)
    have i1 := hE.keeps.minValue _ _ _ _ hs.est hneed
    have hf := hE.feeOut _ _ _ i1 hfee
    refine ⟨hE.keeps.addOut _ _ _ i1 hadd, by simp only [net_subValue]; exact hs.balance.sub (hw.sub hf), hs.assets, ?_, hs.extra⟩
    intro t' o' ho'
    simp only [AMap.get_insert] at ho'
    split at ho'
    · cases ho'; exact ⟨hw.sub hf, by simp⟩
    · exact hs.changes t' o' ho'

theorem WholeState.split (hE : WholeFees E I) {st : UStore} {t : Token} {s s' : TS σ}
    (h : splitOne E W st t s = .ok s') (hs : WholeState I s) : WholeState I s' := by
  have half : ∀ (ch : Output) (a : Asset) (rest : List Asset), WholeOut ch → ch.assets = a :: rest →
      (∀ x ∈ ({ a with quantity := a.quantity - trunc (W.div a.quantity 2) } :: rest : List Asset), Whole x.quantity) ∧
      (∀ x ∈ ({ a with quantity := trunc (W.div a.quantity 2) } :: rest : List Asset), Whole x.quantity) := by
    intro ch a rest hch has
    constructor
    · intro x hx
      rcases List.mem_cons.mp hx with rfl | hx
      · exact (hch.2 a (by rw [has]; simp)).sub (whole_trunc _)
      · exact hch.2 x (by rw [has]; simp [hx])
    · intro x hx
      rcases List.mem_cons.mp hx with rfl | hx
      · exact whole_trunc _
      · exact hch.2 x (by rw [has]; simp [hx])
  rcases splitOne_ok h with rfl | ⟨ch, a, rest, fee, hg, has, hf, hdrop, rfl⟩ |
    ⟨ch, as, as', fee, est', hg, hcase, hf, hl1, hl2, hadd, rfl⟩
  · exact hs
  · refine ⟨hs.est, hs.balance, hs.assets, ?_, hs.extra⟩
    intro t' o' ho'
    simp only [AMap.get_insert] at ho'
    split at ho'
    · cases ho'; exact ⟨(hs.changes _ ch hg).1, (half ch a rest (hs.changes _ ch hg) has).1⟩
    · exact hs.changes t' o' ho'
  · have hf' := hE.feeOut _ _ _ hs.est hf
    have hch := hs.changes _ ch hg
    have has : (∀ x ∈ as, Whole x.quantity) ∧ ∀ x ∈ as', Whole x.quantity := by
      rcases hcase with ⟨a, rest, h1, rfl, rfl⟩ | ⟨_, rfl, rfl⟩
      · exact half ch a rest hch h1
      · simp
    have hv : Whole (trunc (W.div ch.value 2) - trunc (W.div fee 2)) := (whole_trunc _).sub (whole_trunc _)
    refine ⟨hE.keeps.addOut _ _ _ hs.est hadd, by simp only [splitState, net_addValue]; exact hs.balance.add hf', hs.assets, ?_, ?_⟩
    · intro t' o' ho'
      simp only [splitState, AMap.get_insert] at ho'
      split at ho'
      · cases ho'; exact ⟨(hch.1.sub hv).sub hf', has.1⟩
      · exact hs.changes t' o' ho'
    · intro o ho
      simp only [splitState, List.mem_append, List.mem_singleton] at ho
      rcases ho with ho | rfl
      · exact hs.extra o ho
      · exact ⟨hv, has.2⟩

/-- Whole amounts in, whole amounts out. -/
theorem select_whole (ho : ∀ l, (W.ord l).Perm l) (hk : ∀ l, (W.keyOrder l).Perm l) (hE : WholeFees E I)
    (hmax : Whole W.cfg.max) {avail L : List Utxo} {s s' : TS σ} {st st' : UStore}
    (h : select E W req st s = .ok (s', st')) (hi : SelInv avail L s st) (hmain : W.cfg.main ∉ s.assets.keys)
    (hu : ∀ u ∈ avail, Whole u.value ∧ ∀ a ∈ u.assets, Whole a.quantity) (hs : WholeState I s) : WholeState I s' := by
  obtain ⟨s2, st2, s3, L3, s4, s5, b, _, _, _, _, _, _, _, _, _, _, p4, h5, h6⟩ :=
    select_phases (E := E) (req := req) ho (toks := W.keyOrder s.assets.keys) (WholeState I)
      (fun _ => True) (fun _ _ _ _ _ => trivial)
      (fun L s st t u est' hi hp ht hu' hh hpl ha =>
        hp.take (hE.keeps.addIn _ _ _ hp.est ha) (hu u (hi.perm.mem_iff.mpr (by simp [hu']))).1 (hu u (hi.perm.mem_iff.mpr (by simp [hu']))).2)
      (fun t a b st _ ht he hp => hp.excess hE hmax he)
      (fun _ _ => True) (fun _ _ _ _ _ => trivial) (fun _ _ _ _ _ _ _ => trivial)
      (fun _ _ _ _ _ _ _ _ _ _ _ _ => trivial)
      h rfl (hk _) hmain hi trivial hs
  exact forTokens_inv (WholeState I) (fun t a b he hp => hp.split hE he) h6 (p4.last hE h5)

end

end Verif.Selection.Thermostat
