import Verif.Sources.Cardano

/-!
# The invariant of the Cardano source
-/

namespace Verif.Sources.Cardano

/-- The event in the result of a pull. -/
def evOf : PullRes → Option Out
  | .event o => some o
  | _ => none

/-- The events that are to be sent for a request. -/
def planOf (cfg : Config) (f : List Point) : Option Net → List Out
  | none => []
  | some n => (handle cfg n f).1

structure CInv (cfg : Config) (s : St) : Prop where
  fresh : ∀ c, s.next ≤ c → s.got c = [] ∧ s.net c = none ∧ s.cleared c = false
  plan : ∀ c, s.plan c = planOf cfg (s.asked c) (s.net c)
  cur : ∀ c, s.current = some c → c + 1 = s.next ∧ s.cleared c = false
  queue : ∀ f c, s.queue = some (f, c) → c < s.next ∧ s.asked c = f ∧ s.net c = none ∧ s.got c = [] ∧
    (s.current = some c → s.buf = [])
  busy : ∀ c rest e, s.handler = .busy c rest e → c < s.next ∧
    (∃ n, s.net c = some n ∧ e = (handle cfg n (s.asked c)).2) ∧
    (s.current = some c → s.got c ++ s.buf ++ rest = s.plan c)
  lost : ∀ c, c < s.next → s.current ≠ some c → s.cleared c = false → s.got c = s.plan c ∧ s.alive c = false
  closed : ∀ c, s.current = some c → s.alive c = false → s.got c ++ s.buf = s.plan c
  pre : ∀ c, s.got c <+: s.plan c
  res : s.results.filterMap evOf = (List.range s.next).flatMap s.got
  reading : ∀ f, s.puller = .reading f → s.current ≠ none
  awaiting : s.puller = .awaiting → s.current ≠ none ∧ ∀ c, s.current = some c → s.got c = []
  sending : ∀ f, s.puller = .sending f → ∀ c, s.current = some c → s.buf = [] ∧ s.alive c = false
  gone : s.handler = .gone → s.queue = none

theorem CInv.start (cfg : Config) : CInv cfg St.start := by
  constructor <;> simp [St.start, planOf, St.alive]

theorem set_eq {α : Type} (f : Nat → α) (k : Nat) (a : α) : set f k a k = a := by simp [set]

theorem set_ne {α : Type} (f : Nat → α) {k i : Nat} (a : α) (h : i ≠ k) : set f k a i = f i := by
  simp [set, h]

theorem alive_false {s : St} {c : Nat} : s.alive c = false ↔
    (∀ f, s.queue ≠ some (f, c)) ∧ ∀ rest e, s.handler ≠ .busy c rest e := by
  unfold St.alive
  constructor
  · intro h
    simp only [Bool.or_eq_false_iff] at h
    refine ⟨fun f hf => ?_, fun rest e he => ?_⟩
    · rw [hf] at h
      simp at h
    · rw [he] at h
      simp at h
  · rintro ⟨h1, h2⟩
    simp only [Bool.or_eq_false_iff]
    constructor
    · cases hq : s.queue with
      | none => rfl
      | some x =>
        obtain ⟨f, c'⟩ := x
        simp only [decide_eq_false_iff_not]
        rintro rfl
        exact h1 f hq
    · cases hh : s.handler with
      | idle => rfl
      | gone => rfl
      | busy c' rest e =>
        simp only [decide_eq_false_iff_not]
        rintro rfl
        exact h2 rest e hh

theorem flatMap_set {n : Nat} {g : Nat → List Out} {a : List Out} :
    (List.range (n + 1)).flatMap (set g n (g n ++ a)) = (List.range (n + 1)).flatMap g ++ a := by
  rw [List.range_succ, List.flatMap_append, List.flatMap_append]
  have : (List.range n).flatMap (set g n (g n ++ a)) = (List.range n).flatMap g := by
    apply List.flatMap_congr
    intro i hi
    rw [set_ne]
    have := List.mem_range.1 hi
    omega
  rw [this]
  simp [set]

theorem CInv.receive {cfg : Config} {s : St} (h : CInv cfg s) {c : Nat} (hc : s.current = some c) {o : Out}
    {rest : List Out} (hb : s.buf = o :: rest) : CInv cfg (s.receive c o rest) := by
  have hcn := (h.cur c hc).1
  have hal : ∀ c', (s.receive c o rest).alive c' = s.alive c' := fun _ => rfl
  have hbuf : s.got c ++ s.buf = s.got c ++ [o] ++ rest := by simp [hb]
  refine ⟨fun c' hc' => ?_, h.plan, h.cur, fun f c' hq => ?_, fun c' r e hh => ?_, fun c' h1 h2 h3 => ?_,
    fun c' h1 h2 => ?_, fun c' => ?_, ?_, ?_, ?_, ?_, h.gone⟩
  · have : c' ≠ c := by
      have : s.next ≤ c' := hc'
      omega
    obtain ⟨h1, h2, h3⟩ := h.fresh c' hc'
    exact ⟨by rw [← h1]; exact set_ne _ _ this, h2, h3⟩
  · obtain ⟨h1, h2, h3, h4, h5⟩ := h.queue f c' hq
    have : c' ≠ c := by
      rintro rfl
      have := h5 hc
      rw [hb] at this
      cases this
    refine ⟨h1, h2, h3, by rw [← h4]; exact set_ne _ _ this, fun hcur => ?_⟩
    have h6 : s.current = some c' := hcur
    rw [hc] at h6
    exact absurd (Option.some.inj h6).symm this
  · obtain ⟨h1, h2, h3⟩ := h.busy c' r e hh
    refine ⟨h1, h2, fun hcur => ?_⟩
    have h6 : s.current = some c' := hcur
    have h7 := h3 h6
    rw [hc] at h6
    obtain rfl := Option.some.inj h6
    show set s.got c (s.got c ++ [o]) c ++ rest ++ r = s.plan c
    rw [set_eq, ← h7, hbuf]
  · have h2' : s.current ≠ some c' := h2
    have : c' ≠ c := by
      rintro rfl
      exact h2' hc
    obtain ⟨h4, h5⟩ := h.lost c' h1 h2 h3
    exact ⟨by rw [show (s.receive c o rest).plan c' = s.plan c' from rfl, ← h4]; exact set_ne _ _ this, h5⟩
  · have h6 : s.current = some c' := h1
    have h7 := h.closed c' h6 h2
    rw [hc] at h6
    obtain rfl := Option.some.inj h6
    show set s.got c (s.got c ++ [o]) c ++ rest = s.plan c
    rw [set_eq, ← h7, hbuf]
  · by_cases he : c' = c
    · subst he
      show set s.got c' (s.got c' ++ [o]) c' <+: s.plan c'
      rw [set_eq]
      cases hal : s.alive c' with
      | false => rw [← h.closed c' hc hal, hbuf]; exact ⟨rest, rfl⟩
      | true =>
        by_contra hn
        have : s.alive c' = false := by
          rw [alive_false]
          refine ⟨fun f hq => ?_, fun r e hh => hn ?_⟩
          · have := (h.queue f c' hq).2.2.2.2 hc
            rw [hb] at this
            cases this
          · rw [← (h.busy c' r e hh).2.2 hc, hbuf]
            exact ⟨rest ++ r, by simp⟩
        rw [this] at hal
        cases hal
    · show set s.got c (s.got c ++ [o]) c' <+: s.plan c'
      rw [set_ne _ _ he]
      exact h.pre c'
  · show (s.results ++ [PullRes.event o]).filterMap evOf = (List.range s.next).flatMap (set s.got c (s.got c ++ [o]))
    rw [List.filterMap_append, h.res, ← hcn, flatMap_set]
    rfl
  · intro f hf
    cases hf
  · intro hf
    cases hf
  · intro f hf
    cases hf

theorem CInv.step {cfg : Config} {s s' : St} (h : CInv cfg s) {a : Act} (hs : s.step cfg a = some s') :
    CInv cfg s' := by
  cases a with
  | pull f =>
    simp only [St.step] at hs
    split at hs
    · rw [← Option.some.inj hs]
      refine ⟨h.fresh, h.plan, h.cur, h.queue, h.busy, h.lost, h.closed, h.pre, h.res, ?_, ?_, ?_, h.gone⟩
      · intro f' hf
        simp only at hf
        split at hf
        · cases hf
        · assumption
      · intro hf
        simp only at hf
        split at hf <;> cases hf
      · intro f' hf c hc
        simp only at hf
        split at hf
        · rename_i hn
          have hc' : s.current = some c := hc
          rw [hn] at hc'
          cases hc'
        · cases hf
    · cases hs
  | recv =>
    simp only [St.step, St.recv] at hs
    split at hs
    · rename_i f c hp hc
      split at hs
      · rename_i o rest hb
        rw [← Option.some.inj hs]
        exact h.receive hc hb
      · rename_i hb
        split at hs
        · cases hs
        · rename_i hal
          rw [← Option.some.inj hs]
          refine ⟨h.fresh, h.plan, h.cur, h.queue, h.busy, h.lost, h.closed, h.pre, h.res, by simp, by simp, ?_,
            h.gone⟩
          intro f' _ c' hc'
          have : s.current = some c' := hc'
          rw [hc] at this
          obtain rfl := Option.some.inj this
          exact ⟨hb, (Bool.not_eq_true _).mp hal⟩
    · rename_i c hp hc
      split at hs
      · rename_i o rest hb
        rw [← Option.some.inj hs]
        exact h.receive hc hb
      · split at hs
        · cases hs
        · rw [← Option.some.inj hs]
          refine ⟨h.fresh, h.plan, h.cur, h.queue, h.busy, h.lost, h.closed, h.pre, ?_, by simp, by simp,
            by simp, h.gone⟩
          rw [List.filterMap_append, h.res]
          simp [evOf]
    · cases hs
  | send =>
    simp only [St.step, St.send] at hs
    split at hs
    · rename_i f hp
      split at hs
      · rw [← Option.some.inj hs]
        refine ⟨h.fresh, h.plan, h.cur, h.queue, h.busy, h.lost, h.closed, h.pre, ?_, by simp, by simp,
          by simp, h.gone⟩
        rw [List.filterMap_append, h.res]
        simp [evOf]
      · rename_i hng
        split at hs
        · cases hs
        · rename_i hq
          rw [← Option.some.inj hs]
          generalize (if f = [] then [cfg.from'] else f) = f'
          have hfr := h.fresh s.next le_rfl
          have hpl : s.plan s.next = [] := by rw [h.plan, hfr.2.1]; rfl
          refine ⟨fun c hc => h.fresh c (by simp only at hc; omega), fun c => ?_, fun c hc => ?_, fun f2 c hq2 => ?_,
            fun c r e hh => ?_, fun c h1 h2 h3 => ?_, fun c h1 h2 => ?_, h.pre, ?_, by simp, ?_, by simp, ?_⟩
          · by_cases he : c = s.next
            · subst he
              show s.plan s.next = planOf cfg _ (s.net s.next)
              rw [hpl, hfr.2.1]
              rfl
            · show s.plan c = planOf cfg (set s.asked s.next f' c) (s.net c)
              rw [set_ne _ _ he]
              exact h.plan c
          · obtain rfl : s.next = c := Option.some.inj hc
            exact ⟨rfl, hfr.2.2⟩
          · obtain ⟨rfl, rfl⟩ := Prod.mk.inj (Option.some.inj hq2)
            exact ⟨Nat.lt_succ_self _, set_eq _ _ _, hfr.2.1, hfr.1, fun _ => rfl⟩
          · obtain ⟨h1, h2, h3⟩ := h.busy c r e hh
            refine ⟨by simp only; omega, ?_, fun hc => ?_⟩
            · show ∃ n, s.net c = some n ∧ e = (handle cfg n (set s.asked s.next f' c)).2
              rw [set_ne _ _ (by omega)]
              exact h2
            · have := Option.some.inj hc
              omega
          · have h1' : c < s.next + 1 := h1
            have hne : c ≠ s.next := by
              rintro rfl
              exact h2 rfl
            have hres : s.got c = s.plan c ∧ s.alive c = false := by
              by_cases hcur : s.current = some c
              · obtain ⟨h4, h5⟩ := h.sending f hp c hcur
                have := h.closed c hcur h5
                rw [h4, List.append_nil] at this
                exact ⟨this, h5⟩
              · exact h.lost c (by omega) hcur h3
            refine ⟨hres.1, ?_⟩
            rw [alive_false] at hres ⊢
            refine ⟨fun f2 hq2 => ?_, hres.2.2⟩
            obtain ⟨_, h6⟩ := Prod.mk.inj (Option.some.inj hq2)
            exact hne h6.symm
          · obtain rfl : s.next = c := Option.some.inj h1
            rw [alive_false] at h2
            exact absurd rfl (h2.1 f')
          · show s.results.filterMap evOf = (List.range (s.next + 1)).flatMap s.got
            rw [h.res, List.range_succ, List.flatMap_append]
            simp [hfr.1]
          · intro _
            refine ⟨by simp, fun c hc => ?_⟩
            obtain rfl : s.next = c := Option.some.inj hc
            exact hfr.1
          · intro hg
            exact absurd hg hng
    · cases hs
  | clear =>
    simp only [St.step] at hs
    split at hs
    · rename_i hp
      rw [← Option.some.inj hs]
      refine ⟨fun c hc => ?_, h.plan, by simp, fun f c hq => ?_, fun c r e hh => ?_, fun c h1 h2 h3 => ?_, by simp,
        h.pre, h.res, ?_, ?_, by simp, h.gone⟩
      · have hfr := h.fresh c hc
        refine ⟨hfr.1, hfr.2.1, ?_⟩
        simp only
        cases hcur : s.current with
        | none => exact hfr.2.2
        | some c' =>
          have hne : c ≠ c' := by
            have := (h.cur c' hcur).1
            have : s.next ≤ c := hc
            omega
          show set s.cleared c' true c = false
          rw [set_ne _ _ hne]
          exact hfr.2.2
      · obtain ⟨h1, h2, h3, h4, _⟩ := h.queue f c hq
        exact ⟨h1, h2, h3, h4, fun _ => rfl⟩
      · obtain ⟨h1, h2, _⟩ := h.busy c r e hh
        exact ⟨h1, h2, by simp⟩
      · cases hcur : s.current with
        | none =>
          rw [hcur] at h3
          exact h.lost c h1 (by rw [hcur]; simp) h3
        | some c' =>
          simp only [hcur] at h3
          by_cases he : c = c'
          · subst he
            rw [set_eq] at h3
            cases h3
          · rw [set_ne _ _ he] at h3
            exact h.lost c h1 (by rw [hcur]; simpa using fun hh => he hh.symm) h3
      · intro f hf
        have : s.puller = .reading f := hf
        rw [hp] at this
        cases this
      · intro hf
        have : s.puller = .awaiting := hf
        rw [hp] at this
        cases this
    · cases hs
  | take n =>
    simp only [St.step, St.take] at hs
    split at hs
    · rename_i f c hh hq
      obtain ⟨q1, q2, q3, q4, q5⟩ := h.queue f c hq
      have hpl : s.plan c = [] := by rw [h.plan, q3]; rfl
      split at hs
      · rw [← Option.some.inj hs]
        refine ⟨fun c' hc' => ?_, fun c' => ?_, h.cur, by simp, fun c' r e he => ?_, fun c' h1 h2 h3 => ?_,
          fun c' h1 h2 => ?_, fun c' => ?_, h.res, h.reading, h.awaiting, fun f' hf c' hc' => ?_, by simp⟩
        · obtain ⟨h1, h2, h3⟩ := h.fresh c' hc'
          refine ⟨h1, ?_, h3⟩
          show set s.net c (some n) c' = none
          rw [set_ne _ _ (by have : s.next ≤ c' := hc'; omega)]
          exact h2
        · by_cases he : c' = c
          · subst he
            show set s.plan c' _ c' = planOf cfg (s.asked c') (set s.net c' (some n) c')
            rw [set_eq, set_eq, q2]
            rfl
          · show set s.plan c _ c' = planOf cfg (s.asked c') (set s.net c (some n) c')
            rw [set_ne _ _ he, set_ne _ _ he]
            exact h.plan c'
        · injection he with he1 he2 he3
          subst he1 he2 he3
          refine ⟨q1, ⟨n, set_eq _ _ _, by rw [q2]⟩, fun hc => ?_⟩
          show s.got c ++ s.buf ++ _ = set s.plan c _ c
          rw [set_eq, q4, q5 hc]
          rfl
        · obtain ⟨h4, h5⟩ := h.lost c' h1 h2 h3
          rw [alive_false] at h5
          have hne : c' ≠ c := by
            rintro rfl
            exact h5.1 f hq
          refine ⟨?_, ?_⟩
          · show s.got c' = set s.plan c _ c'
            rw [set_ne _ _ hne]
            exact h4
          · rw [alive_false]
            refine ⟨by simp, fun r e he => ?_⟩
            injection he with he1 _ _
            exact hne he1.symm
        · rw [alive_false] at h2
          have hne : c' ≠ c := by
            rintro rfl
            exact h2.2 _ _ rfl
          have h1' : s.current = some c' := h1
          show s.got c' ++ s.buf = set s.plan c _ c'
          rw [set_ne _ _ hne]
          refine h.closed c' h1' ?_
          rw [alive_false]
          refine ⟨fun f' hq' => ?_, fun r e he => by rw [hh] at he; cases he⟩
          rw [hq] at hq'
          exact hne (Prod.mk.inj (Option.some.inj hq')).2.symm
        · by_cases he : c' = c
          · subst he
            show s.got c' <+: _
            rw [q4]
            exact List.nil_prefix
          · show s.got c' <+: set s.plan c _ c'
            rw [set_ne _ _ he]
            exact h.pre c'
        · obtain ⟨h4, h5⟩ := h.sending f' hf c' hc'
          refine ⟨h4, ?_⟩
          rw [alive_false] at h5 ⊢
          refine ⟨by simp, fun r e he => ?_⟩
          injection he with he1 _ _
          subst he1
          exact h5.1 f hq
      · rw [← Option.some.inj hs]
        have hal : ∀ c', c' ≠ c → ({ s with queue := none } : St).alive c' = false → s.alive c' = false := by
          intro c' hne h2
          rw [alive_false] at h2 ⊢
          refine ⟨fun f' hq' => ?_, h2.2⟩
          rw [hq] at hq'
          exact hne (Prod.mk.inj (Option.some.inj hq')).2.symm
        have hal' : ∀ c', s.alive c' = false → ({ s with queue := none } : St).alive c' = false := by
          intro c' h2
          rw [alive_false] at h2 ⊢
          exact ⟨by simp, h2.2⟩
        refine ⟨h.fresh, h.plan, h.cur, by simp, h.busy, fun c' h1 h2 h3 => ?_, fun c' h1 h2 => ?_, h.pre, h.res,
          h.reading, h.awaiting, fun f' hf c' hc' => ?_, by simp⟩
        · obtain ⟨h4, h5⟩ := h.lost c' h1 h2 h3
          exact ⟨h4, hal' c' h5⟩
        · by_cases he : c' = c
          · subst he
            show s.got c' ++ s.buf = s.plan c'
            rw [q4, q5 h1, hpl]
            rfl
          · exact h.closed c' h1 (hal c' he h2)
        · obtain ⟨h4, h5⟩ := h.sending f' hf c' hc'
          exact ⟨h4, hal' c' h5⟩
    · cases hs
  | emit =>
    simp only [St.step, St.emit] at hs
    split at hs
    · rename_i c o rest e hh
      obtain ⟨b1, b2, b3⟩ := h.busy c _ e hh
      have hqc : ∀ f, s.queue ≠ some (f, c) := by
        intro f hq
        obtain ⟨n, hn, _⟩ := b2
        rw [(h.queue f c hq).2.2.1] at hn
        cases hn
      split at hs
      · rename_i hc
        split at hs
        · rw [← Option.some.inj hs]
          have hal : ∀ c', ({ s with handler := .busy c rest e, buf := s.buf ++ [o] } : St).alive c' =
              s.alive c' := by
            intro c'
            simp [St.alive, hh]
          refine ⟨h.fresh, h.plan, h.cur, fun f c' hq => ?_, fun c' r e' he => ?_, fun c' h1 h2 h3 => ?_,
            fun c' h1 h2 => ?_, h.pre, h.res, h.reading, h.awaiting, fun f hf c' hc' => ?_, by simp⟩
          · obtain ⟨h1, h2, h3, h4, _⟩ := h.queue f c' hq
            refine ⟨h1, h2, h3, h4, fun hcur => ?_⟩
            have h6 : s.current = some c' := hcur
            rw [hc] at h6
            obtain rfl := Option.some.inj h6
            exact absurd hq (hqc f)
          · injection he with he1 he2 he3
            subst he1 he2 he3
            refine ⟨b1, b2, fun hcur => ?_⟩
            rw [← b3 hc]
            show s.got c ++ (s.buf ++ [o]) ++ rest = _
            simp
          · obtain ⟨h4, h5⟩ := h.lost c' h1 h2 h3
            exact ⟨h4, by rw [hal]; exact h5⟩
          · have h6 : s.current = some c' := h1
            rw [hc] at h6
            obtain rfl := Option.some.inj h6
            rw [alive_false] at h2
            exact absurd rfl (h2.2 _ _)
          · have h6 : s.current = some c' := hc'
            obtain ⟨_, h5⟩ := h.sending f hf c' h6
            rw [hc] at h6
            obtain rfl := Option.some.inj h6
            rw [alive_false] at h5
            exact absurd hh (h5.2 _ _)
        · cases hs
      · rename_i hc
        have key : ∀ (hd : Handler) (con : Bool), (hd = .busy c rest e ∨ hd = .idle) →
            CInv cfg { s with handler := hd, connected := con } := by
          intro hd con hor
          have hal : ∀ c', s.alive c' = false →
              ({ s with handler := hd, connected := con } : St).alive c' = false := by
            intro c' h2
            rw [alive_false] at h2 ⊢
            refine ⟨h2.1, fun r e' he => ?_⟩
            simp only at he
            rcases hor with h1 | h1
            · rw [h1] at he
              injection he with he1 _ _
              subst he1
              exact h2.2 _ _ hh
            · rw [h1] at he
              cases he
          have hal' : ∀ c', c' ≠ c → ({ s with handler := hd, connected := con } : St).alive c' = false →
              s.alive c' = false := by
            intro c' hne h2
            rw [alive_false] at h2 ⊢
            refine ⟨h2.1, fun r e' he => ?_⟩
            rw [hh] at he
            injection he with he1 _ _
            exact hne he1.symm
          refine ⟨h.fresh, h.plan, h.cur, h.queue, fun c' r e' he => ?_, fun c' h1 h2 h3 => ?_,
            fun c' h1 h2 => ?_, h.pre, h.res, h.reading, h.awaiting, fun f hf c' hc' => ?_, ?_⟩
          · simp only at he
            rcases hor with h1 | h1
            · rw [h1] at he
              injection he with he1 he2 he3
              subst he1 he2 he3
              exact ⟨b1, b2, fun hcur => absurd hcur hc⟩
            · rw [h1] at he
              cases he
          · obtain ⟨h4, h5⟩ := h.lost c' h1 h2 h3
            exact ⟨h4, hal c' h5⟩
          · have hne : c' ≠ c := by
              rintro rfl
              exact hc h1
            exact h.closed c' h1 (hal' c' hne h2)
          · obtain ⟨h4, h5⟩ := h.sending f hf c' hc'
            exact ⟨h4, hal c' h5⟩
          · intro hg
            simp only at hg
            rcases hor with h1 | h1
            · rw [h1] at hg
              cases hg
            · rw [h1] at hg
              cases hg
        split at hs
        · rw [← Option.some.inj hs]
          exact key _ _ (.inl rfl)
        · rw [← Option.some.inj hs]
          exact key _ _ (.inr rfl)
    · cases hs
  | finish =>
    have key : ∀ (c : Nat) (e : End) (hd : Handler) (con : Bool) (q : Option (List Point × Nat)),
        s.handler = .busy c [] e → (hd = .idle ∨ hd = .gone) → (q = s.queue ∨ q = none) →
        (hd = .gone → q = none) → CInv cfg { s with handler := hd, connected := con, queue := q } := by
      intro c e hd con q hh hor hqq hgn
      obtain ⟨b1, b2, b3⟩ := h.busy c _ e hh
      have hnb : ∀ c' r e', hd ≠ .busy c' r e' := by
        intro c' r e' he
        rcases hor with h1 | h1 <;> rw [h1] at he <;> cases he
      have hqs : ∀ f c', q = some (f, c') → s.queue = some (f, c') := by
        intro f c' hq
        rcases hqq with h1 | h1
        · rw [← h1, hq]
        · rw [h1] at hq
          cases hq
      have hal : ∀ c', s.alive c' = false →
          ({ s with handler := hd, connected := con, queue := q } : St).alive c' = false := by
        intro c' h2
        rw [alive_false] at h2 ⊢
        exact ⟨fun f hq => h2.1 f (hqs f c' hq), fun r e' he => hnb c' r e' he⟩
      refine ⟨h.fresh, h.plan, h.cur, fun f c' hq => h.queue f c' (hqs f c' hq),
        fun c' r e' he => absurd he (hnb c' r e'), fun c' h1 h2 h3 => ?_, fun c' h1 h2 => ?_, h.pre, h.res,
        h.reading, h.awaiting, fun f hf c' hc' => ?_, hgn⟩
      · obtain ⟨h4, h5⟩ := h.lost c' h1 h2 h3
        exact ⟨h4, hal c' h5⟩
      · show s.got c' ++ s.buf = s.plan c'
        have h1' : s.current = some c' := h1
        by_cases he : c' = c
        · subst he
          rw [← b3 h1', List.append_nil]
        · cases hq : s.queue with
          | none =>
            refine h.closed c' h1' ?_
            rw [alive_false]
            refine ⟨by simp [hq], fun r e' hh' => ?_⟩
            rw [hh] at hh'
            injection hh' with h6 _ _
            exact he h6.symm
          | some x =>
            obtain ⟨f, c2⟩ := x
            obtain ⟨q1, q2, q3, q4, q5⟩ := h.queue f c2 hq
            by_cases he2 : c' = c2
            · subst he2
              rw [q4, q5 h1', h.plan, q3]
              rfl
            · refine h.closed c' h1' ?_
              rw [alive_false]
              refine ⟨fun f' hq' => ?_, fun r e' hh' => ?_⟩
              · rw [hq] at hq'
                exact he2 (Prod.mk.inj (Option.some.inj hq')).2.symm
              · rw [hh] at hh'
                injection hh' with h6 _ _
                exact he h6.symm
      · obtain ⟨h4, h5⟩ := h.sending f hf c' hc'
        exact ⟨h4, hal c' h5⟩
    simp only [St.step, St.finish] at hs
    split at hs
    · rename_i c hh
      rw [← Option.some.inj hs]
      exact key c _ .idle s.connected s.queue hh (.inl rfl) (.inl rfl) (fun hg => by cases hg)
    · rename_i c hh
      rw [← Option.some.inj hs]
      exact key c _ .idle false s.queue hh (.inl rfl) (.inl rfl) (fun hg => by cases hg)
    · rename_i c hh
      rw [← Option.some.inj hs]
      exact key c _ .gone false none hh (.inr rfl) (.inr rfl) (fun _ => rfl)
    · cases hs

theorem CInv.abandon {cfg : Config} {s s' : St} (h : CInv cfg s) (hs : s.abandon = some s') : CInv cfg s' := by
  unfold St.abandon at hs
  split at hs
  · cases hs
  · obtain rfl := Option.some.inj hs
    exact ⟨h.fresh, h.plan, h.cur, h.queue, h.busy, h.lost, h.closed, h.pre, h.res, by simp, by simp, by simp, h.gone⟩

theorem CInv.run {cfg : Config} : ∀ {as : List Act} {s s' : St}, CInv cfg s → s.run cfg as = some s' → CInv cfg s'
  | [], s, s', h, hr => by
    rw [← Option.some.inj hr]
    exact h
  | a :: as, s, s', h, hr => by
    rw [St.run] at hr
    cases hs : s.step cfg a with
    | none => rw [hs] at hr; cases hr
    | some s1 =>
      rw [hs] at hr
      exact (h.step hs).run hr

/-! ### The events for a request -/

/-- The first of the sorted points that is on the chain is one of the newest that are. -/
theorem find_newest {from' : List Point} {on : Point → Bool} {p : Point} (hp : p ∈ from') (hon : on p = true)
    (hmax : ∀ q ∈ from', on q = true → q ≠ p → q.slot < p.slot) :
    (from'.insertionSort newer).find? on = some p := by
  have hs : (from'.insertionSort newer).Pairwise newer := by
    have : Std.Total newer := ⟨fun a b => by unfold newer; omega⟩
    have : IsTrans Point newer := ⟨fun a b c => by unfold newer; omega⟩
    exact List.pairwise_insertionSort newer from'
  have hm : ∀ q, q ∈ from'.insertionSort newer ↔ q ∈ from' := fun q => List.mem_insertionSort newer
  generalize from'.insertionSort newer = l at hs hm
  have hp' := (hm p).2 hp
  have hmax' : ∀ q ∈ l, on q = true → q ≠ p → q.slot < p.slot := fun q hq => hmax q ((hm q).1 hq)
  clear hm
  induction l with
  | nil => cases hp'
  | cons a l ih =>
    by_cases ha : on a = true
    · rw [List.find?_cons_of_pos ha]
      by_cases he : a = p
      · rw [he]
      · exfalso
        have h1 := hmax' a (by simp) ha he
        rcases List.mem_cons.1 hp' with h2 | h2
        · exact he h2.symm
        · have := (List.pairwise_cons.1 hs).1 p h2
          unfold newer at this
          omega
    · rw [List.find?_cons_of_neg ha]
      refine ih (List.pairwise_cons.1 hs).2 ?_ (fun q hq => hmax' q (List.mem_cons_of_mem _ hq))
      rcases List.mem_cons.1 hp' with h2 | h2
      · rw [h2] at hon
        exact absurd hon ha
      · exact h2

theorem find_nothing {from' : List Point} {on : Point → Bool} (h : ∀ q ∈ from', on q = false) :
    (from'.insertionSort newer).find? on = none := by
  rw [List.find?_eq_none]
  intro q hq
  have := h q ((List.mem_insertionSort newer).1 hq)
  simp [this]

theorem parseAll_ok : ∀ {bs : List NBlock}, (∀ b ∈ bs, b.parsed = .ok) →
    parseAll bs = (bs.map Out.block, false)
  | [], _ => rfl
  | b :: bs, h => by
    rw [parseAll, h b (by simp)]
    simp only [parseAll_ok (fun x hx => h x (List.mem_cons_of_mem _ hx)), List.map_cons]

theorem parseAll_upto : ∀ (good bs : List NBlock), (∀ b ∈ good, b.parsed ≠ .panic) →
    parseAll (good ++ bs) = (good.map (fun b => if b.parsed = .ok then Out.block b else .bad) ++ (parseAll bs).1,
      (parseAll bs).2)
  | [], _, _ => rfl
  | b :: good, bs, h => by
    have ih := parseAll_upto good bs (fun x hx => h x (List.mem_cons_of_mem _ hx))
    rw [List.cons_append, parseAll, ih]
    cases hb : b.parsed with
    | ok => simp [hb]
    | error => simp [hb]
    | panic => exact absurd hb (h b (by simp))

end Verif.Sources.Cardano
