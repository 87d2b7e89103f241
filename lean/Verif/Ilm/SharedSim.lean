import Verif.Fraos.ConcurrentCrash
import Verif.Ilm.SharedLemmas

/-! # The threads of the code do what the specification says -/

namespace Verif.Ilm

open Verif.Fraos

variable {K V : Type} {sys : Bool} [DecidableEq K]

theorem sum_update' {n : Nat} {α : Type} (f : α → Nat) (pcs : Fin n → α) (t : Fin n) (x : α) :
    (∑ u, f (Function.update pcs t x u)) + f (pcs t) = (∑ u, f (pcs u)) + f x := by
  rw [← Finset.add_sum_erase _ _ (Finset.mem_univ t), ← Finset.add_sum_erase _ (fun u => f (pcs u))
    (Finset.mem_univ t)]
  have : ∑ u ∈ Finset.univ.erase t, f (Function.update pcs t x u) =
      ∑ u ∈ Finset.univ.erase t, f (pcs u) := by
    apply Finset.sum_congr rfl
    intro u hu
    rw [Function.update_of_ne (Finset.ne_of_mem_erase hu)]
  rw [this, Function.update_self]
  omega

/-- Bytes a program is about to bring to the log. -/
def Prog.pend {R : Type} : Prog R → Nat
  | .log c _ => c.bytes
  | _ => 0

/-- Bytes a thread is about to bring to the log. -/
def SPC.pend : SPC K V → Nat
  | .at_ _ q => q.pend
  | _ => 0

omit [DecidableEq K] in
/-- The bytes all threads are about to bring, when one moves. -/
theorem spend_update {n : Nat} {pcs : Fin n → SPC K V} {t : Fin n} {x y : SPC K V} {i j : Nat} (h : pcs t = x) (hi : x.pend = i)
    (hj : y.pend = j) : (∑ u, (Function.update pcs t y u).pend) + i = (∑ u, (pcs u).pend) + j := by
  subst h hi hj
  exact sum_update' SPC.pend pcs t y

/-- A thread of the code, of the log and of the specification. -/
def TRel (c : Codec K V) (indexed : Bool) (S : Shared K V) : SPC K V → APC → SpPC K V → Prop
  | .idle, ac, sp => ac = .idle ∧ sp = .idle
  | .at_ cl q, ac, sp => ac = .idle ∧ Ok c indexed cl q S sp
  | .calling _ _, .idle, _ => False
  | .calling cl next, .start call, sp => Ok c indexed cl (.log call next) S sp
  | .calling cl next, .shown _ i, sp => ∃ k v kb, cl = .append k v ∧ sp = .put k v i ∧ c.encK k = some kb ∧
      S.log[i]? = some (k, v) ∧ next (.seqno (.ok (some i))) = .insert kb (posEnc i) (.done (.done (.ok ())))
  | .calling cl next, .ready _ r, sp => Ok c indexed cl (next r) S sp ∧ (next r).pend = 0

/-- The simulation. -/
structure MSim (c : Codec K V) (indexed : Bool) (used : Nat) {n : Nat} (s : SState n K V) (sp : SpState n K V) : Prop where
  ex : ∃ a es C B, Sim B s.cs a es C ∧ B + ∑ t, (s.pcs t).pend ≤ used ∧ a.log = records c sp.sh.log ∧
    a.counted = sp.sh.counted ∧ ∀ t, TRel c indexed sp.sh (s.pcs t) (a.pcs t) (sp.pcs t)
  journal : s.journal = encKeys c sp.sh.keys
  wf : sp.sh.WF c

theorem Ok.pend {c : Codec K V} {indexed : Bool} {cl : SCall K V} {q : Prog (SResp V)} {S : Shared K V} {sp : SpPC K V}
    (h : Ok c indexed cl q S sp) (hcl : ∀ k v, cl ≠ .append k v) : q.pend = 0 := by
  cases q with
  | log call next =>
    cases call with
    | append b =>
      obtain ⟨k, v, _, _, h1, _⟩ := h
      exact absurd h1 (hcl k v)
    | get i => rfl
    | len => rfl
  | _ => rfl

theorem TRel.later {c : Codec K V} {indexed : Bool} {S S' : Shared K V} {pc : SPC K V} {ac : APC} {sp : SpPC K V}
    (h : TRel c indexed S pc ac sp) (hl : S.Later c S') : TRel c indexed S' pc ac sp := by
  cases pc with
  | idle => exact h
  | at_ cl q => exact ⟨h.1, h.2.later hl⟩
  | calling cl next =>
    cases ac with
    | idle => exact h
    | start call => exact Ok.later (q := .log call next) h hl
    | shown b i =>
      obtain ⟨k, v, kb, h1, h2, h3, h4, h5⟩ := h
      exact ⟨k, v, kb, h1, h2, h3, prefix_get hl.log h4, h5⟩
    | ready call r => exact ⟨h.1.later hl, h.2⟩

omit [DecidableEq K] in
/-- All threads, when one moves. -/
theorem forall_update3 {n : Nat} {A B C : Type} {P : A → B → C → Prop} {f : Fin n → A} {g : Fin n → B} {h : Fin n → C}
    {t : Fin n} {x : A} {y : B} {z : C} (ho : ∀ u, u ≠ t → P (f u) (g u) (h u)) (ht : P x y z) (u : Fin n) :
    P (Function.update f t x u) (Function.update g t y u) (Function.update h t z u) := by
  by_cases hu : u = t
  · subst hu; simpa using ht
  · simpa [Function.update_of_ne hu] using ho u hu

/-- The specification takes at most one silent step of thread `t`. -/
theorem Local.exec {c : Codec K V} {indexed : Bool} {n : Nat} {sp : SpState n K V} {t : Fin n} {x : SpPC K V}
    (h : Local c indexed sp.sh (sp.pcs t) x) :
    Exec (SpStep c sys indexed) sp [] ⟨sp.sh, Function.update sp.pcs t x⟩ := by
  rcases h.step with h | h
  · subst h
    rw [Function.update_eq_self]
    exact .nil
  · exact .silent .nil h

omit [DecidableEq K] in
theorem Sim.len_lt {n B : Nat} {s : CState n} {a : AState n} {es : List (Nat × Nat)} {C : List UInt8}
    (h : Sim B s a es C) : a.log.length < 2 ^ 60 := h.inv.log_lt

/-- One step of the code: the specification follows. -/
theorem msim_step {p : Params} (hp : 16 ∣ p.minMmap) {c : Codec K V} (hc : c.Lawful) {indexed : Bool} {n used : Nat}
    {s s' : SState n K V} {sp : SpState n K V} (h : MSim c indexed used s sp) {ev : Option (SEv n K V)}
    (hs : SStep p c sys indexed s ev s') (hsm : ∀ e, ev = some e → e.small)
    (hB : used + (ev.map (SEv.bytes c)).getD 0 < 2 ^ 60) :
    ∃ sp', Exec (SpStep c sys indexed) sp ev.toList sp' ∧ MSim c indexed (used + (ev.map (SEv.bytes c)).getD 0) s' sp' := by
  obtain ⟨⟨a, es, C, B, hsim, hused, hlog, hcnt, hrel⟩, hj, hwf⟩ := h
  -- a thread moves on outside the log
  have quiet : ∀ {t : Fin n} {cl : SCall K V} {q q' : Prog (SResp V)} {x : SpPC K V}, s.pcs t = .at_ cl q →
      q'.pend ≤ q.pend → Local c indexed sp.sh (sp.pcs t) x → Ok c indexed cl q' sp.sh x →
      ∃ sp', Exec (SpStep c sys indexed) sp [] sp' ∧ MSim c indexed used (s.goto t (.at_ cl q')) sp' := by
    intro t cl q q' x ht hq hx hok
    have hr := hrel t
    rw [ht] at hr
    refine ⟨_, hx.exec, ⟨⟨a, es, C, B, hsim, ?_, hlog, hcnt, ?_⟩, hj, hwf⟩⟩
    · have h1 := spend_update (y := .at_ cl q') ht rfl rfl
      simp only [SState.goto]
      change _ + q.pend = _ + q'.pend at h1
      omega
    · intro u
      have := forall_update3 (P := TRel c indexed sp.sh) (f := s.pcs) (g := a.pcs) (h := sp.pcs) (t := t) (x := .at_ cl q')
        (y := a.pcs t) (z := x) (fun u _ => hrel u) ⟨hr.1, hok⟩ u
      rw [Function.update_eq_self] at this
      exact this
  cases hs with
  | @invoke t cl ht =>
    have hr := hrel t
    rw [ht] at hr
    obtain ⟨ha, hsp⟩ := hr
    refine ⟨_, .event .nil (.invoke hsp), ⟨⟨a, es, C, B, hsim, ?_, hlog, hcnt, ?_⟩, hj, hwf⟩⟩
    · have h1 := spend_update (y := .at_ cl (prog c indexed cl)) ht rfl rfl
      change _ + 0 = _ + (prog c indexed cl).pend at h1
      have h2 : (prog c indexed cl).pend ≤ cl.bytes c := by
        cases cl with
        | append k v =>
          simp only [prog]
          split
          · split
            · simp [Prog.pend]
            · split
              · simp [Prog.pend]
              · rename_i hv; simp [Prog.pend, Call.bytes, SCall.bytes, hv]
          · simp [Prog.pend]
        | _ =>
          have hsm' := hsm _ rfl
          simp only [SEv.small] at hsm'
          have h3 := (prog_ok (indexed := indexed) hc hsm' hwf).pend (by intro k v h; cases h)
          omega
      simp only [SState.goto, Option.map_some, Option.getD_some, SEv.bytes]
      omega
    · intro u
      have := forall_update3 (P := TRel c indexed sp.sh) (f := s.pcs) (g := a.pcs) (h := sp.pcs) (t := t)
        (x := .at_ cl (prog c indexed cl)) (y := a.pcs t) (z := .called cl) (fun u _ => hrel u)
        ⟨ha, prog_ok hc (hsm _ rfl) hwf⟩ u
      rw [Function.update_eq_self] at this
      exact this
  | @enter t cl call next cs ht hstep =>
    have hr := hrel t
    rw [ht] at hr
    obtain ⟨ha, hok⟩ := hr
    have h1 := spend_update (y := .calling cl next) ht rfl rfl
    change _ + call.bytes = _ + 0 at h1
    simp only [Option.map_none, Option.getD_none, Nat.add_zero, Option.toList_none] at hB ⊢
    have hcall : call.small := by
      cases call with
      | get i => exact hok.2.1
      | append b => trivial
      | len => trivial
    obtain ⟨a', es', C', hst, hsim'⟩ := sim_step hp hsim hstep (by intro e he; cases he; exact hcall)
      (by simp only [Option.map_some, Option.getD_some, Ev.bytes]; omega)
    rcases hst with ⟨h, _⟩ | hst
    · cases h
    cases hst
    refine ⟨sp, .nil, ⟨⟨_, es', C', _, hsim', ?_, hlog, hcnt, ?_⟩, hj, hwf⟩⟩
    · simp only [Option.map_some, Option.getD_some, Ev.bytes, SState.goto]
      omega
    · intro u
      have := forall_update3 (P := TRel c indexed sp.sh) (f := s.pcs) (g := a.pcs) (h := sp.pcs) (t := t)
        (x := .calling cl next) (y := .start call) (z := sp.pcs t) (fun u _ => hrel u) hok u
      rw [Function.update_eq_self] at this
      exact this
  | @work cs hstep =>
    simp only [Option.map_none, Option.getD_none, Nat.add_zero, Option.toList_none] at hB ⊢
    obtain ⟨a', es', C', hst, hsim'⟩ := sim_step hp hsim hstep (by simp)
      (by simp only [Option.map_none, Option.getD_none]; omega)
    simp only [Option.map_none, Option.getD_none, Nat.add_zero] at hsim'
    rcases hst with ⟨_, rfl⟩ | hst
    · exact ⟨sp, .nil, ⟨⟨_, es', C', B, hsim', hused, hlog, hcnt, hrel⟩, hj, hwf⟩⟩
    -- the thread is in a call of the log
    have inside : ∀ {t : Fin n}, a.pcs t ≠ .idle → ∃ cl next, s.pcs t = .calling cl next := by
      intro t ht
      have hr := hrel t
      cases hx : s.pcs t with
      | idle => rw [hx] at hr; exact absurd hr.1 ht
      | at_ cl q => rw [hx] at hr; exact absurd hr.1 ht
      | calling cl next => exact ⟨cl, next, rfl⟩
    -- the call of the log is answered
    have follow : ∀ {t : Fin n} {call : Call} {r : Resp} {cl : SCall K V} {next : Resp → Prog (SResp V)} {x : SpPC K V},
        s.pcs t = .calling cl next → Local c indexed sp.sh (sp.pcs t) x → Ok c indexed cl (next r) sp.sh x →
        (next r).pend = 0 → Sim B cs ⟨a.log, a.counted, Function.update a.pcs t (.ready call r)⟩ es' C' →
        ∃ sp', Exec (SpStep c sys indexed) sp [] sp' ∧ MSim c indexed used ⟨cs, s.journal, s.pcs⟩ sp' := by
      intro t call r cl next x hcl hx hok hpd hsim'
      refine ⟨_, hx.exec, ⟨⟨_, es', C', B, hsim', hused, hlog, hcnt, ?_⟩, hj, hwf⟩⟩
      intro u
      have := forall_update3 (P := TRel c indexed sp.sh) (f := s.pcs) (g := a.pcs) (h := sp.pcs) (t := t)
        (x := .calling cl next) (y := .ready call r) (z := x) (fun u _ => hrel u) ⟨hok, hpd⟩ u
      rw [← hcl, Function.update_eq_self] at this
      exact this
    cases hst with
    | @none_ t ht =>
      obtain ⟨cl, next, hcl⟩ := inside (t := t) (by rw [ht]; simp)
      have hr := hrel t
      rw [hcl, ht] at hr
      obtain ⟨_, _, _, _, _, _, _, _, _, h, _⟩ := hr
      cases h
    | @refuse t b ht hb =>
      obtain ⟨cl, next, hcl⟩ := inside (t := t) (by rw [ht]; simp)
      have hr := hrel t
      rw [hcl, ht] at hr
      obtain ⟨_, _, _, vb, _, _, _, _, _, h, h', _⟩ := hr
      subst h
      simp only [List.mem_singleton] at hb
      exact absurd hb.symm h'
    | @fail t b e ht hsys hb hne he =>
      obtain ⟨cl, next, hcl⟩ := inside (t := t) (by rw [ht]; simp)
      have hr := hrel t
      rw [hcl, ht] at hr
      obtain ⟨k, v, kb, vb, h1, h2, h3, h4, h5, h6, _, _, h9⟩ := hr
      subst h1
      refine ⟨_, .silent .nil (.fail (r := .done (.error (.storage e))) h2 ⟨hsys, h3, by simp [h4], by simp [h5], he⟩),
        ⟨⟨_, es', C', B, hsim', hused, hlog, hcnt, ?_⟩, hj, hwf⟩⟩
      intro u
      have := forall_update3 (P := TRel c indexed sp.sh) (f := s.pcs) (g := a.pcs) (h := sp.pcs) (t := t)
        (x := .calling (.append k v) next) (y := .ready (.append b) (.seqno (.error e)))
        (z := .ready (.append k v) (.done (.error (.storage e)))) (fun u _ => hrel u)
        ⟨by rw [h9]; exact .inl rfl, by rw [h9]; rfl⟩ u
      rw [← hcl, Function.update_eq_self] at this
      exact this
    | @put t b ht hb hne hcn =>
      obtain ⟨cl, next, hcl⟩ := inside (t := t) (by rw [ht]; simp)
      have hr := hrel t
      rw [hcl, ht] at hr
      obtain ⟨k, v, kb, vb, h1, h2, h3, h4, h5, h6, _, h8, _⟩ := hr
      have hlen : a.log.length = sp.sh.log.length := by rw [hlog]; simp [records]
      have hlater : sp.sh.Later c { sp.sh with log := sp.sh.log ++ [(k, v)] } := by
        refine ⟨⟨?_, ?_, hwf.encK, ?_, ?_⟩, List.prefix_append _ _, List.suffix_refl _, le_refl _⟩
        · simp only [List.length_append]; have := hwf.le; omega
        · intro x hx
          rcases List.mem_append.mp hx with hx | hx
          · exact hwf.encV x hx
          · simp only [List.mem_singleton] at hx; subst hx; simp [h5]
        · intro x hx
          obtain ⟨w, hw⟩ := hwf.ok x hx
          exact ⟨w, prefix_get (List.prefix_append _ _) hw⟩
        · have := Sim.len_lt hsim'
          simp only [List.length_append, h6, List.length_cons, List.length_nil] at this ⊢
          omega
      refine ⟨_, .silent .nil (.put h2 h3 (by simp [h4]) (by simp [h5]) (by rw [← hcnt, hcn, hlen])), ⟨⟨_, es', C', B, hsim', hused,
        ?_, hcnt, ?_⟩, hj, hlater.wf⟩⟩
      · simp only [hlog, records, h6, List.map_append, List.map_cons, List.map_nil, h5, Option.getD_some]
      · intro u
        have := forall_update3 (P := TRel c indexed { sp.sh with log := sp.sh.log ++ [(k, v)] }) (f := s.pcs) (g := a.pcs)
          (h := sp.pcs) (t := t) (x := .calling cl next) (y := .shown b a.log.length) (z := .put k v sp.sh.log.length)
          (fun u _ => (hrel u).later hlater)
          (by rw [hlen]; exact ⟨k, v, kb, h1, rfl, h4, by simp, h8 _⟩) u
        rw [← hcl, Function.update_eq_self] at this
        exact this
    | @count t b k ht =>
      obtain ⟨cl, next, hcl⟩ := inside (t := t) (by rw [ht]; simp)
      have hr := hrel t
      rw [hcl, ht] at hr
      obtain ⟨k', v, kb, h1, h2, h3, h4, h5⟩ := hr
      have hlen : a.log.length = sp.sh.log.length := by rw [hlog]; simp [records]
      have hlater : sp.sh.Later c { sp.sh with counted := sp.sh.log.length } :=
        ⟨⟨le_refl _, hwf.encV, hwf.encK, hwf.ok, hwf.len⟩, List.prefix_refl _, List.suffix_refl _, hwf.le⟩
      refine ⟨_, .silent .nil (.count h2), ⟨⟨_, es', C', B, hsim', hused, hlog, hlen, ?_⟩, hj, hlater.wf⟩⟩
      intro u
      have := forall_update3 (P := TRel c indexed { sp.sh with counted := sp.sh.log.length }) (f := s.pcs) (g := a.pcs)
        (h := sp.pcs) (t := t) (x := .calling cl next) (y := .ready (.append b) (.seqno (.ok (some k))))
        (z := .counted k' v k) (fun u _ => (hrel u).later hlater)
        (by
          refine ⟨?_, by rw [h5]; rfl⟩
          rw [h5]
          exact ⟨k', v, k, h1, rfl, h3, rfl, h4, rfl⟩) u
      rw [← hcl, Function.update_eq_self] at this
      exact this
    | @read t i ht =>
      obtain ⟨cl, next, hcl⟩ := inside (t := t) (by rw [ht]; simp)
      have hr := hrel t
      rw [hcl, ht] at hr
      obtain ⟨h1, _, h3⟩ := hr
      obtain ⟨x, hx, hok⟩ := h3 _ hwf.refl
      rw [hlog, records_getElem?, ← hlog] at hsim'
      exact follow hcl hx hok (hok.pend h1) hsim'
    | @tally t ht =>
      obtain ⟨cl, next, hcl⟩ := inside (t := t) (by rw [ht]; simp)
      have hr := hrel t
      rw [hcl, ht] at hr
      obtain ⟨h1, h3⟩ := hr
      obtain ⟨x, hx, hok⟩ := h3 _ hwf.refl
      rw [← hcnt] at hok
      exact follow hcl hx hok (hok.pend h1) hsim'
  | @leave t cl call r next cs ht hstep =>
    simp only [Option.map_none, Option.getD_none, Nat.add_zero, Option.toList_none] at hB ⊢
    obtain ⟨a', es', C', hst, hsim'⟩ := sim_step hp hsim hstep (by intro e he; cases he; trivial)
      (by simp only [Option.map_some, Option.getD_some, Ev.bytes]; omega)
    simp only [Option.map_some, Option.getD_some, Ev.bytes, Nat.add_zero] at hsim'
    rcases hst with ⟨h, _⟩ | hst
    · cases h
    cases hst with
    | answer hready =>
      have hr := hrel t
      rw [ht, hready] at hr
      refine ⟨sp, .nil, ⟨⟨_, es', C', B, hsim', ?_, hlog, hcnt, ?_⟩, hj, hwf⟩⟩
      · have h1 := spend_update (y := .at_ cl (next r)) ht rfl rfl
        change _ + 0 = _ + (next r).pend at h1
        rw [hr.2] at h1
        simp only [SState.goto]
        omega
      · intro u
        have := forall_update3 (P := TRel c indexed sp.sh) (f := s.pcs) (g := a.pcs) (h := sp.pcs) (t := t)
          (x := .at_ cl (next r)) (y := .idle) (z := sp.pcs t) (fun u _ => hrel u) ⟨rfl, hr.1⟩ u
        rw [Function.update_eq_self] at this
        exact this
  | @lookup t cl kb next ht =>
    have hr := hrel t
    rw [ht] at hr
    obtain ⟨_, h1, h2⟩ := hr
    obtain ⟨x, hx, hok⟩ := h2 _ hwf.refl
    rw [← hj] at hok
    exact quiet ht (by rw [hok.pend h1]; exact Nat.zero_le _) hx hok
  | @insert t cl kb pb q ht =>
    have hr := hrel t
    rw [ht] at hr
    obtain ⟨ha, k, v, i, h1, h2, h3, h4, h5, h6⟩ := hr
    have hlater : sp.sh.Later c { sp.sh with keys := (k, i) :: sp.sh.keys } := by
      refine ⟨⟨hwf.le, hwf.encV, ?_, ?_, hwf.len⟩, List.prefix_refl _, List.suffix_cons _ _, le_refl _⟩
      · intro x hx
        rcases List.mem_cons.mp hx with rfl | hx
        · simp [h3]
        · exact hwf.encK x hx
      · intro x hx
        rcases List.mem_cons.mp hx with rfl | hx
        · exact ⟨v, h5⟩
        · exact hwf.ok x hx
    refine ⟨_, .silent .nil (.record h2), ⟨⟨a, es, C, B, hsim, ?_, hlog, hcnt, ?_⟩, ?_, hlater.wf⟩⟩
    · have h7 := spend_update (y := .at_ cl q) ht rfl rfl
      rw [h6] at h7
      change _ + 0 = _ + 0 at h7
      simp only [SState.goto, h6, Option.map_none, Option.getD_none]
      omega
    · intro u
      have := forall_update3 (P := TRel c indexed { sp.sh with keys := (k, i) :: sp.sh.keys }) (f := s.pcs) (g := a.pcs)
        (h := sp.pcs) (t := t) (x := .at_ cl q) (y := a.pcs t) (z := .ready (.append k v) (.done (.ok ())))
        (fun u _ => (hrel u).later hlater) ⟨ha, by rw [h6]; exact .inl (by rw [h1])⟩ u
      rw [Function.update_eq_self] at this
      exact this
    · simp [encKeys, hj, h3, h4]
  | @vacant t cl next ht =>
    have hr := hrel t
    rw [ht] at hr
    obtain ⟨_, h1, h2⟩ := hr
    obtain ⟨x, hx, hok⟩ := h2 _ hwf.refl
    have : s.journal.isEmpty = sp.sh.keys.isEmpty := by rw [hj, encKeys]; simp
    rw [← this] at hok
    exact quiet ht (by rw [hok.pend h1]; exact Nat.zero_le _) hx hok
  | @answer t cl r ht =>
    have hr := hrel t
    rw [ht] at hr
    obtain ⟨ha, hok⟩ := hr
    have hex : Exec (SpStep c sys indexed) sp [] ⟨sp.sh, Function.update sp.pcs t (.ready cl r)⟩ := by
      rcases hok with h | ⟨h1, h2⟩
      · rw [← h, Function.update_eq_self]; exact .nil
      · exact .silent .nil (.look h1 (h2 _))
    refine ⟨_, .event hex (.answer (t := t) (by simp)), ⟨⟨a, es, C, B, hsim, ?_, hlog, hcnt, ?_⟩, hj, hwf⟩⟩
    · have h7 := spend_update (y := .idle) ht rfl rfl
      change _ + 0 = _ + 0 at h7
      simp only [SState.goto]
      omega
    · intro u
      have := forall_update3 (P := TRel c indexed sp.sh) (f := s.pcs) (g := a.pcs) (h := sp.pcs) (t := t)
        (x := .idle) (y := a.pcs t) (z := .idle) (fun u _ => hrel u) ⟨ha, rfl⟩ u
      rw [Function.update_eq_self] at this
      simp only [Function.update_idem]
      exact this

/-- Every run of the code is a run of the specification with the same calls and answers. -/
theorem msim_exec {p : Params} (hp : 16 ∣ p.minMmap) {c : Codec K V} (hc : c.Lawful) {indexed : Bool} {n used : Nat}
    {s0 s : SState n K V} {sp0 : SpState n K V} (h0 : MSim c indexed used s0 sp0) {tr : List (SEv n K V)}
    (hx : Exec (SStep p c sys indexed) s0 tr s) (hsm : ∀ e ∈ tr, e.small)
    (hB : used + (tr.map (SEv.bytes c)).sum < 2 ^ 60) :
    ∃ sp, Exec (SpStep c sys indexed) sp0 tr sp ∧ MSim c indexed (used + (tr.map (SEv.bytes c)).sum) s sp := by
  induction hx with
  | nil => exact ⟨sp0, .nil, by simpa using h0⟩
  | silent _ hs ih =>
    obtain ⟨sp, hax, hsim⟩ := ih hsm hB
    obtain ⟨sp', hstep, hsim'⟩ := msim_step hp hc hsim hs (by simp) (by simpa using hB)
    refine ⟨sp', ?_, by simpa using hsim'⟩
    simpa using Exec.append hax hstep
  | @event tr s s' e _ hs ih =>
    simp only [List.map_append, List.map_cons, List.map_nil, List.sum_append, List.sum_cons,
      List.sum_nil, Nat.add_zero] at hB ⊢
    obtain ⟨sp, hax, hsim⟩ := ih (fun x hx => hsm x (by simp [hx])) (by omega)
    obtain ⟨sp', hstep, hsim'⟩ := msim_step hp hc hsim hs
      (by intro x hx; cases hx; exact hsm e (by simp)) (by simp; omega)
    exact ⟨sp', Exec.append hax hstep, by simpa [Nat.add_assoc] using hsim'⟩

/-- Threads begin to share a map. -/
theorem msim_init {p : Params} {c : Codec K V} {onDisk : Bool} {m : ILM} {s : MSpec K V} {used : Nat} (n : Nat)
    (h : MRel p c onDisk m s used) : MSim c m.indexed used (sinit n m) (spinit n s.log s.journal) := by
  obtain ⟨es, C, hsim⟩ := sim_init (n := n) h.good
  refine ⟨⟨_, es, C, used, hsim, by simp [sinit, SPC.pend], rfl, by simp [spinit, records], fun t => ⟨rfl, rfl⟩⟩, h.jr,
    ⟨le_refl _, h.encV, h.encK, h.ok, ?_⟩⟩
  have := Sim.len_lt hsim
  simpa [records, spinit] using this

/-- The index file of the log stays small. -/
theorem msized_exec {p : Params} (hp : 16 ∣ p.minMmap) {c : Codec K V} (hc : c.Lawful) {indexed onDisk : Bool} {n used : Nat}
    {s0 s : SState n K V} {sp0 : SpState n K V} (h0 : MSim c indexed used s0 sp0) (hz : Sized p onDisk used s0.cs)
    {tr : List (SEv n K V)} (hx : Exec (SStep p c sys indexed) s0 tr s) (hsm : ∀ e ∈ tr, e.small)
    (hB : used + (tr.map (SEv.bytes c)).sum < 2 ^ 60) : Sized p onDisk (used + (tr.map (SEv.bytes c)).sum) s.cs := by
  have key : ∀ {U : Nat} {s s' : SState n K V} {sp : SpState n K V} {ev : Option (SEv n K V)}, MSim c indexed U s sp →
      Sized p onDisk U s.cs → SStep p c sys indexed s ev s' → Sized p onDisk U s'.cs := by
    intro U s s' sp ev hsim hz hs
    obtain ⟨a, es, C, B, hs', hB, _⟩ := hsim.ex
    have hs'' : Sim U s.cs a es C := { hs' with bytes := by have := hs'.bytes; omega }
    cases hs with
    | enter _ hc => exact sized_step hp hs'' hz hc
    | work hc => exact sized_step hp hs'' hz hc
    | leave _ hc => exact sized_step hp hs'' hz hc
    | _ => exact hz
  induction hx with
  | nil => simpa using hz
  | silent hx hs ih =>
    obtain ⟨sp, _, hsim⟩ := msim_exec hp hc h0 hx hsm hB
    exact key hsim (ih hsm hB) hs
  | @event tr s s' e hx hs ih =>
    simp only [List.map_append, List.map_cons, List.map_nil, List.sum_append, List.sum_cons,
      List.sum_nil, Nat.add_zero] at hB ⊢
    obtain ⟨sp, _, hsim⟩ := msim_exec hp hc h0 hx (fun x hx => hsm x (by simp [hx])) (by omega)
    exact (key hsim (ih (fun x hx => hsm x (by simp [hx])) (by omega)) hs).mono (by omega)

/-- The map that threads share. -/
def SState.map {n : Nat} (s : SState n K V) (indexed : Bool) : ILM := ⟨s.cs.db, s.journal, indexed⟩

/-- When all threads are idle the map is as after calls by one thread. -/
theorem MSim.rel {p : Params} {c : Codec K V} {indexed onDisk : Bool} {n used : Nat} {s : SState n K V} {sp : SpState n K V}
    (h : MSim c indexed used s sp) (hz : Sized p onDisk used s.cs) (hidle : ∀ t, s.pcs t = .idle) :
    MRel p c onDisk (s.map indexed) ⟨sp.sh.log, sp.sh.keys, indexed, []⟩ used ∧ sp.sh.counted = sp.sh.log.length ∧
      ∀ t, sp.pcs t = .idle := by
  obtain ⟨a, es, C, B, hs, hB, hlog, hcnt, hrel⟩ := h.ex
  have hs' : Sim used s.cs a es C := { hs with bytes := by have := hs.bytes; omega }
  have hci : ∀ t, s.cs.pcs t = .idle := by
    intro t
    have h1 := hrel t
    rw [hidle t] at h1
    have h2 := hs.rel t
    rw [h1.1] at h2
    cases hpc : s.cs.pcs t with
    | idle => rfl
    | found i o l =>
      rw [hpc] at h2
      obtain ⟨_, _, _, h3⟩ := h2
      cases h3
    | _ => rw [hpc] at h2; simp [PcRel] at h2
  obtain ⟨hg, hcount, _⟩ := hs'.good hz hci
  refine ⟨⟨by rw [hlog] at hg; exact hg, h.wf.encV, h.journal, h.wf.encK, h.wf.ok, rfl, by simp⟩, ?_, ?_⟩
  · rw [← hcnt, hcount, hlog]; simp [records]
  · intro t
    have h1 := hrel t
    rw [hidle t] at h1
    exact h1.2

end Verif.Ilm
