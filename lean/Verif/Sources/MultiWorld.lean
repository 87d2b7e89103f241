import Verif.Sources.MultiInv

/-!
# A consumer of the multiverse source
-/

namespace Verif.Sources

open Verif.Multiverse

set_option linter.unusedSectionVars false

variable {P : Type} [DecidableEq P] {B : Key → Block} {d : Nat} {r : Key} {D : List Block} {S : Tree} {m : MV}
  {nf : Block → Option P}

/-! ### Parts of a pull -/

theorem tipPoints_ok (h : Rel B m S) (hnf : ∀ k, (S k).isSome → (nf (B k)).isSome) :
    ∀ {rs : List Ref}, (∀ x ∈ rs, (S x.key).isSome) →
      ∃ ps, tipPoints nf m rs = .ok ps ∧ ∀ p, p ∈ ps ↔ ∃ x ∈ rs, nf (B x.key) = some p
  | [], _ => ⟨[], rfl, by simp⟩
  | x :: rs, hx => by
    obtain ⟨ps, h1, h2⟩ := tipPoints_ok h hnf (rs := rs) (fun y hy => hx y (List.mem_cons_of_mem _ hy))
    have h3 := hx x (by simp)
    obtain ⟨p, hp⟩ := Option.isSome_iff_exists.1 (hnf _ h3)
    refine ⟨p :: ps, ?_, fun q => ?_⟩
    · rw [tipPoints, h.get, if_pos h3]
      simp only [hp, h1]
      rfl
    · simp only [List.mem_cons, h2]
      constructor
      · rintro (rfl | ⟨y, h4, h5⟩)
        · exact ⟨x, .inl rfl, hp⟩
        · exact ⟨y, .inr h4, h5⟩
      · rintro ⟨y, rfl | h4, h5⟩
        · rw [hp] at h5
          exact .inl (Option.some.inj h5).symm
        · exact .inr ⟨y, h4, h5⟩

theorem tips_stored (h : Rel B m S) {f : List Ref → List Ref} (hf : ∀ l, (f l).Perm l) :
    ∀ x ∈ f m.tips, (S x.key).isSome := by
  intro x hx
  exact ((h.tips x.key).1 (List.mem_map_of_mem ((hf _).mem_iff.1 hx))).1

theorem request_eq {s : MSrc} (h : Rel B s.mv S) (hnf : ∀ k, (S k).isSome → (nf (B k)).isSome) {o : Orders}
    (ho : o.Ok) (f : Option P) :
    ∃ ps, s.request nf o f = fromCheck f ps (s.confirmedWithParent nf) ∧
      ∀ p, p ∈ ps ↔ ∃ k ∈ s.mv.tips.map Ref.key, nf (B k) = some p := by
  obtain ⟨ps, h1, h2⟩ := tipPoints_ok h hnf (tips_stored h ho.1)
  refine ⟨ps, by simp only [MSrc.request, h1], fun p => ?_⟩
  rw [h2]
  constructor
  · rintro ⟨x, h3, h4⟩
    exact ⟨x.key, List.mem_map_of_mem ((ho.1 _).mem_iff.1 h3), h4⟩
  · rintro ⟨k, h3, h4⟩
    obtain ⟨x, h5, rfl⟩ := List.mem_map.1 h3
    exact ⟨x, (ho.1 _).mem_iff.2 h5, h4⟩

theorem confirmed_eq {s : MSrc} (h : Rel B s.mv S) {c : Key} (hc : s.confirmed = some c) (hs : (S c).isSome)
    {p : P} (hp : nf (B c) = some p) : s.confirmedWithParent nf =
      some ((if (S (B c).parent).isSome then nf (B (B c).parent) else none), B c, p) := by
  unfold MSrc.confirmedWithParent
  rw [hc]
  simp only [Option.bind_some, h.get, if_pos hs, hp, Option.map_some]
  split <;> rfl

theorem fromCheck_same (f : Option P) (ps : List P) (b : Block) (p : P) :
    fromCheck f ps (some (f, b, p)) = .ok (.inl b) := by
  simp [fromCheck]

theorem fromCheck_next {parent : Option P} {p : P} (h : some p ≠ parent) (ps : List P) (b : Block) :
    fromCheck (some p) ps (some (parent, b, p)) = .ok (.inr (ps ++ [p])) := by
  simp [fromCheck, h]

/-! ### The invariant -/

/-- The state of a consumer: it has received the chain up to the confirmed block, or (if `Q`: after a crash) up
to its parent. -/
structure WInv (B : Key → Block) (d : Nat) (r : Key) (nf : Block → Option P) (p0 : Option P) (Q : Prop)
    (w : World P) (S : Tree) : Prop where
  rel : Rel B w.src.mv S
  sf : w.src.mv.storeFrom = 0
  depth : w.src.depth = d
  inv : Inv B d r w.got S
  conf : Conf B d r w.got w.src.confirmed
  out : w.out.map Block.id = pathTo B r w.src.confirmed ∨
    ∃ c, Q ∧ w.src.confirmed = some c ∧ w.out.map Block.id ++ [c] = pathTo B r (some c)
  sub : ∀ v ∈ w.out, v ∈ w.got
  pos : w.pos = (w.out.getLast?.map nf).getD p0
  failed : w.failed = none

/-- Blocks have different positions. -/
def Points (nf : Block → Option P) (D : List Block) : Prop :=
  (∀ v ∈ D, (nf v).isSome) ∧ ∀ u ∈ D, ∀ v ∈ D, nf u = nf v → u = v

theorem Inv.point (h : Inv B d r D S) (hf : Feed B r D) (hp : Points nf D) (k : Key) (hk : (S k).isSome) :
    (nf (B k)).isSome := by
  obtain ⟨v, hv, rfl⟩ := h.sub k hk
  rw [← (hf.ok v hv).1]
  exact hp.1 v hv

theorem pathTo_last (B : Key → Block) (r c : Key) : (pathTo B r (some c)).getLast? = some c := path_last _ _

theorem last_of_map {l : List Block} {c : Key} (h : (l.map Block.id).getLast? = some c) :
    ∃ v, l.getLast? = some v ∧ v.id = c := by
  rw [List.getLast?_map] at h
  exact Option.map_eq_some_iff.1 h

/-- The confirmed block is stored. -/
theorem WInv.confirmed_stored {p0 : Option P} {Q : Prop} {w : World P} (h : WInv B d r nf p0 Q w S) (hf : Feed B r w.got)
    {c : Key} (hc : w.src.confirmed = some c) : (S c).isSome ∧ B c ∈ w.got ∧ (B c).id = c := by
  have h1 := h.conf
  rw [hc] at h1
  obtain ⟨u, hu, rfl, x, hx, hm, hn, _⟩ := Conf.mem hf h1
  rw [← (hf.ok u hu).1]
  exact ⟨h.inv.keep u hu (fun y hy => by have := hm y hy; omega), hu, rfl⟩

/-- A consumer that has everything that is confirmed: the inner source is asked. -/
theorem request_caught {p0 : Option P} {Q : Prop} {w : World P} (h : WInv B d r nf p0 Q w S) (hf : Feed B r w.got)
    (hp : Points nf w.got) (hout : w.out.map Block.id = pathTo B r w.src.confirmed) {o : Orders} (ho : o.Ok) :
    ∃ ps, w.src.request nf o w.pos = .ok (.inr ps) := by
  obtain ⟨ps, h1, _⟩ := request_eq h.rel (h.inv.point hf hp) ho w.pos
  rw [h1]
  cases hc : w.src.confirmed with
  | none =>
    refine ⟨ps ++ w.pos.toList, ?_⟩
    unfold MSrc.confirmedWithParent
    rw [hc]
    rfl
  | some c =>
    obtain ⟨h2, h3, h4⟩ := h.confirmed_stored hf hc
    obtain ⟨p, hpc⟩ := Option.isSome_iff_exists.1 (hp.1 _ h3)
    have hpos : w.pos = some p := by
      have hl : (w.out.map Block.id).getLast? = some c := by rw [hout, hc]; exact pathTo_last B r c
      obtain ⟨v, hv, hvc⟩ := last_of_map hl
      rw [h.pos, hv]
      simp only [Option.map_some, Option.getD_some]
      have : v ∈ w.got := h.sub v (List.mem_of_getLast? hv)
      rw [(hf.ok v this).1, hvc, hpc]
    rw [confirmed_eq h.rel hc h2 hpc, hpos]
    refine ⟨ps ++ [p], fromCheck_next ?_ _ _⟩
    · intro he
      split at he
      · rename_i hst
        obtain ⟨u, hu, hup⟩ := h.inv.sub _ hst
        rw [← hup, ← (hf.ok u hu).1, ← hpc] at he
        have hcu := hp.2 _ h3 _ hu he
        rcases hf.cases hu with hh | ⟨u', h5, h6, h7⟩
        · rw [← hcu, h4] at hh
          rw [hh] at hup
          exact hf.rootParent u hu hup
        · have : u' = u := hf.same h5 hu (by rw [h6, hup, hcu])
          rw [this] at h7
          omega
      · cases he

/-- A consumer that lacks the confirmed block gets it. -/
theorem request_pending {Q : Prop} {w : World P} {c : Key} (h : WInv B d r nf none Q w S) (hf : Feed B r w.got)
    (hp : Points nf w.got) (hc : w.src.confirmed = some c)
    (hout : w.out.map Block.id ++ [c] = pathTo B r (some c)) {o : Orders} (ho : o.Ok) :
    w.src.request nf o w.pos = .ok (.inl (B c)) := by
  obtain ⟨ps, h1, _⟩ := request_eq h.rel (h.inv.point hf hp) ho w.pos
  obtain ⟨h2, h3, h4⟩ := h.confirmed_stored hf hc
  obtain ⟨p, hpc⟩ := Option.isSome_iff_exists.1 (hp.1 _ h3)
  rw [h1, confirmed_eq h.rel hc h2 hpc]
  have key : w.pos = if (S (B c).parent).isSome then nf (B (B c).parent) else none := ?_
  · rw [← key]
    exact fromCheck_same _ _ _ _
  rcases hf.cases h3 with hr | ⟨u, hu, hup, hun⟩
  · -- the first block
    rw [h4] at hr
    subst hr
    have hnil : w.out.map Block.id = [] := by
      have hh := congrArg List.length hout
      unfold pathTo at hh
      simp only [Nat.sub_self] at hh
      have : (path B 0 c).length = 1 := path_length 0 c
      rw [this] at hh
      simpa using hh
    have hnil' : w.out = [] := List.map_eq_nil_iff.1 hnil
    rw [if_neg]
    · rw [h.pos, hnil']
      rfl
    · intro hst
      obtain ⟨u, hu, hup⟩ := h.inv.sub _ hst
      exact hf.rootParent u hu hup
  · have hstu : (S u.id).isSome := by
      have hcf := h.conf
      rw [hc] at hcf
      obtain ⟨u', hu', hu1, x, hx, hm, hn, _⟩ := Conf.mem hf hcf
      have : u' = B c := hf.same hu' h3 (by rw [hu1, h4])
      rw [this] at hn
      exact h.inv.keep u hu (fun y hy => by have := hm y hy; omega)
    rw [if_pos (by rw [← hup]; exact hstu), ← hup, ← (hf.ok u hu).1]
    have hge := hf.ge hu
    have hlast : (w.out.map Block.id).getLast? = some u.id := by
      have e : (B c).number - (B r).number = (u.number - (B r).number) + 1 := by omega
      unfold pathTo at hout
      simp only [e] at hout
      rw [path, ← hup] at hout
      rw [List.append_cancel_right hout, path_last]
    obtain ⟨v, hv, hvc⟩ := last_of_map hlast
    rw [h.pos, hv]
    simp only [Option.map_some, Option.getD_some]
    rw [hf.same (h.sub v (List.mem_of_getLast? hv)) hu hvc]

/-! ### Steps -/

/-- A new source over the database. -/
theorem renew_inv {p0 : Option P} {Q : Prop} {w : World P} {o : Orders} (ho : o.Ok) {m : MV} (hrel : Rel B m S)
    (hsf : m.storeFrom = 0) (hd : w.src.depth = d) (hinv : Inv B d r w.got S) (hf : Feed B r w.got)
    (hcp : CommonPrefix B d r w.got)
    (hout : ∀ c, Conf B d r w.got c → w.out.map Block.id = pathTo B r c ∨
      ∃ k, Q ∧ c = some k ∧ w.out.map Block.id ++ [k] = pathTo B r (some k))
    (hsub : ∀ v ∈ w.out, v ∈ w.got) (hpos : w.pos = (w.out.getLast?.map nf).getD p0)
    (hfail : w.failed = none) : WInv B d r nf p0 Q (w.renew m o) (specReopen B S) := by
  obtain ⟨m', h1, h2, h3⟩ := hrel.reopen m.storeFrom
  have hns : NoStale m' (fun _ => false) := fun _ _ _ _ _ _ hf => by cases hf
  obtain ⟨sel, disc, h4, h5, h6⟩ := h2.selected hns ho.2.1 d 0
  have hinv' := hinv.reopen hf hrel hsf
  have hconf : Conf B d r w.got (sel.map Ref.key) := by
    rcases h6 with ⟨h7, h8⟩ | ⟨top, h7, h8, h9⟩
    · have hD : w.got = [] := by
        by_contra hD
        obtain ⟨x, hx, hm⟩ := exists_top hD
        have := hinv'.keep x hx (fun y hy => by have := hm y hy; omega)
        rw [h8] at this
        cases this
      rw [hD, h7]
      exact ⟨fun _ => rfl, fun x hx => by cases hx⟩
    · exact hinv'.conf hf hcp h2 h7 h8 h9
  have e : w.renew m o = { w with src := ⟨m', d, sel.map Ref.key⟩ } := by
    unfold World.renew reopenSrc
    rw [h1]
    simp only [MSrc.new, hd, h4]
    rfl
  rw [e]
  exact ⟨h2, h3.trans hsf, rfl, hinv', hconf, hout _ hconf, hsub, hpos, hfail⟩

/-- The action uses proper orders, and crashes only if allowed. -/
def Act.Ok (crashes : Prop) : Act P → Prop
  | .pull o _ => o.Ok
  | .restart o => o.Ok
  | .crash o _ _ o' => crashes ∧ o.Ok ∧ o'.Ok

theorem step_got (nf : Block → Option P) (w : World P) (a : Act P) : ∃ l, (w.step nf a).got = l ++ w.got := by
  have hren : ∀ (w : World P) (m : MV) (o : Orders), (w.renew m o).got = w.got := by
    intro w m o
    unfold World.renew
    split <;> rfl
  cases a with
  | pull o resp => exact ⟨_, rfl⟩
  | restart o => exact ⟨[], hren _ _ _⟩
  | crash o resp n o' =>
    simp only [World.step]
    split
    · exact ⟨_, rfl⟩
    · exact ⟨_, hren _ _ _⟩

theorem CommonPrefix.append {l : List Block} (h : CommonPrefix B d r (l ++ D)) : CommonPrefix B d r D :=
  fun x hx y hy => h x (List.mem_append.2 (.inr hx)) y (List.mem_append.2 (.inr hy))

theorem Points.append {l : List Block} (h : Points nf (l ++ D)) : Points nf D :=
  ⟨fun v hv => h.1 v (List.mem_append.2 (.inr hv)),
    fun u hu v hv => h.2 u (List.mem_append.2 (.inr hu)) v (List.mem_append.2 (.inr hv))⟩

theorem WInv.mono {p0 : Option P} {Q : Prop} {w : World P} (h : WInv B d r nf p0 False w S) :
    WInv B d r nf p0 Q w S :=
  ⟨h.rel, h.sf, h.depth, h.inv, h.conf, .inl (by
    rcases h.out with h1 | ⟨_, h1, _⟩
    · exact h1
    · cases h1), h.sub, h.pos, h.failed⟩

/-- After a pull the consumer has everything that is confirmed. -/
theorem WInv.pull {p0 : Option P} {Q : Prop} {w : World P} (hQ : Q → p0 = none)
    (h : WInv B d r nf p0 Q w S) {o : Orders} (ho : o.Ok)
    {resp : List P → Except Unit (Option Ev)} (hf : Feed B r (w.step nf (.pull o resp)).got)
    (hcp : CommonPrefix B d r (w.step nf (.pull o resp)).got)
    (hp : Points nf (w.step nf (.pull o resp)).got) :
    ∃ S', WInv B d r nf p0 False (w.step nf (.pull o resp)) S' := by
  obtain ⟨l, hl⟩ := step_got nf w (.pull o resp)
  have hf0 : Feed B r w.got := by rw [hl] at hf; exact hf.append
  have hp0 : Points nf w.got := by rw [hl] at hp; exact hp.append
  rcases h.out with hout | ⟨c, hq, hc, hout⟩
  · obtain ⟨ps, hreq⟩ := request_caught h hf0 hp0 hout ho
    have hstep : w.step nf (.pull o resp) =
        ⟨(w.src.answer o (resp ps)).2, advance nf w.pos (released (w.src.answer o (resp ps)).1),
          w.out ++ released (w.src.answer o (resp ps)).1, (blockOf (resp ps)).toList ++ w.got,
          (failure (w.src.answer o (resp ps)).1).or w.failed⟩ := by
      simp only [World.step, MSrc.pull, hreq, heard]
    rw [hstep] at hf hcp hp ⊢
    have same : ∀ {x : Except SrcErr (Option Ev)}, released x = [] → failure x = none →
        (w.src.answer o (resp ps)) = (x, w.src) → (blockOf (resp ps)).toList = [] →
        ∃ S', WInv B d r nf p0 False ⟨(w.src.answer o (resp ps)).2,
          advance nf w.pos (released (w.src.answer o (resp ps)).1),
          w.out ++ released (w.src.answer o (resp ps)).1, (blockOf (resp ps)).toList ++ w.got,
          (failure (w.src.answer o (resp ps)).1).or w.failed⟩ S' := by
      intro x h1 h2 h3 h4
      refine ⟨S, ?_⟩
      rw [h3, h4]
      simp only [h1, h2, List.append_nil, List.nil_append, advance, Option.none_or]
      exact ⟨h.rel, h.sf, h.depth, h.inv, h.conf, .inl hout, h.sub, h.pos, h.failed⟩
    cases hresp : resp ps with
    | error e =>
      rw [hresp] at same
      exact same (x := .error .inner) rfl rfl rfl rfl
    | ok x =>
      cases x with
      | none =>
        rw [hresp] at same
        exact same (x := .ok none) rfl rfl rfl rfl
      | some ev =>
        cases ev with
        | tip n =>
          rw [hresp] at same
          exact same (x := .ok (some (.tip n))) rfl rfl rfl rfl
        | block v =>
          rw [hresp] at hf hcp hp
          simp only [blockOf, Option.toList_some, List.singleton_append, MSrc.answer] at hf hcp hp ⊢
          have hv := hf.ok v (by simp)
          by_cases hst : (S v.id).isSome
          · -- delivered again
            have hg : (w.src.mv.get v.id).isSome := by rw [h.rel.get, if_pos hst]; rfl
            obtain ⟨h1, h2⟩ := h.inv.again hf hst
            refine ⟨S, ?_⟩
            simp only [hg, if_true, released, failure, advance, List.append_nil, Option.none_or]
            exact ⟨h.rel, h.sf, h.depth, h1, h.conf.again h2, .inl hout,
              fun x hx => List.mem_cons_of_mem _ (h.sub x hx), h.pos, h.failed⟩
          · have hg : ¬ (w.src.mv.get v.id).isSome := by rw [h.rel.get, if_neg hst]; simp
            obtain ⟨sel, R, m', h1, h2, h3, h4⟩ := insertAndGc_spec h.rel hv.1 hv.2 ho w.src.depth
            rw [h.sf] at h2 h4
            rw [h.depth] at h4
            have hi1 := h.inv.insert hf (by simpa using hst) 0
            obtain ⟨m1, _, hrel1, _⟩ := h.rel.insert hv.1 hv.2
            rw [h.sf] at hrel1
            obtain ⟨top, ht1, ht2, ht3⟩ := h4.top
            have hconf := hi1.conf hf hcp hrel1 ht1 ht2 ht3
            have hi2 : Inv B d r (v :: w.got) (specDrop B (specInsert 0 S v) R) :=
              hi1.drop hf hconf (fun k hk => ((h4.discard k).1 hk).2)
            refine ⟨specDrop B (specInsert 0 S v) R, ?_⟩
            simp only [hg, Bool.false_eq_true, if_false, MSrc.store, h1]
            have keepit : sel = w.src.confirmed → WInv B d r nf p0 False ⟨{ w.src with mv := m' },
                advance nf w.pos [], w.out ++ [], v :: w.got, w.failed⟩ (specDrop B (specInsert 0 S v) R) := by
              intro he
              rw [List.append_nil]
              exact ⟨h2, h3.trans h.sf, h.depth, hi2, by rw [← he]; exact hconf, .inl hout,
                fun x hx => List.mem_cons_of_mem _ (h.sub x hx), h.pos, h.failed⟩
            rcases Conf.step hf hcp h.conf hconf with he | ⟨k, hk, hne, hpath⟩
            · cases hsel : sel with
              | none => 
                rw [hsel] at keepit he
                simp only [MSrc.settle, released, failure, Option.none_or]
                exact keepit he
              | some k =>
                rw [hsel] at keepit he
                simp only [MSrc.settle, he.symm, if_true, released, failure, Option.none_or]
                have hk := keepit he
                simp only [← he] at hk
                exact hk
            · have hstk : (specDrop B (specInsert 0 S v) R k).isSome := by
                rw [hk] at hconf
                obtain ⟨u, hu, hu1, x, hx, hm, hn, _⟩ := Conf.mem hf hconf
                rw [← hu1]
                exact hi2.keep u hu (fun y hy => by have := hm y hy; omega)
              have hget : m'.get k = some (B k) := by rw [h2.get, if_pos hstk]
              obtain ⟨bk, hbk, hbk2⟩ := hi2.sub k hstk
              have hBk : B k = bk := by rw [← hbk2]; exact (hf.ok bk hbk).1.symm
              simp only [hk, MSrc.settle, hne, if_false, hget, released, failure, advance, Option.none_or]
              refine ⟨h2, h3.trans h.sf, h.depth, hi2, by rw [← hk]; exact hconf, .inl ?_, ?_, ?_, h.failed⟩
              · rw [List.map_append, hout]
                simp only [List.map_cons, List.map_nil, hBk, hbk2]
                rw [← hk]
                exact hpath.symm
              · intro x hx
                rcases List.mem_append.1 hx with hx | hx
                · exact List.mem_cons_of_mem _ (h.sub x hx)
                · simp only [List.mem_singleton] at hx
                  rw [hx, hBk]
                  exact hbk
              · simp
  · obtain rfl := hQ hq
    have hreq := request_pending h hf0 hp0 hc hout ho
    have hstep : w.step nf (.pull o resp) =
        ⟨w.src, nf (B c), w.out ++ [B c], w.got, w.failed⟩ := by
      simp only [World.step, MSrc.pull, hreq, heard, released, advance, failure, List.nil_append,
        Option.none_or]
    rw [hstep] at hf hcp hp ⊢
    obtain ⟨h1, h2, h3⟩ := h.confirmed_stored hf0 hc
    refine ⟨S, h.rel, h.sf, h.depth, h.inv, h.conf, .inl ?_, ?_, ?_, h.failed⟩
    · simp only [List.map_append, List.map_cons, List.map_nil, h3, hc]
      exact hout
    · intro x hx
      rcases List.mem_append.1 hx with hx | hx
      · exact h.sub x hx
      · simp only [List.mem_singleton] at hx
        rw [hx]
        exact h2
    · simp

theorem WInv.crash {Q : Prop} (hq : Q) {w : World P} (h : WInv B d r nf none Q w S) {o o' : Orders} (ho : o.Ok) (ho' : o'.Ok)
    {resp : List P → Except Unit (Option Ev)} {n : Nat}
    (hf : Feed B r (w.step nf (.crash o resp n o')).got)
    (hcp : CommonPrefix B d r (w.step nf (.crash o resp n o')).got)
    (hp : Points nf (w.step nf (.crash o resp n o')).got) :
    ∃ S', WInv B d r nf none Q (w.step nf (.crash o resp n o')) S' := by
  have hren : ∀ (w : World P) (m : MV) (o : Orders), (w.renew m o).got = w.got := by
    intro w m o
    unfold World.renew
    split <;> rfl
  obtain ⟨l, hl⟩ := step_got nf w (.crash o resp n o')
  have hf0 : Feed B r w.got := by rw [hl] at hf; exact hf.append
  have hp0 : Points nf w.got := by rw [hl] at hp; exact hp.append
  have hcp0 : CommonPrefix B d r w.got := by rw [hl] at hcp; exact hcp.append
  have hunq : ∀ c, Conf B d r w.got c → w.out.map Block.id = pathTo B r c ∨
      ∃ k, Q ∧ c = some k ∧ w.out.map Block.id ++ [k] = pathTo B r (some k) := by
    intro c hc
    rw [hc.unique h.conf]
    rcases h.out with h1 | ⟨k, _, h1, h2⟩
    · exact .inl h1
    · exact .inr ⟨k, hq, h1, h2⟩
  have plain : w.step nf (.crash o resp n o') = { w with got := [] ++ w.got }.renew w.src.mv o' →
      ∃ S', WInv B d r nf none Q (w.step nf (.crash o resp n o')) S' := by
    intro he
    rw [he]
    exact ⟨_, renew_inv (w := { w with got := [] ++ w.got }) ho' h.rel h.sf h.depth h.inv hf0 hcp0 hunq h.sub
      h.pos h.failed⟩
  rcases h.out with hout | ⟨c, _, hc, hout⟩
  · obtain ⟨ps, hreq⟩ := request_caught h hf0 hp0 hout ho
    cases hb : blockOf (resp ps) with
    | none =>
      apply plain
      simp only [World.step, MSrc.die, MSrc.pull, hreq, hb, heard, Option.toList_none]
    | some v =>
      by_cases hst : (S v.id).isSome
      · have hg : (w.src.mv.get v.id).isSome := by rw [h.rel.get, if_pos hst]; rfl
        have he : w.step nf (.crash o resp n o') = { w with got := v :: w.got }.renew w.src.mv o' := by
          simp only [World.step, MSrc.die, MSrc.pull, hreq, hb, heard, Option.toList_some, hg, if_true,
            List.singleton_append]
        rw [he] at hf hcp hp ⊢
        rw [hren] at hf hcp hp
        obtain ⟨h1, h2⟩ := h.inv.again hf hst
        refine ⟨_, renew_inv (w := { w with got := v :: w.got }) ho' h.rel h.sf h.depth h1 hf hcp ?_ ?_
          h.pos h.failed⟩
        · intro c hc
          rw [hc.unique (h.conf.again h2)]
          exact hunq _ h.conf
        · exact fun x hx => List.mem_cons_of_mem _ (h.sub x hx)
      · have hg : ¬ (w.src.mv.get v.id).isSome := by rw [h.rel.get, if_neg hst]; simp
        have hgot : (w.step nf (.crash o resp n o')).got = v :: w.got := by
          simp only [World.step, MSrc.pull, hreq, heard, hb, Option.toList_some, List.singleton_append]
          split
          · rfl
          · exact hren _ _ _
        rw [hgot] at hf hcp hp
        have hv := hf.ok v (by simp)
        obtain ⟨sel, R, Rn, m', h1, h1', h2, h3, h4⟩ := insertAndDie_spec h.rel hv.1 hv.2 ho w.src.depth n
        have he : w.step nf (.crash o resp n o') = { w with got := v :: w.got }.renew m' o' := by
          simp only [World.step, MSrc.die, MSrc.pull, hreq, hb, heard, Option.toList_some, hg, if_false,
            List.singleton_append, h1, Bool.false_eq_true]
        rw [he]
        rw [h.sf] at h2 h4
        rw [h.depth] at h4
        have hi1 := h.inv.insert hf (by simpa using hst) 0
        obtain ⟨m1, _, hrel1, _⟩ := h.rel.insert hv.1 hv.2
        rw [h.sf] at hrel1
        obtain ⟨top, ht1, ht2, ht3⟩ := h4.top
        have hconf := hi1.conf hf hcp hrel1 ht1 ht2 ht3
        have hi2 : Inv B d r (v :: w.got) (specDrop B (specInsert 0 S v) Rn) :=
          hi1.drop hf hconf (fun k hk => ((h4.discard k).1 (h1' k hk)).2)
        refine ⟨_, renew_inv (w := { w with got := v :: w.got }) ho' h2 (h3.trans h.sf) h.depth hi2 hf hcp ?_
          (fun x hx => List.mem_cons_of_mem _ (h.sub x hx)) h.pos h.failed⟩
        intro c hc
        simp only
        rcases Conf.step hf hcp h.conf hc with he | ⟨k, hk, hne, hpath⟩
        · rw [he]
          exact .inl hout
        · exact .inr ⟨k, hq, hk, by rw [hout, ← hpath, hk]⟩
  · apply plain
    have hreq := request_pending h hf0 hp0 hc hout ho
    simp only [World.step, MSrc.die, MSrc.pull, hreq, heard]

theorem WInv.start (B : Key → Block) (d : Nat) (r : Key) (nf : Block → Option P) (p0 : Option P) (Q : Prop) :
    WInv B d r nf p0 Q (World.start d p0) (fun _ => none) where
  rel := Rel.empty B 0
  sf := rfl
  depth := rfl
  inv := Inv.nil B d r
  conf := ⟨fun _ => rfl, fun x hx => by cases hx⟩
  out := .inl rfl
  sub := by simp [World.start]
  pos := rfl
  failed := rfl

theorem WInv.step {p0 : Option P} {Q : Prop} (hQ : Q → p0 = none) {w : World P} (h : WInv B d r nf p0 Q w S) {a : Act P}
    (ha : a.Ok Q) (hf : Feed B r (w.step nf a).got) (hcp : CommonPrefix B d r (w.step nf a).got)
    (hp : Points nf (w.step nf a).got) : ∃ S', WInv B d r nf p0 Q (w.step nf a) S' := by
  cases a with
  | pull o resp =>
    obtain ⟨S', h'⟩ := h.pull hQ ha hf hcp hp
    exact ⟨S', h'.mono⟩
  | restart o =>
    obtain ⟨l, hl⟩ := step_got nf w (.restart o)
    rw [hl] at hf hcp
    refine ⟨_, renew_inv ha h.rel h.sf h.depth h.inv hf.append hcp.append ?_ h.sub h.pos h.failed⟩
    intro c hc
    rw [hc.unique h.conf]
    exact h.out
  | crash o resp n o' =>
    obtain ⟨hq, ho, ho'⟩ := ha
    obtain rfl := hQ hq
    exact h.crash hq ho ho' hf hcp hp

theorem run_got (nf : Block → Option P) : ∀ (as : List (Act P)) (w : World P),
    ∃ l, (w.run nf as).got = l ++ w.got
  | [], w => ⟨[], rfl⟩
  | a :: as, w => by
    obtain ⟨l1, h1⟩ := step_got nf w a
    obtain ⟨l2, h2⟩ := run_got nf as (w.step nf a)
    refine ⟨l2 ++ l1, ?_⟩
    rw [List.append_assoc, ← h1]
    exact h2

theorem WInv.run {p0 : Option P} {Q : Prop} (hQ : Q → p0 = none) : ∀ {as : List (Act P)} {w : World P} {S : Tree}, WInv B d r nf p0 Q w S →
    (∀ a ∈ as, a.Ok Q) → Feed B r (w.run nf as).got → CommonPrefix B d r (w.run nf as).got →
    Points nf (w.run nf as).got → ∃ S', WInv B d r nf p0 Q (w.run nf as) S'
  | [], _, S, h, _, _, _, _ => ⟨S, h⟩
  | a :: as, w, S, h, ha, hf, hcp, hp => by
    obtain ⟨l, hl⟩ := run_got nf as (w.step nf a)
    have e : w.run nf (a :: as) = (w.step nf a).run nf as := rfl
    rw [e] at hf hcp hp ⊢
    have hf' := hf
    have hcp' := hcp
    have hp' := hp
    rw [hl] at hf' hcp' hp'
    obtain ⟨S1, h1⟩ := h.step hQ (ha a (by simp)) hf'.append hcp'.append hp'.append
    exact WInv.run hQ h1 (fun b hb => ha b (List.mem_cons_of_mem _ hb)) hf hcp hp

end Verif.Sources
