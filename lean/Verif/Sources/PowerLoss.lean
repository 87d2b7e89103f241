import Verif.Sources.MultiReach

/-!
# Power loss

The multiverse writes every block to the database at once but does not flush (`db_insert`, `db_remove`, lib.rs:192-215 of
`/repo/multiverse`); the database (`sled`) writes to disk later. After a power loss the database is as it was at an earlier
moment. What the consumer of the multiverse source has received it still has, and it pulls from its position.
-/

namespace Verif.Sources

open Verif.Multiverse

variable {P : Type} [DecidableEq P] {B : Key → Block} {d : Nat} {r : Key} {nf : Block → Option P}

/-- Power fails in `w`: the source is what it is in `old`, where all that is on disk was written; the consumer is that of
`w`. Of the deliveries of the inner source those that led to `old` are kept. -/
def World.lose (w old : World P) : World P := ⟨old.src, w.pos, w.out, old.got, w.failed⟩

/-- A consumer has the chain to the last block it received. -/
theorem WInv.out_path {p0 : Option P} {Q : Prop} {w : World P} {S : Tree} (h : WInv B d r nf p0 Q w S)
    (hf : Feed B r w.got) : w.out.map Block.id = pathTo B r (w.out.getLast?.map Block.id) := by
  rw [← List.getLast?_map]
  rcases h.out with h1 | ⟨c, _, h1, h2⟩
  · rw [h1]
    cases w.src.confirmed with
    | none => rfl
    | some c => rw [pathTo_last]
  · obtain ⟨_, h3, h4⟩ := h.confirmed_stored hf h1
    have hge := hf.ge h3
    unfold pathTo at h2
    simp only at h2
    cases hn : (B c).number - (B r).number with
    | zero =>
      rw [hn] at h2
      have : w.out.map Block.id = [] := by
        have := congrArg List.length h2
        simp only [path, List.length_append, List.length_cons, List.length_nil] at this
        exact List.length_eq_zero_iff.mp (by omega)
      rw [this]; rfl
    | succ n =>
      rw [hn, path] at h2
      rw [List.append_cancel_right h2, path_last]
      obtain ⟨u, hu, hu1, hu2⟩ := hf.anc 1 h3 (by omega)
      rw [h4] at hu1
      have hu1 : u.id = (B c).parent := hu1
      unfold pathTo
      simp only
      rw [← hu1, ← (hf.ok u hu).1]
      congr 1
      omega

/-- Everything on the way to the confirmed block was delivered. -/
theorem WInv.path_got {p0 : Option P} {Q : Prop} {w : World P} {S : Tree} (h : WInv B d r nf p0 Q w S)
    (hf : Feed B r w.got) : ∀ k ∈ pathTo B r w.src.confirmed, ∃ v ∈ w.got, v.id = k := by
  intro k hk
  rcases h.out with h1 | ⟨c, _, h1, h2⟩
  · rw [← h1] at hk
    obtain ⟨v, hv, rfl⟩ := List.mem_map.mp hk
    exact ⟨v, h.sub v hv, rfl⟩
  · rw [h1, ← h2] at hk
    rcases List.mem_append.mp hk with hk | hk
    · obtain ⟨v, hv, rfl⟩ := List.mem_map.mp hk
      exact ⟨v, h.sub v hv, rfl⟩
    · rw [List.mem_singleton] at hk
      subst hk
      obtain ⟨_, h3, h4⟩ := h.confirmed_stored hf h1
      exact ⟨_, h3, h4⟩

/-- The last block the consumer received is still confirmed: nothing has happened. -/
theorem WInv.lose {p0 : Option P} {Q : Prop} {w old : World P} {S S' : Tree} (h : WInv B d r nf p0 Q w S)
    (hf : Feed B r w.got) (h' : WInv B d r nf p0 Q old S') (hf' : Feed B r old.got)
    (hlast : old.src.confirmed = w.out.getLast?.map Block.id) : WInv B d r nf p0 False (w.lose old) S' := by
  have hp := h.out_path hf
  rw [← hlast] at hp
  refine ⟨h'.rel, h'.sf, h'.depth, h'.inv, h'.conf, .inl hp, ?_, h.pos, h.failed⟩
  intro v hv
  obtain ⟨u, hu, hu1⟩ := h'.path_got hf' v.id (by rw [← hp]; exact List.mem_map_of_mem hv)
  have e : u = v := by
    rw [(hf'.ok u hu).1, hu1, ← (hf.ok v (h.sub v hv)).1]
  rw [← e]
  exact hu

/-- The source rejects pulls from a block above the confirmed one. -/
theorem pull_above {s : MSrc} {S : Tree} {D : List Block} (hrel : Rel B s.mv S) (hf : Feed B r D) (hp : Points nf D)
    (hsub : ∀ k, (S k).isSome → ∃ v ∈ D, v.id = k) {c : Key} (hc : s.confirmed = some c) (hst : (S c).isSome)
    {b : Block} (hb : b ∈ D) (hn : (B c).number < b.number) {o : Orders} (ho : o.Ok)
    (resp : List P → Except Unit (Option Ev)) :
    s.pull nf o (nf b) resp = ⟨.error .notContinuous, none, s⟩ := by
  have hmem : ∀ k, (S k).isSome → B k ∈ D := by
    intro k hk
    obtain ⟨v, hv, rfl⟩ := hsub k hk
    rw [← (hf.ok v hv).1]
    exact hv
  obtain ⟨p, hpb⟩ := Option.isSome_iff_exists.1 (hp.1 b hb)
  obtain ⟨q, hq⟩ := Option.isSome_iff_exists.1 (hp.1 _ (hmem c hst))
  obtain ⟨ps, h3, _⟩ := request_eq hrel (fun k hk => hp.1 _ (hmem k hk)) ho (some p)
  have hpq : q ≠ p := by
    intro e
    have := hp.2 _ (hmem c hst) b hb (by rw [hq, hpb, e])
    rw [← this] at hn
    omega
  have hpar : (if (S (B c).parent).isSome then nf (B (B c).parent) else none) ≠ some p := by
    intro e
    split at e
    · rename_i hs
      have hbp := hp.2 _ (hmem _ hs) b hb (by rw [e, hpb])
      obtain ⟨u, hu, hu1⟩ := hsub _ hs
      rcases hf.cases (hmem c hst) with h1 | ⟨v, hv, h1, h2⟩
      · have hBr : B c = B r := by rw [(hf.ok _ (hmem c hst)).1, h1]
        exact hf.rootParent u hu (by rw [hu1, hBr])
      · have : B (B c).parent = v := by rw [← h1]; exact (hf.ok v hv).1.symm
        rw [this] at hbp
        rw [← hbp] at hn
        omega
    · cases e
  have h4 : s.request nf o (some p) = .error .notContinuous := by
    rw [h3, confirmed_eq hrel hc hst hq]
    generalize (if (S (B c).parent).isSome then nf (B (B c).parent) else none) = par at hpar ⊢
    simp [fromCheck, Ne.symm hpar, Ne.symm hpq]
  rw [hpb]
  simp only [MSrc.pull, h4]

/-- A consumer above the confirmed block stays where it is. -/
theorem run_above {p0 : Option P} {Q : Prop} {D : List Block} (hf : Feed B r D) (hp : Points nf D) {b : Block}
    (hb : b ∈ D) {c : Key} (hn : (B c).number < b.number) :
    ∀ (as : List (Act P)), (∀ a ∈ as, a.Ok True) → ∀ (w v : World P) (S : Tree), WInv B d r nf p0 Q v S →
      Feed B r v.got → CommonPrefix B d r v.got → (∀ x ∈ v.got, x ∈ D) →
      v.src = w.src → v.got = w.got → v.src.confirmed = some c → w.pos = nf b →
      (w.run nf as).out = w.out ∧ (w.run nf as).pos = nf b ∧ (w.run nf as).src.confirmed = some c ∧
      ∀ o, o.Ok → ∀ resp, (w.run nf as).src.pull nf o (w.run nf as).pos resp =
        ⟨.error .notContinuous, none, (w.run nf as).src⟩ := by
  intro as
  induction as with
  | nil =>
    intro _ w v S h hfv hcp hsub hsrc hgot hc hpos
    refine ⟨rfl, hpos, by rw [← hc, hsrc]; rfl, fun o ho resp => ?_⟩
    show w.src.pull nf o w.pos resp = ⟨_, _, w.src⟩
    rw [hpos, ← hsrc]
    refine pull_above h.rel hf hp (fun k hk => ?_) hc (h.confirmed_stored hfv hc).1 hb hn ho resp
    obtain ⟨x, hx, hx1⟩ := h.inv.sub k hk
    exact ⟨x, hsub x hx, hx1⟩
  | cons a as ih =>
    intro hok w v S h hfv hcp hsub hsrc hgot hc hpos
    have hok' : ∀ a ∈ as, a.Ok True := fun x hx => hok x (List.mem_cons_of_mem _ hx)
    have ha := hok a (by simp)
    have hrej : ∀ o, o.Ok → ∀ resp, w.src.pull nf o w.pos resp = ⟨.error .notContinuous, none, w.src⟩ := by
      intro o ho resp
      rw [hpos, ← hsrc]
      refine pull_above h.rel hf hp (fun k hk => ?_) hc (h.confirmed_stored hfv hc).1 hb hn ho resp
      obtain ⟨x, hx, hx1⟩ := h.inv.sub k hk
      exact ⟨x, hsub x hx, hx1⟩
    have hren : ∀ o : Orders, o.Ok → ∀ w1 : World P, w1.src = w.src → w1.got = w.got → w1.out = w.out → w1.pos = w.pos →
        ((w1.renew w.src.mv o).run nf as).out = w.out ∧ ((w1.renew w.src.mv o).run nf as).pos = nf b ∧
        ((w1.renew w.src.mv o).run nf as).src.confirmed = some c ∧
        ∀ o', o'.Ok → ∀ resp, ((w1.renew w.src.mv o).run nf as).src.pull nf o' ((w1.renew w.src.mv o).run nf as).pos resp =
          ⟨.error .notContinuous, none, ((w1.renew w.src.mv o).run nf as).src⟩ := by
      intro o ho w1 e1 e2 e3 e4
      have hv := renew_inv (nf := nf) (p0 := p0) (Q := Q) (w := v) ho h.rel h.sf h.depth h.inv hfv hcp (by
        intro c' hc'
        rw [hc'.unique h.conf]
        exact h.out) h.sub h.pos h.failed
      obtain ⟨m', g1, _⟩ := h.rel.reopen v.src.mv.storeFrom
      have hsame : ∃ s, v.renew v.src.mv o = { v with src := s } ∧ w1.renew w.src.mv o = { w1 with src := s } := by
        have hd : w1.src.depth = v.src.depth := by rw [e1, hsrc]
        cases hr : reopenSrc v.src.mv v.src.depth o with
        | ok s =>
          refine ⟨s, by simp only [World.renew, hr], ?_⟩
          simp only [World.renew, hd, ← hsrc, hr]
        | error e =>
          have hfail := hv.failed
          simp only [World.renew, hr] at hfail
          cases hfail
      obtain ⟨s, k1, k2⟩ := hsame
      rw [k1] at hv
      have hconf : s.confirmed = some c := by
        have := hv.conf.unique h.conf
        rw [hc] at this
        exact this
      have := ih hok' (w1.renew w.src.mv o) { v with src := s } _ hv hfv hcp hsub (by rw [k2]) (by rw [k2, hgot, e2])
        hconf (by rw [k2]; exact e4.trans hpos)
      rw [k2] at this ⊢
      rw [← e3]
      exact this
    cases a with
    | pull o resp =>
      have e : w.step nf (.pull o resp) = { w with failed := some .notContinuous } := by
        simp only [World.step, hrej o ha resp, released, advance, heard, failure, List.append_nil, List.nil_append]
        rfl
      show ((w.step nf (.pull o resp)).run nf as).out = _ ∧ _
      have := ih hok' (w.step nf (.pull o resp)) v S h hfv hcp hsub (by rw [e, hsrc]) (by rw [e, hgot]) hc
        (by rw [e]; exact hpos)
      rw [e] at this ⊢
      rw [show w.run nf (.pull o resp :: as) = (w.step nf (.pull o resp)).run nf as from rfl, e]
      exact this
    | restart o =>
      exact hren o ha w rfl rfl rfl rfl
    | crash o resp n o' =>
      obtain ⟨_, ho, ho'⟩ := ha
      have hreq : w.src.request nf o w.pos = .error .notContinuous := by
        have := hrej o ho resp
        unfold MSrc.pull at this
        split at this
        · rename_i e he
          simp only [Pulled.mk.injEq, Except.error.injEq, and_true] at this
          rw [he, this]
        · simp at this
        · simp at this
      have e : w.step nf (.crash o resp n o') = w.renew w.src.mv o' := by
        simp only [World.step, MSrc.die, hreq, MSrc.pull, heard, List.nil_append]
      rw [show w.run nf (.crash o resp n o' :: as) = (w.step nf (.crash o resp n o')).run nf as from rfl, e]
      exact hren o' ho' w rfl rfl rfl rfl

end Verif.Sources
