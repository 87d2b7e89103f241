import Verif.Sources.PowerLoss
import Verif.Props.MultiverseSource

/-!
# C75: the multiverse source after a power loss

Notation as in C23. The history `as1 ++ as2` has happened when power fails; the writes of `as1` are on disk, those of `as2`
are not. `World.lose` is the consumer after `as1 ++ as2` with a source opened on what is on disk.
-/

namespace Verif.Props

open Verif.Multiverse Verif.Sources

variable {P : Type} [DecidableEq P] {B : Key → Block} {d : Nat} {r : Key} {nf : Block → Option P}

theorem run_append (nf : Block → Option P) (w : World P) (as bs : List (Act P)) :
    w.run nf (as ++ bs) = (w.run nf as).run nf bs := by
  unfold World.run
  rw [List.foldl_append]

theorem step_out (nf : Block → Option P) (w : World P) (a : Act P) : ∃ l, (w.step nf a).out = w.out ++ l := by
  have hren : ∀ (w : World P) (m : MV) (o : Orders), (w.renew m o).out = w.out := by
    intro w m o
    unfold World.renew
    split <;> rfl
  cases a with
  | pull o resp => exact ⟨_, rfl⟩
  | restart o => exact ⟨[], by rw [List.append_nil]; exact hren _ _ _⟩
  | crash o resp n o' =>
    refine ⟨[], ?_⟩
    rw [List.append_nil]
    simp only [World.step]
    split
    · rfl
    · exact hren _ _ _

theorem run_out (nf : Block → Option P) : ∀ (as : List (Act P)) (w : World P), ∃ l, (w.run nf as).out = w.out ++ l
  | [], w => ⟨[], (List.append_nil _).symm⟩
  | a :: as, w => by
    obtain ⟨l1, h1⟩ := step_out nf w a
    obtain ⟨l2, h2⟩ := run_out nf as (w.step nf a)
    refine ⟨l1 ++ l2, ?_⟩
    rw [← List.append_assoc, ← h1]
    exact h2

theorem restart_out (nf : Block → Option P) (w : World P) (o : Orders) : (w.step nf (.restart o)).out = w.out := by
  simp only [World.step, World.renew]
  split <;> rfl

theorem restart_got (nf : Block → Option P) (w : World P) (o : Orders) : (w.step nf (.restart o)).got = w.got := by
  simp only [World.step, World.renew]
  split <;> rfl

/-- The histories of the theorems of this section give worlds with the invariant of C23. -/
theorem loss_inv {p0 : Option P} {as1 as2 : List (Act P)} {o : Orders} (ho : o.Ok)
    (ha1 : ∀ a ∈ as1, a.Ok False) (ha2 : ∀ a ∈ as2, a.Ok False) {w old : World P}
    (hw : w = (World.start d p0).run nf (as1 ++ as2)) (hold : old = ((World.start d p0).run nf as1).step nf (.restart o))
    (hf : Feed B r w.got) (hcp : CommonPrefix B d r w.got) (hp : Points nf w.got) :
    (∃ S, WInv B d r nf p0 False w S) ∧ (∃ S, WInv B d r nf p0 False old S) ∧ (∃ l, w.got = l ++ old.got) ∧
    ∃ l, w.out = old.out ++ l := by
  have hgot : ∃ l, w.got = l ++ old.got := by
    obtain ⟨l, hl⟩ := run_got nf as2 ((World.start d p0).run nf as1)
    refine ⟨l, ?_⟩
    rw [hw, hold, run_append, restart_got, hl]
  have hout : ∃ l, w.out = old.out ++ l := by
    obtain ⟨l, hl⟩ := run_out nf as2 ((World.start d p0).run nf as1)
    refine ⟨l, ?_⟩
    rw [hw, hold, run_append, restart_out, hl]
  refine ⟨?_, ?_, hgot, hout⟩
  · rw [hw] at hf hcp hp ⊢
    exact WInv.run (Q := False) (by simp) (WInv.start B d r nf p0 False)
      (fun a ha => (List.mem_append.mp ha).elim (ha1 a) (ha2 a)) hf hcp hp
  · obtain ⟨l, hl⟩ := hgot
    rw [hl] at hf hcp hp
    have e : old = (World.start d p0).run nf (as1 ++ [.restart o]) := by rw [run_append, hold]; rfl
    have hf := hf.append
    have hcp := hcp.append
    have hp := hp.append
    rw [e] at hf hcp hp ⊢
    refine WInv.run (Q := False) (by simp) (WInv.start B d r nf p0 False) ?_ hf hcp hp
    intro a ha
    rcases List.mem_append.mp ha with ha | ha
    · exact ha1 a ha
    · rw [List.mem_singleton] at ha
      subst ha
      exact ho

/-- C75: if no block was released between what is on disk and the power loss, the consumer continues as if nothing had
happened: whatever follows, it has received exactly the chain to a delivered block `x` of maximal number, without its last
`d` blocks, in order, and nothing fails. Of the deliveries before the loss only those on disk count. -/
theorem C75_unreleased_partial {p0 : Option P} {as1 as2 as3 : List (Act P)} {o : Orders} (ho : o.Ok)
    (ha1 : ∀ a ∈ as1, a.Ok False) (ha2 : ∀ a ∈ as2, a.Ok False) (ha3 : ∀ a ∈ as3, a.Ok False) {w old w3 : World P}
    (hw : w = (World.start d p0).run nf (as1 ++ as2)) (hold : old = ((World.start d p0).run nf as1).step nf (.restart o))
    (hf : Feed B r w.got) (hcp : CommonPrefix B d r w.got) (hp : Points nf w.got)
    (hsame : w.out = ((World.start d p0).run nf as1).out)
    (hw3 : w3 = (w.lose old).run nf as3) (hf3 : Feed B r w3.got) (hcp3 : CommonPrefix B d r w3.got)
    (hp3 : Points nf w3.got) :
    w3.failed = none ∧ (w3.got = [] → w3.out = []) ∧ (∀ v ∈ w3.out, v = B v.id) ∧
    w3.pos = (w3.out.getLast?.map nf).getD p0 ∧
    ∀ x ∈ w3.got, (∀ y ∈ w3.got, y.number ≤ x.number) → w3.out.map Block.id =
      (path B (x.number - (B r).number) x.id).take (x.number - (B r).number + 1 - d) := by
  obtain ⟨⟨S, h⟩, ⟨S', h'⟩, ⟨l, hl⟩, _⟩ := loss_inv ho ha1 ha2 hw hold hf hcp hp
  have hfo : Feed B r old.got := by rw [hl] at hf; exact hf.append
  have hlast : old.src.confirmed = w.out.getLast?.map Block.id := by
    have : w.out = old.out := by rw [hsame, hold, restart_out]
    rw [this, ← List.getLast?_map]
    rcases h'.out with h1 | ⟨_, h1, _⟩
    · rw [h1]
      cases old.src.confirmed with
      | none => rfl
      | some c => rw [pathTo_last]
    · cases h1
  have hlose := h.lose hf h' hfo hlast
  subst hw3
  obtain ⟨S3, h3⟩ := WInv.run (Q := False) (by simp) hlose ha3 hf3 hcp3 hp3
  have hout : ((w.lose old).run nf as3).out.map Block.id = pathTo B r ((w.lose old).run nf as3).src.confirmed := by
    rcases h3.out with h1 | ⟨_, h1, _⟩
    · exact h1
    · cases h1
  refine ⟨h3.failed, fun hg => ?_, fun v hv => (hf3.ok v (h3.sub v hv)).1, h3.pos, fun x hx hm => ?_⟩
  · rw [h3.conf.1 hg] at hout
    exact List.map_eq_nil_iff.1 hout
  · rw [hout, out_of_conf h3 hf3 hx hm]

/-- C75: if a block was released between what is on disk and the power loss, and one before, the consumer receives nothing
more, whatever follows: every pull fails, without asking the inner source. -/
theorem C75_released_stuck {p0 : Option P} {as1 as2 as3 : List (Act P)} {o : Orders} (ho : o.Ok)
    (ha1 : ∀ a ∈ as1, a.Ok False) (ha2 : ∀ a ∈ as2, a.Ok False) (ha3 : ∀ a ∈ as3, a.Ok True) {w old w3 : World P}
    (hw : w = (World.start d p0).run nf (as1 ++ as2)) (hold : old = ((World.start d p0).run nf as1).step nf (.restart o))
    (hf : Feed B r w.got) (hcp : CommonPrefix B d r w.got) (hp : Points nf w.got)
    (hsome : ((World.start d p0).run nf as1).out ≠ []) (hmore : w.out ≠ ((World.start d p0).run nf as1).out)
    (hw3 : w3 = (w.lose old).run nf as3) :
    w3.out = w.out ∧ ∀ o', o'.Ok → ∀ resp, w3.src.pull nf o' w3.pos resp = ⟨.error .notContinuous, none, w3.src⟩ := by
  obtain ⟨⟨S, h⟩, ⟨S', h'⟩, ⟨l, hl⟩, ⟨m, hm⟩⟩ := loss_inv ho ha1 ha2 hw hold hf hcp hp
  have hfo : Feed B r old.got := by rw [hl] at hf; exact hf.append
  have hcpo : CommonPrefix B d r old.got := by rw [hl] at hcp; exact hcp.append
  have hoo : old.out = ((World.start d p0).run nf as1).out := by rw [hold, restart_out]
  rw [← hoo] at hsome hmore
  have hm0 : m ≠ [] := by
    intro e
    rw [e, List.append_nil] at hm
    exact hmore hm
  have hpo : old.out.map Block.id = pathTo B r old.src.confirmed := by
    rcases h'.out with h1 | ⟨_, h1, _⟩
    · exact h1
    · cases h1
  have hpw : w.out.map Block.id = pathTo B r w.src.confirmed := by
    rcases h.out with h1 | ⟨_, h1, _⟩
    · exact h1
    · cases h1
  have hlen : old.out.length < w.out.length := by
    rw [hm, List.length_append]
    have := List.length_pos_iff.mpr hm0
    omega
  cases hc : old.src.confirmed with
  | none =>
    rw [hc] at hpo
    exact absurd (List.map_eq_nil_iff.mp hpo) hsome
  | some c =>
    cases hcw : w.src.confirmed with
    | none =>
      rw [hcw] at hpw
      rw [List.map_eq_nil_iff.mp hpw] at hlen
      simp at hlen
    | some b =>
      obtain ⟨_, hb, hb1⟩ := h.confirmed_stored hf hcw
      obtain ⟨_, hcm, hc1⟩ := h'.confirmed_stored hfo hc
      have hn : (B c).number < (B b).number := by
        have e1 := congrArg List.length hpo
        have e2 := congrArg List.length hpw
        rw [hc] at e1
        rw [hcw] at e2
        simp only [List.length_map, pathTo, path_length] at e1 e2
        omega
      have hpos : w.pos = nf (B b) := by
        rw [hcw] at hpw
        have hl2 : (w.out.map Block.id).getLast? = some b := by rw [hpw, pathTo_last]
        obtain ⟨v, hv, hvb⟩ := last_of_map hl2
        rw [h.pos, hv]
        have : v = B b := by rw [← hvb]; exact (hf.ok v (h.sub v (List.mem_of_getLast? hv))).1
        rw [← this]
        rfl
      subst hw3
      obtain ⟨k1, _, _, k4⟩ := run_above (p0 := p0) (Q := False) hf hp hb hn as3 ha3 (w.lose old) old S' h' hfo hcpo
        (by intro x hx; rw [hl]; exact List.mem_append_right _ hx) rfl rfl hc hpos
      exact ⟨k1, k4⟩

/-- C75 is false: one block is on disk, the second was released before the power loss. Every later pull fails. -/
theorem C75_resume_false : ¬ ∀ (B : Key → Block) (r : Key) (d : Nat) (as1 as2 as3 : List (Act Key)) (o : Orders),
    o.Ok → (∀ a ∈ as1 ++ as2 ++ as3, a.Ok False) →
    Feed B r ((World.start d none).run idPoint (as1 ++ as2)).got →
    CommonPrefix B d r ((World.start d none).run idPoint (as1 ++ as2)).got →
    ((((World.start d none).run idPoint (as1 ++ as2)).lose
      (((World.start d none).run idPoint as1).step idPoint (.restart o))).run idPoint as3).failed = none := by
  intro h
  have h1 := h treeB [0] 0 [deliver [0]] [deliver [1]] [deliver [2]] plainOrders plainOrders_ok (by
      intro a ha
      simp only [deliver, List.cons_append, List.nil_append, List.mem_cons, List.not_mem_nil, or_false] at ha
      rcases ha with rfl | rfl | rfl <;> exact plainOrders_ok) (feed_of_check (by decide +kernel))
      (prefix_of_check (n := 5) (by decide +kernel))
  revert h1
  decide +kernel

/-- C75 is false when nothing on disk is confirmed: an inner source that goes on from the block on disk makes the consumer
receive a block again, after its child. -/
theorem C75_again_false : ¬ ∀ (B : Key → Block) (r : Key) (d : Nat) (as1 as2 as3 : List (Act Key)) (o : Orders),
    o.Ok → (∀ a ∈ as1 ++ as2 ++ as3, a.Ok False) →
    Feed B r ((World.start d none).run idPoint (as1 ++ as2)).got →
    CommonPrefix B d r ((World.start d none).run idPoint (as1 ++ as2)).got →
    Feed B r ((((World.start d none).run idPoint (as1 ++ as2)).lose
      (((World.start d none).run idPoint as1).step idPoint (.restart o))).run idPoint as3).got →
    ((((World.start d none).run idPoint (as1 ++ as2)).lose
      (((World.start d none).run idPoint as1).step idPoint (.restart o))).run idPoint as3).out.Nodup := by
  intro h
  have h1 := h treeB [0] 1 [deliver [0]] [deliver [1], deliver [2]] [deliver [1]] plainOrders plainOrders_ok (by
      intro a ha
      simp only [deliver, List.cons_append, List.nil_append, List.mem_cons, List.not_mem_nil, or_false] at ha
      rcases ha with rfl | rfl | rfl | rfl <;> exact plainOrders_ok) (feed_of_check (by decide +kernel))
      (prefix_of_check (n := 5) (by decide +kernel)) (feed_of_check (by decide +kernel))
  revert h1
  decide +kernel

/-- A power loss between releases: three blocks are on disk and two released, a fourth (of a fork) is lost; the consumer then
receives the chain of the fork that wins. -/
example : ∃ w old w3, w = (World.start 1 none).run idPoint ([deliver [0], deliver [1], deliver [2]] ++ [deliver [3]]) ∧
    old =
      ((World.start 1 none).run idPoint [deliver [0], deliver [1], deliver [2]]).step idPoint (.restart plainOrders) ∧
    w.out = ((World.start 1 none).run idPoint [deliver [0], deliver [1], deliver [2]]).out ∧
    w3 = (w.lose old).run idPoint [deliver [3], deliver [4], deliver [5]] ∧
    Feed treeB [0] w.got ∧ CommonPrefix treeB 1 [0] w.got ∧ Feed treeB [0] w3.got ∧ CommonPrefix treeB 1 [0] w3.got ∧
    w3.out.map Block.id = [[0], [1], [3], [4]] := by
  refine ⟨_, _, _, rfl, rfl, by decide +kernel, rfl, feed_of_check (by decide +kernel),
    prefix_of_check (n := 5) (by decide +kernel), feed_of_check (by decide +kernel),
    prefix_of_check (n := 5) (by decide +kernel), by decide +kernel⟩

/-- A power loss that meets the hypotheses of `C75_released_stuck`. -/
example : ∃ w : World Key, w = (World.start 1 none).run idPoint ([deliver [0], deliver [1]] ++ [deliver [2]]) ∧
    Feed treeB [0] w.got ∧ CommonPrefix treeB 1 [0] w.got ∧
    ((World.start 1 none).run idPoint [deliver [0], deliver [1]]).out ≠ [] ∧
    w.out ≠ ((World.start 1 none).run idPoint [deliver [0], deliver [1]]).out := by
  exact ⟨_, rfl, feed_of_check (by decide +kernel), prefix_of_check (n := 5) (by decide +kernel), by decide +kernel,
    by decide +kernel⟩

end Verif.Props
