import Verif.Props.SourceKeeps

/-!
# C118: where the sources ask to continue

A pull asks the inner source for what follows any of a list of positions.
-/

namespace Verif.Props

open Verif.Multiverse Verif.Sources

variable {P : Type} [DecidableEq P] {B : Key → Block} {d : Nat} {r : Key} {nf : Block → Option P}

/-- An end of a branch, not more than `d + 1` blocks lower than any block: no block that was delivered follows it. -/
structure Leaf (d : Nat) (got : List Block) (b : Block) : Prop where
  mem : b ∈ got
  near : ∀ x ∈ got, x.number ≤ b.number + d + 1
  last : ∀ c ∈ got, c.parent ≠ b.id

/-- The tips of the multiverse. -/
theorem tips_leaf {m : MV} {got : List Block} {S : Tree} (hrel : Rel B m S) (hinv : Inv B d r got S) (hf : Feed B r got)
    (hw : Window d m got) (k : Key) : k ∈ m.tips.map Ref.key ↔ ∃ b, Leaf d got b ∧ b.id = k := by
  rw [hrel.tips]
  constructor
  · rintro ⟨h1, h2⟩
    obtain ⟨b, hb, rfl⟩ := hinv.sub k h1
    have hn : ∀ x ∈ got, x.number ≤ b.number + d + 1 := by
      refine hw b.id b ?_
      rw [hrel.get, if_pos h1, ← (hf.ok b hb).1]
    refine ⟨b, ⟨hb, hn, fun c hc he => ?_⟩, rfl⟩
    rcases hf.cases hc with h3 | ⟨u, h3, h4, h5⟩
    · refine hf.rootParent b hb ?_
      rw [← he, ← h3, ← (hf.ok c hc).1]
    · obtain rfl := hf.same h3 hb (h4.trans he)
      have hcr : c.id ≠ r := fun h6 => hf.rootParent u hb (by rw [h4, ← h6, ← (hf.ok c hc).1])
      obtain ⟨s, h6, h7⟩ := hinv.link c hc hcr (fun x hx => by have := hn x hx; omega)
      exact h2 c.id s h6 h7 (by rw [← (hf.ok c hc).1, he])
  · rintro ⟨b, hb, rfl⟩
    refine ⟨hinv.keep b hb.mem hb.near, fun c s hs _ he => ?_⟩
    obtain ⟨v, hv, rfl⟩ := hinv.sub c (by rw [hs]; rfl)
    rw [← (hf.ok v hv).1] at he
    exact hb.last v hv he

/-- The request of a consumer that has everything that is confirmed. -/
theorem request_exact {p0 : Option P} {Q : Prop} {w : World P} {S : Tree} (h : WInv B d r nf p0 Q w S) (hf : Feed B r w.got)
    (hp : Points nf w.got) (hout : w.out.map Block.id = pathTo B r w.src.confirmed) {o : Orders} (ho : o.Ok) :
    ∃ qs, w.src.request nf o w.pos = .ok (.inr qs) ∧
      ∀ p, p ∈ qs ↔ w.pos = some p ∨ ∃ k ∈ w.src.mv.tips.map Ref.key, nf (B k) = some p := by
  obtain ⟨qs, hreq⟩ := request_caught h hf hp hout ho
  obtain ⟨ps, h1, h2⟩ := request_eq h.rel (h.inv.point hf hp) ho w.pos
  refine ⟨qs, hreq, fun p => ?_⟩
  rw [← h2, Or.comm]
  rw [h1] at hreq
  unfold fromCheck at hreq
  split at hreq
  · rename_i parent b p' hc
    split at hreq
    · cases hreq
    · rename_i hne
      cases hcc : w.src.confirmed with
      | none =>
        unfold MSrc.confirmedWithParent at hc
        rw [hcc] at hc
        cases hc
      | some c =>
        have hl : (w.out.map Block.id).getLast? = some c := by rw [hout, hcc]; exact pathTo_last B r c
        obtain ⟨v, hv, hvc⟩ := last_of_map hl
        have hvg : v ∈ w.got := h.sub v (List.mem_of_getLast? hv)
        obtain ⟨q, hq⟩ := Option.isSome_iff_exists.1 (hp.1 v hvg)
        have hpos : w.pos = some q := by rw [h.pos, hv]; exact hq
        rw [hpos] at hreq ⊢
        simp only at hreq
        split at hreq
        · have e := Sum.inr.inj (Except.ok.inj hreq)
          rw [← e]
          simp [eq_comm]
        · cases hreq
  · have e := Sum.inr.inj (Except.ok.inj hreq)
    rw [← e]
    simp

/-- C118: every pull of the consumer asks the inner source, for what follows its own position or the end of a branch that is
not more than `d + 1` blocks lower than the highest block; and for nothing else. -/
theorem C118_asks {p0 : Option P} {as : List (Act P)} (ha : ∀ a ∈ as, a.Ok False) {w : World P}
    (hw : w = (World.start d p0).run nf as) (hf : Feed B r w.got) (hcp : CommonPrefix B d r w.got)
    (hp : Points nf w.got) {o : Orders} (ho : o.Ok) (resp : List P → Except Unit (Option Ev)) :
    ∃ ps, (w.src.pull nf o w.pos resp).asked = some ps ∧
      ∀ p, p ∈ ps ↔ w.pos = some p ∨ ∃ b, Leaf d w.got b ∧ nf b = some p := by
  subst hw
  obtain ⟨S, h⟩ := WInv.run (Q := False) (by simp) (WInv.start B d r nf p0 False) ha hf hcp hp
  have hwin := window_run (WInv.start B d r nf p0 False) (fun k b hk => by simp [World.start, MV.get, MV.empty] at hk)
    ha hf hcp hp
  generalize (World.start d p0).run nf as = w at *
  have hout : w.out.map Block.id = pathTo B r w.src.confirmed := by
    rcases h.out with h1 | ⟨_, h1, _⟩
    · exact h1
    · exact h1.elim
  obtain ⟨qs, hreq, h2⟩ := request_exact h hf hp hout ho
  refine ⟨qs, by simp only [MSrc.pull, hreq], fun p => ?_⟩
  rw [h2]
  refine or_congr Iff.rfl ⟨?_, ?_⟩
  · rintro ⟨k, hk, hkp⟩
    obtain ⟨b, hb, rfl⟩ := (tips_leaf h.rel h.inv hf hwin k).1 hk
    rw [← (hf.ok b hb.mem).1] at hkp
    exact ⟨b, hb, hkp⟩
  · rintro ⟨b, hb, hbp⟩
    refine ⟨b.id, (tips_leaf h.rel h.inv hf hwin _).2 ⟨b, hb, rfl⟩, ?_⟩
    rw [← (hf.ok b hb.mem).1, hbp]

/-- A path has no block twice. -/
theorem path_nodup {D : List Block} (hf : Feed B r D) : ∀ (h : Nat) {v : Block}, v ∈ D → (B r).number + h ≤ v.number →
    (path B h v.id).Nodup ∧ ∀ k ∈ path B h v.id, (B k).number ≤ v.number
  | 0, v, hv, _ => by
    refine ⟨by simp [path], fun k hk => ?_⟩
    rw [List.mem_singleton.1 hk, ← (hf.ok v hv).1]
  | h + 1, v, hv, hn => by
    rcases hf.cases hv with h1 | ⟨u, h1, h2, h3⟩
    · have := hf.number_root hv h1
      omega
    · obtain ⟨h4, h5⟩ := path_nodup hf h h1 (by omega)
      rw [h2] at h4 h5
      have e : path B (h + 1) v.id = path B h v.parent ++ [v.id] := by
        rw [path, ← (hf.ok v hv).1]
      rw [e]
      refine ⟨List.nodup_append.2 ⟨h4, by simp, fun a ha b hb hab => ?_⟩, fun k hk => ?_⟩
      · have := h5 a ha
        rw [hab, List.mem_singleton.1 hb, ← (hf.ok v hv).1] at this
        omega
      · rcases List.mem_append.1 hk with hk | hk
        · have := h5 k hk
          omega
        · rw [List.mem_singleton.1 hk, ← (hf.ok v hv).1]

/-- C118 with crashes: a pull either releases a block at once, without asking, or asks for what follows the own position or the
end of a branch, as above; it may ask for other delivered blocks too, that crashes have left behind, but for no other
positions. -/
theorem C118_crashes {as : List (Act P)} (ha : ∀ a ∈ as, a.Ok True) {w : World P}
    (hw : w = (World.start d none).run nf as) (hf : Feed B r w.got) (hcp : CommonPrefix B d r w.got)
    (hp : Points nf w.got) {o : Orders} (ho : o.Ok) (resp : List P → Except Unit (Option Ev)) :
    ((w.src.pull nf o w.pos resp).asked = none ∧
      ∃ b ∈ w.got, b ∉ w.out ∧ (w.src.pull nf o w.pos resp).res = .ok (some (.block b))) ∨
    ∃ ps, (w.src.pull nf o w.pos resp).asked = some ps ∧ (∀ p, w.pos = some p → p ∈ ps) ∧
      (∀ b p, Leaf d w.got b → nf b = some p → p ∈ ps) ∧
      ∀ p ∈ ps, w.pos = some p ∨ ∃ b ∈ w.got, nf b = some p := by
  subst hw
  obtain ⟨S, h⟩ := WInv.run (Q := True) (by simp) (WInv.start B d r nf none True) ha hf hcp hp
  generalize (World.start d none).run nf as = w at *
  rcases h.out with hout | ⟨c, _, hc, hout⟩
  · obtain ⟨qs, hreq, h2⟩ := request_exact h hf hp hout ho
    refine .inr ⟨qs, by simp only [MSrc.pull, hreq], fun p hpp => (h2 p).2 (.inl hpp), fun b p hb hbp => ?_, fun p hpq => ?_⟩
    · refine (h2 p).2 (.inr ⟨b.id, (h.rel.tips _).2 ⟨h.inv.keep b hb.mem hb.near, fun c s hs _ he => ?_⟩, ?_⟩)
      · obtain ⟨v, hv, rfl⟩ := h.inv.sub c (by rw [hs]; rfl)
        rw [← (hf.ok v hv).1] at he
        exact hb.last v hv he
      · rw [← (hf.ok b hb.mem).1, hbp]
    · rcases (h2 p).1 hpq with h3 | ⟨k, hk, hkp⟩
      · exact .inl h3
      · obtain ⟨b, hb, rfl⟩ := h.inv.sub k ((h.rel.tips k).1 hk).1
        rw [← (hf.ok b hb).1] at hkp
        exact .inr ⟨b, hb, hkp⟩
  · have hreq := request_pending h hf hp hc hout ho
    obtain ⟨_, h3, h4⟩ := h.confirmed_stored hf hc
    refine .inl ⟨by simp only [MSrc.pull, hreq], B c, h3, fun hb => ?_, by simp only [MSrc.pull, hreq]⟩
    have hnd : (w.out.map Block.id ++ [c]).Nodup := by
      rw [hout]
      have := hf.ge h3
      have := (path_nodup hf ((B c).number - (B r).number) h3 (by omega)).1
      rw [h4] at this
      exact this
    rw [List.nodup_append] at hnd
    exact hnd.2.2 c (List.mem_map.2 ⟨B c, hb, h4⟩) c (by simp) rfl

/-- C118 for a chain without forks: one asks for what follows the highest block or the own position. -/
theorem C118_linear {p0 : Option P} {as : List (Act P)} (ha : ∀ a ∈ as, a.Ok False) {w : World P}
    (hw : w = (World.start d p0).run nf as) (hf : Feed B r w.got)
    (hl : ∀ u ∈ w.got, ∀ v ∈ w.got, u.number = v.number → u = v) (hp : Points nf w.got) {o : Orders} (ho : o.Ok)
    (resp : List P → Except Unit (Option Ev)) :
    ∃ ps, (w.src.pull nf o w.pos resp).asked = some ps ∧
      ∀ p, p ∈ ps ↔ w.pos = some p ∨ ∃ x ∈ w.got, (∀ y ∈ w.got, y.number ≤ x.number) ∧ nf x = some p := by
  obtain ⟨ps, h1, h2⟩ := C118_asks ha hw hf (commonPrefix_of_linear hf hl d) hp ho resp
  refine ⟨ps, h1, fun p => ?_⟩
  rw [h2]
  refine or_congr Iff.rfl ⟨?_, ?_⟩
  · rintro ⟨b, hb, hbp⟩
    refine ⟨b, hb.mem, fun y hy => ?_, hbp⟩
    by_contra hlt
    have hge := hf.ge hb.mem
    obtain ⟨c, hc, hc1, hc2⟩ := hf.anc (y.number - b.number - 1) hy (by omega)
    rcases hf.cases hc with h3 | ⟨u, h3, h4, h5⟩
    · have := hf.number_root hc h3
      omega
    · obtain rfl := hl u h3 b hb.mem (by omega)
      exact hb.last c hc h4.symm
  · rintro ⟨x, hx, hm, hxp⟩
    refine ⟨x, ⟨hx, fun y hy => by have := hm y hy; omega, fun c hc he => ?_⟩, hxp⟩
    rcases hf.cases hc with h3 | ⟨u, h3, h4, h5⟩
    · refine hf.rootParent x hx ?_
      rw [← he, ← h3, ← (hf.ok c hc).1]
    · obtain rfl := hf.same h3 hx (h4.trans he)
      have := hm c hc
      omega

/-! ## The fork handling source -/

omit [DecidableEq P] in
/-- The positions of the tips. -/
theorem tipChecks_mem {m : MV} {S : Tree} (h : Rel B m S) : ∀ {rs : List Ref} {ps : List P}, (∀ x ∈ rs, (S x.key).isSome) →
    tipChecks nf m rs = .ok ps → ∀ p, p ∈ ps ↔ ∃ x ∈ rs, nf (B x.key) = some p
  | [], ps, _, he, p => by
    obtain rfl := Except.ok.inj he
    simp
  | x :: rs, ps, hx, he, p => by
    have h3 := hx x (by simp)
    rw [tipChecks, h.get, if_pos h3] at he
    simp only at he
    cases hn : nf (B x.key) with
    | none => rw [hn] at he; cases he
    | some q =>
      rw [hn] at he
      simp only at he
      cases hr : tipChecks nf m rs with
      | error e => rw [hr] at he; cases he
      | ok qs =>
        rw [hr] at he
        obtain rfl := Except.ok.inj he
        simp [tipChecks_mem h (fun y hy => hx y (List.mem_cons_of_mem _ hy)) hr, hn, eq_comm]

/-- C118 for the fork handling source, under the conditions of C25: while events wait nothing is asked. Otherwise the inner
source is asked for what follows the consumer's position or the end of a branch, as above, each position once; and for
nothing else but what follows a block that is `d` blocks below a delivered one. -/
theorem C118_fork_asks {p0 : P} {as : List (FAct P)} (ha : ∀ a ∈ as, a.Ok) {w : FWorld P}
    (hw : w = (FWorld.start d (B r).parent).run (pointOf B nf r p0) nf as)
    (hq : QuietRestarts (pointOf B nf r p0) nf (FWorld.start d (B r).parent) as)
    (hf : Feed B r w.got) (hp : FPoints nf p0 w.got) (hs : Shallow B d r w.got) {o : Orders} (ho : o.Ok)
    (resp : List P → Except Unit (Option Ev)) {from' : Option P} :
    (w.src.events ≠ [] → (w.src.pull nf o from' resp).asked = none) ∧
    (w.src.events = [] → ∃ ps, (w.src.pull nf o from' resp).asked = some ps ∧ ps.Nodup ∧
      (∀ p, from' = some p → p ∈ ps) ∧ (∀ b p, Leaf d w.got b → nf b = some p → p ∈ ps) ∧
      ∀ p ∈ ps, from' = some p ∨ (∃ b, Leaf d w.got b ∧ nf b = some p) ∨
        ∃ x ∈ w.got, (B r).number + d ≤ x.number ∧ nf (B (anc B d x.id)) = some p) := by
  subst hw
  obtain ⟨S, h⟩ := FInv.run (FInv.start B d r nf p0) ha hq hf hp hs
  generalize (FWorld.start d (B r).parent).run (pointOf B nf r p0) nf as = w at *
  have hwin : Window d w.src.mv w.got := by
    intro k b hk x hx
    rw [h.rel.get] at hk
    split at hk
    · rename_i hS
      rw [← Option.some.inj hk]
      exact h.low k hS x hx
    · cases hk
  have hnf : ∀ k, (S k).isSome → (nf (B k)).isSome := by
    intro k hk
    obtain ⟨v, hv, rfl⟩ := h.inv.sub k hk
    rw [← (hf.ok v hv).1]
    exact (hp.1 v hv).1
  refine ⟨fun he => ?_, fun he => ?_⟩
  · unfold FSrc.pull
    split
    · rfl
    · contradiction
  · obtain ⟨ps, hreq⟩ := FSrc.request_ok h.rel hnf h.conf ho from'
    refine ⟨ps, by simp only [FSrc.pull, he, hreq], ?_⟩
    unfold FSrc.request at hreq
    have hst : ∀ x ∈ o.tips w.src.mv.tips, (S x.key).isSome := fun x hx =>
      ((h.rel.tips x.key).1 (List.mem_map_of_mem ((ho.1 _).mem_iff.1 hx))).1
    cases ht : tipChecks nf w.src.mv (o.tips w.src.mv.tips) with
    | error e => rw [ht] at hreq; cases hreq
    | ok ts =>
      rw [ht] at hreq
      simp only at hreq
      have hts : ∀ p, p ∈ ts ↔ ∃ b, Leaf d w.got b ∧ nf b = some p := by
        intro p
        rw [tipChecks_mem h.rel hst ht]
        constructor
        · rintro ⟨x, hx, hxp⟩
          obtain ⟨b, hb, hbk⟩ := (tips_leaf h.rel h.inv hf hwin x.key).1
            (List.mem_map_of_mem ((ho.1 _).mem_iff.1 hx))
          rw [← hbk, ← (hf.ok b hb.mem).1] at hxp
          exact ⟨b, hb, hxp⟩
        · rintro ⟨b, hb, hbp⟩
          obtain ⟨x, hx, hxk⟩ := List.mem_map.1 ((tips_leaf h.rel h.inv hf hwin b.id).2 ⟨b, hb, rfl⟩)
          refine ⟨x, (ho.1 _).mem_iff.2 hx, ?_⟩
          rw [hxk, ← (hf.ok b hb.mem).1, hbp]
      cases hc : w.src.confirmedCheck nf with
      | error e => rw [hc] at hreq; cases hreq
      | ok cs =>
        rw [hc] at hreq
        obtain rfl := Except.ok.inj hreq
        refine ⟨List.nodup_dedup _, fun p hfp => ?_, fun b p hb hbp => ?_, fun p hp' => ?_⟩
        · simp [hfp]
        · rw [List.mem_dedup, List.mem_append, List.mem_append]
          exact .inl (.inl ((hts p).2 ⟨b, hb, hbp⟩))
        · rw [List.mem_dedup, List.mem_append, List.mem_append] at hp'
          rcases hp' with (h1 | h1) | h1
          · exact .inr (.inl ((hts p).1 h1))
          · right; right
            unfold FSrc.confirmedCheck at hc
            cases hcc : w.src.confirmed with
            | none =>
              rw [hcc] at hc
              obtain rfl := Except.ok.inj hc
              cases h1
            | some k =>
              rw [hcc] at hc
              have hk := h.conf k hcc
              have e : (w.src.mv.get k).bind nf = nf (B k) := by
                rw [h.rel.get, if_pos hk]
                rfl
              simp only [e] at hc
              obtain ⟨x, hx, hx1, hx2⟩ := h.anc k hcc
              refine ⟨x, hx, hx1, ?_⟩
              rw [hx2]
              split at hc
              · cases hc
              · rename_i q hq'
                obtain rfl := Except.ok.inj hc
                rw [hq', List.mem_singleton.1 h1]
          · exact .inl (Option.mem_toList.1 h1)

/-- The sample of C23 with a fork: the branch given up is still asked for while it is near. -/
example : ∃ w ps, w = (World.start 1 (some [9])).run idPoint (forkActs.take 5) ∧
    (w.src.pull idPoint plainOrders w.pos (fun _ => .ok none)).asked = some ps ∧ [2] ∈ ps := by
  have hf : Feed treeB [0] ((World.start 1 (some [9])).run idPoint (forkActs.take 5)).got := feed_of_check (by decide +kernel)
  obtain ⟨ps, h1, h2⟩ := C118_asks (d := 1) (fun a ha => forkActs_ok False a (List.mem_of_mem_take ha)) rfl hf
    (prefix_of_check (n := 5) (by decide +kernel)) (idPoint_points fun v hv => (hf.ok v hv).1) plainOrders_ok (fun _ => .ok none)
  exact ⟨_, ps, rfl, h1, (h2 _).2 (.inr ⟨treeB [2], ⟨by decide +kernel, by decide +kernel, by decide +kernel⟩, rfl⟩)⟩

/-- After a crash the block that was being stored is released without asking; after the next pull one asks again. -/
example : ∃ w w', w = (World.start 0 none).run idPoint (dyingActs.take 7) ∧ w' = (World.start 0 none).run idPoint dyingActs ∧
    Feed treeB [0] w'.got ∧ CommonPrefix treeB 0 [0] w'.got ∧ w.src.mv.len = 4 ∧
    (w.src.pull idPoint plainOrders w.pos (fun _ => .ok none)).asked = none ∧
    (w'.src.pull idPoint plainOrders w'.pos (fun _ => .ok none)).asked = some [[4], [4]] :=
  ⟨_, _, rfl, rfl, feed_of_check (by decide +kernel), prefix_of_check (n := 5) (by decide +kernel), by decide +kernel,
    by decide +kernel, by decide +kernel⟩

/-- A chain without forks. -/
example : ∃ w ps, w = (World.start 0 (some [9])).run idPoint lineActs ∧
    (w.src.pull idPoint plainOrders w.pos (fun _ => .ok none)).asked = some ps ∧ [4] ∈ ps ∧ [1] ∉ ps := by
  have hf : Feed treeB [0] ((World.start 0 (some [9])).run idPoint lineActs).got := feed_of_check (by decide +kernel)
  obtain ⟨ps, h1, h2⟩ := C118_linear (B := treeB) (r := [0]) lineActs_ok rfl hf (by decide +kernel)
    (idPoint_points fun v hv => (hf.ok v hv).1) plainOrders_ok (fun _ => .ok none)
  refine ⟨_, ps, rfl, h1, (h2 _).2 (.inr ⟨treeB [4], by decide +kernel, by decide +kernel, rfl⟩), fun h3 => ?_⟩
  have h4 : ((World.start 0 (some [9])).run idPoint lineActs).got = [[4], [3], [1], [0]].map treeB := by decide +kernel
  have h5 : ((World.start 0 (some [9])).run idPoint lineActs).pos = some [4] := by decide +kernel
  rw [h2, h4, h5] at h3
  revert h3
  decide

/-- The sample of C25. -/
example : ∃ w ps, w = frun 1 switchActs ∧ w.src.events = [] ∧
    (w.src.pull idPoint plainOrders (some [5]) (fun _ => .ok none)).asked = some ps ∧ [5] ∈ ps := by
  have he : (frun 1 switchActs).src.events = [] := by decide +kernel
  obtain ⟨w, hw⟩ : ∃ w, frun 1 switchActs = w := ⟨_, rfl⟩
  have hf := switch_feed
  have hp := switch_points
  have hs := switch_shallow
  rw [hw] at hf hp hs he
  have hq : QuietRestarts (pointOf treeB idPoint [0] [9]) idPoint (FWorld.start 1 (treeB [0]).parent) switchActs := by
    simp [switchActs, QuietRestarts, fdeliver]
  obtain ⟨ps, h1, _, h2, _⟩ := (C118_fork_asks (from' := some [5]) (fdeliver_ok _) (hw.symm.trans frun_switch) hq hf hp hs plainOrders_ok
    (fun _ => .ok none)).2 he
  exact ⟨w, ps, hw.symm, he, h1, h2 _ rfl⟩

end Verif.Props
