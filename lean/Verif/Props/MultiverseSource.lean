import Verif.Sources.MultiReach

/-!
# C23, C24: the multiverse source

`B` gives the block with a given identifier. The inner source is arbitrary: each pull comes with a function
that gives its answer. `World.run` runs a consumer that always pulls from the position after the last block
it received; `got` are the blocks delivered by the inner source, newest first, and `out` the blocks the
consumer received.
-/

namespace Verif.Props

open Verif.Multiverse Verif.Sources

variable {P : Type} [DecidableEq P] {B : Key → Block} {d : Nat} {r : Key} {nf : Block → Option P}

/-! ### C23 -/

omit [DecidableEq P] in
theorem out_of_conf {w : World P} {S : Tree} {p0 : Option P} {Q : Prop} (h : WInv B d r nf p0 Q w S)
    (hf : Feed B r w.got) {x : Block} (hx : x ∈ w.got) (hm : ∀ y ∈ w.got, y.number ≤ x.number) :
    pathTo B r w.src.confirmed =
      (path B (x.number - (B r).number) x.id).take (x.number - (B r).number + 1 - d) := by
  have h1 := h.conf.2 x hx hm
  have hge := hf.ge hx
  rw [h1]
  split
  · rename_i hle
    obtain ⟨u, hu, hu1, hu2⟩ := hf.anc d hx hle
    rw [path_take _ _ _ (by omega)]
    simp only [pathTo]
    rw [← hu1, ← (hf.ok u hu).1]
    congr 1
    omega
  · rw [show x.number - (B r).number + 1 - d = 0 by omega, List.take_zero]
    rfl

/-- C23: if forks are at most `d` blocks long, where `d` is the confirmation depth, then at every time the
consumer has received exactly the chain from the first block to a delivered block `x` of maximal number,
without its last `d` blocks, in order; its position is after the last of them; and nothing fails. The
inner source delivers parents before children and may repeat blocks, report tips, give nothing or fail;
the source may be restarted. -/
theorem C23_released {p0 : Option P} {as : List (Act P)} (ha : ∀ a ∈ as, a.Ok False) {w : World P}
    (hw : w = (World.start d p0).run nf as) (hf : Feed B r w.got) (hcp : CommonPrefix B d r w.got)
    (hp : Points nf w.got) :
    w.failed = none ∧ (w.got = [] → w.out = []) ∧ (∀ v ∈ w.out, v = B v.id) ∧
    w.pos = (w.out.getLast?.map nf).getD p0 ∧
    ∀ x ∈ w.got, (∀ y ∈ w.got, y.number ≤ x.number) → w.out.map Block.id =
      (path B (x.number - (B r).number) x.id).take (x.number - (B r).number + 1 - d) := by
  subst hw
  obtain ⟨S, h⟩ := WInv.run (Q := False) (by simp) (WInv.start B d r nf p0 False) ha hf hcp hp
  have hout : ((World.start d p0).run nf as).out.map Block.id =
      pathTo B r ((World.start d p0).run nf as).src.confirmed := by
    rcases h.out with h1 | ⟨_, h1, _⟩
    · exact h1
    · cases h1
  refine ⟨h.failed, fun hg => ?_, fun v hv => (hf.ok v (h.sub v hv)).1, h.pos, fun x hx hm => ?_⟩
  · rw [h.conf.1 hg] at hout
    exact List.map_eq_nil_iff.1 hout
  · rw [hout, out_of_conf h hf hx hm]

/-- C23: the same with crashes during pulls, for a consumer that began without position: after a crash the
consumer may lack the last of these blocks, and the next pull delivers it. -/
theorem C23_crash {as : List (Act P)} (ha : ∀ a ∈ as, a.Ok True) {w : World P}
    (hw : w = (World.start d none).run nf as) (hf : Feed B r w.got) (hcp : CommonPrefix B d r w.got)
    (hp : Points nf w.got) {x : Block} (hx : x ∈ w.got) (hm : ∀ y ∈ w.got, y.number ≤ x.number)
    {chain : List Key}
    (hc : chain = (path B (x.number - (B r).number) x.id).take (x.number - (B r).number + 1 - d)) :
    w.failed = none ∧
    (w.out.map Block.id = chain ∨
      ∃ b, b = B b.id ∧ w.out.map Block.id ++ [b.id] = chain ∧ ∀ o, o.Ok → ∀ resp,
        (w.src.pull nf o w.pos resp).res = .ok (some (.block b))) ∧
    (∀ as' o resp, as = as' ++ [.pull o resp] → w.out.map Block.id = chain) := by
  subst hw
  obtain ⟨S, h⟩ := WInv.run (Q := True) (by simp) (WInv.start B d r nf none True) ha hf hcp hp
  have hch := out_of_conf h hf hx hm
  rw [← hc] at hch
  refine ⟨h.failed, ?_, ?_⟩
  · rcases h.out with h1 | ⟨c, _, h1, h2⟩
    · exact .inl (h1.trans hch)
    · obtain ⟨_, h4, h5⟩ := h.confirmed_stored hf h1
      refine .inr ⟨B c, by rw [h5], by rw [h5, ← hch, h1]; exact h2, fun o ho resp => ?_⟩
      simp only [MSrc.pull, request_pending h hf hp h1 h2 ho]
  · rintro as' o resp rfl
    have e : (World.start d none).run nf (as' ++ [.pull o resp]) =
        ((World.start d none).run nf as').step nf (.pull o resp) := by
      simp [World.run]
    rw [e] at hf hcp hp hx hm h hch ⊢
    obtain ⟨l, hl⟩ := step_got nf ((World.start d none).run nf as') (.pull o resp)
    have hf' := hf
    have hcp' := hcp
    have hp' := hp
    rw [hl] at hf' hcp' hp'
    obtain ⟨S1, h1⟩ := WInv.run (Q := True) (by simp) (WInv.start B d r nf none True)
      (fun a ha' => ha a (List.mem_append.2 (.inl ha'))) hf'.append hcp'.append hp'.append
    obtain ⟨S2, h2⟩ := h1.pull (fun _ => rfl) (ha (.pull o resp) (by simp)) hf hcp hp
    rcases h2.out with h3 | ⟨_, h3, _⟩
    · exact h3.trans hch
    · cases h3

/-- A chain without forks. -/
theorem commonPrefix_of_linear {D : List Block} (hf : Feed B r D)
    (hl : ∀ u ∈ D, ∀ v ∈ D, u.number = v.number → u = v) (d : Nat) : CommonPrefix B d r D := by
  intro x hx y hy i j _ _ h1 h2
  obtain ⟨u, hu, hu1, hu2⟩ := hf.anc i hx h1
  obtain ⟨v, hv, hv1, hv2⟩ := hf.anc j hy (by omega)
  rw [← hu1, ← hv1, hl u hu v hv (by omega)]

/-- C23: if the inner source delivers a chain without forks the consumer receives the chain without its
last `d` blocks. -/
theorem C23_linear {p0 : Option P} {as : List (Act P)} (ha : ∀ a ∈ as, a.Ok False) {w : World P}
    (hw : w = (World.start d p0).run nf as) (hf : Feed B r w.got)
    (hl : ∀ u ∈ w.got, ∀ v ∈ w.got, u.number = v.number → u = v) (hp : Points nf w.got) :
    w.failed = none ∧ ∀ x ∈ w.got, (∀ y ∈ w.got, y.number ≤ x.number) → w.out.map Block.id =
      (path B (x.number - (B r).number) x.id).take (x.number - (B r).number + 1 - d) := by
  obtain ⟨h1, _, _, _, h2⟩ := C23_released ha hw hf (commonPrefix_of_linear hf hl d) hp
  exact ⟨h1, h2⟩

/-- C23, whatever is delivered in whatever order: a block that is released after asking the inner source
is the ancestor, `d` blocks up, of a block of maximal number in the multiverse, and was not the block
confirmed before. -/
theorem C23_depth {s : MSrc} (h : SrcReach B nf d s) {o : Orders} (ho : o.Ok) {from' : Option P}
    {resp : List P → Except Unit (Option Ev)} (hr : Honest B resp) {b : Block} {ps : List P}
    (hask : (s.pull nf o from' resp).asked = some ps)
    (hres : (s.pull nf o from' resp).res = .ok (some (.block b))) :
    b = B b.id ∧ s.confirmed ≠ some b.id ∧ (s.pull nf o from' resp).src.confirmed = some b.id ∧
    ∃ top, anc B d top = b.id ∧ (s.pull nf o from' resp).src.mv.get top = some (B top) ∧
      ∀ k v, (s.pull nf o from' resp).src.mv.get k = some v → v.number ≤ (B top).number := by
  obtain ⟨S, hg⟩ := h.good
  unfold MSrc.pull at hask hres ⊢
  cases hreq : s.request nf o from' with
  | error e => rw [hreq] at hask; cases hask
  | ok y =>
    cases y with
    | inl b => rw [hreq] at hask; cases hask
    | inr ps' =>
      simp only [hreq] at hask hres ⊢
      have hb := hr ps'
      generalize resp ps' = x at hres hb ⊢
      cases x with
      | error e => cases hres
      | ok y =>
        cases y with
        | none => cases hres
        | some ev =>
          cases ev with
          | tip n => cases hres
          | block v =>
            simp only [MSrc.answer] at hres ⊢
            by_cases hgt : (s.mv.get v.id).isSome
            · simp only [hgt, if_true] at hres
              cases hres
            · simp only [hgt] at hres ⊢
              obtain ⟨S', hg', h1 | ⟨c, top, h1, h2, h3, h4, h5, h6, h7⟩⟩ := store_spec hg ho (hb v rfl)
              · simp only [Bool.false_eq_true, if_false] at hres
                rw [h1] at hres
                cases hres
              · simp only [Bool.false_eq_true, if_false] at hres ⊢
                rw [h1] at hres
                have hbc : B c = b := by
                  have := Except.ok.inj hres
                  simpa using this
                subst hbc
                rw [h2]
                refine ⟨rfl, h4, h3, top, specAncestor_anc _ _ _ h7, by rw [hg'.1.get, if_pos h5], ?_⟩
                intro k v' hk
                rw [hg'.1.get] at hk
                split at hk
                · rename_i hst
                  rw [← Option.some.inj hk]
                  exact h6 k hst
                · cases hk

/-! ### Samples -/

/-- The order of the lists. -/
def plainOrders : Orders := ⟨id, id, id⟩

theorem plainOrders_ok : plainOrders.Ok := ⟨fun _ => .rfl, fun _ => .rfl, fun _ => .rfl⟩

/-- A tree: `[0] - [1] - [2]` and a fork `[1] - [3] - [4] - [5]`. -/
def treeB (k : Key) : Block :=
  if k = [0] then ⟨[0], [9], 0, 0⟩ else if k = [1] then ⟨[1], [0], 1, 0⟩
  else if k = [2] then ⟨[2], [1], 2, 0⟩ else if k = [3] then ⟨[3], [1], 2, 0⟩
  else if k = [4] then ⟨[4], [3], 3, 0⟩ else ⟨[5], [4], 4, 0⟩

/-- A pull that delivers the block. -/
def deliver (k : Key) : Act Key := .pull plainOrders (fun _ => .ok (some (.block (treeB k))))

/-- A pull during which the process dies. -/
def dieWith (k : Key) : Act Key := .crash plainOrders (fun _ => .ok (some (.block (treeB k)))) 1 plainOrders

/-- The position after a block. -/
def idPoint (b : Block) : Option Key := some b.id

/-- A decidable form of the condition on deliveries. -/
def feedCheck (B : Key → Block) (r : Key) : List Block → Bool
  | [] => true
  | v :: D => decide (v = B v.id) && decide (v.number < 2 ^ 64) && decide (v.id ≠ (B r).parent) &&
    (decide (v.id = r) || D.any (fun u => decide (u.id = v.parent) && decide (v.number = u.number + 1))) &&
    feedCheck B r D

theorem feed_of_check : ∀ {D : List Block}, feedCheck B r D = true → Feed B r D
  | [], _ => ⟨by simp, by simp, fun l1 v l2 h => by simp at h⟩
  | v :: D, h => by
    simp only [feedCheck, Bool.and_eq_true, decide_eq_true_eq, Bool.or_eq_true, List.any_eq_true] at h
    obtain ⟨⟨⟨⟨h1, h2⟩, h3⟩, h4⟩, h5⟩ := h
    have ih := feed_of_check h5
    refine ⟨fun x hx => ?_, fun x hx => ?_, fun l1 x l2 he => ?_⟩
    · rcases List.mem_cons.1 hx with rfl | hx
      · exact ⟨h1, h2⟩
      · exact ih.ok x hx
    · rcases List.mem_cons.1 hx with rfl | hx
      · exact h3
      · exact ih.rootParent x hx
    · cases l1 with
      | nil =>
        obtain ⟨rfl, rfl⟩ := List.cons.inj he
        rcases h4 with h4 | ⟨u, h4, h5, h6⟩
        · exact .inl h4
        · exact .inr ⟨u, h4, h5, h6⟩
      | cons y l1 =>
        obtain ⟨rfl, rfl⟩ := List.cons.inj he
        exact ih.order l1 x l2 rfl

theorem idPoint_points {D : List Block} (h : ∀ v ∈ D, v = B v.id) : Points idPoint D := by
  refine ⟨fun v _ => rfl, fun u hu v hv he => ?_⟩
  have := Option.some.inj he
  rw [h u hu, h v hv, this]

/-- A decidable form of the common prefix property, for numbers below `n`. -/
def prefixCheck (B : Key → Block) (d : Nat) (r : Key) (n : Nat) (D : List Block) : Bool :=
  D.all (fun x => decide (x.number < n) && D.all (fun y => (List.range n).all (fun i => (List.range n).all
    (fun j => !(decide (d ≤ i) && decide (d ≤ j) && decide ((B r).number + i ≤ x.number) &&
      decide (x.number + j = y.number + i)) || decide (anc B i x.id = anc B j y.id)))))

theorem prefix_of_check {n : Nat} {D : List Block} (h : prefixCheck B d r n D = true) :
    CommonPrefix B d r D := by
  intro x hx y hy i j h1 h2 h3 h4
  simp only [prefixCheck, List.all_eq_true, Bool.and_eq_true, decide_eq_true_eq, List.mem_range,
    Bool.or_eq_true, Bool.not_eq_true', Bool.and_eq_false_iff, decide_eq_false_iff_not] at h
  have hxn := (h x hx).1
  have hyn := (h y hy).1
  rcases (h x hx).2 y hy i (by omega) j (by omega) with (((h5 | h5) | h5) | h5) | h5
  · exact absurd h1 h5
  · exact absurd h2 h5
  · exact absurd h3 h5
  · exact absurd h4 h5
  · exact h5

/-- The deliveries of the sample: a fork of one block. -/
def forkActs : List (Act Key) :=
  [deliver [0], deliver [1], .restart plainOrders, deliver [2], .pull plainOrders (fun _ => .ok none),
    deliver [3], deliver [3], .pull plainOrders (fun _ => .ok (some (.tip 7))), deliver [4], deliver [5]]

theorem forkActs_ok (crashes : Prop) : ∀ a ∈ forkActs, a.Ok crashes := by
  intro a ha
  simp only [forkActs, deliver, List.mem_cons, List.not_mem_nil, or_false] at ha
  rcases ha with rfl | rfl | rfl | rfl | rfl | rfl | rfl | rfl | rfl | rfl <;> exact plainOrders_ok

/-- The sample meets the hypotheses of C23. -/
example : ∃ w, w = (World.start 1 (some [9])).run idPoint forkActs ∧ Feed treeB [0] w.got ∧
    CommonPrefix treeB 1 [0] w.got ∧ Points idPoint w.got ∧
    w.out.map Block.id = [[0], [1], [3], [4]] := by
  refine ⟨_, rfl, feed_of_check (by decide +kernel), prefix_of_check (n := 5) (by decide +kernel),
    idPoint_points (B := treeB) ?_, by decide +kernel⟩
  exact fun v hv => ((feed_of_check (B := treeB) (r := [0]) (by decide +kernel)).ok v hv).1

/-- A crash in the sample. -/
example : ∃ w, w = (World.start 1 none).run idPoint [deliver [0], deliver [1], dieWith [2]] ∧
    Feed treeB [0] w.got ∧ CommonPrefix treeB 1 [0] w.got ∧ Points idPoint w.got ∧
    w.out.map Block.id = [[0]] ∧ w.src.confirmed = some [1] := by
  refine ⟨_, rfl, feed_of_check (by decide +kernel), prefix_of_check (n := 5) (by decide +kernel),
    idPoint_points (B := treeB) ?_, by decide +kernel, by decide +kernel⟩
  exact fun v hv => ((feed_of_check (B := treeB) (r := [0]) (by decide +kernel)).ok v hv).1

/-- C23 does not hold with forks longer than the depth: the consumer then receives a block that does not
follow the last one, and is not told. -/
theorem C23_deep_fork_false : ¬ ∀ (B : Key → Block) (r : Key) (d : Nat) (as : List (Act Key)),
    (∀ a ∈ as, a.Ok False) → Feed B r ((World.start d none).run idPoint as).got →
    ∀ l1 u v l2, ((World.start d none).run idPoint as).out = l1 ++ u :: v :: l2 → v.parent = u.id := by
  intro h
  have h1 := h treeB [0] 0 [deliver [0], deliver [1], deliver [2], deliver [3], deliver [4]] (by
      intro a ha
      simp only [deliver, List.mem_cons, List.not_mem_nil, or_false] at ha
      rcases ha with rfl | rfl | rfl | rfl | rfl <;> exact plainOrders_ok) (feed_of_check (by decide +kernel))
    [treeB [0], treeB [1]] (treeB [2]) (treeB [3]) [treeB [4]] (by decide +kernel)
  revert h1
  decide +kernel

/-- C23 does not hold with crashes for a consumer that began at a position: if the process dies after the
first block was stored and before it was released, every later pull from the consumer's position fails. -/
theorem C23_crash_at_first_block_false : ¬ ∀ (B : Key → Block) (r : Key) (d : Nat) (p0 : Key)
    (as : List (Act Key)), (∀ a ∈ as, a.Ok True) → Feed B r ((World.start d (some p0)).run idPoint as).got →
    CommonPrefix B d r ((World.start d (some p0)).run idPoint as).got →
    ((World.start d (some p0)).run idPoint as).failed = none := by
  intro h
  have h1 := h treeB [0] 0 [9] [dieWith [0], deliver [1]] (by
      intro a ha
      simp only [dieWith, deliver, List.mem_cons, List.not_mem_nil, or_false] at ha
      rcases ha with rfl | rfl
      · exact ⟨trivial, plainOrders_ok, plainOrders_ok⟩
      · exact plainOrders_ok) (feed_of_check (by decide +kernel)) (prefix_of_check (n := 5) (by decide +kernel))
  revert h1
  decide +kernel

/-! ### C24 -/

/-- C24: in every reachable state the confirmed block is stored, and pulling from the position before it
(its parent's, or none if its parent is not stored) returns it again, asks nothing of the inner source and
changes nothing. -/
theorem C24_repeat (hnf : ∀ k, (nf (B k)).isSome) {s : MSrc} (h : SrcReach B nf d s) {c : Key}
    (hc : s.confirmed = some c) {o : Orders} (ho : o.Ok) (resp : List P → Except Unit (Option Ev)) :
    s.mv.get c = some (B c) ∧
    s.pull nf o ((s.mv.get (B c).parent).bind nf) resp = ⟨.ok (some (.block (B c))), none, s⟩ := by
  obtain ⟨S, hrel, _, hst⟩ := h.good
  have hsc := hst c hc
  obtain ⟨p, hp⟩ := Option.isSome_iff_exists.1 (hnf c)
  obtain ⟨ps, h1, _⟩ := request_eq hrel (fun k _ => hnf k) ho ((s.mv.get (B c).parent).bind nf)
  have e : (s.mv.get (B c).parent).bind nf =
      if (S (B c).parent).isSome then nf (B (B c).parent) else none := by
    rw [hrel.get]
    split <;> rfl
  refine ⟨by rw [hrel.get, if_pos hsc], ?_⟩
  rw [confirmed_eq hrel hc hsc hp, ← e, fromCheck_same] at h1
  simp only [MSrc.pull, h1]

/-- C24: in every reachable state, pulling from a position that is neither the confirmed block's nor its
parent's fails, asks nothing of the inner source and changes nothing. -/
theorem C24_rejected_partial (hnf : ∀ k, (nf (B k)).isSome) {s : MSrc} (h : SrcReach B nf d s) {c : Key}
    (hc : s.confirmed = some c) {o : Orders} (ho : o.Ok) (resp : List P → Except Unit (Option Ev)) {p : P}
    (h1 : nf (B c) ≠ some p) (h2 : (s.mv.get (B c).parent).bind nf ≠ some p) :
    s.pull nf o (some p) resp = ⟨.error .notContinuous, none, s⟩ := by
  obtain ⟨S, hrel, _, hst⟩ := h.good
  have hsc := hst c hc
  obtain ⟨q, hq⟩ := Option.isSome_iff_exists.1 (hnf c)
  obtain ⟨ps, h3, _⟩ := request_eq hrel (fun k _ => hnf k) ho (some p)
  have e : (s.mv.get (B c).parent).bind nf =
      if (S (B c).parent).isSome then nf (B (B c).parent) else none := by
    rw [hrel.get]
    split <;> rfl
  rw [e] at h2
  rw [confirmed_eq hrel hc hsc hq] at h3
  have hpq : p ≠ q := fun hh => h1 (by rw [hq, hh])
  have h4 : s.request nf o (some p) = .error .notContinuous := by
    rw [h3]
    generalize (if (S (B c).parent).isSome then nf (B (B c).parent) else none) = par at h2 ⊢
    simp [fromCheck, Ne.symm h2, hpq]
  simp only [MSrc.pull, h4]

/-- C24: the block that a consumer receives is returned again if it pulls from the position where it was,
provided the consumer began without position or the block is not the first one. -/
theorem C24_same_again_partial {p0 : Option P} {as : List (Act P)} (ha : ∀ a ∈ as, a.Ok (p0 = none)) {w w' : World P}
    (hw : w = (World.start d p0).run nf as) {o : Orders} {resp : List P → Except Unit (Option Ev)}
    (ho : o.Ok) (hw' : w' = w.step nf (.pull o resp)) (hf : Feed B r w'.got)
    (hcp : CommonPrefix B d r w'.got) (hp : Points nf w'.got) {b : Block} (hb : w'.out = w.out ++ [b])
    (hfirst : p0 = none ∨ b.id ≠ r) {o' : Orders} (ho' : o'.Ok)
    (resp' : List P → Except Unit (Option Ev)) :
    w'.src.pull nf o' w.pos resp' = ⟨.ok (some (.block b)), none, w'.src⟩ := by
  have hstart : ∃ S, WInv B d r nf p0 (p0 = none) w S := by
    obtain ⟨l, hl⟩ := step_got nf w (.pull o resp)
    rw [hw', hl] at hf hcp hp
    rw [hw] at hf hcp hp ⊢
    exact WInv.run (fun hh => hh) (WInv.start B d r nf p0 (p0 = none)) ha hf.append hcp.append hp.append
  obtain ⟨S, h⟩ := hstart
  rw [hw'] at hf hcp hp
  obtain ⟨S', h'⟩ := h.pull (fun hh => hh) ho hf hcp hp
  rw [← hw'] at hf hcp hp h'
  have hout : w'.out.map Block.id = pathTo B r w'.src.confirmed := by
    rcases h'.out with h1 | ⟨_, h1, _⟩
    · exact h1
    · cases h1
  have hbg : b ∈ w'.got := h'.sub b (by rw [hb]; simp)
  have hBb : B b.id = b := (hf.ok b hbg).1.symm
  have hconf : w'.src.confirmed = some b.id := by
    cases hcc : w'.src.confirmed with
    | none =>
      rw [hcc, hb] at hout
      simp [pathTo] at hout
    | some c =>
      rw [hcc, hb] at hout
      have h2 := congrArg List.getLast? hout
      rw [pathTo_last] at h2
      simp only [List.map_append, List.map_cons, List.map_nil, List.getLast?_append,
        List.getLast?_singleton, Option.some_or] at h2
      rw [Option.some.inj h2]
  rw [hconf, hb] at hout
  simp only [List.map_append, List.map_cons, List.map_nil] at hout
  -- the consumer before the pull, with the source after it
  have hkey : w'.src.request nf o' w.pos = .ok (.inl b) := by
    obtain ⟨ps, h1, _⟩ := request_eq h'.rel (h'.inv.point hf hp) ho' w.pos
    obtain ⟨h2, h3, h4⟩ := h'.confirmed_stored hf hconf
    obtain ⟨p, hpc⟩ := Option.isSome_iff_exists.1 (hp.1 _ h3)
    rw [h1, confirmed_eq h'.rel hconf h2 hpc]
    have key : w.pos = if (S' (B b.id).parent).isSome then nf (B (B b.id).parent) else none := ?_
    · rw [← key, fromCheck_same, hBb]
    rcases hf.cases hbg with hr | ⟨u, hu, hup, hun⟩
    · have hnil : w.out.map Block.id = [] := by
        have hh := congrArg List.length hout
        have hn : b.number = (B r).number := hf.number_root hbg hr
        simp only [pathTo, hBb, hn, Nat.sub_self] at hh
        have : (path B 0 b.id).length = 1 := path_length 0 b.id
        rw [this] at hh
        simpa using hh
      have hnil' : w.out = [] := List.map_eq_nil_iff.1 hnil
      rw [if_neg]
      · rw [h.pos, hnil']
        rcases hfirst with hh | hh
        · rw [hh]
          rfl
        · exact absurd hr hh
      · intro hst
        obtain ⟨u, hu, hup⟩ := h'.inv.sub _ hst
        rw [hr] at hup
        exact hf.rootParent u hu hup
    · have hstu : (S' u.id).isSome := by
        have hcf := h'.conf
        rw [hconf] at hcf
        obtain ⟨u', hu', hu1, x, hx, hm, hn, _⟩ := Conf.mem hf hcf
        have : u' = b := hf.same hu' hbg hu1
        rw [this] at hn
        exact h'.inv.keep u hu (fun y hy => by have := hm y hy; omega)
      have hpar : (B b.id).parent = u.id := by rw [hBb, hup]
      rw [hpar, if_pos hstu, ← (hf.ok u hu).1]
      have hge := hf.ge hu
      have hlast : (w.out.map Block.id).getLast? = some u.id := by
        have e : (B b.id).number - (B r).number = (u.number - (B r).number) + 1 := by rw [hBb]; omega
        simp only [pathTo, e] at hout
        rw [path, hpar] at hout
        rw [List.append_cancel_right hout, path_last]
      obtain ⟨v, hv, hvc⟩ := last_of_map hlast
      rw [h.pos, hv]
      simp only [Option.map_some, Option.getD_some]
      have hvg : v ∈ w'.got := h'.sub v (by rw [hb]; exact List.mem_append.2 (.inl (List.mem_of_getLast? hv)))
      rw [hf.same hvg hu hvc]
  simp only [MSrc.pull, hkey]

/-- The sample meets the hypotheses of C24: two blocks of a chain are released. -/
example : ∃ w w' : World Key, w = (World.start 0 none).run idPoint [deliver [0]] ∧
    w' = w.step idPoint (deliver [1]) ∧ Feed treeB [0] w'.got ∧ CommonPrefix treeB 0 [0] w'.got ∧
    Points idPoint w'.got ∧ w'.out = w.out ++ [treeB [1]] := by
  refine ⟨_, _, rfl, rfl, feed_of_check (by decide +kernel), prefix_of_check (n := 5) (by decide +kernel),
    idPoint_points (B := treeB) ?_, by decide +kernel⟩
  exact fun v hv => ((feed_of_check (B := treeB) (r := [0]) (by decide +kernel)).ok v hv).1

/-- C24 is false for the first block if the consumer began at a position: pulling from there again after
the block was released fails. -/
theorem C24_first_block_false : ¬ ∀ (B : Key → Block) (r : Key) (d : Nat) (p0 : Option Key) (as : List (Act Key))
    (o : Orders) (resp : List Key → Except Unit (Option Ev)) (b : Block), (∀ a ∈ as, a.Ok False) → o.Ok →
    Feed B r ((World.start d p0).run idPoint (as ++ [.pull o resp])).got →
    ((World.start d p0).run idPoint (as ++ [.pull o resp])).out =
      ((World.start d p0).run idPoint as).out ++ [b] →
    (((World.start d p0).run idPoint (as ++ [.pull o resp])).src.pull idPoint o
      ((World.start d p0).run idPoint as).pos resp).res = .ok (some (.block b)) := by
  intro h
  have h1 := h treeB [0] 0 (some [9]) [] plainOrders (fun _ => .ok (some (.block (treeB [0])))) (treeB [0])
    (by simp) plainOrders_ok (feed_of_check (by decide +kernel)) (by decide +kernel)
  have h2 : (((World.start 0 (some [9])).run idPoint
      ([] ++ [.pull plainOrders (fun _ => .ok (some (.block (treeB [0]))))])).src.pull idPoint plainOrders
      ((World.start 0 (some [9])).run idPoint []).pos (fun _ => .ok (some (.block (treeB [0]))))).res.toOption =
      none := by decide +kernel
  rw [h1] at h2
  cases h2

/-- C24 is false for a consumer that pulls without position: when the parent of the confirmed block is
stored this is not rejected, and later blocks are released. -/
theorem C24_no_position_false : ¬ ∀ (B : Key → Block) (r : Key) (d : Nat) (as : List (Act Key)) (o : Orders)
    (resp : List Key → Except Unit (Option Ev)), (∀ a ∈ as, a.Ok False) → o.Ok →
    Feed B r ((World.start d none).run idPoint as).got → ((World.start d none).run idPoint as).out ≠ [] →
    released (((World.start d none).run idPoint as).src.pull idPoint o none resp).res ≠ [] →
    released (((World.start d none).run idPoint as).src.pull idPoint o none resp).res = [B r] := by
  intro h
  have h1 := h treeB [0] 0 [deliver [0], deliver [1]] plainOrders (fun _ => .ok (some (.block (treeB [2]))))
    (by
      intro a ha
      simp only [deliver, List.mem_cons, List.not_mem_nil, or_false] at ha
      rcases ha with rfl | rfl <;> exact plainOrders_ok) plainOrders_ok (feed_of_check (by decide +kernel))
    (by decide +kernel) (by decide +kernel)
  revert h1
  decide +kernel

end Verif.Props
