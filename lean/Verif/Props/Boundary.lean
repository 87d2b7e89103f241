import Verif.Sources.Boundary
import Verif.Props.Confirmed

/-!
# Blocks with the number of their parent (C98)

Byron boundary blocks have the number of the block before them.
-/

namespace Verif.Props

open Verif.Multiverse Verif.Sources

/-- Specification: a chain in which some blocks, never two in a row, have the number of the block before them. -/
structure ByronChain (ch : List Block) : Prop where
  ids : (ch.map Block.id).Nodup
  numbers : ∀ x ∈ ch, x.number < 2 ^ 64
  link : ∀ (i : Nat) (x y : Block), ch[i]? = some x → ch[i + 1]? = some y →
    y.parent = x.id ∧ (y.number = x.number + 1 ∨ y.number = x.number)
  alone : ∀ (i : Nat) (x y : Block), ch[i]? = some x → ch[i + 2]? = some y → x.number < y.number
  root : ∀ x, ch.head? = some x → ∀ y ∈ ch, y.id ≠ x.parent

/-- Specification: the block at index `i` has the number of the one before it. -/
def BoundaryAt (ch : List Block) (i : Nat) : Prop :=
  ∃ (j : Nat) (x y : Block), i = j + 1 ∧ ch[j]? = some x ∧ ch[i]? = some y ∧ y.number = x.number

/-- Some block, for indices past the end. -/
def noBlock : Block := ⟨[], [], 0, 0⟩

theorem ByronChain.steps {ch : List Block} (h : ByronChain ch) :
    Steps (fun k => (ch.find? (fun b => b.id = k)).getD noBlock) ch.length (fun i => ch.getD i noBlock) := by
  have hget : ∀ i, i < ch.length → ch[i]? = some (ch.getD i noBlock) := by
    intro i hi
    rw [List.getD_eq_getElem?_getD, List.getElem?_eq_getElem hi]
    rfl
  have hmem : ∀ i, i < ch.length → ch.getD i noBlock ∈ ch := fun i hi => List.mem_of_getElem? (hget i hi)
  have hinj : ∀ i j, i < ch.length → j < ch.length → (ch.getD i noBlock).id = (ch.getD j noBlock).id → i = j := by
    intro i j hi hj he
    refine (List.getElem?_inj (l := ch.map Block.id) (by simpa using hi) h.ids).1 ?_
    rw [List.getElem?_map, List.getElem?_map, hget i hi, hget j hj, Option.map_some,
      Option.map_some, he]
  refine ⟨fun i hi => ⟨?_, h.numbers _ (hmem i hi)⟩, hinj, fun i hi => ?_, fun i hi => ?_, fun i hi => ?_, fun i hi => ?_⟩
  · cases hf : ch.find? (fun b => b.id = (ch.getD i noBlock).id) with
    | none =>
      have := List.find?_eq_none.1 hf _ (hmem i hi)
      simp at this
    | some b =>
      obtain ⟨j, hj, hb⟩ := List.mem_iff_getElem.1 (List.mem_of_find?_eq_some hf)
      have hid := List.find?_some hf
      simp only [decide_eq_true_eq] at hid
      have hb' : b = ch.getD j noBlock := by
        rw [List.getD_eq_getElem?_getD, List.getElem?_eq_getElem hj, Option.getD_some, hb]
      rw [hb'] at hid
      have := hinj _ _ hj hi hid
      rw [Option.getD_some, hb', this]
  · refine h.root _ ?_ _ (hmem i hi)
    rw [List.head?_eq_getElem?]
    exact hget 0 (by omega)
  · exact (h.link i _ _ (hget i (by omega)) (hget (i + 1) hi)).1
  · have := (h.link i _ _ (hget i (by omega)) (hget (i + 1) hi)).2
    omega
  · exact h.alone i _ _ (hget i (by omega)) (hget (i + 2) hi)

variable {P : Type} [DecidableEq P] {nf : Block → Option P}

/-- **C98**, the part that holds: while the inner source delivers one chain, the consumer of the multiverse source receives
its blocks in order, only such that are `d` blocks before the end of what was delivered, and all of them but those that are `d`
blocks before a boundary block. Missing: those too (`C98_skip_false`), and restarts (`C98_restart_false`). -/
theorem C98_released_partial {ch : List Block} (h : ByronChain ch) (hp : Points nf ch) (d : Nat) (p0 : Option P)
    {as : List (Act P)} (ha : ∀ a ∈ as, ∃ o resp, a = .pull o resp ∧ o.Ok)
    (hg : ((World.start d p0).run nf as).got.reverse <+: ch) :
    ((World.start d p0).run nf as).failed = none ∧
    ((World.start d p0).run nf as).out.Sublist (ch.take (((World.start d p0).run nf as).got.length - d)) ∧
    ∀ (i : Nat) (x : Block), i + d < ((World.start d p0).run nf as).got.length → ch[i]? = some x → ¬ BoundaryAt ch (i + d) →
      x ∈ ((World.start d p0).run nf as).out := by
  have hrange : (List.range ch.length).map (fun i => ch.getD i noBlock) = ch := by
    apply List.ext_getElem
    · simp
    · intro i h1 h2
      rw [List.getElem_map, List.getElem_range, List.getD_eq_getElem?_getD, List.getElem?_eq_getElem h2, Option.getD_some]
  have hmem : ∀ i, i < ch.length → ch.getD i noBlock ∈ ch := by
    intro i hi
    rw [List.getD_eq_getElem?_getD, List.getElem?_eq_getElem hi]
    exact List.getElem_mem hi
  obtain ⟨m, e, l, S, hb⟩ := BInv.run (nf := nf) (d := d) h.steps (fun i hi => hp.1 _ (hmem i hi))
    (fun i j hi hj he => h.steps.inj i j hi hj (by rw [hp.2 _ (hmem i hi) _ (hmem j hj) he]))
    (BInv.start _ _ _ d nf p0) ha (by rw [hrange]; exact hg)
  generalize (World.start d p0).run nf as = w at hb hg ⊢
  have hlen : w.got.length = m := by
    have := congrArg List.length hb.got
    simpa using this
  have hle := hb.le
  rw [hlen]
  refine ⟨hb.failed, ?_, ?_⟩
  · have hlim : (e.map (· + 1)).getD 0 ≤ m - d := by
      rcases hb.at_ with ⟨h1, _⟩ | ⟨s, h1, h2⟩ <;> rw [h1]
      · exact Nat.zero_le _
      · simp only [Option.map_some, Option.getD_some]
        omega
    rw [hb.out]
    have h1 := (hb.below.trans (List.range_sublist.2 hlim)).map (fun i => ch.getD i noBlock)
    have h2 : (List.range (m - d)).map (fun i => ch.getD i noBlock) = ch.take (m - d) := by
      have h3 := congrArg (List.take (m - d)) hrange
      rw [← List.map_take, List.take_range] at h3
      rw [← h3]
      congr 2
      omega
    rw [h2] at h1
    exact h1
  · intro i x hi hx hnb
    have hxi : ch.getD i noBlock = x := by rw [List.getD_eq_getElem?_getD, hx]; rfl
    have hbd : ¬ Bd (fun i => ch.getD i noBlock) (i + d) := by
      rintro ⟨j, h1, h2⟩
      refine hnb ⟨j, ch.getD j noBlock, ch.getD (i + d) noBlock, h1, ?_, ?_, h2⟩
      · rw [List.getD_eq_getElem?_getD, List.getElem?_eq_getElem (show j < ch.length by omega)]; rfl
      · rw [List.getD_eq_getElem?_getD, List.getElem?_eq_getElem (show i + d < ch.length by omega)]; rfl
    have hil : i ∈ l := by
      by_cases h1 : i < (e.map (· + 1)).getD 0
      · exact Classical.byContradiction fun h2 => hbd (hb.missing i h1 h2)
      · exfalso
        rcases hb.at_ with ⟨h2, h3⟩ | ⟨s, h2, h3⟩
        · rcases h3 with h3 | ⟨h3, h4⟩
          · omega
          · have : i + d = d := by omega
            rw [this] at hbd
            exact hbd h4
        · rw [h2] at h1
          simp only [Option.map_some, Option.getD_some] at h1
          rcases h3 with h3 | ⟨h3, h4⟩
          · omega
          · have : i + d = m - 1 := by omega
            rw [this] at hbd
            exact hbd h4
    rw [hb.out, ← hxi]
    exact List.mem_map_of_mem hil

/-- **C98.** Without boundary blocks among what was delivered nothing is missing. -/
theorem C98_plain {ch : List Block} (h : ByronChain ch) (hp : Points nf ch) (d : Nat) (p0 : Option P)
    {as : List (Act P)} (ha : ∀ a ∈ as, ∃ o resp, a = .pull o resp ∧ o.Ok)
    (hg : ((World.start d p0).run nf as).got.reverse <+: ch)
    (hb : ∀ i, i < ((World.start d p0).run nf as).got.length → ¬ BoundaryAt ch i) :
    ((World.start d p0).run nf as).out = ch.take (((World.start d p0).run nf as).got.length - d) := by
  obtain ⟨_, h1, h2⟩ := C98_released_partial h hp d p0 ha hg
  generalize (World.start d p0).run nf as = w at hg hb h1 h2 ⊢
  have hnd : ch.Nodup := List.Nodup.of_map _ h.ids
  refine h1.eq_of_length_le ?_
  refine (List.subperm_of_subset (hnd.sublist (List.take_sublist _ _)) ?_).length_le
  intro x hx
  obtain ⟨i, hi, rfl⟩ := List.mem_iff_getElem.1 hx
  rw [List.length_take] at hi
  refine h2 i _ (by omega) ?_ (hb _ (by omega))
  rw [List.getElem_take, List.getElem?_eq_getElem]

/-- **C98**, for the other source: a consumer of the fork handling source that starts at the parent of the first block follows a
chain with boundary blocks to its end. It never fails, no block is skipped, and only the first block may still be queued,
behind the rollback the source begins with. -/
theorem C98_followed {ch : List Block} {x0 : Block} {l : List Block} (hx : ch = x0 :: l) (h : ByronChain ch)
    (hp : Points nf ch) (d : Nat) {pt : Key → Option P} (hpt : (pt x0.parent).isSome)
    {as : List (FAct P)} (ha : ∀ a ∈ as, ∃ o resp, a = .pull o resp ∧ o.Ok)
    (hg : ((FWorld.start d x0.parent).run pt nf as).got.reverse <+: ch) :
    ((FWorld.start d x0.parent).run pt nf as).failed = none ∧
    ((FWorld.start d x0.parent).run pt nf as).src.events.length ≤ 1 ∧
    (1 < ((FWorld.start d x0.parent).run pt nf as).got.length →
      ((FWorld.start d x0.parent).run pt nf as).src.events = []) ∧
    ((FWorld.start d x0.parent).run pt nf as).chain =
      some (((ch.take (((FWorld.start d x0.parent).run pt nf as).got.length -
        ((FWorld.start d x0.parent).run pt nf as).src.events.length)).map Block.id).reverse ++ [x0.parent]) := by
  have hrange : (List.range ch.length).map (fun i => ch.getD i noBlock) = ch := by
    apply List.ext_getElem
    · simp
    · intro i h1 h2
      rw [List.getElem_map, List.getElem_range, List.getD_eq_getElem?_getD, List.getElem?_eq_getElem h2, Option.getD_some]
  have hmem : ∀ i, i < ch.length → ch.getD i noBlock ∈ ch := by
    intro i hi
    rw [List.getD_eq_getElem?_getD, List.getElem?_eq_getElem hi]
    exact List.getElem_mem hi
  have h0 : ch.getD 0 noBlock = x0 := by rw [hx]; rfl
  obtain ⟨p1, hp1⟩ := Option.isSome_iff_exists.1 hpt
  have hst := FBInv.start (P := P) (fun k => (ch.find? (fun b => b.id = k)).getD noBlock) ch.length
    (fun i => ch.getD i noBlock) d
  simp only [h0] at hst
  obtain ⟨m, q, S, hb⟩ := FBInv.run (nf := nf) (d := d) h.steps (fun i hi => hp.1 _ (hmem i hi)) pt
    (p1 := p1) (by simp only [h0]; exact hp1) hst ha (by rw [hrange]; exact hg)
  generalize (FWorld.start d x0.parent).run pt nf as = w at hb hg ⊢
  have hlen : w.got.length = m := by
    have := congrArg List.length hb.got
    simpa using this
  have hq : w.src.events.length = q := by
    rcases hb.events with ⟨h1, h2⟩ | ⟨h1, _, h2⟩ <;> rw [h1, h2] <;> rfl
  refine ⟨hb.failed, ?_, ?_, ?_⟩
  · rcases hb.events with ⟨_, h2⟩ | ⟨_, _, h2⟩ <;> rw [h2] <;> simp
  · intro h1
    rcases hb.events with ⟨_, h2⟩ | ⟨_, h3, _⟩
    · exact h2
    · omega
  · have hle := hb.le
    have h2 : (List.range (m - q)).map (fun i => (ch.getD i noBlock).id) = (ch.take (m - q)).map Block.id := by
      have h3 := congrArg (fun l => (List.take (m - q) l).map Block.id) hrange
      rw [← List.map_take, List.take_range, List.map_map] at h3
      rw [← h3, show min (m - q) ch.length = m - q by omega]
      rfl
    have h4 := hb.chain
    simp only [h0] at h4
    rw [hlen, hq, h4, h2]

/-! ### A node's chain with a boundary block -/

open Verif.Sources.Confirmed Verif.Sources.Cardano

/-- Identifiers: `n` bytes, where `n` is the hash of the block, or with those of blocks 3 and 4 exchanged. -/
def byronHash (swap : Bool) (h : Nat) : Nat :=
  if swap ∧ h = 3 then 4 else if swap ∧ h = 4 then 3 else h

/-- Block 4 is a boundary block: it has the number of block 3. -/
def byronDecoder (swap : Bool) : Decoder where
  view x := ⟨List.replicate (byronHash swap x.hash) 0, List.replicate (byronHash swap (x.hash - 1)) 0,
    if 4 ≤ x.hash then x.hash - 2 else x.hash - 1, x.slot⟩
  nf v := some (.header v.payload (byronHash swap v.id.length))

theorem byron_decoder (swap : Bool) : (byronDecoder swap).Ok := by
  refine ⟨fun x => ?_, fun x y h => ?_⟩
  · have : byronHash swap (byronHash swap x.hash) = x.hash := by
      unfold byronHash
      cases swap
      · simp
      · by_cases h3 : x.hash = 3
        · simp [h3]
        · by_cases h4 : x.hash = 4
          · simp [h4]
          · simp [h3, h4]
    simp [byronDecoder, NBlock.point, this]
  · simp only [NBlock.point, Point.header.injEq] at h
    simp [byronDecoder, h.2]

def byronNet : Net := demoNet [1, 2, 3, 4, 5, 6, 7, 8]

/-- Sets of blocks are iterated from the oldest. -/
def oldestFirst : Orders := ⟨id, List.reverse, id⟩

theorem oldest_orders : oldestFirst.Ok := ⟨fun _ => List.Perm.refl _, List.reverse_perm, fun _ => List.Perm.refl _⟩

/-- The node's chain after its first block, as the consumer knows it, is such a chain. -/
theorem byron_chain (swap : Bool) : ByronChain ((byronNet.chain.drop 1).map (byronDecoder swap).view) := by
  refine ⟨by cases swap <;> decide, by cases swap <;> decide, ?_, ?_, ?_⟩
  · have : ∀ i, i < 6 → ∀ x, ((byronNet.chain.drop 1).map (byronDecoder swap).view)[i]? = some x →
        ∀ y, ((byronNet.chain.drop 1).map (byronDecoder swap).view)[i + 1]? = some y →
        y.parent = x.id ∧ (y.number = x.number + 1 ∨ y.number = x.number) := by
      cases swap <;> decide
    intro i x y hx hy
    by_cases hi : i < 6
    · exact this i hi x hx y hy
    · rw [List.getElem?_eq_none (by simp [byronNet, demoNet]; omega)] at hy
      cases hy
  · have : ∀ i, i < 5 → ∀ x, ((byronNet.chain.drop 1).map (byronDecoder swap).view)[i]? = some x →
        ∀ y, ((byronNet.chain.drop 1).map (byronDecoder swap).view)[i + 2]? = some y → x.number < y.number := by
      cases swap <;> decide
    intro i x y hx hy
    by_cases hi : i < 5
    · exact this i hi x hx y hy
    · rw [List.getElem?_eq_none (by simp [byronNet, demoNet]; omega)] at hy
      cases hy
  · cases swap <;> decide

/-- Pulls of `k` further events. -/
def byronMore (o : Orders) (k : Nat) : List SAct := (List.replicate k [SAct.pull o, .inner .recv]).flatten

/-- C98 is false if the set of the blocks with the highest number gives the parent of the boundary block first: with the next
block the confirmed block goes on by two, and the consumer never gets the one between. The node never changes its chain
and nothing fails. -/
theorem C98_skip_false : ¬ ∀ (cfg : Config) (D : Decoder) (d : Nat) (n : Net) (b0 : NBlock) (l : List NBlock)
    (as : List SAct) (s : Sys), D.Ok → n.chain = b0 :: l → (n.chain.map NBlock.point).Nodup → ByronChain (l.map D.view) →
    (∀ a ∈ as, a.Ok False) → (∀ a ∈ as, ∀ o, a ≠ .restart o) → (∀ n' ∈ taken as, n' = n) →
    (Sys.start d (some b0.point)).run cfg D as = some s → s.w.out <+: l.map D.view := by
  intro h
  have h1 := h demoCfg (byronDecoder false) 2 byronNet (demoBlock 1) _
    (.pull oldestFirst :: demoRequest byronNet 7 ++ byronMore oldestFirst 6) _ (byron_decoder false) rfl (by decide)
    (byron_chain false)
    (by simp [demoRequest, byronMore, SAct.Ok, oldest_orders, or_imp, forall_and])
    (by simp [demoRequest, byronMore, or_imp, forall_and])
    (fun n' hn' => List.mem_singleton.1 hn') rfl
  revert h1
  decide +kernel

/-- C98 is false over a restart, even if sets give the newest block first: the database is read in the order of numbers and
identifiers, and a boundary block read before its parent is not linked to it. -/
theorem C98_restart_false : ¬ ∀ (cfg : Config) (D : Decoder) (d : Nat) (n : Net) (b0 : NBlock) (l : List NBlock)
    (as : List SAct) (s : Sys), D.Ok → n.chain = b0 :: l → (n.chain.map NBlock.point).Nodup → ByronChain (l.map D.view) →
    (∀ a ∈ as, a.Ok False) → (∀ o, SAct.pull o ∈ as ∨ SAct.restart o ∈ as → o = demoOrders) → (∀ n' ∈ taken as, n' = n) →
    (Sys.start d (some b0.point)).run cfg D as = some s → s.w.out <+: l.map D.view := by
  intro h
  have h1 := h demoCfg (byronDecoder true) 2 byronNet (demoBlock 1) _
    (.pull demoOrders :: demoRequest byronNet 7 ++ demoMore 2 ++ [.restart demoOrders, .pull demoOrders] ++
      demoRequest byronNet 4 ++ demoMore 3) _ (byron_decoder true) rfl (by decide)
    (byron_chain true)
    (by simp [demoRequest, demoMore, SAct.Ok, demo_orders, or_imp, forall_and])
    (by simp [demoRequest, demoMore])
    (fun n' hn' => by simpa [taken, takenBy, demoRequest, demoMore] using hn') rfl
  revert h1
  decide +kernel

/-- What is delivered in the first case, and what is received: block 2 is not. -/
example :
    let w := ((Sys.start 2 (some (.header 10 1))).run demoCfg (byronDecoder false)
      (.pull oldestFirst :: demoRequest byronNet 7 ++ byronMore oldestFirst 6)).map
        (fun s => (s.w.got.reverse.map (·.payload), s.w.out.map (·.payload)))
    w = some ([20, 30, 40, 50, 60, 70, 80], [30, 40, 50, 60]) := by decide +kernel

/-- A consumer of a source that delivers the chain, block by block. -/
example :
    let ch := (byronNet.chain.drop 1).map (byronDecoder false).view
    let as : List (Act Point) := ch.map (fun v => .pull oldestFirst (fun _ => .ok (some (.block v))))
    let w := (World.start 2 (some (Point.header 10 1))).run (byronDecoder false).nf as
    w.got.reverse = ch ∧ BoundaryAt ch 2 ∧ w.out = (ch.drop 1).take 4 ∧ w.failed = none := by
  refine ⟨by decide +kernel, ⟨1, _, _, rfl, rfl, rfl, by decide⟩, by decide +kernel, by decide +kernel⟩

/-- A consumer of the fork handling source over the same chain: one more pull for the queued first block. -/
example :
    let ch := (byronNet.chain.drop 1).map (byronDecoder false).view
    let as : List (FAct Point) := (.pull oldestFirst (fun _ => .ok (some (.block (ch.headD noBlock))))) ::
      (.pull oldestFirst (fun _ => .ok none)) ::
      (ch.drop 1).map (fun v => .pull oldestFirst (fun _ => .ok (some (.block v))))
    let w := (FWorld.start 2 (List.replicate 1 0)).run (fun k => some (.header (10 * k.length) k.length)) (byronDecoder false).nf as
    w.got.reverse = ch ∧ w.chain = some ((List.range 8).map (fun i => List.replicate (8 - i) 0)) ∧ w.failed = none := by
  refine ⟨by decide +kernel, by decide +kernel, by decide +kernel⟩

end Verif.Props
