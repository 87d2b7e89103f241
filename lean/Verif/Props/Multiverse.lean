import Verif.Multiverse.Select

/-!
# C15-C22: the multiverse

`MvHist B sf ops` are the histories considered: all inserted blocks are those of `B` (so an identifier
determines its block), block numbers are 64-bit, and while a block is removed nobody holds a reference to
an earlier allocation of its parent. `specRun` is the specification.
-/

namespace Verif.Props

open Verif.Multiverse

/-- The histories considered. -/
def MvHist (B : Key → Block) (sf : Nat) (ops : List Op) : Prop :=
  (∀ op ∈ ops, OpOk B op) ∧ Fair (MV.empty [] sf) ops

/-- The multiverse after a history, and the blocks that should be stored then. -/
def MvAfter (B : Key → Block) (sf : Nat) (ops : List Op) (m : MV) (S : Tree) : Prop :=
  MvHist B sf ops ∧ mvRun (MV.empty [] sf) ops = .ok m ∧ S = (specRun B (sf, fun _ => none) ops).2

theorem MvAfter.rel {B : Key → Block} {sf : Nat} {ops : List Op} {m : MV} {S : Tree}
    (h : MvAfter B sf ops m S) : Rel B m S ∧ m.storeFrom = (specRun B (sf, fun _ => none) ops).1 := by
  obtain ⟨⟨h1, h2⟩, h3, rfl⟩ := h
  obtain ⟨m', h4, h5, h6⟩ := (Rel.empty B sf).run h1 h2
  rw [h3] at h4
  cases h4
  exact ⟨h5, h6⟩

/-- A panic. -/
def panics {α : Type} : Except MvErr α → Bool
  | .error .panic => true
  | _ => false

/-! ### A sample: a fork at number 1, and a block whose parent is missing -/

/-- The blocks of the sample. -/
def forkB (k : Key) : Block :=
  if k = [1] then ⟨[1], [0], 1, 0⟩ else if k = [2] then ⟨[2], [0], 1, 0⟩
  else if k = [3] then ⟨[3], [1], 2, 0⟩ else ⟨k, [9], 0, 0⟩

/-- The requests of the sample. -/
def forkOps : List Op :=
  [.insert (forkB [0]), .insert (forkB [1]), .insert (forkB [2]), .insert (forkB [3])]

theorem forkB_id (k : Key) : (forkB k).id = k := by
  unfold forkB
  split
  · rename_i h; exact h.symm
  · split
    · rename_i h; exact h.symm
    · split
      · rename_i h; exact h.symm
      · rfl

theorem forkB_ok (k : Key) : OpOk forkB (.insert (forkB k)) := by
  refine ⟨by rw [forkB_id], ?_⟩
  unfold forkB
  split
  · decide
  · split
    · decide
    · split
      · decide
      · simp

theorem fork_hist : MvHist forkB 0 forkOps := by
  refine ⟨fun op hop => ?_, fair_of_noHeld ?_⟩
  · simp only [forkOps, List.mem_cons, List.not_mem_nil, or_false] at hop
    rcases hop with rfl | rfl | rfl | rfl <;> exact forkB_ok _
  · intro k held hm
    simp [forkOps] at hm

/-! ### C15 -/

/-- C15: no request of a history panics. The stored blocks are those of the specification, the tips are
the stored blocks without a linked child, the order by number lists exactly the stored blocks, and the
number of blocks is counted. -/
theorem C15_refines {B : Key → Block} {sf : Nat} {ops : List Op} (h : MvHist B sf ops) :
    ∃ m, mvRun (MV.empty [] sf) ops = .ok m ∧ ∃ S, S = (specRun B (sf, fun _ => none) ops).2 ∧
      (∀ k, m.get k = if (S k).isSome then some (B k) else none) ∧
      (∀ k, m.contains k = (S k).isSome) ∧
      (∀ k, k ∈ m.tips.map Ref.key ↔
        (S k).isSome ∧ ∀ c b, S c = some b → b.linked = true → (B c).parent ≠ k) ∧
      (∀ n k, (∃ s r, (n, s) ∈ m.ordered ∧ r ∈ s ∧ r.key = k) ↔ (S k).isSome ∧ (B k).number = n) ∧
      (∀ ks : List Key, ks.Nodup → (∀ k, k ∈ ks ↔ (S k).isSome) → m.len = ks.length) := by
  obtain ⟨m, h1, h2, _⟩ := (Rel.empty B sf).run h.1 h.2
  exact ⟨m, h1, _, rfl, h2.get, h2.get_all, h2.tips, h2.ordered, fun ks hn hk => h2.len hn hk⟩

/-- C15: a recorded child is stored and has the block as its parent; a recorded root is stored and not
linked. -/
theorem C15_links {B : Key → Block} {sf : Nat} {ops : List Op} {m : MV} {S : Tree}
    (h : MvAfter B sf ops m S) :
    (∀ p a e c, AMap.get m.all p = some (a, e) → c ∈ e.children →
      ∃ b, S c.key = some b ∧ b.linked = true ∧ (B c.key).parent = p) ∧
    (∀ c b, S c = some b → b.linked = true → ∃ a e r, AMap.get m.all (B c).parent = some (a, e) ∧
      r ∈ e.children ∧ r.key = c) ∧
    (∀ r ∈ m.roots, ∃ b, S r.key = some b ∧ b.linked = false) := by
  have hr := h.rel.1
  refine ⟨fun p a e c h1 h2 => ?_, fun c b h1 h2 => ?_, fun r h1 => ?_⟩
  · obtain ⟨e', h3, h4⟩ := (hr.mem.children _ _ _ h1 c).1 h2
    obtain ⟨b, h5, h6⟩ := (hr.linked_iff h3).2 ⟨_, e, h4, h1⟩
    exact ⟨b, h5, h6, (hr.mem.parent _ _ _ _ h3 h4).1.symm⟩
  · have hd := hr.get_all c
    rw [h1] at hd
    obtain ⟨x, hx⟩ := Option.isSome_iff_exists.1 hd
    obtain ⟨r, e', h3, h4⟩ := (hr.linked_iff (k := c) (a := x.1) (e := x.2) hx).1 ⟨b, h1, h2⟩
    have h5 := (hr.mem.parent _ _ _ _ hx h3).1
    rw [← h5]
    exact ⟨r.arc, e', ⟨c, x.1⟩, h4, (hr.mem.children _ _ _ h4 _).2 ⟨x.2, hx, h3⟩, rfl⟩
  · have h2 := (hr.mem.roots r h1).2
    obtain ⟨b, h3, h4⟩ := Option.map_eq_some_iff.1 h2
    exact ⟨b, h3, h4⟩

example : ∃ m S, MvAfter forkB 0 forkOps m S ∧ m.len = 4 ∧ m.tips.map Ref.key = [[3], [2]] := by
  obtain ⟨m, h1, _⟩ := C15_refines fork_hist
  refine ⟨m, _, ⟨fork_hist, h1, rfl⟩, ?_⟩
  have e1 : ((mvRun (MV.empty [] 0) forkOps).map (fun m => (m.len, m.tips.map Ref.key))).toOption =
    some (4, [[3], [2]]) := by decide +kernel
  rw [h1] at e1
  have := Option.some.inj e1
  exact ⟨congrArg Prod.fst this, congrArg Prod.snd this⟩

/-- Requests that remove a block, keep a reference to it, store the block again and remove its child. -/
def staleOps : List Op :=
  [.insert (forkB [0]), .insert (forkB [1]), .remove [0] (fun a => a == 0), .insert (forkB [0]),
    .remove [1] (fun a => a == 0)]

/-- C15 is false when the user may keep references: with a reference to a removed block, storing the
block again and removing its child panics. -/
theorem C15_kept_reference_false : ¬ ∀ (B : Key → Block) (ops : List Op), (∀ op ∈ ops, OpOk B op) →
    panics (mvRun (MV.empty [] 0) ops) = false := by
  intro h
  have h1 := h forkB staleOps (by
    intro op hop
    simp only [staleOps, List.mem_cons, List.not_mem_nil, or_false] at hop
    rcases hop with rfl | rfl | rfl | rfl | rfl
    · exact forkB_ok _
    · exact forkB_ok _
    · trivial
    · exact forkB_ok _
    · trivial)
  have h2 : panics (mvRun (MV.empty [] 0) staleOps) = true := by decide +kernel
  rw [h1] at h2
  cases h2

/-- C15 needs the assumption that an identifier determines its block: a block that comes again with
another number panics if its parent is not stored. -/
theorem C15_same_identifier_false : ¬ ∀ (ops : List Op), NoHeld ops →
    (∀ v, Op.insert v ∈ ops → v.number < 2 ^ 64) → panics (mvRun (MV.empty [] 0) ops) = false := by
  intro h
  have h1 := h [.insert ⟨[1], [0], 1, 0⟩, .insert ⟨[1], [0], 2, 0⟩] (by intro k held hm; simp at hm) (by
    intro v hv
    simp only [List.mem_cons, Op.insert.injEq, List.not_mem_nil, or_false] at hv
    rcases hv with rfl | rfl <;> decide)
  have h2 : panics (mvRun (MV.empty [] 0) [.insert ⟨[1], [0], 1, 0⟩, .insert ⟨[1], [0], 2, 0⟩]) = true := by
    decide +kernel
  rw [h1] at h2
  cases h2

/-! ### C16 -/

/-- C16: an inserted block is found, and every other block is found as before. -/
theorem C16_inserted {B : Key → Block} {sf : Nat} {ops : List Op} {m : MV} {S : Tree}
    (h : MvAfter B sf ops m S) {v : Block} (hv : v = B v.id) (hn : v.number < 2 ^ 64) :
    ∃ m', m.insert v = .ok m' ∧ m'.get v.id = some v ∧ ∀ k, k ≠ v.id → m'.get k = m.get k := by
  obtain ⟨m', h1, h2, _⟩ := h.rel.1.insert hv hn
  refine ⟨m', h1, ?_, fun k hk => ?_⟩
  · rw [h2.get, if_pos, ← hv]
    unfold specInsert
    split
    · assumption
    · simp
  · rw [h2.get, h.rel.1.get]
    unfold specInsert
    split
    · rfl
    · simp only [if_neg hk]

/-- C16: inserting a stored block again changes nothing; the database has the same contents. -/
theorem C16_idempotent {B : Key → Block} {sf : Nat} {ops : List Op} {m : MV} {S : Tree}
    (h : MvAfter B sf ops m S) {v : Block} (hv : v = B v.id) (hs : m.contains v.id = true) :
    ∃ m', m.insert v = .ok m' ∧ m'.all = m.all ∧ m'.ordered = m.ordered ∧ m'.tips = m.tips ∧
      m'.roots = m.roots ∧ m'.storeFrom = m.storeFrom ∧
      ∀ kb, AMap.get m'.db kb = AMap.get m.db kb := by
  obtain ⟨m', h1, h2, h3, _⟩ := insert_same h.rel.1 hv (by rw [← h.rel.1.get_all]; exact hs)
  refine ⟨m', h1, ?_, ?_, ?_, ?_, ?_, h3⟩ <;> rw [h2]

example : ∃ m S, MvAfter forkB 0 forkOps m S ∧ m.contains [2] = true := by
  obtain ⟨m, h1, _⟩ := C15_refines fork_hist
  refine ⟨m, _, ⟨fork_hist, h1, rfl⟩, ?_⟩
  have e1 : ((mvRun (MV.empty [] 0) forkOps).map (fun m => m.contains [2])).toOption = some true := by
    decide +kernel
  rw [h1] at e1
  exact Option.some.inj e1

/-! ### C17 -/

/-- C17: the block selected is stored and is the ancestor, `depth` links up, of a stored block of
maximal number; nothing is selected if there is no such ancestor or nothing is stored. `order` is the
order of iteration over a hash set. -/
theorem C17_selected {B : Key → Block} {sf : Nat} {ops : List Op} {m : MV} {S : Tree}
    (h : MvAfter B sf ops m S) {held : Nat → Bool} (hs : NoStale m held) {order : List Ref → List Ref}
    (ho : ∀ l, (order l).Perm l) (depth ageGap : Nat) :
    ∃ sel disc, m.selectBest held order depth ageGap = .ok (sel, disc) ∧
      (∀ r, sel = some r → (S r.key).isSome) ∧
      ((sel = none ∧ ∀ k, S k = none) ∨
        ∃ top, (S top).isSome ∧ (∀ k, (S k).isSome → (B k).number ≤ (B top).number) ∧
          sel.map Ref.key = specAncestor B S depth top) :=
  h.rel.1.selected hs ho depth ageGap

/-- An ancestor over links whose numbers go up by one. -/
theorem specAncestor_number {B : Key → Block} {S : Tree}
    (hc : ∀ k b, S k = some b → b.linked = true → (B (B k).parent).number + 1 = (B k).number) :
    ∀ (d : Nat) (k x : Key), specAncestor B S d k = some x → (B x).number + d = (B k).number
  | 0, k, x, h => by
    rw [← Option.some.inj h]
    rfl
  | d + 1, k, x, h => by
    rw [specAncestor] at h
    split at h
    · rename_i hl
      have ih := specAncestor_number hc d _ x h
      cases hb : S k with
      | none => rw [hb] at hl; cases hl
      | some b =>
        rw [hb] at hl
        have := hc k b hb (by simpa using hl)
        omega
    · cases h

/-- C17: if each linked block has the number after its parent's, the selected block's number is the
maximal number minus the depth. -/
theorem C17_depth {B : Key → Block} {sf : Nat} {ops : List Op} {m : MV} {S : Tree}
    (h : MvAfter B sf ops m S) {held : Nat → Bool} (hs : NoStale m held) {order : List Ref → List Ref}
    (ho : ∀ l, (order l).Perm l) {depth ageGap : Nat} {r : Ref} {disc : List Ref}
    (hc : ∀ k b, S k = some b → b.linked = true → (B (B k).parent).number + 1 = (B k).number)
    (hsel : m.selectBest held order depth ageGap = .ok (some r, disc)) :
    (∃ top, (S top).isSome ∧ (B top).number = (B r.key).number + depth) ∧
      ∀ k, (S k).isSome → (B k).number ≤ (B r.key).number + depth := by
  obtain ⟨sel, disc', h1, _, h3⟩ := C17_selected h hs ho depth ageGap
  rw [h1] at hsel
  obtain ⟨rfl, rfl⟩ := Prod.mk.inj (Except.ok.inj hsel)
  rcases h3 with ⟨h3, _⟩ | ⟨top, h3, h4, h5⟩
  · cases h3
  · have := specAncestor_number hc depth top r.key h5.symm
    refine ⟨⟨top, h3, this.symm⟩, fun k hk => ?_⟩
    rw [this]
    exact h4 k hk

example : ∃ m S r, MvAfter forkB 0 forkOps m S ∧ NoStale m (fun _ => false) ∧
    m.selectBest (fun _ => false) id 1 0 = .ok (some r, [⟨[0], 0⟩]) ∧ r.key = [1] := by
  obtain ⟨m, h1, _⟩ := C15_refines fork_hist
  refine ⟨m, _, ⟨[1], 1⟩, ⟨fork_hist, h1, rfl⟩, (fun _ _ _ _ _ _ hf => by cases hf), ?_, rfl⟩
  have e1 : ((mvRun (MV.empty [] 0) forkOps).map
      (fun m => (m.selectBest (fun _ => false) id 1 0).toOption)).toOption =
    some (some (some ⟨[1], 1⟩, [⟨[0], 0⟩])) := by decide +kernel
  rw [h1] at e1
  have e2 := Option.some.inj e1
  simp only at e2
  cases hx : m.selectBest (fun _ => false) id 1 0 with
  | error e => rw [hx] at e2; cases e2
  | ok x =>
    rw [hx] at e2
    exact congrArg Except.ok (Option.some.inj e2)

/-- C17 is false when the user may keep references: the selected block can be one that was removed. -/
theorem C17_kept_reference_false : ¬ ∀ (B : Key → Block) (sf : Nat) (ops : List Op) (m : MV) (S : Tree)
    (held : Nat → Bool) (depth : Nat) (r : Ref) (disc : List Ref), MvAfter B sf ops m S →
    m.selectBest held id depth 0 = .ok (some r, disc) → (S r.key).isSome := by
  intro h
  have hh : MvHist forkB 0 [.insert (forkB [0]), .insert (forkB [1]), .remove [0] (fun _ => false)] := by
    refine ⟨fun op hop => ?_, fair_of_noHeld ?_⟩
    · simp only [List.mem_cons, List.not_mem_nil, or_false] at hop
      rcases hop with rfl | rfl | rfl
      · exact forkB_ok _
      · exact forkB_ok _
      · trivial
    · intro k held hm
      simp only [List.mem_cons, Op.remove.injEq, List.not_mem_nil, or_false] at hm
      rcases hm with hm | hm | hm
      · cases hm
      · cases hm
      · exact hm.2
  obtain ⟨m, h1, _⟩ := C15_refines hh
  have e1 : ((mvRun (MV.empty [] 0)
      [.insert (forkB [0]), .insert (forkB [1]), .remove [0] (fun _ => false)]).map
      (fun m => (m.selectBest (fun a => a == 0) id 1 0).toOption)).toOption =
    some (some (some ⟨[0], 0⟩, [])) := by decide +kernel
  rw [h1] at e1
  have e2 := Option.some.inj e1
  simp only at e2
  have e3 : m.selectBest (fun a => a == 0) id 1 0 = .ok (some ⟨[0], 0⟩, []) := by
    cases hx : m.selectBest (fun a => a == 0) id 1 0 with
    | error e => rw [hx] at e2; cases e2
    | ok x =>
      rw [hx] at e2
      exact congrArg Except.ok (Option.some.inj e2)
  have h2 := h forkB 0 _ m _ _ 1 ⟨[0], 0⟩ [] ⟨hh, h1, rfl⟩ e3
  have h3 : ((specRun forkB (0, fun _ => none)
    [.insert (forkB [0]), .insert (forkB [1]), .remove [0] (fun _ => false)]).2 [0]).isSome = false := by
    decide +kernel
  rw [h3] at h2
  cases h2

/-! ### C18 -/

/-- C18: the blocks to discard are exactly the stored blocks whose number is below the selected block's
number minus the age gap; there are none if nothing is selected. -/
theorem C18_discarded {B : Key → Block} {sf : Nat} {ops : List Op} {m : MV} {S : Tree}
    (h : MvAfter B sf ops m S) {held : Nat → Bool} (hs : NoStale m held) {order : List Ref → List Ref}
    (ho : ∀ l, (order l).Perm l) {depth ageGap : Nat} {sel : Option Ref} {disc : List Ref}
    (hsel : m.selectBest held order depth ageGap = .ok (sel, disc)) :
    (sel = none → disc = []) ∧
    ∀ r, sel = some r → ∀ k, k ∈ disc.map Ref.key ↔
      (S k).isSome ∧ (B k).number < (B r.key).number - ageGap :=
  h.rel.1.discarded hs ho hsel

/-- C18: neither the selected block nor a block at or above that height is discarded. -/
theorem C18_kept {B : Key → Block} {sf : Nat} {ops : List Op} {m : MV} {S : Tree}
    (h : MvAfter B sf ops m S) {held : Nat → Bool} (hs : NoStale m held) {order : List Ref → List Ref}
    (ho : ∀ l, (order l).Perm l) {depth ageGap : Nat} {r : Ref} {disc : List Ref}
    (hsel : m.selectBest held order depth ageGap = .ok (some r, disc)) :
    r.key ∉ disc.map Ref.key ∧
      ∀ k, (B r.key).number ≤ (B k).number + ageGap → k ∉ disc.map Ref.key := by
  have := (C18_discarded h hs ho hsel).2 r rfl
  constructor
  · rw [this]
    omega
  · intro k hk
    rw [this]
    omega

/-! ### C19 -/

theorem longestTip_spec {B : Key → Block} {m : MV} {L : Key → Option Bool} (h : Mem B m L) :
    ∀ (rs : List Ref) (best : Ref), IsStored m best → (∀ r ∈ rs, IsStored m r) →
      ∃ r, m.longestTip rs (B best.key).number best = .ok r ∧ r ∈ best :: rs ∧
        ∀ x ∈ best :: rs, (B x.key).number ≤ (B r.key).number
  | [], best, _, _ => ⟨best, rfl, by simp, by simp⟩
  | x :: rs, best, h1, h2 => by
    obtain ⟨e, he⟩ := h2 x (by simp)
    have hv := (h.val _ _ _ he).1
    rw [MV.longestTip, he]
    simp only [hv]
    by_cases hlt : (B best.key).number < (B x.key).number
    · rw [if_pos hlt]
      obtain ⟨r, h3, h4, h5⟩ := longestTip_spec h rs x ⟨e, he⟩ (fun r hr => h2 r (List.mem_cons_of_mem _ hr))
      refine ⟨r, h3, List.mem_cons_of_mem _ h4, fun y hy => ?_⟩
      rcases List.mem_cons.1 hy with rfl | hy
      · exact le_trans (le_of_lt hlt) (h5 x (by simp))
      · exact h5 y hy
    · rw [if_neg hlt]
      obtain ⟨r, h3, h4, h5⟩ := longestTip_spec h rs best h1 (fun r hr => h2 r (List.mem_cons_of_mem _ hr))
      refine ⟨r, h3, ?_, fun y hy => ?_⟩
      · rcases List.mem_cons.1 h4 with rfl | h4
        · simp
        · simp [h4]
      · rcases List.mem_cons.1 hy with rfl | hy
        · exact h5 y (by simp)
        · rcases List.mem_cons.1 hy with rfl | hy
          · exact le_trans (Nat.le_of_not_lt hlt) (h5 best (by simp))
          · exact h5 y (by simp [hy])

/-- C19: the preferred fork tip is a tip of maximal number among the tips; there is none exactly if
there are no tips. It does not panic. -/
theorem C19_preferred {B : Key → Block} {sf : Nat} {ops : List Op} {m : MV} {S : Tree}
    (h : MvAfter B sf ops m S) {order : List Ref → List Ref} (ho : ∀ l, (order l).Perm l) :
    ∃ x, m.preferTip order = .ok x ∧ (x = none ↔ m.tips = []) ∧
      ∀ r, x = some r → r ∈ m.tips ∧ ∀ t ∈ m.tips, (B t.key).number ≤ (B r.key).number := by
  have hr := h.rel.1
  have hst : ∀ r ∈ order m.tips, IsStored m r := by
    intro r hm
    obtain ⟨e, he, _⟩ := (hr.mem.tips r).1 ((ho _).mem_iff.1 hm)
    exact ⟨e, he⟩
  unfold MV.preferTip
  cases hl : order m.tips with
  | nil =>
    have hp := ho m.tips
    rw [hl] at hp
    have := List.nil_perm.1 hp
    exact ⟨none, rfl, by simp [this], by simp⟩
  | cons r rs =>
    rw [hl] at hst
    obtain ⟨e, he⟩ := hst r (by simp)
    obtain ⟨x, h1, h2, h3⟩ := longestTip_spec hr.mem rs r ⟨e, he⟩
      (fun y hy => hst y (List.mem_cons_of_mem _ hy))
    have hmem : ∀ y, y ∈ r :: rs ↔ y ∈ m.tips := by
      intro y
      rw [← hl]
      exact (ho _).mem_iff
    refine ⟨some x, ?_, ?_, fun y hy => ?_⟩
    · simp only [he, (hr.mem.val _ _ _ he).1, h1]
      rfl
    · have : r ∈ m.tips := (hmem r).1 (by simp)
      constructor
      · intro hh; cases hh
      · intro hh; rw [hh] at this; cases this
    · cases hy
      exact ⟨(hmem x).1 h2, fun t ht => h3 t ((hmem t).2 ht)⟩

/-- C19: if linked blocks have larger numbers than their parents, the preferred fork tip has the maximal
number of all stored blocks, and there is one as soon as a block is stored. -/
theorem C19_longest {B : Key → Block} {sf : Nat} {ops : List Op} {m : MV} {S : Tree}
    (h : MvAfter B sf ops m S) {order : List Ref → List Ref} (ho : ∀ l, (order l).Perm l)
    (hc : ∀ k b, S k = some b → b.linked = true → (B (B k).parent).number < (B k).number)
    {k : Key} (hk : (S k).isSome) :
    ∃ r, m.preferTip order = .ok (some r) ∧ (B k).number ≤ (B r.key).number := by
  have hr := h.rel.1
  obtain ⟨sel, disc, _, _, h3⟩ := C17_selected h (held := fun _ => false)
    (fun _ _ _ _ _ _ hf => by cases hf) ho 0 0
  rcases h3 with ⟨_, h3⟩ | ⟨top, h4, h5, _⟩
  · rw [h3 k] at hk
    cases hk
  · have htip : top ∈ m.tips.map Ref.key := by
      rw [hr.tips]
      refine ⟨h4, fun c b hb hl hp => ?_⟩
      have h6 := hc c b hb hl
      have h7 := h5 c (by rw [hb]; rfl)
      rw [hp] at h6
      omega
    obtain ⟨t, ht, rfl⟩ := List.mem_map.1 htip
    obtain ⟨x, h6, h7, h8⟩ := C19_preferred h ho
    cases x with
    | none =>
      rw [h7.1 rfl] at ht
      cases ht
    | some r => exact ⟨r, h6, le_trans (h5 k hk) ((h8 r rfl).2 t ht)⟩

/-! ### C20 -/

/-- C20, the part that holds: the iteration yields stored blocks in strictly ascending order of their
numbers, one for every number that occurs. Every block is visited if no two stored blocks have the same
number. Missing: the other blocks of the same number (see `C20_every_block_false`). -/
theorem C20_iteration_partial {B : Key → Block} {sf : Nat} {ops : List Op} {m : MV} {S : Tree}
    (h : MvAfter B sf ops m S) {order : List Ref → List Ref} (ho : ∀ l, (order l).Perm l) :
    (m.iter order).Pairwise (fun a b => a.number < b.number) ∧
    (∀ b ∈ m.iter order, ∃ k, b = B k ∧ (S k).isSome) ∧
    (∀ k, (S k).isSome → ∃ b ∈ m.iter order, b.number = (B k).number) ∧
    ((∀ k k', (S k).isSome → (S k').isSome → (B k).number = (B k').number → k = k') →
      ∀ k, (S k).isSome → B k ∈ m.iter order) := by
  obtain ⟨h1, h2, h3⟩ := h.rel.1.iter ho
  refine ⟨h1, h2, h3, fun hd k hk => ?_⟩
  obtain ⟨b, h4, h5⟩ := h3 k hk
  obtain ⟨k', rfl, h7⟩ := h2 b h4
  rw [hd k k' hk h7 h5.symm]
  exact h4

/-- C20 is false of the code: of two blocks with the same number only one is visited. -/
theorem C20_every_block_false : ¬ ∀ (B : Key → Block) (sf : Nat) (ops : List Op) (m : MV) (S : Tree),
    MvAfter B sf ops m S → ∀ k, (S k).isSome → B k ∈ m.iter id := by
  intro h
  obtain ⟨m, h1, _⟩ := C15_refines fork_hist
  have h2 := h forkB 0 forkOps m _ ⟨fork_hist, h1, rfl⟩ [1] (by decide +kernel)
  have e1 : ((mvRun (MV.empty [] 0) forkOps).map (fun m => decide (forkB [1] ∈ m.iter id))).toOption =
    some false := by decide +kernel
  rw [h1] at e1
  have e2 := of_decide_eq_false (Option.some.inj e1)
  exact e2 h2

/-! ### C21 -/

/-- Without reopening, the saved blocks are those from the threshold on. -/
theorem saved_iff {B : Key → Block} {sf : Nat} : ∀ {ops : List Op} {S : Tree},
    (∀ op ∈ ops, OpOk B op) → (∀ s, Op.reopen s ∉ ops) →
    (∀ k b, S k = some b → (b.saved = true ↔ sf ≤ (B k).number)) →
    ∀ k b, (specRun B (sf, S) ops).2 k = some b → (b.saved = true ↔ sf ≤ (B k).number)
  | [], _, _, _, h => h
  | op :: ops, S, hok, hno, h => by
    have hrest := fun o (ho : o ∈ ops) => hok o (List.mem_cons_of_mem _ ho)
    have hno' := fun s (hm : Op.reopen s ∈ ops) => hno s (List.mem_cons_of_mem _ hm)
    cases op with
    | insert v =>
      refine saved_iff (S := specInsert sf S v) hrest hno' ?_
      intro k b hb
      unfold specInsert at hb
      split at hb
      · exact h k b hb
      · simp only at hb
        split at hb
        · rename_i he
          have hv := (hok (.insert v) (by simp)).1
          rw [← Option.some.inj hb, he, ← hv]
          simp
        · exact h k b hb
    | remove key held =>
      refine saved_iff (S := specRemove B S key) hrest hno' ?_
      intro k b hb
      unfold specRemove at hb
      split at hb
      · cases hb
      · split at hb
        · obtain ⟨b0, h5, rfl⟩ := Option.map_eq_some_iff.1 hb
          exact h k b0 h5
        · exact h k b hb
    | clear => exact saved_iff (S := fun _ => none) hrest hno' (by simp)
    | reopen s => exact absurd (by simp) (hno s)

/-- C21: reopening, with any new threshold, gives exactly the stored blocks that were at or above the
threshold, and does not panic. -/
theorem C21_blocks {B : Key → Block} {sf : Nat} {ops : List Op} {m : MV} {S : Tree}
    (h : MvAfter B sf ops m S) (hno : ∀ s, Op.reopen s ∉ ops) (sf' : Nat) :
    ∃ m', loadFrom m.db sf' = .ok m' ∧
      ∀ k, m'.get k = if (S k).isSome ∧ sf ≤ (B k).number then m.get k else none := by
  have hr := h.rel.1
  obtain ⟨m', h1, h2, _⟩ := hr.reopen sf'
  refine ⟨m', h1, fun k => ?_⟩
  rw [h2.get, hr.get]
  have hsv := saved_iff (B := B) (sf := sf) (ops := ops) (S := fun _ => none) h.1.1 hno (by simp)
  rw [← h.2.2] at hsv
  unfold specReopen
  cases hS : S k with
  | none => simp [isSaved, hS]
  | some b =>
    have := hsv k b hS
    by_cases hs : b.saved = true
    · simp [isSaved, hS, hs, this.1 hs]
    · have hs2 : ¬ sf ≤ (B k).number := fun hh => hs (this.2 hh)
      have hs' : b.saved = false := by simpa using hs
      simp [isSaved, hS, hs', hs2]

/-- C21: after reopening a saved block is linked to its parent exactly if the parent is saved too and
comes first by number and identifier; the tips are those of these links. -/
theorem C21_links {B : Key → Block} {sf : Nat} {ops : List Op} {m : MV} {S : Tree}
    (h : MvAfter B sf ops m S) (sf' : Nat) :
    ∃ m' S', loadFrom m.db sf' = .ok m' ∧ MvAfter B sf (ops ++ [.reopen sf']) m' S' ∧
      (∀ k, (S' k).isSome ↔ isSaved S k = true) ∧
      (∀ k b, S' k = some b → (b.linked = true ↔
        isSaved S (B k).parent = true ∧ Before (B (B k).parent) (B k))) ∧
      ∀ k, k ∈ m'.tips.map Ref.key ↔
        isSaved S k = true ∧ ∀ c, isSaved S c = true → (B c).parent = k → ¬ Before (B k) (B c) := by
  have hr := h.rel.1
  obtain ⟨m', h1, h2, _⟩ := hr.reopen sf'
  have hiso : ∀ k, (specReopen B S k).isSome ↔ isSaved S k = true := by
    intro k
    unfold specReopen
    split
    · rename_i hh; simp [hh]
    · rename_i hh; simp [hh]
  have hlk : ∀ k b, specReopen B S k = some b → (b.linked = true ↔
      isSaved S (B k).parent = true ∧ Before (B (B k).parent) (B k)) := by
    intro k b hb
    unfold specReopen at hb
    split at hb
    · rw [← Option.some.inj hb]
      simp
    · cases hb
  have happ : ∀ (ops : List Op) (m0 : MV), mvRun m0 ops = .ok m →
      mvRun m0 (ops ++ [.reopen sf']) = .ok m' := by
    intro ops
    induction ops with
    | nil =>
      intro m0 h3
      have h3 := Except.ok.inj h3
      subst h3
      simp only [List.nil_append, mvRun, mvStep, h1]
    | cons op ops ih =>
      intro m0 h3
      rw [List.cons_append, mvRun]
      rw [mvRun] at h3
      cases hst : mvStep m0 op with
      | error e => simp only [hst] at h3; cases h3
      | ok m1 =>
        simp only [hst] at h3
        exact ih m1 h3
  have hfair : ∀ (ops : List Op) (m0 : MV), Fair m0 ops → Fair m0 (ops ++ [.reopen sf']) := by
    intro ops
    induction ops with
    | nil => exact fun m0 _ => ⟨fun k held he => (by cases he), fun _ _ => trivial⟩
    | cons op ops ih => exact fun m0 hf => ⟨hf.1, fun m1 hm1 => ih m1 (hf.2 m1 hm1)⟩
  refine ⟨m', specReopen B S, h1, ⟨⟨?_, hfair _ _ h.1.2⟩, happ _ _ h.2.1, ?_⟩, hiso, hlk, ?_⟩
  · intro op hop
    rcases List.mem_append.1 hop with hop | hop
    · exact h.1.1 op hop
    · rw [List.mem_singleton.1 hop]
      trivial
  · rw [specRun, List.foldl_append, h.2.2]
    rfl
  · intro k
    rw [h2.tips, hiso]
    constructor
    · rintro ⟨h3, h4⟩
      refine ⟨h3, fun c hc hp hb => ?_⟩
      obtain ⟨b, hb'⟩ := Option.isSome_iff_exists.1 ((hiso c).2 hc)
      exact h4 c b hb' ((hlk c b hb').2 (by rw [hp]; exact ⟨h3, hb⟩)) hp
    · rintro ⟨h3, h4⟩
      refine ⟨h3, fun c b hb hl hp => ?_⟩
      have hc := (hiso c).1 (by rw [hb]; rfl)
      have := ((hlk c b hb).1 hl).2
      rw [hp] at this
      exact h4 c hc hp this

/-- C21: with everything saved, parents numbered below their children and every block with a stored
parent linked, reopening changes nothing: the same blocks, links and tips. -/
theorem C21_same {B : Key → Block} {sf : Nat} {ops : List Op} {m : MV} {S : Tree}
    (h : MvAfter B sf ops m S) (hsv : ∀ k b, S k = some b → b.saved = true)
    (hlk : ∀ k b, S k = some b → (b.linked = true ↔ (S (B k).parent).isSome))
    (hnum : ∀ k b, S k = some b → b.linked = true → (B (B k).parent).number < (B k).number) (sf' : Nat) :
    ∃ m', loadFrom m.db sf' = .ok m' ∧ (∀ k, m'.get k = m.get k) ∧
      (∀ k, k ∈ m'.tips.map Ref.key ↔ k ∈ m.tips.map Ref.key) ∧
      (∀ n k, (∃ s r, (n, s) ∈ m'.ordered ∧ r ∈ s ∧ r.key = k) ↔
        ∃ s r, (n, s) ∈ m.ordered ∧ r ∈ s ∧ r.key = k) ∧
      specReopen B S = S := by
  have hr := h.rel.1
  have e : specReopen B S = S := by
    funext k
    unfold specReopen
    cases hS : S k with
    | none => simp [isSaved, hS]
    | some b =>
      have h1 : isSaved S k = true := isSaved_iff.2 ⟨b, hS, hsv k b hS⟩
      rw [if_pos h1]
      have h2 : (isSaved S (B k).parent && decide (Before (B (B k).parent) (B k))) = b.linked := by
        cases hl : b.linked with
        | true =>
          have h3 := (hlk k b hS).1 hl
          obtain ⟨b', hb'⟩ := Option.isSome_iff_exists.1 h3
          have h4 : isSaved S (B k).parent = true := isSaved_iff.2 ⟨b', hb', hsv _ _ hb'⟩
          have h5 : Before (B (B k).parent) (B k) := .inl (hnum k b hS hl)
          simp [h4, h5]
        | false =>
          have h3 : isSaved S (B k).parent = false := by
            by_contra hh
            obtain ⟨b', hb', _⟩ := isSaved_iff.1 (by simpa using hh)
            have := (hlk k b hS).2 (by rw [hb']; rfl)
            rw [hl] at this
            cases this
          simp [h3]
      rw [h2]
      have h3 := hsv k b hS
      cases b
      simp only at h3
      rw [h3]
  obtain ⟨m', h1, h2, _⟩ := hr.reopen sf'
  rw [e] at h2
  refine ⟨m', h1, fun k => by rw [h2.get, hr.get], fun k => by rw [h2.tips, hr.tips], fun n k => ?_, e⟩
  rw [h2.ordered, hr.ordered]

example : ∃ m S m', MvAfter forkB 0 forkOps m S ∧ loadFrom m.db 5 = .ok m' ∧ m'.len = 4 ∧
    m'.get [3] = some (forkB [3]) := by
  obtain ⟨m, h1, _⟩ := C15_refines fork_hist
  have ha : MvAfter forkB 0 forkOps m _ := ⟨fork_hist, h1, rfl⟩
  obtain ⟨m', h2, _⟩ := C21_blocks ha (by intro s hs; simp [forkOps] at hs) 5
  refine ⟨m, _, m', ha, h2, ?_⟩
  have e1 : ((mvRun (MV.empty [] 0) forkOps).map (fun m =>
      ((loadFrom m.db 5).map (fun m => (m.len, m.get [3]))).toOption)).toOption =
    some (some (4, some (forkB [3]))) := by decide +kernel
  rw [h1] at e1
  have e2 := Option.some.inj e1
  simp only [h2] at e2
  have e3 := Option.some.inj e2
  exact ⟨congrArg Prod.fst e3, congrArg Prod.snd e3⟩

/-! ### C22 -/

/-- C22: the byte order of the database keys is the order by number and then identifier. -/
theorem C22_order {n n' : Nat} (hn : n < 2 ^ 64) (hn' : n' < 2 ^ 64) (i i' : Key) :
    mkKey n i < mkKey n' i' ↔ n < n' ∨ n = n' ∧ i < i' := mkKey_lt hn hn'

/-- C22: different numbers or identifiers have different keys. -/
theorem C22_injective {n n' : Nat} (hn : n < 2 ^ 64) (hn' : n' < 2 ^ 64) {i i' : Key}
    (h : mkKey n i = mkKey n' i') : n = n' ∧ i = i' := mkKey_inj hn hn' h

example : mkKey 255 [7, 7] < mkKey 256 [1] := (C22_order (by norm_num) (by norm_num) _ _).2 (.inl (by norm_num))

example : mkKey 258 [7] = [0, 0, 0, 0, 0, 0, 1, 2, 45, 7] := by decide +kernel

end Verif.Props
