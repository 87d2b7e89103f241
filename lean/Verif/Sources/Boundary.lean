import Verif.Sources.MultiWorld
import Verif.Sources.RollbackLemmas

/-!
# The multiverse source and blocks with the number of their parent

The Byron era of Cardano has a boundary block at the start of an epoch, which has the number of the block before it
(`BlockEvent::from_serialized_block`, `/repo/blockchain-source/src/cardano/event.rs:107-141`, takes the number from the
header). What the consumer of the multiverse source then gets, while the inner source delivers one chain.
-/

namespace Verif.Sources

open Verif.Multiverse

variable {P : Type} [DecidableEq P] {B : Key → Block} {d : Nat} {nf : Block → Option P} {N : Nat} {c : Nat → Block}

/-- A chain of `N` blocks, some of which have the number of their parent. -/
structure Steps (B : Key → Block) (N : Nat) (c : Nat → Block) : Prop where
  ok : ∀ i, i < N → c i = B (c i).id ∧ (c i).number < 2 ^ 64
  inj : ∀ i j, i < N → j < N → (c i).id = (c j).id → i = j
  root : ∀ i, i < N → (c i).id ≠ (c 0).parent
  link : ∀ i, i + 1 < N → (c (i + 1)).parent = (c i).id
  up : ∀ i, i + 1 < N → (c i).number ≤ (c (i + 1)).number ∧ (c (i + 1)).number ≤ (c i).number + 1
  two : ∀ i, i + 2 < N → (c i).number < (c (i + 2)).number

/-- A block with the number of the one before it. -/
structure Bd (c : Nat → Block) (i : Nat) : Prop where
  ex : ∃ j, i = j + 1 ∧ (c i).number = (c j).number

theorem Steps.mono (h : Steps B N c) : ∀ {i j : Nat}, i ≤ j → j < N → (c i).number ≤ (c j).number := by
  intro i j hij hj
  induction hij with
  | refl => exact Nat.le_refl _
  | @step k hk ih => exact (ih (by omega)).trans (h.up k hj).1

theorem Steps.not_two (h : Steps B N c) {i : Nat} (hi : i + 1 < N) (h1 : Bd c i) (h2 : Bd c (i + 1)) : False := by
  obtain ⟨j, rfl, h3⟩ := h1.ex
  obtain ⟨k, h4, h5⟩ := h2.ex
  have := h.two j hi
  have hk : k = j + 1 := by omega
  subst hk
  change (c (j + 2)).number = _ at h5
  omega

theorem Steps.top (h : Steps B N c) {i m : Nat} (hi : i ≤ m) (hm : m < N) (hn : (c m).number ≤ (c i).number) :
    i = m ∨ i + 1 = m ∧ Bd c m := by
  rcases Nat.lt_or_ge (i + 1) m with h1 | h1
  · have h2 := h.two i (by omega)
    have h3 := h.mono (i := i + 2) (j := m) (by omega) hm
    omega
  · rcases Nat.lt_or_ge i m with h2 | h2
    · have h3 : i + 1 = m := by omega
      subst h3
      have := (h.up i hm).1
      exact .inr ⟨rfl, ⟨i, rfl, by omega⟩⟩
    · exact .inl (by omega)

/-- The state of a consumer after `m` blocks; `e` is the index of the confirmed block and `l` are those of the blocks
received. -/
structure BInv (B : Key → Block) (N : Nat) (c : Nat → Block) (d : Nat) (nf : Block → Option P) (p0 : Option P) (m : Nat)
    (e : Option Nat) (l : List Nat) (w : World P) (S : Tree) : Prop where
  rel : Rel B w.src.mv S
  sf : w.src.mv.storeFrom = 0
  depth : w.src.depth = d
  failed : w.failed = none
  le : m ≤ N
  got : w.got.reverse = (List.range m).map c
  sub : ∀ k, (S k).isSome → ∃ i, i < m ∧ (c i).id = k
  keep : ∀ i, i < m → e.getD 0 ≤ i + 1 → (S (c i).id).isSome
  link : ∀ i, i < m → 1 ≤ i → e.getD 0 ≤ i → ∃ b, S (c i).id = some b ∧ b.linked = true
  first : ∀ b, S (c 0).id = some b → b.linked = false
  conf : w.src.confirmed = e.map (fun s => (c s).id)
  at_ : (e = none ∧ (m ≤ d ∨ m = d + 1 ∧ Bd c d)) ∨
    ∃ s, e = some s ∧ (s + d + 1 = m ∨ s + d + 2 = m ∧ Bd c (m - 1))
  pos : w.pos = (e.map (fun s => nf (c s))).getD p0
  out : w.out = l.map c
  below : l.Sublist (List.range ((e.map (· + 1)).getD 0))
  missing : ∀ i, i < (e.map (· + 1)).getD 0 → i ∉ l → Bd c (i + d)

variable {p0 : Option P} {m : Nat} {e : Option Nat} {l : List Nat} {w : World P} {S : Tree}

omit [DecidableEq P] in
theorem BInv.start (B : Key → Block) (N : Nat) (c : Nat → Block) (d : Nat) (nf : Block → Option P) (p0 : Option P) :
    BInv B N c d nf p0 0 none [] (World.start d p0) (fun _ => none) where
  rel := Rel.empty B 0
  sf := rfl
  depth := rfl
  failed := rfl
  le := Nat.zero_le _
  got := rfl
  sub := by simp
  keep := by intro i hi; omega
  link := by intro i hi; omega
  first := by simp
  conf := rfl
  at_ := .inl ⟨rfl, .inl (Nat.zero_le _)⟩
  pos := rfl
  out := rfl
  below := List.nil_sublist _
  missing := by intro i hi; simp at hi

/-- The inner source is asked. -/
theorem BInv.request (h : BInv B N c d nf p0 m e l w S) (hc : Steps B N c) (hp : ∀ i, i < N → (nf (c i)).isSome)
    (hpi : ∀ i j, i < N → j < N → nf (c i) = nf (c j) → i = j) {o : Orders} (ho : o.Ok) :
    ∃ ps, w.src.request nf o w.pos = .ok (.inr ps) := by
  obtain ⟨ps, h1, _⟩ := request_eq (nf := nf) h.rel (by
    intro k hk
    obtain ⟨i, hi, rfl⟩ := h.sub k hk
    rw [← (hc.ok i (by have := h.le; omega)).1]
    exact hp i (by have := h.le; omega)) ho w.pos
  rw [h1]
  rcases h.at_ with ⟨he, _⟩ | ⟨s, he, hs⟩
  · refine ⟨ps ++ w.pos.toList, ?_⟩
    unfold MSrc.confirmedWithParent
    rw [h.conf, he]
    rfl
  · have hle := h.le
    have hsN : s < N := by omega
    obtain ⟨p, hps⟩ := Option.isSome_iff_exists.1 (hp s hsN)
    have hst := h.keep s (by omega) (by rw [he]; simp)
    have hB := (hc.ok s hsN).1
    rw [confirmed_eq (p := p) h.rel (by rw [h.conf, he]; rfl) hst (by rw [← hB]; exact hps)]
    have hpos : w.pos = some p := by rw [h.pos, he]; exact hps
    rw [hpos]
    refine ⟨ps ++ [p], fromCheck_next ?_ _ _⟩
    intro hq
    split at hq
    · next hpar =>
      rw [← hB] at hpar hq
      obtain ⟨j, hj, hjp⟩ := h.sub _ hpar
      rw [← hjp, ← (hc.ok j (by omega)).1, ← hps] at hq
      have hjs := hpi _ _ hsN (by omega) hq
      subst hjs
      cases s with
      | zero => exact hc.root 0 hsN hjp
      | succ s =>
        rw [hc.link s hsN] at hjp
        have := hc.inj _ _ hsN (by omega) hjp
        omega
    · cases hq

/-- Ancestors of a stored block. -/
theorem steps_ancestor (hc : Steps B N c) {S : Tree} {s : Nat} : ∀ (j i : Nat), i < N →
    (∀ i', i' ≤ i → 1 ≤ i' → s ≤ i' → ∃ b, S (c i').id = some b ∧ b.linked = true) →
    (j ≤ i → s + j ≤ i + 1 → specAncestor B S j (c i).id = some (c (i - j)).id) ∧
    (i < j → s ≤ 1 → (∀ b, S (c 0).id = some b → b.linked = false) → specAncestor B S j (c i).id = none)
  | 0, i, _, _ => ⟨fun _ _ => rfl, fun h => by omega⟩
  | j + 1, 0, hi, _ => by
    refine ⟨fun h => by omega, fun _ _ h0 => ?_⟩
    rw [specAncestor, if_neg]
    cases hS : S (c 0).id with
    | none => simp
    | some b => simp [h0 b hS]
  | j + 1, i + 1, hi, hl => by
    obtain ⟨ih1, ih2⟩ := steps_ancestor hc (S := S) (s := s) j i (by omega) (fun i' h1 => hl i' (by omega))
    have hlink : s ≤ i + 1 → specAncestor B S (j + 1) (c (i + 1)).id = specAncestor B S j (c i).id := by
      intro hs
      obtain ⟨b, hb, hb1⟩ := hl (i + 1) (Nat.le_refl _) (by omega) hs
      rw [specAncestor, if_pos (by simp [hb, hb1]), ← (hc.ok (i + 1) hi).1, hc.link i hi]
    constructor
    · intro h1 h2
      rw [hlink (by omega), ih1 (by omega) (by omega)]
      congr 3
      omega
    · intro h1 h2 h3
      rw [hlink (by omega), ih2 (by omega) h2 h3]

/-- A pull that hears nothing new. -/
theorem BInv.same (h : BInv B N c d nf p0 m e l w S) {x : Except SrcErr (Option Ev)} (h1 : released x = [])
    (h2 : failure x = none) :
    BInv B N c d nf p0 m e l ⟨w.src, advance nf w.pos (released x), w.out ++ released x, w.got,
      (failure x).or w.failed⟩ S := by
  rw [h1, h2, List.append_nil]
  exact ⟨h.rel, h.sf, h.depth, h.failed, h.le, h.got, h.sub, h.keep, h.link, h.first, h.conf, h.at_, h.pos, h.out,
    h.below, h.missing⟩

/-- The next block is stored; `e'` is what is confirmed then. -/
theorem BInv.stored (h : BInv B N c d nf p0 m e l w S) (hc : Steps B N c) (hm : m < N) {o : Orders} (ho : o.Ok) :
    ∃ e' m' S', insertAndGc w.src.mv o d (c m) = .ok (e'.map (fun s => (c s).id), m') ∧ Rel B m' S' ∧ m'.storeFrom = 0 ∧
      (∀ k, (S' k).isSome → ∃ i, i < m + 1 ∧ (c i).id = k) ∧
      (∀ i, i < m + 1 → e'.getD 0 ≤ i + 1 → (S' (c i).id).isSome) ∧
      (∀ i, i < m + 1 → 1 ≤ i → e'.getD 0 ≤ i → ∃ b, S' (c i).id = some b ∧ b.linked = true) ∧
      (∀ b, S' (c 0).id = some b → b.linked = false) ∧
      ((e' = none ∧ (m + 1 ≤ d ∨ m = d ∧ Bd c d)) ∨
        ∃ s, e' = some s ∧ (s + d = m ∨ s + d + 1 = m ∧ Bd c m)) := by
  have hv := hc.ok m hm
  have hnew : S (c m).id = none := by
    cases hS : S (c m).id with
    | none => rfl
    | some b =>
      obtain ⟨i, hi, hid⟩ := h.sub (c m).id (by rw [hS]; rfl)
      have := hc.inj _ _ (by omega) hm hid
      omega
  obtain ⟨sel, R, m', h1, h2, h3, h4⟩ := insertAndGc_spec h.rel hv.1 hv.2 ho d
  rw [h.sf] at h2 h3 h4
  have hins : specInsert 0 S (c m) = fun k => if k = (c m).id then some ⟨(S (c m).parent).isSome, decide (0 ≤ (c m).number)⟩
      else S k := by
    unfold specInsert
    rw [if_neg (by rw [hnew]; simp)]
  have hother : ∀ i, i < m → specInsert 0 S (c m) (c i).id = S (c i).id := by
    intro i hi
    rw [hins]
    dsimp only
    rw [if_neg (fun he => by have := hc.inj _ _ (by omega) hm he; omega)]
  have hself : specInsert 0 S (c m) (c m).id = some ⟨(S (c m).parent).isSome, true⟩ := by
    rw [hins]; simp
  have hsub1 : ∀ k, (specInsert 0 S (c m) k).isSome → ∃ i, i < m + 1 ∧ (c i).id = k := by
    intro k hk
    rw [hins] at hk
    dsimp only at hk
    split at hk
    · next he => exact ⟨m, by omega, he.symm⟩
    · obtain ⟨i, hi, h5⟩ := h.sub k hk
      exact ⟨i, by omega, h5⟩
  have hs : e.getD 0 ≤ m := by
    rcases h.at_ with ⟨he, _⟩ | ⟨s, he, h5⟩ <;> rw [he]
    · exact Nat.zero_le _
    · simp only [Option.getD_some]; omega
  have hlink1 : ∀ i, i ≤ m → 1 ≤ i → e.getD 0 ≤ i → ∃ b, specInsert 0 S (c m) (c i).id = some b ∧ b.linked = true := by
    intro i hi h5 h6
    rcases Nat.lt_or_ge i m with h7 | h7
    · rw [hother i h7]
      exact h.link i h7 h5 h6
    · have : i = m := by omega
      subst this
      refine ⟨_, hself, ?_⟩
      obtain ⟨j, rfl⟩ : ∃ j, i = j + 1 := ⟨i - 1, by omega⟩
      dsimp only
      rw [hc.link j hm]
      exact h.keep j (by omega) (by omega)
  have hkeep1 : ∀ i, i ≤ m → e.getD 0 ≤ i + 1 → (specInsert 0 S (c m) (c i).id).isSome := by
    intro i hi h5
    rcases Nat.lt_or_ge i m with h7 | h7
    · rw [hother i h7]
      exact h.keep i h7 h5
    · have : i = m := by omega
      subst this
      rw [hself]; rfl
  have hfirst1 : ∀ b, specInsert 0 S (c m) (c 0).id = some b → b.linked = false := by
    intro b hb
    rcases Nat.eq_zero_or_pos m with h0 | h0
    · subst h0
      rw [hself] at hb
      rw [← Option.some.inj hb]
      dsimp only
      cases hS : S (c 0).parent with
      | none => rfl
      | some b' =>
        obtain ⟨i, hi, _⟩ := h.sub (c 0).parent (by rw [hS]; rfl)
        omega
    · rw [hother 0 h0] at hb
      exact h.first b hb
  -- the block the selection starts from
  obtain ⟨top, ht1, ht2, ht3⟩ := h4.top
  obtain ⟨t, ht, rfl⟩ := hsub1 top ht1
  have htop : t = m ∨ t + 1 = m ∧ Bd c m := by
    refine hc.top (by omega) hm ?_
    have := ht2 (c m).id (by rw [hself]; rfl)
    rw [← hv.1, ← (hc.ok t (by omega)).1] at this
    exact this
  obtain ⟨hanc1, hanc2⟩ := steps_ancestor hc (S := specInsert 0 S (c m)) (s := e.getD 0) d t (by omega)
    (fun i h5 => hlink1 i (by omega))
  have hat := h.at_
  obtain ⟨e', he', hat'⟩ : ∃ e' : Option Nat, sel = e'.map (fun s => (c s).id) ∧
      ((e' = none ∧ e = none ∧ (m + 1 ≤ d ∨ m = d ∧ Bd c d)) ∨
        ∃ s, e' = some s ∧ e.getD 0 ≤ s ∧ (s + d = m ∨ s + d + 1 = m ∧ Bd c m)) := by
    by_cases hdt : d ≤ t
    · have hle : e.getD 0 + d ≤ t ∧ (e.getD 0 + d ≤ t) := by
        rcases hat with ⟨he, h5⟩ | ⟨s, he, h5⟩ <;> rw [he]
        · simp only [Option.getD_none]; omega
        · simp only [Option.getD_some]
          rcases htop with h6 | ⟨h6, h7⟩
          · omega
          · rcases h5 with h5 | ⟨h5, h8⟩
            · omega
            · exfalso
              obtain ⟨q, rfl⟩ : ∃ q, m = q + 1 := ⟨m - 1, by omega⟩
              exact hc.not_two hm (by simpa using h8) h7
      refine ⟨some (t - d), ?_, .inr ⟨t - d, rfl, by omega, ?_⟩⟩
      · rw [ht3, hanc1 hdt (by omega)]
        rfl
      · rcases htop with h6 | ⟨h6, h7⟩
        · left; omega
        · right; exact ⟨by omega, h7⟩
    · have he : e = none ∧ (m ≤ d ∨ m = d + 1 ∧ Bd c d) := by
        rcases hat with h5 | ⟨s, he, h5⟩
        · exact h5
        · omega
      refine ⟨none, ?_, .inl ⟨rfl, he.1, ?_⟩⟩
      · rw [ht3, hanc2 (by omega) (by rw [he.1]; simp) hfirst1]
        rfl
      · rcases htop with h6 | ⟨h6, h7⟩
        · left; omega
        · rcases Nat.lt_or_ge m d with h8 | h8
          · left; omega
          · right
            have : m = d := by omega
            exact ⟨this, this ▸ h7⟩
  have hR : ∀ i, i ≤ m → e'.getD 0 ≤ i + 1 → (c i).id ∉ R := by
    intro i hi h5 hin
    obtain ⟨_, k, hk, hlt⟩ := (h4.discard _).1 hin
    rcases hat' with ⟨h6, _⟩ | ⟨s, h6, h7, h8⟩
    · rw [he', h6] at hk
      cases hk
    · rw [he', h6] at hk
      obtain rfl := Option.some.inj hk
      rw [← (hc.ok i (by omega)).1, ← (hc.ok s (by omega)).1] at hlt
      rw [h6] at h5
      simp only [Option.getD_some] at h5
      rcases Nat.lt_or_ge i s with h9 | h9
      · have h10 : i + 1 = s := by omega
        have := (hc.up i (by omega)).2
        rw [h10] at this
        omega
      · have := hc.mono h9 (by omega)
        omega
  have hge : e.getD 0 ≤ e'.getD 0 := by
    rcases hat' with ⟨h6, h7, _⟩ | ⟨s, h6, h7, _⟩
    · rw [h6, h7]
    · rw [h6]; exact h7
  refine ⟨e', m', _, by rw [h1, he'], h2, h3, ?_, ?_, ?_, ?_, ?_⟩
  · intro k hk
    rw [specDrop_apply] at hk
    split at hk
    · cases hk
    · split at hk
      · rw [Option.isSome_map] at hk
        exact hsub1 k hk
      · exact hsub1 k hk
  · intro i hi h5
    rw [specDrop_apply, if_neg (hR i (by omega) h5)]
    split
    · rw [Option.isSome_map]
      exact hkeep1 i (by omega) (by omega)
    · exact hkeep1 i (by omega) (by omega)
  · intro i hi h5 h6
    obtain ⟨j, rfl⟩ : ∃ j, i = j + 1 := ⟨i - 1, by omega⟩
    rw [specDrop_apply, if_neg (hR (j + 1) (by omega) (by omega)), if_neg]
    · exact hlink1 (j + 1) (by omega) h5 (by omega)
    · rw [← (hc.ok (j + 1) (by omega)).1, hc.link j (by omega)]
      exact hR j (by omega) h6
  · intro b hb
    rw [specDrop_apply] at hb
    split at hb
    · cases hb
    · split at hb
      · obtain ⟨b', _, rfl⟩ := Option.map_eq_some_iff.1 hb
        rfl
      · exact hfirst1 b hb
  · rcases hat' with ⟨h6, _, h7⟩ | ⟨s, h6, _, h7⟩
    · exact .inl ⟨h6, h7⟩
    · exact .inr ⟨s, h6, h7⟩

/-- A pull. -/
theorem BInv.pull (h : BInv B N c d nf p0 m e l w S) (hc : Steps B N c) (hp : ∀ i, i < N → (nf (c i)).isSome)
    (hpi : ∀ i j, i < N → j < N → nf (c i) = nf (c j) → i = j) {o : Orders} (ho : o.Ok)
    {resp : List P → Except Unit (Option Ev)}
    (hg : (w.step nf (.pull o resp)).got.reverse <+: (List.range N).map c) :
    ∃ m' e' l' S', BInv B N c d nf p0 m' e' l' (w.step nf (.pull o resp)) S' := by
  obtain ⟨ps, hreq⟩ := h.request hc hp hpi ho
  have hstep : w.step nf (.pull o resp) =
      ⟨(w.src.answer o (resp ps)).2, advance nf w.pos (released (w.src.answer o (resp ps)).1),
        w.out ++ released (w.src.answer o (resp ps)).1, (blockOf (resp ps)).toList ++ w.got,
        (failure (w.src.answer o (resp ps)).1).or w.failed⟩ := by
    simp only [World.step, MSrc.pull, hreq, heard]
  rw [hstep] at hg ⊢
  cases hresp : resp ps with
  | error _ => exact ⟨m, e, l, S, h.same (x := .error .inner) rfl rfl⟩
  | ok x =>
    cases x with
    | none => exact ⟨m, e, l, S, h.same (x := .ok none) rfl rfl⟩
    | some ev =>
      cases ev with
      | tip n => exact ⟨m, e, l, S, h.same (x := .ok (some (.tip n))) rfl rfl⟩
      | block v =>
        rw [hresp] at hg
        simp only [blockOf, Option.toList_some, List.singleton_append, List.reverse_cons, h.got, MSrc.answer] at hg ⊢
        obtain ⟨rest, hrest⟩ := hg
        have hm : m < N := by
          have := congrArg List.length hrest
          simp only [List.length_append, List.length_map, List.length_range, List.length_singleton] at this
          omega
        obtain rfl : v = c m := by
          have := congrArg (fun l => l[m]?) hrest
          simp only [List.append_assoc] at this
          rw [List.getElem?_append_right (by simp)] at this
          simp [List.getElem?_range hm] at this
          exact this
        have hget : ¬ (w.src.mv.get (c m).id).isSome := by
          rw [h.rel.get, if_neg]
          · simp
          · intro hS
            obtain ⟨i, hi, hid⟩ := h.sub _ hS
            have := hc.inj _ _ (by omega) hm hid
            omega
        rw [if_neg hget]
        obtain ⟨e', m', S', h1, h2, h3, h4, h5, h6, h7, h8⟩ := h.stored hc hm ho
        have hgot' : (c m :: w.got).reverse = (List.range (m + 1)).map c := by
          rw [List.reverse_cons, h.got, List.range_succ, List.map_append]
          rfl
        have hat' : (e' = none ∧ (m + 1 ≤ d ∨ m + 1 = d + 1 ∧ Bd c d)) ∨
            ∃ s, e' = some s ∧ (s + d + 1 = m + 1 ∨ s + d + 2 = m + 1 ∧ Bd c (m + 1 - 1)) := by
          rcases h8 with ⟨h9, h10⟩ | ⟨s, h9, h10⟩
          · refine .inl ⟨h9, ?_⟩
            rcases h10 with h10 | ⟨h10, h11⟩
            · exact .inl h10
            · exact .inr ⟨by omega, h11⟩
          · refine .inr ⟨s, h9, ?_⟩
            rcases h10 with h10 | ⟨h10, h11⟩
            · left; omega
            · right; exact ⟨by omega, h11⟩
        simp only [MSrc.store, h.depth, h1]
        by_cases he : e' = e
        · -- nothing is released
          refine ⟨m + 1, e, l, S', ?_⟩
          have hset : w.src.settle m' (e'.map (fun s => (c s).id)) = (.ok none, { w.src with mv := m' }) := by
            have hcf := h.conf
            rw [he]
            cases hee : e with
            | none => rfl
            | some s =>
              rw [hee] at hcf
              simp only [Option.map_some] at hcf
              simp only [MSrc.settle, Option.map_some]
              rw [if_pos hcf]
          rw [hset]
          subst he
          simp only [released, failure, advance, List.append_nil, Option.none_or]
          exact ⟨h2, h3, h.depth, h.failed, hm, hgot', h4, h5, h6, h7, h.conf, hat', h.pos, h.out, h.below, h.missing⟩
        · -- the block `s` is released
          obtain ⟨s, rfl, hs⟩ : ∃ s, e' = some s ∧ (s + d = m ∨ s + d + 1 = m ∧ Bd c m) := by
            rcases h8 with ⟨h9, h10⟩ | h9
            · exfalso
              rcases h.at_ with ⟨h11, _⟩ | ⟨s, h11, h12⟩
              · exact he (h9.trans h11.symm)
              · omega
            · exact h9
          clear hat' h8
          have hsN : s < N := by rcases hs with hs | ⟨hs, _⟩ <;> omega
          have hlim : (e.map (· + 1)).getD 0 ≤ s ∧ ∀ i, (e.map (· + 1)).getD 0 ≤ i → i < s → Bd c (i + d) := by
            rcases h.at_ with ⟨h9, h10⟩ | ⟨s0, h9, h10⟩
            · rw [h9]
              refine ⟨Nat.zero_le _, fun i _ hi => ?_⟩
              rcases h10 with h10 | ⟨h10, h11⟩
              · omega
              · rcases hs with hs | ⟨hs, _⟩
                · have : i + d = d := by omega
                  rw [this]; exact h11
                · omega
            · rw [h9]
              simp only [Option.map_some, Option.getD_some]
              have hne : s ≠ s0 := fun hh => he (by rw [h9, hh])
              rcases h10 with h10 | ⟨h10, h11⟩
              · refine ⟨by omega, fun i h12 h13 => by omega⟩
              · rcases hs with hs | ⟨hs, hb⟩
                · refine ⟨by omega, fun i h12 h13 => ?_⟩
                  have : i + d = m - 1 := by omega
                  rw [this]; exact h11
                · exfalso
                  obtain ⟨q, rfl⟩ : ∃ q, m = q + 1 := ⟨m - 1, by omega⟩
                  exact hc.not_two hm (by simpa using h11) hb
          have hB := (hc.ok s hsN).1
          have hst : (S' (c s).id).isSome := h5 s (by omega) (by simp)
          have hset : w.src.settle m' ((some s).map (fun s => (c s).id)) =
              (.ok (some (.block (c s))), ⟨m', w.src.depth, some (c s).id⟩) := by
            unfold MSrc.settle
            simp only [Option.map_some]
            rw [if_neg, h2.get, if_pos hst]
            · simp only [← hB]
            · rw [h.conf]
              intro hh
              obtain ⟨s0, h9, h10⟩ := Option.map_eq_some_iff.1 hh
              have hs0 : s0 < N := by
                rcases h.at_ with ⟨h11, _⟩ | ⟨s1, h11, h12⟩
                · rw [h11] at h9; cases h9
                · rw [h11] at h9
                  obtain rfl := Option.some.inj h9
                  omega
              have := hc.inj _ _ hs0 hsN h10
              subst this
              exact he h9.symm
          rw [hset]
          refine ⟨m + 1, some s, l ++ [s], S', ?_⟩
          simp only [released, failure, advance, Option.none_or]
          refine ⟨h2, h3, h.depth, h.failed, hm, hgot', h4, h5, h6, h7, rfl, .inr ⟨s, rfl, ?_⟩, rfl, ?_, ?_, ?_⟩
          · rcases hs with hs | ⟨hs, hb⟩
            · left; omega
            · right; exact ⟨by omega, hb⟩
          · rw [h.out, List.map_append]; rfl
          · simp only [Option.map_some, Option.getD_some]
            rw [List.range_succ]
            refine List.Sublist.append ?_ (List.Sublist.refl _)
            exact h.below.trans (List.range_sublist.2 hlim.1)
          · intro i hi hin
            simp only [Option.map_some, Option.getD_some] at hi
            simp only [List.mem_append, List.mem_singleton, not_or] at hin
            by_cases h9 : i < (e.map (· + 1)).getD 0
            · exact h.missing i h9 hin.1
            · exact hlim.2 i (by omega) (by omega)

theorem BInv.run (hc : Steps B N c) (hp : ∀ i, i < N → (nf (c i)).isSome)
    (hpi : ∀ i j, i < N → j < N → nf (c i) = nf (c j) → i = j) : ∀ {as : List (Act P)} {w : World P} {m : Nat}
    {e : Option Nat} {l : List Nat} {S : Tree}, BInv B N c d nf p0 m e l w S →
    (∀ a ∈ as, ∃ o resp, a = .pull o resp ∧ o.Ok) → (w.run nf as).got.reverse <+: (List.range N).map c →
    ∃ m' e' l' S', BInv B N c d nf p0 m' e' l' (w.run nf as) S'
  | [], w, m, e, l, S, h, _, _ => ⟨m, e, l, S, h⟩
  | a :: as, w, m, e, l, S, h, ha, hg => by
    obtain ⟨x, hx⟩ := run_got nf as (w.step nf a)
    have hrun : w.run nf (a :: as) = (w.step nf a).run nf as := rfl
    rw [hrun] at hg ⊢
    obtain ⟨o, resp, rfl, ho⟩ := ha a (by simp)
    obtain ⟨m1, e1, l1, S1, h1⟩ := h.pull hc hp hpi ho (resp := resp) (by
      rw [hx, List.reverse_append] at hg
      exact (List.prefix_append _ _).trans hg)
    exact BInv.run hc hp hpi h1 (fun b hb => ha b (List.mem_cons_of_mem _ hb)) hg

/-! ### The fork handling source -/

/-- The consumer of the fork handling source after `m` blocks, the last `q` of which are queued. -/
structure FBInv (B : Key → Block) (N : Nat) (c : Nat → Block) (d : Nat) (m q : Nat) (w : FWorld P) (S : Tree) : Prop where
  rel : Rel B w.src.mv S
  sf : w.src.mv.storeFrom = 0
  depth : w.src.depth = d
  failed : w.failed = none
  le : m ≤ N
  got : w.got.reverse = (List.range m).map c
  sub : ∀ k, (S k).isSome → ∃ i, i < m ∧ (c i).id = k
  conf : ∀ k, w.src.confirmed = some k → (S k).isSome
  last : w.src.last = if m = 0 then none else some (c (m - 1)).id
  events : (q = 0 ∧ w.src.events = []) ∨ (q = 1 ∧ m = 1 ∧ w.src.events = [.inner (.block (c 0))])
  chain : w.chain = some (((List.range (m - q)).map (fun i => (c i).id)).reverse ++ [(c 0).parent])

variable {fw : FWorld P} {q : Nat} {p1 : P}

omit [DecidableEq P] in
theorem FBInv.start (B : Key → Block) (N : Nat) (c : Nat → Block) (d : Nat) :
    FBInv (P := P) B N c d 0 0 (FWorld.start d (c 0).parent) (fun _ => none) where
  rel := Rel.empty B 0
  sf := rfl
  depth := rfl
  failed := rfl
  le := Nat.zero_le _
  got := rfl
  sub := by simp
  conf := by simp [FWorld.start]
  last := rfl
  events := .inl ⟨rfl, rfl⟩
  chain := rfl

theorem FBInv.pull (h : FBInv B N c d m q fw S) (hc : Steps B N c) (hp : ∀ i, i < N → (nf (c i)).isSome)
    {o : Orders} (ho : o.Ok) {resp : List P → Except Unit (Option Ev)} (pt : Key → Option P)
    (hpt : pt (c 0).parent = some p1)
    (hg : (fw.step pt nf (.pull o resp)).got.reverse <+: (List.range N).map c) :
    ∃ m' q' S', FBInv B N c d m' q' (fw.step pt nf (.pull o resp)) S' := by
  rcases h.events with ⟨rfl, hev⟩ | ⟨rfl, rfl, hev⟩
  · obtain ⟨ps, hreq⟩ := FSrc.request_ok (nf := nf) h.rel (by
      intro k hk
      obtain ⟨i, hi, rfl⟩ := h.sub k hk
      rw [← (hc.ok i (by have := h.le; omega)).1]
      exact hp i (by have := h.le; omega)) h.conf ho (position pt fw.chain)
    have hstep : fw.step pt nf (.pull o resp) =
        ⟨(fw.src.answer nf o (position pt fw.chain) (resp ps)).2,
          follow pt fw.chain (fw.src.answer nf o (position pt fw.chain) (resp ps)).1,
          (blockOf (resp ps)).toList ++ fw.got,
          (ffailure (fw.src.answer nf o (position pt fw.chain) (resp ps)).1).or fw.failed⟩ := by
      simp only [FWorld.step, FSrc.pull, hev, hreq, heard]
    rw [hstep] at hg ⊢
    have same : ∀ {x : Except FErr (Option (FEv P))}, follow pt fw.chain x = fw.chain → ffailure x = none →
        FBInv B N c d m 0 ⟨fw.src, follow pt fw.chain x, fw.got, (ffailure x).or fw.failed⟩ S := by
      intro x h1 h2
      rw [h1, h2]
      exact ⟨h.rel, h.sf, h.depth, h.failed, h.le, h.got, h.sub, h.conf, h.last, h.events, h.chain⟩
    cases hresp : resp ps with
    | error _ => exact ⟨m, 0, S, same (x := .error .inner) rfl rfl⟩
    | ok x =>
      cases x with
      | none => exact ⟨m, 0, S, same (x := .ok none) rfl rfl⟩
      | some ev =>
        cases ev with
        | tip n =>
          refine ⟨m, 0, S, same (x := .ok (some (.inner (.tip n)))) ?_ rfl⟩
          rw [h.chain]
          rfl
        | block v =>
          rw [hresp] at hg
          simp only [blockOf, Option.toList_some, List.singleton_append, List.reverse_cons, h.got, FSrc.answer] at hg ⊢
          obtain ⟨rest, hrest⟩ := hg
          have hm : m < N := by
            have := congrArg List.length hrest
            simp only [List.length_append, List.length_map, List.length_range, List.length_singleton] at this
            omega
          obtain rfl : v = c m := by
            have := congrArg (fun l => l[m]?) hrest
            simp only [List.append_assoc] at this
            rw [List.getElem?_append_right (by simp)] at this
            simp [List.getElem?_range hm] at this
            exact this
          have hget : ¬ (fw.src.mv.get (c m).id).isSome := by
            rw [h.rel.get, if_neg]
            · simp
            · intro hS
              obtain ⟨i, hi, hid⟩ := h.sub _ hS
              have := hc.inj _ _ (by omega) hm hid
              omega
          rw [if_neg hget]
          have hv := hc.ok m hm
          obtain ⟨sel, R, m', h1, h2, h3, h4⟩ := insertAndGc_spec h.rel hv.1 hv.2 ho d
          rw [h.sf] at h2 h3 h4
          have hgot' : (c m :: fw.got).reverse = (List.range (m + 1)).map c := by
            rw [List.reverse_cons, h.got, List.range_succ, List.map_append]
            rfl
          have hins : ∀ k, (S k).isSome → (specInsert 0 S (c m) k).isSome := by
            intro k hk
            unfold specInsert
            split
            · exact hk
            · simp only
              split
              · rfl
              · exact hk
          have hsub : ∀ k, (specDrop B (specInsert 0 S (c m)) R k).isSome → ∃ i, i < m + 1 ∧ (c i).id = k := by
            intro k hk
            have hk1 : (specInsert 0 S (c m) k).isSome := by
              rw [specDrop_apply] at hk
              split at hk
              · cases hk
              · split at hk
                · rw [Option.isSome_map] at hk
                  exact hk
                · exact hk
            unfold specInsert at hk1
            split at hk1
            · obtain ⟨i, hi, h5⟩ := h.sub k hk1
              exact ⟨i, by omega, h5⟩
            · simp only at hk1
              split at hk1
              · next he => exact ⟨m, by omega, he.symm⟩
              · obtain ⟨i, hi, h5⟩ := h.sub k hk1
                exact ⟨i, by omega, h5⟩
          have hkeep : ∀ k, (specInsert 0 S (c m) k).isSome → k ∉ R →
              (specDrop B (specInsert 0 S (c m)) R k).isSome := by
            intro k hk hR
            rw [specDrop_apply, if_neg hR]
            split
            · rw [Option.isSome_map]
              exact hk
            · exact hk
          have hconf : ∀ k, newConfirmed fw.src.confirmed sel = some k →
              (specDrop B (specInsert 0 S (c m)) R k).isSome := by
            intro k hk
            cases hs : sel with
            | none =>
              rw [hs] at hk
              refine hkeep k (hins k (h.conf k hk)) (fun hR => ?_)
              obtain ⟨_, k', h5, _⟩ := (h4.discard k).1 hR
              rw [hs] at h5
              cases h5
            | some k1 =>
              rw [hs] at hk
              obtain rfl := Option.some.inj hk
              refine hkeep k1 (h4.stored k1 hs) (fun hR => ?_)
              obtain ⟨_, k', h5, h6⟩ := (h4.discard k1).1 hR
              rw [hs] at h5
              obtain rfl := Option.some.inj h5
              omega
          simp only [FSrc.store, h.depth, h1]
          cases m with
          | zero =>
            have hl : fw.src.last = none := by rw [h.last]; rfl
            have hch : fw.chain = some [(c 0).parent] := by rw [h.chain]; rfl
            have hpos : position pt fw.chain = some p1 := by rw [hch]; exact hpt
            simp only [hl, newEvents, hpos]
            refine ⟨1, 1, _, h2, h3, rfl, ?_, hm, hgot', hsub, hconf, rfl, .inr ⟨rfl, rfl, rfl⟩, ?_⟩
            · simp only [ffailure, Option.none_or]
              exact h.failed
            · rw [hch]
              simp only [follow, Option.bind_some, consume, hpt]
              simp [hpt]
          | succ m =>
            have hl : fw.src.last = some (c m).id := by rw [h.last]; rfl
            simp only [hl, newEvents, hc.link m hm, if_true]
            refine ⟨m + 2, 0, _, h2, h3, rfl, ?_, hm, hgot', hsub, hconf, rfl, .inl ⟨rfl, rfl⟩, ?_⟩
            · simp only [ffailure, Option.none_or]
              exact h.failed
            · rw [h.chain]
              simp only [Nat.sub_zero, follow, Option.bind_some, consume]
              rw [if_pos]
              · rw [List.range_succ (n := m + 1), List.map_append, List.reverse_append]
                rfl
              · rw [hc.link m hm, List.range_succ, List.map_append, List.reverse_append]
                rfl
  · have hstep : fw.step pt nf (.pull o resp) = ⟨{ fw.src with events := [] },
        follow pt fw.chain (.ok (some (.inner (.block (c 0))))), fw.got, fw.failed⟩ := by
      simp only [FWorld.step, FSrc.pull, hev, heard, List.nil_append, ffailure, Option.none_or]
    rw [hstep]
    refine ⟨1, 0, S, h.rel, h.sf, h.depth, h.failed, h.le, h.got, h.sub, h.conf, h.last, .inl ⟨rfl, rfl⟩, ?_⟩
    rw [h.chain]
    simp [follow, consume]

theorem frun_pulls (pt : Key → Option P) (nf : Block → Option P) : ∀ (as : List (FAct P)) (w : FWorld P),
    (∀ a ∈ as, ∃ o resp, a = .pull o resp ∧ o.Ok) → ∃ l, (w.run pt nf as).got = l ++ w.got
  | [], w, _ => ⟨[], rfl⟩
  | a :: as, w, ha => by
    obtain ⟨o, resp, rfl, _⟩ := ha a (by simp)
    obtain ⟨l2, h2⟩ := frun_pulls pt nf as (w.step pt nf (.pull o resp)) (fun b hb => ha b (List.mem_cons_of_mem _ hb))
    refine ⟨l2 ++ heard resp (w.src.pull nf o (position pt w.chain) resp).asked, ?_⟩
    rw [List.append_assoc]
    exact h2

theorem FBInv.run (hc : Steps B N c) (hp : ∀ i, i < N → (nf (c i)).isSome) (pt : Key → Option P)
    (hpt : pt (c 0).parent = some p1) : ∀ {as : List (FAct P)} {fw : FWorld P} {m q : Nat} {S : Tree},
    FBInv B N c d m q fw S → (∀ a ∈ as, ∃ o resp, a = .pull o resp ∧ o.Ok) →
    (fw.run pt nf as).got.reverse <+: (List.range N).map c → ∃ m' q' S', FBInv B N c d m' q' (fw.run pt nf as) S'
  | [], _, m, q, S, h, _, _ => ⟨m, q, S, h⟩
  | a :: as, fw, m, q, S, h, ha, hg => by
    obtain ⟨x, hx⟩ := frun_pulls pt nf as (fw.step pt nf a) (fun b hb => ha b (List.mem_cons_of_mem _ hb))
    have hrun : fw.run pt nf (a :: as) = (fw.step pt nf a).run pt nf as := rfl
    rw [hrun] at hg ⊢
    obtain ⟨o, resp, rfl, ho⟩ := ha a (by simp)
    obtain ⟨m1, q1, S1, h1⟩ := h.pull (nf := nf) hc hp ho (resp := resp) pt hpt (by
      rw [hx, List.reverse_append] at hg
      exact (List.prefix_append _ _).trans hg)
    exact FBInv.run hc hp pt hpt h1 (fun b hb => ha b (List.mem_cons_of_mem _ hb)) hg

end Verif.Sources
