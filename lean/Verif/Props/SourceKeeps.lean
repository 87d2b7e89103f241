import Verif.Props.MultiverseSource
import Verif.Props.ForkHandling
import Mathlib.Data.List.Perm.Subperm

/-!
# C117: how much the multiverse source keeps

The source removes old blocks from its multiverse, in memory and on disk, whenever it stores a new one.
-/

namespace Verif.Props

open Verif.Multiverse Verif.Sources

variable {P : Type} [DecidableEq P] {B : Key → Block} {d : Nat} {r : Key} {nf : Block → Option P}

/-- Every block kept is at most `d + 1` blocks lower than any block delivered. -/
def Window (d : Nat) (m : MV) (got : List Block) : Prop :=
  ∀ k b, m.get k = some b → ∀ x ∈ got, x.number ≤ b.number + d + 1

/-- A pull either stores a new block, and leaves only blocks of the window; or it changes nothing and delivers no block that
was not delivered before. -/
theorem window_pull {p0 : Option P} {Q : Prop} {w : World P} {S : Tree} (h : WInv B d r nf p0 Q w S) {o : Orders}
    (ho : o.Ok) {resp : List P → Except Unit (Option Ev)} (hf : Feed B r (w.step nf (.pull o resp)).got)
    (hcp : CommonPrefix B d r (w.step nf (.pull o resp)).got) :
    Window d (w.step nf (.pull o resp)).src.mv (w.step nf (.pull o resp)).got ∨
    ((w.step nf (.pull o resp)).src.mv = w.src.mv ∧ (∀ x ∈ (w.step nf (.pull o resp)).got, x ∈ w.got) ∧
      ∀ v, (w.step nf (.pull o resp)).got = v :: w.got → (w.src.mv.get v.id).isSome) := by
  simp only [World.step, MSrc.pull] at hf hcp ⊢
  cases hreq : w.src.request nf o w.pos with
  | error e =>
    rw [hreq] at hf hcp
    exact .inr ⟨rfl, fun x hx => hx, fun v he => absurd he (List.cons_ne_self v _).symm⟩
  | ok y =>
    cases y with
    | inl b =>
      rw [hreq] at hf hcp
      exact .inr ⟨rfl, fun x hx => hx, fun v he => absurd he (List.cons_ne_self v _).symm⟩
    | inr ps =>
      rw [hreq] at hf hcp
      simp only [heard] at hf hcp ⊢
      cases hresp : resp ps with
      | error e => exact .inr ⟨rfl, fun x hx => hx, fun v he => absurd he (List.cons_ne_self v _).symm⟩
      | ok y =>
        cases y with
        | none => exact .inr ⟨rfl, fun x hx => hx, fun v he => absurd he (List.cons_ne_self v _).symm⟩
        | some ev =>
          cases ev with
          | tip n => exact .inr ⟨rfl, fun x hx => hx, fun v he => absurd he (List.cons_ne_self v _).symm⟩
          | block v =>
            rw [hresp] at hf hcp
            simp only [blockOf, Option.toList_some, List.singleton_append, MSrc.answer] at hf hcp ⊢
            have hv := hf.ok v (by simp)
            by_cases hst : (S v.id).isSome
            · have hg : (w.src.mv.get v.id).isSome := by rw [h.rel.get, if_pos hst]; rfl
              obtain ⟨_, h2⟩ := h.inv.again hf hst
              rw [if_pos hg]
              refine .inr ⟨rfl, fun x hx => ?_, fun u he => ?_⟩
              · rcases List.mem_cons.1 hx with rfl | hx
                · exact h2
                · exact hx
              · obtain ⟨rfl, _⟩ := List.cons.inj he
                exact hg
            · have hg : ¬ (w.src.mv.get v.id).isSome := by rw [h.rel.get, if_neg hst]; simp
              obtain ⟨sel, R, m', h1, h2, h3, h4⟩ := insertAndGc_spec h.rel hv.1 hv.2 ho w.src.depth
              rw [h.sf] at h2 h4
              rw [h.depth] at h4
              have hi1 := h.inv.insert hf (by simpa using hst) 0
              obtain ⟨m1, _, hrel1, _⟩ := h.rel.insert hv.1 hv.2
              rw [h.sf] at hrel1
              obtain ⟨top, ht1, ht2, ht3⟩ := h4.top
              have hconf := hi1.conf hf hcp hrel1 ht1 ht2 ht3
              left
              have hmv : (w.src.store o v).2.mv = m' := by
                simp only [MSrc.store, h1, MSrc.settle]
                split
                · rfl
                · split
                  · rfl
                  · split <;> rfl
              simp only [hg, Bool.false_eq_true, if_false, hmv]
              intro k b hk x hx
              rw [h2.get] at hk
              split at hk
              · rename_i hs
                obtain rfl := (Option.some.inj hk).symm
                rw [specDrop_apply] at hs
                have hkR : k ∉ R := fun hh => by rw [if_pos hh] at hs; cases hs
                have hs1 : (specInsert 0 S v k).isSome := by
                  rw [if_neg hkR] at hs
                  split at hs
                  · simpa using hs
                  · exact hs
                obtain ⟨u, hu, rfl⟩ := hi1.sub k hs1
                rw [← (hf.ok u hu).1]
                cases hsel : sel with
                | none =>
                  rw [hsel] at hconf
                  obtain ⟨t, ht, hm⟩ := exists_top (List.ne_nil_of_mem hx)
                  have := hconf.2 t ht hm
                  split at this
                  · cases this
                  · have := hf.ge hu
                    have := hm x hx
                    omega
                | some c =>
                  rw [hsel] at hconf
                  obtain ⟨y, hy, hyc, t, ht, hm, hn, _⟩ := Conf.mem hf hconf
                  have hlow : ¬ (B u.id).number < (B c).number - 1 := fun hlt =>
                    hkR ((h4.discard _).2 ⟨hs1, c, hsel, hlt⟩)
                  rw [← (hf.ok u hu).1, ← hyc, ← (hf.ok y hy).1] at hlow
                  have := hm x hx
                  omega
              · cases hk

theorem window_renew {p0 : Option P} {w : World P} {S : Tree} (h : WInv B d r nf p0 False w S) (hf : Feed B r w.got)
    (hcp : CommonPrefix B d r w.got) {o : Orders} (ho : o.Ok) (hw : Window d w.src.mv w.got) :
    Window d (w.step nf (.restart o)).src.mv (w.step nf (.restart o)).got := by
  have h1 := renew_inv (p0 := p0) (Q := False) ho h.rel h.sf h.depth h.inv hf hcp (fun c hc => by
    rw [hc.unique h.conf]; exact h.out) h.sub h.pos h.failed
  have hg : (w.renew w.src.mv o).got = w.got := by unfold World.renew; split <;> rfl
  intro k b hk x hx
  simp only [World.step, hg] at hk hx
  rw [h1.rel.get] at hk
  split at hk
  · rename_i hs
    refine hw k b ?_ x hx
    rw [h.rel.get, if_pos, hk]
    unfold specReopen at hs
    split at hs
    · rename_i hsv
      unfold isSaved at hsv
      cases hS : S k with
      | none => rw [hS] at hsv; cases hsv
      | some _ => rfl
    · cases hs
  · cases hk

theorem window_run {p0 : Option P} : ∀ {as : List (Act P)} {w : World P} {S : Tree}, WInv B d r nf p0 False w S →
    Window d w.src.mv w.got → (∀ a ∈ as, a.Ok False) → Feed B r (w.run nf as).got →
    CommonPrefix B d r (w.run nf as).got → Points nf (w.run nf as).got →
    Window d (w.run nf as).src.mv (w.run nf as).got
  | [], _, _, _, hw, _, _, _, _ => hw
  | a :: as, w, S, h, hw, ha, hf, hcp, hp => by
    obtain ⟨l, hl⟩ := run_got nf as (w.step nf a)
    have e : w.run nf (a :: as) = (w.step nf a).run nf as := rfl
    rw [e] at hf hcp hp ⊢
    have hf' := hf
    have hcp' := hcp
    have hp' := hp
    rw [hl] at hf' hcp' hp'
    obtain ⟨S1, h1⟩ := h.step (by simp) (ha a (by simp)) hf'.append hcp'.append hp'.append
    refine window_run h1 ?_ (fun b hb => ha b (List.mem_cons_of_mem _ hb)) hf hcp hp
    have hok := ha a (by simp)
    cases a with
    | pull o resp =>
      rcases window_pull h hok hf'.append hcp'.append with h2 | ⟨h2, h3, _⟩
      · exact h2
      · intro k b hk x hx
        rw [h2] at hk
        exact hw k b hk x (h3 x hx)
    | restart o =>
      obtain ⟨l1, hl1⟩ := step_got nf w (.restart o)
      have hf1 := hf'.append
      have hcp1 := hcp'.append
      rw [hl1] at hf1 hcp1
      exact window_renew h hf1.append hcp1.append hok hw
    | crash o resp n o' => exact absurd hok.1 (by simp)

/-- What is kept, from the invariant and the window: exactly the delivered blocks that are at most `d + 1` blocks lower than
every delivered block, in memory and on disk. -/
theorem kept_exact {m : MV} {got : List Block} {S : Tree} (hrel : Rel B m S) (hsf : m.storeFrom = 0) (hinv : Inv B d r got S)
    (hf : Feed B r got) (hw : Window d m got) :
    (∀ k b, m.get k = some b ↔ b ∈ got ∧ b.id = k ∧ ∀ x ∈ got, x.number ≤ b.number + d + 1) ∧
    (∀ b, (∃ kb, AMap.get m.db kb = some b) ↔ b ∈ got ∧ ∀ x ∈ got, x.number ≤ b.number + d + 1) := by
  have h1 : ∀ k b, m.get k = some b ↔ b ∈ got ∧ b.id = k ∧ ∀ x ∈ got, x.number ≤ b.number + d + 1 := by
    intro k b
    constructor
    · intro hk
      have hk' := hk
      rw [hrel.get] at hk
      split at hk
      · rename_i hs
        obtain ⟨u, hu, rfl⟩ := hinv.sub k hs
        rw [← (hf.ok u hu).1] at hk
        obtain rfl := Option.some.inj hk
        exact ⟨hu, rfl, hw _ _ hk'⟩
      · cases hk
    · rintro ⟨hb, rfl, hx⟩
      rw [hrel.get, if_pos (hinv.keep b hb hx), ← (hf.ok b hb).1]
  refine ⟨h1, fun b => ?_⟩
  constructor
  · rintro ⟨kb, hkb⟩
    obtain ⟨k, s, hs, _, _, rfl⟩ := (hrel.db kb b).1 hkb
    obtain ⟨h2, _, h3⟩ := (h1 k (B k)).1 (by rw [hrel.get, if_pos (by rw [hs]; rfl)])
    exact ⟨h2, h3⟩
  · rintro ⟨hb, hx⟩
    have hs := hinv.keep b hb hx
    obtain ⟨s, hs⟩ := Option.isSome_iff_exists.1 hs
    refine ⟨mkKey (B b.id).number b.id, (hrel.db _ b).2 ⟨b.id, s, hs, ?_, rfl, (hf.ok b hb).1⟩⟩
    cases hsv : s.saved with
    | true => rfl
    | false =>
      have := hrel.unsaved _ _ hs hsv
      rw [hsf] at this
      omega

/-- C117: at every time the source keeps exactly the delivered blocks that are at most `d + 1` blocks lower than the highest
one, in memory and on disk: the last confirmed block, what follows it, and what is level with its parent or higher. -/
theorem C117_kept {p0 : Option P} {as : List (Act P)} (ha : ∀ a ∈ as, a.Ok False) {w : World P}
    (hw : w = (World.start d p0).run nf as) (hf : Feed B r w.got) (hcp : CommonPrefix B d r w.got)
    (hp : Points nf w.got) :
    (∀ k b, w.src.mv.get k = some b ↔ b ∈ w.got ∧ b.id = k ∧ ∀ x ∈ w.got, x.number ≤ b.number + d + 1) ∧
    (∀ b, (∃ kb, AMap.get w.src.mv.db kb = some b) ↔ b ∈ w.got ∧ ∀ x ∈ w.got, x.number ≤ b.number + d + 1) := by
  subst hw
  obtain ⟨S, h⟩ := WInv.run (Q := False) (by simp) (WInv.start B d r nf p0 False) ha hf hcp hp
  exact kept_exact h.rel h.sf h.inv hf (window_run (WInv.start B d r nf p0 False) (fun k b hk => by simp [World.start, MV.get, MV.empty] at hk)
    ha hf hcp hp)

/-- C117 with crashes: after a pull that got a block the multiverse did not have, all that crashes left behind is gone. -/
theorem C117_after_crashes {as : List (Act P)} (ha : ∀ a ∈ as, a.Ok True) {w w' : World P}
    (hw : w = (World.start d none).run nf as) {o : Orders} (ho : o.Ok) {resp : List P → Except Unit (Option Ev)}
    (hw' : w' = w.step nf (.pull o resp)) {v : Block} (hn : w'.got = v :: w.got) (hv : w.src.mv.get v.id = none)
    (hf : Feed B r w'.got) (hcp : CommonPrefix B d r w'.got) (hp : Points nf w'.got) :
    (∀ k b, w'.src.mv.get k = some b ↔ b ∈ w'.got ∧ b.id = k ∧ ∀ x ∈ w'.got, x.number ≤ b.number + d + 1) ∧
    (∀ b, (∃ kb, AMap.get w'.src.mv.db kb = some b) ↔ b ∈ w'.got ∧ ∀ x ∈ w'.got, x.number ≤ b.number + d + 1) := by
  subst hw hw'
  obtain ⟨l, hl⟩ := step_got nf ((World.start d none).run nf as) (.pull o resp)
  have hf0 := hf
  have hcp0 := hcp
  have hp0 := hp
  rw [hl] at hf0 hcp0 hp0
  obtain ⟨S, h⟩ := WInv.run (Q := True) (by simp) (WInv.start B d r nf none True) ha hf0.append hcp0.append hp0.append
  obtain ⟨S', h'⟩ := h.pull (by simp) ho hf hcp hp
  refine kept_exact h'.rel h'.sf h'.inv hf ?_
  rcases window_pull h ho hf hcp with h2 | ⟨_, _, h2⟩
  · exact h2
  · have := h2 v hn
    rw [hv] at this
    cases this

/-- Blocks with different numbers, all in a range of numbers, are not many. -/
theorem few_of_range {ks : List Key} (hn : ks.Nodup) {lo n : Nat} (h1 : ∀ k ∈ ks, lo ≤ (B k).number ∧ (B k).number < lo + n)
    (h2 : ∀ k ∈ ks, ∀ l ∈ ks, (B k).number = (B l).number → k = l) : ks.length ≤ n := by
  have hnd : (ks.map (fun k => (B k).number)).Nodup := List.Nodup.map_on h2 hn
  have hsub : ks.map (fun k => (B k).number) ⊆ List.range' lo n := by
    intro x hx
    obtain ⟨k, hk, rfl⟩ := List.mem_map.1 hx
    rw [List.mem_range'_1]
    exact h1 k hk
  have := (List.subperm_of_subset hnd hsub).length_le
  simpa using this

/-- The keys of the blocks kept. -/
theorem mem_keys (m : MV) (k : Key) : k ∈ m.all.keys ↔ ∃ b, m.get k = some b := by
  have h1 := AMap.get_eq_none_iff m.all k
  simp only [MV.get]
  cases hg : AMap.get m.all k with
  | none => simp [h1.1 hg]
  | some x =>
    refine ⟨fun _ => ⟨_, rfl⟩, fun _ => ?_⟩
    by_contra hc
    rw [h1.2 hc] at hg
    cases hg

theorem len_keys (m : MV) : m.len = m.all.keys.length := by simp [MV.len, AMap.keys]

/-- The window of a chain without forks has `d + 2` blocks. -/
theorem few_window {m : MV} {got : List Block} {S : Tree} (hrel : Rel B m S) (hsf : m.storeFrom = 0) (hinv : Inv B d r got S)
    (hf : Feed B r got) (hw : Window d m got) (hl : ∀ u ∈ got, ∀ v ∈ got, u.number = v.number → u = v) : m.len ≤ d + 2 := by
  obtain ⟨hk, _⟩ := kept_exact hrel hsf hinv hf hw
  rw [len_keys]
  by_cases hne : got = []
  · have : m.all.keys = [] := List.eq_nil_iff_forall_not_mem.2 (fun k hk' => by
      obtain ⟨b, hb⟩ := (mem_keys m k).1 hk'
      have := ((hk k b).1 hb).1
      rw [hne] at this
      cases this)
    simp [this]
  · obtain ⟨t, ht, hm⟩ := exists_top hne
    have hin : ∀ k ∈ m.all.keys, B k ∈ got ∧ (B k).id = k ∧ t.number ≤ (B k).number + d + 1 := by
      intro k hk'
      obtain ⟨b, hb⟩ := (mem_keys m k).1 hk'
      obtain ⟨h1, h2, h3⟩ := (hk k b).1 hb
      subst h2
      rw [← (hf.ok b h1).1]
      exact ⟨h1, rfl, h3 t ht⟩
    refine few_of_range (B := B) (lo := t.number - (d + 1)) hrel.mem.nodup (fun k hk' => ?_) (fun k hk' l hl' he => ?_)
    · obtain ⟨h1, _, h3⟩ := hin k hk'
      have := hm _ h1
      omega
    · obtain ⟨h1, h2, _⟩ := hin k hk'
      obtain ⟨h3, h4, _⟩ := hin l hl'
      rw [← h2, ← h4, hl _ h1 _ h3 he]

/-- C117 for a chain without forks: never more than `d + 2` blocks are kept. -/
theorem C117_few {p0 : Option P} {as : List (Act P)} (ha : ∀ a ∈ as, a.Ok False) {w : World P}
    (hw : w = (World.start d p0).run nf as) (hf : Feed B r w.got)
    (hl : ∀ u ∈ w.got, ∀ v ∈ w.got, u.number = v.number → u = v) (hp : Points nf w.got) :
    w.src.mv.len ≤ d + 2 := by
  have hcp := commonPrefix_of_linear (d := d) hf hl
  subst hw
  obtain ⟨S, h⟩ := WInv.run (Q := False) (by simp) (WInv.start B d r nf p0 False) ha hf hcp hp
  exact few_window h.rel h.sf h.inv hf (window_run (WInv.start B d r nf p0 False)
    (fun k b hk => by simp [World.start, MV.get, MV.empty] at hk) ha hf hcp hp) hl

/-! ### What crashes leave behind -/

omit [DecidableEq P] in
/-- Opening again adds no block. -/
theorem renew_sub {w : World P} {m : MV} {S : Tree} (hrel : Rel B m S) (o : Orders) {k : Key} {b : Block}
    (hk : (w.renew m o).src.mv.get k = some b) : (∃ b', m.get k = some b') ∨ w.src.mv.get k = some b := by
  obtain ⟨m', h1, h2, _⟩ := hrel.reopen m.storeFrom
  unfold World.renew reopenSrc at hk
  rw [h1] at hk
  simp only [MSrc.new] at hk
  cases hs : m'.selectBest (fun _ => false) o.best w.src.depth 0 with
  | error e =>
    rw [hs] at hk
    exact .inr hk
  | ok x =>
    rw [hs] at hk
    left
    simp only [Except.map] at hk
    rw [h2.get] at hk
    split at hk
    · rename_i hsv
      refine ⟨B k, ?_⟩
      rw [hrel.get, if_pos]
      unfold specReopen at hsv
      split at hsv
      · rename_i hsv'
        unfold isSaved at hsv'
        cases hS : S k with
        | none => rw [hS] at hsv'; cases hsv'
        | some _ => rfl
      · cases hsv
    · cases hk

/-- A crash adds at most the block that was being stored. -/
theorem crash_sub {p0 : Option P} {Q : Prop} {w : World P} {S : Tree} (h : WInv B d r nf p0 Q w S) {o o' : Orders} (ho : o.Ok)
    {resp : List P → Except Unit (Option Ev)} {n : Nat} (hf : Feed B r (w.step nf (.crash o resp n o')).got) :
    ∃ extra : List Key, extra.length ≤ 1 ∧ ∀ k b, (w.step nf (.crash o resp n o')).src.mv.get k = some b →
      k ∈ extra ∨ ∃ b', w.src.mv.get k = some b' := by
  have plain : ∀ g : List Block, ∀ k b, ({ w with got := g }.renew w.src.mv o').src.mv.get k = some b →
      k ∈ ([] : List Key) ∨ ∃ b', w.src.mv.get k = some b' := by
    intro g k b hk
    rcases renew_sub h.rel o' hk with h1 | h1
    · exact .inr h1
    · exact .inr ⟨b, h1⟩
  have hren : ∀ (w : World P) (m : MV) (o : Orders), (w.renew m o).got = w.got := by
    intro w m o
    unfold World.renew
    split <;> rfl
  simp only [World.step, MSrc.die, MSrc.pull] at hf ⊢
  cases hreq : w.src.request nf o w.pos with
  | error e => exact ⟨[], by simp, plain _⟩
  | ok y =>
    cases y with
    | inl b => exact ⟨[], by simp, plain _⟩
    | inr ps =>
      rw [hreq] at hf
      simp only [heard] at hf ⊢
      cases hb : blockOf (resp ps) with
      | none => exact ⟨[], by simp, plain _⟩
      | some v =>
        rw [hb] at hf
        simp only [Option.toList_some, List.singleton_append] at hf ⊢
        by_cases hg : (w.src.mv.get v.id).isSome
        · simp only [hg, if_true]
          exact ⟨[], by simp, plain _⟩
        · simp only [hg, if_false, Bool.false_eq_true] at hf ⊢
          have hv : v = B v.id ∧ v.number < 2 ^ 64 := by
            split at hf
            · exact hf.ok v (by simp)
            · rw [hren] at hf
              exact hf.ok v (by simp)
          obtain ⟨sel, R, Rn, m', h1, _, h2, h3, _⟩ := insertAndDie_spec h.rel hv.1 hv.2 ho w.src.depth n
          rw [h1]
          refine ⟨[v.id], by simp, fun k b hk => ?_⟩
          rcases renew_sub h2 o' hk with ⟨b', h4⟩ | h4
          · rw [h2.get] at h4
            split at h4
            · rename_i hs
              rw [specDrop_apply] at hs
              by_cases hkv : k = v.id
              · exact .inl (by simp [hkv])
              · right
                refine ⟨B k, ?_⟩
                rw [h.rel.get, if_pos]
                have hs1 : (specInsert w.src.mv.storeFrom S v k).isSome := by
                  split at hs
                  · cases hs
                  · split at hs
                    · simpa using hs
                    · exact hs
                unfold specInsert at hs1
                split at hs1
                · exact hs1
                · simp only at hs1
                  split at hs1
                  · rename_i hh; exact absurd hh hkv
                  · exact hs1
            · cases h4
          · exact .inr ⟨b, h4⟩

/-- Whether the process dies. -/
def isCrash : Act P → Bool
  | .crash _ _ _ _ => true
  | _ => false

omit [DecidableEq P] in
theorem len_le {m m' : MV} {S' : Tree} (hrel : Rel B m' S') {extra : List Key}
    (hs : ∀ k b, m'.get k = some b → k ∈ extra ∨ ∃ b', m.get k = some b') : m'.len ≤ m.len + extra.length := by
  rw [len_keys, len_keys]
  have hsub : m'.all.keys ⊆ m.all.keys ++ extra := by
    intro k hk
    obtain ⟨b, hb⟩ := (mem_keys m' k).1 hk
    rcases hs k b hb with h1 | h1
    · exact List.mem_append.2 (.inr h1)
    · exact List.mem_append.2 (.inl ((mem_keys m k).2 h1))
  have := (List.subperm_of_subset hrel.mem.nodup hsub).length_le
  simpa using this

theorem crash_run {p0 : Option P} {Q : Prop} (hQ : Q → p0 = none) : ∀ {as : List (Act P)} {w : World P} {S : Tree} {c : Nat},
    WInv B d r nf p0 Q w S → w.src.mv.len ≤ d + 2 + c → (∀ a ∈ as, a.Ok Q) → Feed B r (w.run nf as).got →
    (∀ u ∈ (w.run nf as).got, ∀ v ∈ (w.run nf as).got, u.number = v.number → u = v) → Points nf (w.run nf as).got →
    (w.run nf as).src.mv.len ≤ d + 2 + (c + as.countP isCrash)
  | [], _, _, _, _, hw, _, _, _, _ => hw
  | a :: as, w, S, c, h, hw, ha, hf, hli, hp => by
    obtain ⟨l, hl⟩ := run_got nf as (w.step nf a)
    have e : w.run nf (a :: as) = (w.step nf a).run nf as := rfl
    rw [e] at hf hli hp ⊢
    have hf' := hf
    have hli' := hli
    have hp' := hp
    rw [hl] at hf' hli' hp'
    have hli1 : ∀ u ∈ (w.step nf a).got, ∀ v ∈ (w.step nf a).got, u.number = v.number → u = v :=
      fun u hu v hv => hli' u (List.mem_append.2 (.inr hu)) v (List.mem_append.2 (.inr hv))
    have hcp' := commonPrefix_of_linear hf'.append hli1 d
    obtain ⟨S1, h1⟩ := h.step hQ (ha a (by simp)) hf'.append hcp' hp'.append
    have hok := ha a (by simp)
    have hstep : (w.step nf a).src.mv.len ≤ d + 2 + (c + if isCrash a then 1 else 0) := by
      cases a with
      | pull o resp =>
        rcases window_pull h hok hf'.append hcp' with h2 | ⟨h2, _, _⟩
        · have := few_window h1.rel h1.sf h1.inv hf'.append h2 hli1
          omega
        · rw [h2]
          omega
      | restart o =>
        have := len_le (m := w.src.mv) (extra := []) h1.rel (fun k b hk => by
          rcases renew_sub h.rel o hk with h2 | h2
          · exact .inr h2
          · exact .inr ⟨b, h2⟩)
        simp only [List.length_nil] at this
        omega
      | crash o resp n o' =>
        obtain ⟨extra, h2, h3⟩ := crash_sub h hok.2.1 hf'.append
        have := len_le h1.rel h3
        simp only [isCrash, if_true]
        omega
    have := crash_run hQ h1 hstep (fun b hb => ha b (List.mem_cons_of_mem _ hb)) hf hli hp
    rw [List.countP_cons]
    omega

/-- C117 with crashes, for a chain without forks: each crash leaves at most one block more. -/
theorem C117_crashes {as : List (Act P)} (ha : ∀ a ∈ as, a.Ok True) {w : World P}
    (hw : w = (World.start d none).run nf as) (hf : Feed B r w.got)
    (hl : ∀ u ∈ w.got, ∀ v ∈ w.got, u.number = v.number → u = v) (hp : Points nf w.got) :
    w.src.mv.len ≤ d + 2 + as.countP isCrash := by
  subst hw
  have := crash_run (Q := True) (c := 0) (by simp) (WInv.start B d r nf none True)
    (by simp [World.start, MV.len, MV.empty]) ha hf hl hp
  omega

/-- C117 with crashes: whatever the crashes, the blocks of the window are kept. -/
theorem C117_at_least {as : List (Act P)} (ha : ∀ a ∈ as, a.Ok True) {w : World P}
    (hw : w = (World.start d none).run nf as) (hf : Feed B r w.got) (hcp : CommonPrefix B d r w.got)
    (hp : Points nf w.got) {b : Block} (hb : b ∈ w.got) (hx : ∀ x ∈ w.got, x.number ≤ b.number + d + 1) :
    w.src.mv.get b.id = some b := by
  subst hw
  obtain ⟨S, h⟩ := WInv.run (Q := True) (by simp) (WInv.start B d r nf none True) ha hf hcp hp
  rw [h.rel.get, if_pos (h.inv.keep b hb hx), ← (hf.ok b hb).1]

/-! ## The fork handling source -/

/-- C117 for the fork handling source, under the conditions of C25. -/
theorem C117_fork_kept {p0 : P} {as : List (FAct P)} (ha : ∀ a ∈ as, a.Ok) {w : FWorld P}
    (hw : w = (FWorld.start d (B r).parent).run (pointOf B nf r p0) nf as)
    (hq : QuietRestarts (pointOf B nf r p0) nf (FWorld.start d (B r).parent) as)
    (hf : Feed B r w.got) (hp : FPoints nf p0 w.got) (hs : Shallow B d r w.got) :
    (∀ k b, w.src.mv.get k = some b ↔ b ∈ w.got ∧ b.id = k ∧ ∀ x ∈ w.got, x.number ≤ b.number + d + 1) ∧
    (∀ b, (∃ kb, AMap.get w.src.mv.db kb = some b) ↔ b ∈ w.got ∧ ∀ x ∈ w.got, x.number ≤ b.number + d + 1) := by
  subst hw
  obtain ⟨S, h⟩ := FInv.run (FInv.start B d r nf p0) ha hq hf hp hs
  refine kept_exact h.rel h.sf h.inv hf (fun k b hk x hx => ?_)
  rw [h.rel.get] at hk
  split at hk
  · rename_i hS
    rw [← Option.some.inj hk]
    exact h.low k hS x hx
  · cases hk

/-- The block that was last delivered for the first time, and what was delivered before and since. -/
theorem newest_split : ∀ {D : List Block} {v : Block}, lastNew D = some v →
    ∃ l G, D = l ++ v :: G ∧ v ∉ G ∧ ∀ x ∈ l, x ∈ v :: G
  | [], _, h => by cases h
  | u :: D, v, h => by
    unfold lastNew at h
    split at h
    · rename_i hu
      obtain ⟨l, G, rfl, h1, h2⟩ := newest_split h
      refine ⟨u :: l, G, rfl, h1, fun x hx => ?_⟩
      rcases List.mem_cons.1 hx with rfl | hx
      · rcases List.mem_append.1 hu with hu | hu
        · exact h2 _ hu
        · exact hu
      · exact h2 x hx
    · rename_i hu
      obtain rfl := Option.some.inj h
      exact ⟨[], D, rfl, hu, by simp⟩

/-- C117: the fork handling source never has more than `d + 1` events waiting. -/
theorem C117_fork_queue {p0 : P} {as : List (FAct P)} (ha : ∀ a ∈ as, a.Ok) {w : FWorld P}
    (hw : w = (FWorld.start d (B r).parent).run (pointOf B nf r p0) nf as)
    (hq : QuietRestarts (pointOf B nf r p0) nf (FWorld.start d (B r).parent) as)
    (hf : Feed B r w.got) (hp : FPoints nf p0 w.got) (hs : Shallow B d r w.got) :
    w.src.events.length ≤ d + 1 := by
  obtain ⟨_, c, hc0, _, hc⟩ := C25_valid_partial ha hw hq hf hp hs
  subst hw
  obtain ⟨S, h⟩ := FInv.run (FInv.start B d r nf p0) ha hq hf hp hs
  generalize (FWorld.start d (B r).parent).run (pointOf B nf r p0) nf as = w at *
  cases hv : lastNew w.got with
  | none => simp [h.idle (lastNew_none hv)]
  | some v =>
    obtain ⟨l, G, hg, hn, hl⟩ := newest_split hv
    have hsG := hs
    rw [hg] at hsG
    obtain ⟨_, _, h3⟩ := hsG.append
    cases hu : lastNew G with
    | some u =>
      obtain ⟨i, j, hi, hj, he, hx⟩ := h3 hn u hu
      have h4 := h.roll l v G hg hn hl u hu i j hi hj he hx
      have := hx v (by simp)
      omega
    | none =>
      have hG := lastNew_none hu
      subst hG
      have hfv := hf
      rw [hg] at hfv
      have hvr : v.id = r := by
        rcases hfv.append.order [] v [] rfl with h7 | ⟨u, hu, _⟩
        · exact h7
        · cases hu
      have hnum : v.number = (B r).number := by
        rw [← hvr, ← (hfv.append.ok v (by simp)).1]
      obtain ⟨c', h5, h6⟩ := h.chain
      obtain rfl := Option.some.inj (hc0.symm.trans h5)
      obtain ⟨_, h7, h8, _⟩ := hc v hv
      rw [path_length, hnum, Nat.sub_self] at h7
      cases hev : w.src.events with
      | nil => simp
      | cons e es =>
        obtain ⟨b, rfl⟩ := h8 e (by simp [hev])
        rw [hev] at h6 h7
        cases c with
        | nil => simp [consumeAll, consume] at h6
        | cons k ks =>
          simp only [List.length_cons] at h7 ⊢
          omega

/-- The sample of C23, with a fork of one block: of six blocks, four are kept at depth 1. -/
example : ∃ w, w = (World.start 1 (some [9])).run idPoint forkActs ∧ w.got.length = 7 ∧ w.src.mv.get [1] = none ∧
    w.src.mv.get [3] = some (treeB [3]) ∧ w.src.mv.get [2] = some (treeB [2]) := by
  have hf : Feed treeB [0] ((World.start 1 (some [9])).run idPoint forkActs).got := feed_of_check (by decide +kernel)
  have hk := (C117_kept (d := 1) (forkActs_ok False) rfl hf (prefix_of_check (n := 5) (by decide +kernel))
    (idPoint_points fun v hv => (hf.ok v hv).1)).1
  refine ⟨_, rfl, by decide +kernel, ?_, (hk _ _).2 (by decide +kernel), (hk _ _).2 (by decide +kernel)⟩
  cases h : ((World.start 1 (some [9])).run idPoint forkActs).src.mv.get [1] with
  | none => rfl
  | some b =>
    obtain ⟨h1, h2, h3⟩ := (hk _ _).1 h
    have h4 := h3 (treeB [5]) (by decide +kernel)
    have h5 : b = treeB [1] := by rw [(hf.ok b h1).1, h2]
    rw [h5] at h4
    exfalso
    revert h4
    decide +kernel

/-- A chain of four blocks without fork. -/
def lineActs : List (Act Key) := [deliver [0], deliver [1], .restart plainOrders, deliver [3], deliver [4]]

theorem lineActs_ok : ∀ a ∈ lineActs, a.Ok False := by
  intro a ha
  simp only [lineActs, deliver, List.mem_cons, List.not_mem_nil, or_false] at ha
  rcases ha with rfl | rfl | rfl | rfl | rfl <;> exact plainOrders_ok

example : ∃ w, w = (World.start 0 (some [9])).run idPoint lineActs ∧ w.got.length = 4 ∧ w.src.mv.len ≤ 0 + 2 := by
  have hf : Feed treeB [0] ((World.start 0 (some [9])).run idPoint lineActs).got := feed_of_check (by decide +kernel)
  refine ⟨_, rfl, by decide +kernel, C117_few (B := treeB) (r := [0]) lineActs_ok rfl hf (by decide +kernel)
    (idPoint_points fun v hv => (hf.ok v hv).1)⟩

/-- The process dies before anything is removed. -/
def dieEarly (k : Key) : Act Key := .crash plainOrders (fun _ => .ok (some (.block (treeB k)))) 0 plainOrders

/-- Nothing new. -/
def idle : Act Key := .pull plainOrders (fun _ => .ok none)

/-- The process dies with every new block. -/
def dyingActs : List (Act Key) := [dieEarly [0], idle, dieEarly [1], idle, dieEarly [3], idle, dieEarly [4], idle]

theorem dyingActs_ok : ∀ a ∈ dyingActs, a.Ok True := by
  intro a ha
  simp only [dyingActs, dieEarly, idle, List.mem_cons, List.not_mem_nil, or_false] at ha
  rcases ha with rfl | rfl | rfl | rfl | rfl | rfl | rfl | rfl <;>
    first | exact plainOrders_ok | exact ⟨trivial, plainOrders_ok, plainOrders_ok⟩

/-- C117 is false while the process dies with every new block: nothing is ever removed, although the consumer gets on. -/
theorem C117_crashes_false : ¬ ∀ (B : Key → Block) (r : Key) (d : Nat) (as : List (Act Key)), (∀ a ∈ as, a.Ok True) →
    Feed B r ((World.start d none).run idPoint as).got →
    (∀ u ∈ ((World.start d none).run idPoint as).got, ∀ v ∈ ((World.start d none).run idPoint as).got,
      u.number = v.number → u = v) →
    ((World.start d none).run idPoint as).src.mv.len ≤ d + 2 := by
  intro h
  have := h treeB [0] 0 dyingActs dyingActs_ok (feed_of_check (by decide +kernel)) (by decide +kernel)
  revert this
  decide +kernel

/-- Each of its four crashes has left one block, but the bound also counts the two blocks of the window. -/
example : ∃ w, w = (World.start 0 none).run idPoint dyingActs ∧ w.src.mv.len = 4 ∧ w.src.mv.len ≤ 0 + 2 + 4 := by
  have hf : Feed treeB [0] ((World.start 0 none).run idPoint dyingActs).got := feed_of_check (by decide +kernel)
  refine ⟨_, rfl, by decide +kernel, C117_crashes (B := treeB) (r := [0]) dyingActs_ok rfl hf (by decide +kernel)
    (idPoint_points fun v hv => (hf.ok v hv).1)⟩

/-- And with the next block all of it is gone. -/
example : ∃ w, w = ((World.start 0 none).run idPoint dyingActs).step idPoint (deliver [5]) ∧
    w.src.mv.get [3] = none ∧ w.src.mv.get [4] = some (treeB [4]) := by
  have hf : Feed treeB [0] (((World.start 0 none).run idPoint dyingActs).step idPoint (deliver [5])).got :=
    feed_of_check (by decide +kernel)
  have hk := (C117_after_crashes (d := 0) (v := treeB [5]) dyingActs_ok rfl plainOrders_ok rfl (by decide +kernel)
    (by decide +kernel) hf (prefix_of_check (n := 5) (by decide +kernel)) (idPoint_points fun v hv => (hf.ok v hv).1)).1
  refine ⟨_, rfl, ?_, (hk _ _).2 (by decide +kernel)⟩
  cases h : (((World.start 0 none).run idPoint dyingActs).step idPoint (deliver [5])).src.mv.get [3] with
  | none => rfl
  | some b =>
    obtain ⟨h1, h2, h3⟩ := (hk _ _).1 h
    have h4 := h3 (treeB [5]) (by decide +kernel)
    have h5 : b = treeB [3] := by rw [(hf.ok b h1).1, h2]
    rw [h5] at h4
    exfalso
    revert h4
    decide +kernel

theorem frun_switch : frun 1 switchActs =
    (FWorld.start 1 (treeB [0]).parent).run (pointOf treeB idPoint [0] [9]) idPoint switchActs := rfl

theorem switch_kept {w : FWorld Key} (hw : frun 1 switchActs = w) (hf : Feed treeB [0] w.got) (hp : FPoints idPoint [9] w.got)
    (hs : Shallow treeB 1 [0] w.got) :
    (∀ k b, w.src.mv.get k = some b ↔ b ∈ w.got ∧ b.id = k ∧ ∀ x ∈ w.got, x.number ≤ b.number + 1 + 1) ∧
    w.src.events.length ≤ 1 + 1 := by
  have hq : QuietRestarts (pointOf treeB idPoint [0] [9]) idPoint (FWorld.start 1 (treeB [0]).parent) switchActs := by
    simp [switchActs, QuietRestarts, fdeliver]
  exact ⟨(C117_fork_kept (fdeliver_ok _) (hw.symm.trans frun_switch) hq hf hp hs).1,
    C117_fork_queue (fdeliver_ok _) (hw.symm.trans frun_switch) hq hf hp hs⟩

theorem switch_feed : Feed treeB [0] (frun 1 switchActs).got := feed_of_check (by decide +kernel)

theorem switch_points : FPoints idPoint [9] (frun 1 switchActs).got := fpoints_sample (by decide +kernel)

theorem switch_shallow : Shallow treeB 1 [0] (frun 1 switchActs).got := shallow_of_check (n := 3) (by decide +kernel)

/-- The sample of C25, in which a fork is taken. -/
example : ∃ w, w = frun 1 switchActs ∧ w.got.length = 6 ∧ w.src.events.length ≤ 1 + 1 ∧
    w.src.mv.get [3] = some (treeB [3]) ∧ w.src.mv.get [0] = none := by
  obtain ⟨w, hw⟩ : ∃ w, frun 1 switchActs = w := ⟨_, rfl⟩
  have hf := switch_feed
  have hp := switch_points
  have hs := switch_shallow
  have e : (frun 1 switchActs).got = [[5], [4], [3], [2], [1], [0]].map treeB := by decide +kernel
  rw [hw] at hf hp hs e
  obtain ⟨hk, hl⟩ := switch_kept hw hf hp hs
  refine ⟨w, hw.symm, by rw [e]; rfl, hl, (hk _ _).2 (by rw [e]; decide), ?_⟩
  refine Option.eq_none_iff_forall_ne_some.2 fun b h => ?_
  obtain ⟨h1, h2, h3⟩ := (hk _ _).1 h
  have h4 := h3 (treeB [5]) (by rw [e]; decide)
  rw [(hf.ok b h1).1, h2] at h4
  exact absurd h4 (by decide)

/-- The bound is reached: at depth 0 one event waits after a fork of one block. -/
example : ∃ w, w = frun 0 (switchActs.take 5) ∧ Shallow treeB 0 [0] w.got ∧ w.src.events.length = 0 + 1 :=
  ⟨_, rfl, shallow_of_check (n := 3) (by decide +kernel), by decide +kernel⟩

end Verif.Props
