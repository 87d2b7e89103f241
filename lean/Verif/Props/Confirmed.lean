import Verif.Sources.ConfirmedLive
import Verif.Props.MultiverseSource
import Verif.Props.CardanoSource

/-!
# C81: following a Cardano node with confirmations

`Sys.run` runs a consumer of the multiverse source over the Cardano source; `taken as` are the nodes (what the node and the
connection did) at the requests the handler took. `Nodes` says what is assumed of them: each chain begins with the same
blocks `pre` and goes on with a chain that begins with the block `r` (`after` gives it); rollbacks are at most `d` blocks
long, `d` being the confirmation depth; following begins at `base`, the point of the last block of `pre` (or the parent of
the genesis block). Connections may break and calls may fail at any time.
-/

namespace Verif.Props

open Verif.Multiverse Verif.Sources Verif.Sources.Confirmed
open Verif.Sources.Cardano (Point NBlock Net Out PullRes St Config)

variable {cfg : Config} {D : Decoder} {B : Key → Block} {r : Key} {pre : List NBlock} {base : Point} {n : Net}
  {d : Nat} {p0 : Option Point} {Q : Prop}

theorem ids_of_views {l : List Block} {xs : List NBlock} (hl : ∀ v ∈ l, v = B v.id)
    (hx : ∀ x ∈ xs, D.view x = B (D.view x).id) (h : l.map Block.id = xs.map (fun x => (D.view x).id)) :
    l = xs.map D.view := by
  induction l generalizing xs with
  | nil =>
    cases xs with
    | nil => rfl
    | cons x xs => cases h
  | cons v l ih =>
    cases xs with
    | nil => cases h
    | cons x xs =>
      rw [List.map_cons, List.map_cons] at h
      obtain ⟨h1, h2⟩ := List.cons.inj h
      rw [List.map_cons, ih (fun v hv => hl v (List.mem_cons_of_mem _ hv))
        (fun x hx' => hx x (List.mem_cons_of_mem _ hx')) h2, hl v (by simp), hx x (by simp), h1]

/-- What is confirmed is the chain up to a block of maximal number, without its last `d` blocks. -/
theorem confirmed_chain {N : List Net} {s : Sys} (h : SInv cfg D B r pre base d p0 Q N s)
    (hN : Nodes cfg D B r pre base d N) (hn : n ∈ N) {m : Nat} {a : NBlock} (ha : (after pre.length n)[m]? = some a)
    (hg : D.view a ∈ s.w.got) (hm : ∀ y ∈ s.w.got, y.number ≤ (D.view a).number) :
    pathTo B r s.w.src.confirmed = ((after pre.length n).take (m + 1 - d)).map (fun x => (D.view x).id) := by
  obtain ⟨S, hw⟩ := h.wi
  rw [out_of_conf hw h.feed hg hm, (hN.ok n hn).number ha, Nat.add_sub_cancel_left, (hN.ok n hn).path ha, ← List.map_take,
    List.take_take]
  congr 2
  omega

/-- What the consumer has received is part of the chain up to a block of maximal number without its last `d` blocks: all of it,
or (after a crash) all but its last block. -/
theorem received {N : List Net} {s : Sys} (h : SInv cfg D B r pre base d p0 Q N s) (hN : Nodes cfg D B r pre base d N)
    (hn : n ∈ N) {m : Nat} {a : NBlock} (ha : (after pre.length n)[m]? = some a) (hg : D.view a ∈ s.w.got)
    (hm : ∀ y ∈ s.w.got, y.number ≤ (D.view a).number) :
    s.w.out = ((after pre.length n).take (m + 1 - d)).map D.view ∨
    Q ∧ s.w.out.length + 1 = m + 1 - d ∧ s.w.out = ((after pre.length n).take s.w.out.length).map D.view := by
  have hc := confirmed_chain h hN hn ha hg hm
  obtain ⟨S, hw⟩ := h.wi
  have hv : ∀ v ∈ s.w.out, v = B v.id := fun v hv => (h.feed.ok v (hw.sub v hv)).1
  have hx : ∀ k, ∀ x ∈ (after pre.length n).take k, D.view x = B (D.view x).id :=
    fun k x hx => ((hN.ok n hn).block x (List.mem_of_mem_take hx)).1
  have hlt : m < (after pre.length n).length := (List.getElem?_eq_some_iff.1 ha).1
  rcases hw.out with h1 | ⟨c, hq, h1, h2⟩
  · exact .inl (ids_of_views hv (hx _) (h1.trans hc))
  · right
    rw [h1] at hc
    rw [hc] at h2
    have hlen := congrArg List.length h2
    simp only [List.length_append, List.length_map, List.length_cons, List.length_nil, List.length_take] at hlen
    refine ⟨hq, by omega, ids_of_views hv (hx _) ?_⟩
    have h3 := congrArg (List.take s.w.out.length) h2
    rw [List.take_left' (by simp)] at h3
    rw [h3, ← List.map_take, List.take_take]
    congr 2
    omega

theorem exists_max {N : List Net} {s : Sys} (h : SInv cfg D B r pre base d p0 Q N s) (hg : s.w.got ≠ []) :
    ∃ n ∈ N, ∃ (m : Nat) (a : NBlock), (after pre.length n)[m]? = some a ∧ D.view a ∈ s.w.got ∧ ∀ y ∈ s.w.got, y.number ≤ (D.view a).number := by
  obtain ⟨x, hx, hm⟩ := exists_top hg
  obtain ⟨n, hn, a, ha, rfl⟩ := h.sub x hx
  obtain ⟨m, hm', rfl⟩ := List.getElem_of_mem ha
  exact ⟨n, hn, m, _, List.getElem?_eq_getElem hm', hx, hm⟩

theorem out_nil {N : List Net} {s : Sys} (h : SInv cfg D B r pre base d p0 Q N s) (hg : s.w.got = []) : s.w.out = [] := by
  obtain ⟨S, hw⟩ := h.wi
  cases ho : s.w.out with
  | nil => rfl
  | cons v l =>
    have := hw.sub v (by rw [ho]; simp)
    rw [hg] at this
    cases this

/-- C81: in every schedule, without crashes, the consumer has received exactly the chain from the first block to the block
with the highest number that the node has delivered, without its last `d` blocks; nothing fails but the connection. -/
theorem C81_released (hD : D.Ok) (h0 : StartsAt cfg base p0) {as : List SAct} (ha : ∀ a ∈ as, a.Ok False) {s : Sys}
    (hr : (Sys.start d p0).run cfg D as = some s) (hN : Nodes cfg D B r pre base d (taken as)) :
    s.w.failed = none ∧ (s.w.got = [] → s.w.out = []) ∧
    ∀ n ∈ taken as, ∀ m a, (after pre.length n)[m]? = some a → D.view a ∈ s.w.got →
      (∀ y ∈ s.w.got, y.number ≤ (D.view a).number) →
      s.w.out = ((after pre.length n).take (m + 1 - d)).map D.view := by
  have h := SInv.run (Q := False) hD (by simp) h0 (SInv.start cfg D B r pre base d p0 False) ha hr
    (by simpa using hN)
  rw [List.nil_append] at h
  refine ⟨?_, out_nil h, fun n hn m a ham hg hm => ?_⟩
  · obtain ⟨S, hw⟩ := h.wi
    exact hw.failed
  · rcases received h hN hn ham hg hm with h1 | ⟨h1, _⟩
    · exact h1
    · cases h1

/-- C81: what the consumer has received is never undone, with or without crashes: it is part of a chain of the node, at least `d`
blocks before its end, and of every chain the node has later. -/
theorem C81_never_undone (hD : D.Ok) (h0 : StartsAt cfg base p0) {as : List SAct} (hQ : Q → p0 = none)
    (ha : ∀ a ∈ as, a.Ok Q) {s : Sys} (hr : (Sys.start d p0).run cfg D as = some s)
    (hN : Nodes cfg D B r pre base d (taken as)) :
    s.w.failed = none ∧
    (s.w.out ≠ [] → ∃ n ∈ taken as, s.w.out <+: (after pre.length n).map D.view ∧
      s.w.out.length + d ≤ (after pre.length n).length) ∧
    ∀ n', Nodes cfg D B r pre base d (taken as ++ [n']) → s.w.out <+: (after pre.length n').map D.view := by
  have h := SInv.run (Q := Q) hD hQ h0 (SInv.start cfg D B r pre base d p0 Q) ha hr (by simpa using hN)
  rw [List.nil_append] at h
  have key : s.w.out ≠ [] → ∃ n ∈ taken as, ∃ k, s.w.out = ((after pre.length n).take k).map D.view ∧
      k + d ≤ (after pre.length n).length := by
    intro hne
    obtain ⟨n, hn, m, a, ham, hg, hm⟩ := exists_max h (fun hg => hne (out_nil h hg))
    have hlt : m < (after pre.length n).length := (List.getElem?_eq_some_iff.1 ham).1
    rcases received h hN hn ham hg hm with h1 | ⟨_, h1, h2⟩
    · refine ⟨n, hn, m + 1 - d, h1, ?_⟩
      by_contra hlt'
      have : m + 1 - d = 0 := by omega
      rw [this] at h1
      exact hne (by simpa using h1)
    · exact ⟨n, hn, _, h2, by omega⟩
  refine ⟨?_, fun hne => ?_, fun n' hN' => ?_⟩
  · obtain ⟨S, hw⟩ := h.wi
    exact hw.failed
  · obtain ⟨n, hn, k, h1, h2⟩ := key hne
    refine ⟨n, hn, ?_, ?_⟩
    · rw [h1, List.map_take]
      exact List.take_prefix _ _
    · rw [h1, List.length_map, List.length_take]
      omega
  · by_cases hne : s.w.out = []
    · rw [hne]
      exact List.nil_prefix
    · obtain ⟨n, hn, k, h1, h2⟩ := key hne
      have hag : Agree d n n' := (List.pairwise_append.1 hN'.agree).2.2 n hn n' (by simp)
      have hok := hN.ok n hn
      have hok' := hN'.ok n' (by simp)
      have : (after pre.length n).take k <+: after pre.length n' := by
        have hlen : n.chain.length = pre.length + (after pre.length n).length := by
          conv_lhs => rw [hok.chain]
          simp
        have h3 : pre ++ (after pre.length n).take k <+: n'.chain := by
          have h4 : pre ++ (after pre.length n).take k <+: n.chain.take (n.chain.length - d) := by
            have h5 : n.chain.take (n.chain.length - d) =
                pre ++ (after pre.length n).take (n.chain.length - d - pre.length) := by
              conv_lhs => rw [hok.chain]
              rw [List.take_append, ← hok.chain, List.take_of_length_le (by omega)]
            rw [h5]
            refine (List.prefix_append_right_inj _).2 ?_
            exact List.take_prefix_take_left (by omega)
          exact h4.trans hag
        rw [hok'.chain] at h3
        exact (List.prefix_append_right_inj _).1 h3
      rw [h1]
      exact this.map _

/-- A node that answers: connections can be made and do not break, and the positions are well formed. -/
structure Answers (n : Net) : Prop where
  connects : n.connects = true
  intersects : n.intersects = true
  range : n.range = .value ()
  cut : n.cut = none

/-- C81: what the consumer sees of an answer of the Cardano source that is not a new block: nothing for an answer without event,
the tip for a tip, and a failure of the pull for a block that cannot be converted and for a stopped handler; the consumer and
the store are as before. -/
theorem C81_answers (s : Sys) (o : Orders) {ps : List Point} (hreq : s.w.src.request D.nf o s.w.pos = .ok (.inr ps)) :
    (∀ x : PullRes × Except SrcErr (Option Ev), x ∈ [(PullRes.nothing, Except.ok none), (.event .bad, .error .inner),
        (.stopped, .error .inner)] ∨ (∃ p : Point, x = (.event (.tip p), .ok (some (.tip p.slot)))) →
      (s.w.src.pull D.nf o s.w.pos (fun _ => reply D x.1)).res = x.2 ∧
      s.w.step D.nf (.pull o (fun _ => reply D x.1)) = s.w) := by
  rintro x (hx | ⟨p, rfl⟩)
  · simp only [List.mem_cons, List.not_mem_nil, or_false] at hx
    rcases hx with rfl | rfl | rfl <;>
      simp [World.step, MSrc.pull, hreq, reply, MSrc.answer, released, advance, heard, blockOf, Sources.failure]
  · simp [World.step, MSrc.pull, hreq, reply, MSrc.answer, released, advance, heard, blockOf, Sources.failure]

theorem agree_refl (d : Nat) (n : Net) : Agree d n n := List.take_prefix _ _

theorem nodes_repeat {N : List Net} (h : Nodes cfg D B r pre base d (N ++ [n])) {N' : List Net} (hN' : ∀ n' ∈ N', n' = n) :
    Nodes cfg D B r pre base d (N ++ N') := by
  refine ⟨fun x hx => ?_, fun x hx => ?_, List.pairwise_append.2 ⟨(List.pairwise_append.1 h.agree).1, ?_, fun x hx y hy => ?_⟩⟩
  · rcases List.mem_append.1 hx with hx | hx
    · exact h.ok x (List.mem_append.2 (.inl hx))
    · rw [hN' x hx]; exact h.ok n (by simp)
  · rcases List.mem_append.1 hx with hx | hx
    · exact h.base x (List.mem_append.2 (.inl hx))
    · rw [hN' x hx]; exact h.base n (by simp)
  · refine List.pairwise_iff_getElem.2 (fun i j hi hj _ => ?_)
    rw [hN' _ (List.getElem_mem hi), hN' _ (List.getElem_mem hj)]
    exact agree_refl d n
  · rw [hN' y hy]
    exact (List.pairwise_append.1 h.agree).2.2 x hx n (by simp)

theorem sys_append : ∀ {l l' : List SAct} {x y : Sys}, x.run cfg D l = some y → x.run cfg D (l ++ l') = y.run cfg D l'
  | [], l', x, y, h => by
    obtain rfl := Option.some.inj h
    rfl
  | a :: l, l', x, y, h => by
    rw [Sys.run] at h
    rw [List.cons_append, Sys.run]
    cases hst : x.step cfg D a with
    | none => rw [hst] at h; cases h
    | some z =>
      rw [hst] at h
      exact sys_append h

/-! ### A consumer that lacks the confirmed block after a crash -/

/-- A block is confirmed that the consumer has not received. -/
def Lags (B : Key → Block) (r : Key) (s : Sys) : Prop :=
  ∃ c, s.w.src.confirmed = some c ∧ s.w.out.map Block.id ++ [c] = pathTo B r (some c)

theorem lags_or {N : List Net} {s : Sys} (h : SInv cfg D B r pre base d p0 Q N s) :
    SInv cfg D B r pre base d p0 False N s ∨ Q ∧ Lags B r s := by
  obtain ⟨S, hw⟩ := h.wi
  rcases hw.out with h1 | ⟨c, hq, h1, h2⟩
  · exact .inl { h with wi := ⟨S, { hw with out := .inl h1 }⟩ }
  · exact .inr ⟨hq, c, h1, h2⟩

theorem not_lags {N : List Net} {s : Sys} (h : SInv cfg D B r pre base d p0 False N s) : ¬ Lags B r s := by
  rintro ⟨c, h1, h2⟩
  obtain ⟨S, hw⟩ := h.wi
  rcases hw.out with h3 | ⟨_, hf, _⟩
  · rw [h1, ← h2] at h3
    have := congrArg List.length h3
    simp at this
  · exact hf

/-- Then its pull gives the block at once, and no pull waits. -/
theorem lags_request (hD : D.Ok) {N : List Net} {s : Sys} (h : SInv cfg D B r pre base d none Q N s)
    (hN : Nodes cfg D B r pre base d N) (hl : Lags B r s) :
    s.pend = none ∧ ∀ o : Orders, o.Ok → ∃ b, s.w.src.request D.nf o s.w.pos = .ok (.inl b) := by
  obtain ⟨c, h1, h2⟩ := hl
  obtain ⟨S, hw⟩ := h.wi
  have hreq : ∀ o : Orders, o.Ok → ∃ b, s.w.src.request D.nf o s.w.pos = .ok (.inl b) :=
    fun o ho => ⟨_, request_pending hw h.feed (hN.points hD h.sub) h1 h2 ho⟩
  refine ⟨?_, hreq⟩
  cases hp : s.pend with
  | none => rfl
  | some o =>
    obtain ⟨ho, ps, h3⟩ := h.req o hp
    obtain ⟨b, h4⟩ := hreq o ho
    rw [h3] at h4
    cases h4

/-- The first pull ends that, and until then the Cardano source is not asked. -/
theorem lags_step (hD : D.Ok) (hQ : Q → p0 = none) {N : List Net} {s s' : Sys}
    (h : SInv cfg D B r pre base d p0 Q N s) (hN : Nodes cfg D B r pre base d N) (hq : Q) (hl : Lags B r s) {a : SAct}
    (ha : a.Plain) (hs : s.step cfg D a = some s') :
    s'.cs.results = s.cs.results ∧ ((∃ a', a = .inner a') ∨ ¬ Lags B r s') := by
  have hp0 := hQ hq
  subst hp0
  obtain ⟨hp, hreq⟩ := lags_request hD h hN hl
  cases a with
  | pull o =>
    obtain ⟨b, hb⟩ := hreq o ha
    simp only [Sys.step, hp, hb] at hs
    obtain rfl := Option.some.inj hs
    refine ⟨rfl, .inr ?_⟩
    rintro ⟨c', h1, h2⟩
    obtain ⟨c, h3, h4⟩ := hl
    simp only [World.step, MSrc.pull, hb, released] at h1 h2
    rw [h3] at h1
    obtain rfl := Option.some.inj h1
    rw [← h4] at h2
    have := congrArg List.length h2
    simp at this
  | inner a =>
    refine ⟨?_, .inl ⟨a, rfl⟩⟩
    have hidle := h.idle.1 hp
    simp only [Sys.step] at hs
    split at hs
    · rename_i hg
      obtain ⟨cs', h1, h2⟩ := Option.map_eq_some_iff.1 hs
      have : resultOf s cs' = none := by simp [resultOf, hp]
      rw [this] at h2
      rw [← h2]
      dsimp only
      cases effect hg h1 with
      | quiet h2 => exact h2
      | event c o hc h2 _ _ _ _ hw => exact absurd hidle hw
      | ended x hx h2 _ _ _ _ hw => exact absurd hidle hw
      | sent f hf h2 h3 => exact h3
    · cases hs
  | abandon => simp [Sys.step, hp] at hs
  | restart o => cases ha
  | die a k o => cases ha

/-- A consumer that still lacks the block has not asked for anything since. -/
theorem lags_run (hD : D.Ok) (hQ : Q → p0 = none) (h0 : StartsAt cfg base p0) : ∀ {as : List SAct} {N : List Net} {s s' : Sys},
    SInv cfg D B r pre base d p0 Q N s → (∀ a ∈ as, a.Plain) → s.run cfg D as = some s' →
    Nodes cfg D B r pre base d (N ++ taken as) → Lags B r s' → s'.cs.results = s.cs.results
  | [], N, s, s', h, _, hr, _, _ => by
    obtain rfl := Option.some.inj hr
    rfl
  | a :: as, N, s, s', h, ha, hr, hN, hl => by
    have hr' := hr
    rw [Sys.run] at hr
    cases hs : s.step cfg D a with
    | none => rw [hs] at hr; cases hr
    | some s1 =>
      rw [hs] at hr
      have e : N ++ taken (a :: as) = (N ++ taken [a]) ++ taken as := by
        rw [List.append_assoc, ← taken_append]
        rfl
      have hN' := hN
      rw [e] at hN'
      have h1 := h.step hD hQ h0 (ha a (by simp)).ok hs hN'.left
      have h2 := lags_run hD hQ h0 h1 (fun a' ha' => ha a' (List.mem_cons_of_mem _ ha')) hr hN' hl
      rcases lags_or h with h3 | ⟨hq, h3⟩
      · exact absurd hl (not_lags (SInv.run (Q := False) hD (by simp) h0 h3 (fun a ha' => (ha a ha').ok) hr' hN))
      · rw [h2, (lags_step hD hQ h hN.left hq h3 (ha a (by simp)) hs).1]

/-- C81: the consumer catches up. Whatever happened before (restarts and crashes included), if from some moment on the node answers and
keeps its chain, which is as long as those before, then after a number of pulls the consumer has received that chain without
its last `d` blocks. The consumer must have begun at a position on the chain, or have received a block already. -/
theorem C81_catches_up_count_partial (hD : D.Ok) (h0 : StartsAt cfg base p0) {as : List SAct} (hQ : Q → p0 = none)
    (ha : ∀ a ∈ as, a.Ok Q) {s : Sys} (hr : (Sys.start d p0).run cfg D as = some s) (hN : Nodes cfg D B r pre base d (taken as ++ [n]))
    (hread : ∀ n' ∈ taken as ++ [n], Readable n') (hans : Answers n)
    (hlong : ∀ n' ∈ taken as, n'.chain.length ≤ n.chain.length)
    (hvalid : ∀ n' ∈ taken as ++ [n], ∀ b ∈ n'.chain, cfg.valid b.hash = true) (hvb : cfg.validPoint base = true)
    (hpos : (p0 = some base ∧ base ≠ .header 0 cfg.genesisParent) ∨ s.w.out ≠ []) :
    ∃ K, ∀ as' s', (∀ a ∈ as', a.Plain) → (∀ n' ∈ taken as', n' = n) → s.run cfg D as' = some s' →
      s.cs.results.length + K ≤ s'.cs.results.length →
      s'.w.out = ((after pre.length n).take ((after pre.length n).length - d)).map D.view := by
  have h := SInv.run (Q := Q) hD hQ h0 (SInv.start cfg D B r pre base d p0 Q) ha hr
    (by simpa using hN.left)
  have hl := Live.run (Q := Q) hD hQ h0 (SInv.start cfg D B r pre base d p0 Q) Live.start ha hr
    (by simpa using hN.left) (by simpa using fun n' hn' => hread n' (List.mem_append.2 (.inl hn')))
  rw [List.nil_append] at h
  refine ⟨((List.range s.cs.next).map (fun c => (s.cs.plan c).length + (1 + n.chain.length + n.originRange.length))).sum +
      (1 + n.chain.length + n.originRange.length) + s.cs.next + 2 + (s.cs.plan s.cs.next).length,
    fun as' s' ha' hn' hr' hK => ?_⟩
  have hN' := nodes_repeat hN hn'
  have hmem : ∀ x ∈ taken as ++ taken as', x ∈ taken as ++ [n] := by
    intro x hx
    rcases List.mem_append.1 hx with hx | hx
    · exact List.mem_append.2 (.inl hx)
    · rw [hn' x hx]; simp
  have hread' : ∀ n' ∈ taken as ++ taken as', Readable n' := fun x hx => hread x (hmem x hx)
  obtain ⟨q0, hanch, hq0⟩ : ∃ q0, (q0 = p0 ∧ p0 ≠ none ∨ s.w.out ≠ []) ∧
      (q0 = none ∨ q0 = some base ∧ base ≠ .header 0 cfg.genesisParent) := by
    rcases hpos with ⟨h1, h2⟩ | h1
    · exact ⟨p0, .inl ⟨rfl, by rw [h1]; simp⟩, .inr ⟨h1, h2⟩⟩
    · exact ⟨none, .inr h1, .inl rfl⟩
  have h' := SInv.run hD hQ h0 h (fun a ha => (ha' a ha).ok) hr' hN'
  have hl' := Live.run hD hQ h0 h hl (fun a ha => (ha' a ha).ok) hr' hN' hread'
  have ht' := TInv.run hD hQ h0 hans.connects hanch h hl (TInv.refl D q0 n s) ha' hn' hr' hN' hread'
  obtain ⟨hlt, hnet, hgot⟩ := ht'.done h' hl' ((Nat.le_add_left _ _).trans hK)
  have hnN : n ∈ taken as ++ taken as' := h'.nets _ n hnet
  have hnok := hN'.ok n hnN
  -- a position asked for is on the chain
  obtain ⟨q, hq, hanc⟩ := ht'.anchor s.cs.next (le_refl _) (by omega)
  have hqc : ∃ b ∈ n.chain, b.point = q := by
    rcases hanc with h1 | ⟨v, hv, h1⟩
    · rcases hq0 with hq0 | ⟨hq0, hb⟩
      · rw [hq0] at h1
        cases h1
      · rw [hq0] at h1
        obtain rfl := Option.some.inj h1
        rcases hN'.base n hnN with ⟨b0, hb0, hbb⟩ | ⟨hbb, _⟩
        · exact ⟨b0, by rw [hnok.chain]; exact List.mem_append.2 (.inl (List.mem_of_getLast? hb0)), hbb.symm⟩
        · exact absurd hbb hb
    · have hp : s'.w.out <+: (after pre.length n).map D.view := by
        have hrun : (Sys.start d p0).run cfg D (as ++ as') = some s' := by
          rw [sys_append hr, hr']
        refine (C81_never_undone (Q := Q) hD h0 hQ (as := as ++ as') (fun a hm => ?_) hrun
          (by rw [taken_append]; exact hN')).2.2 n ?_
        · rcases List.mem_append.1 hm with hm | hm
          · exact ha a hm
          · exact (ha' a hm).ok
        · rw [taken_append, List.append_assoc]
          exact nodes_repeat hN (fun x hx => by
            rcases List.mem_append.1 hx with hx | hx
            · exact hn' x hx
            · exact List.mem_singleton.1 hx)
      obtain ⟨x, hx, rfl⟩ := List.mem_map.1 (hp.subset hv)
      rw [hD.point] at h1
      exact ⟨x, by rw [hnok.chain]; exact List.mem_append.2 (.inr hx), Option.some.inj h1⟩
  have hmax : ∀ y ∈ s'.w.got, y.number < (B r).number + (after pre.length n).length := by
    intro y hy
    obtain ⟨n', hn1, x, hx, rfl⟩ := h'.sub y hy
    obtain ⟨m, hm, rfl⟩ := List.getElem_of_mem hx
    rw [(hN'.ok n' hn1).number (List.getElem?_eq_getElem hm)]
    have hle : n'.chain.length ≤ n.chain.length := by
      rcases List.mem_append.1 hn1 with hn1 | hn1
      · exact hlong n' hn1
      · rw [hn' n' hn1]
    have e1 : (after pre.length n').length = n'.chain.length - pre.length := List.length_drop
    have e2 : (after pre.length n).length = n.chain.length - pre.length := List.length_drop
    omega
  cases ht : (after pre.length n).getLast? with
  | none =>
    have hnil := List.getLast?_eq_none_iff.1 ht
    rw [hnil] at hmax ⊢
    rw [List.take_nil, List.map_nil]
    refine out_nil h' ?_
    by_contra hg
    obtain ⟨y, hy⟩ := List.exists_mem_of_ne_nil _ hg
    have h1 := hmax y hy
    have h2 := h'.feed.ge hy
    simp only [List.length_nil] at h1
    omega
  | some t =>
    have hreq := h'.asked s.cs.next (by omega)
    have hv : ∀ p ∈ s'.cs.asked s.cs.next, cfg.validPoint p = true := by
      intro p hp
      rcases hreq p hp with rfl | ⟨n', hn1, u, hu, _, rfl⟩
      · exact hvb
      · have hok := hN'.ok n' hn1
        exact hvalid n' (hmem n' hn1) u (by rw [hok.chain]; exact List.mem_append.2 (.inr hu))
    have hparsed : ∀ b ∈ n.chain, b.parsed = .ok := fun b hb => hread n (by simp) b (List.mem_append.2 (.inl hb))
    have htg : D.view t ∈ s'.w.got := by
      rcases handle_all hD hnok (hN'.base n hnN) hN'.ok hreq hans.intersects hans.range hans.cut hparsed hv hq hqc ht with
        h1 | h1
      · exact h1
      · refine h'.del s.cs.next t ?_
        rw [hgot, h'.ci.plan, hnet]
        exact h1
    have hidx : (after pre.length n)[(after pre.length n).length - 1]? = some t := by
      rw [← ht, List.getLast?_eq_getElem?]
    have hpos1 : 0 < (after pre.length n).length := List.length_pos_of_ne_nil (by
      intro he
      rw [he] at ht
      cases ht)
    rcases received h' hN' hnN hidx htg (fun y hy => by
      have := hmax y hy
      rw [hnok.number hidx]
      omega) with h1 | ⟨_, h2, h3⟩
    · rw [h1]
      congr 2
      omega
    · exfalso
      rcases lags_or h' with h4 | ⟨_, h4⟩
      · rcases received h4 hN' hnN hidx htg (fun y hy => by
          have := hmax y hy
          rw [hnok.number hidx]
          omega) with h1 | ⟨h1, _⟩
        · have := congrArg List.length h1
          rw [List.length_map, List.length_take] at this
          omega
        · exact h1
      · have := lags_run hD hQ h0 h ha' hr' hN' h4
        rw [this] at hK
        omega

/-! ### Schedules go on -/

/-- C81: nothing blocks. When no pull is in progress the consumer can pull; when one is, the Cardano source or its handler can
go on, whatever the node does. -/
theorem C81_progress (hD : D.Ok) (h0 : StartsAt cfg base p0) {as : List SAct} (hQ : Q → p0 = none)
    (ha : ∀ a ∈ as, a.Ok Q) {s : Sys} (hr : (Sys.start d p0).run cfg D as = some s)
    (hN : Nodes cfg D B r pre base d (taken as)) :
    (s.pend = none → ∀ o, (s.step cfg D (.pull o)).isSome) ∧
    (s.pend ≠ none → ∀ n : Net, ∃ a, (s.step cfg D (.inner a)).isSome ∧ ∀ n' ∈ taken [.inner a], n' = n) := by
  have h := SInv.run (Q := Q) hD hQ h0 (SInv.start cfg D B r pre base d p0 Q) ha hr (by simpa using hN)
  refine ⟨fun hp o => ?_, fun hp n => ?_⟩
  · simp only [Sys.step, hp]
    split
    · simp only [St.step, h.idle.1 hp, Option.map_some, Option.isSome_some]
    · rfl
  · have hne : s.cs.puller ≠ .idle := fun he => hp (h.idle.2 he)
    have key : ∀ a, going a = true → (s.cs.step cfg a).isSome → (s.step cfg D (.inner a)).isSome := by
      intro a h1 h2
      simp only [Sys.step, h1, if_true, Option.isSome_map, h2]
    rcases progress_of_inv h.ci hne with h1 | h1 | h1 | h1 | h1
    · exact ⟨.recv, key _ rfl h1, by simp [taken, takenBy]⟩
    · exact ⟨.send, key _ rfl h1, by simp [taken, takenBy]⟩
    · exact ⟨.take n, key _ rfl (h1 n), by simp [taken, takenBy]⟩
    · exact ⟨.emit, key _ rfl h1, by simp [taken, takenBy]⟩
    · exact ⟨.finish, key _ rfl h1, by simp [taken, takenBy]⟩

/-- What an action of the Cardano source or its handler does to the pull in progress. -/
theorem inner_step {s s' : Sys} {a : Cardano.Act} (hs : s.step cfg D (.inner a) = some s') :
    Internal a ∧ s.cs.step cfg a = some s'.cs ∧ s.cs.results.length ≤ s'.cs.results.length ∧
    (s'.cs.results.length = s.cs.results.length → s'.pend = s.pend) := by
  simp only [Sys.step] at hs
  split at hs
  · rename_i hg
    obtain ⟨cs', h1, h2⟩ := Option.map_eq_some_iff.1 hs
    have hint : Internal a := by cases a <;> trivial
    have hcs : s'.cs = cs' := by
      rw [← h2]
      split <;> rfl
    have hle : s.cs.results.length ≤ cs'.results.length := by
      cases effect hg h1 with
      | quiet h2 => rw [h2]
      | event c o hc h2 => rw [h2]; simp
      | ended x hx h2 => rw [h2]; simp
      | sent f hf h2 h3 => rw [h3]
    rw [hcs]
    refine ⟨hint, h1, hle, fun hl => ?_⟩
    have : resultOf s cs' = none := by
      unfold resultOf
      cases s.pend with
      | none => rfl
      | some o => dsimp only; rw [List.drop_of_length_le (by omega)]; rfl
    rw [this] at h2
    rw [← h2]
  · cases hs

/-- C81: every pull ends: an unlimited schedule has pulls without limit. -/
theorem C81_returns (f : Nat → Sys) : ¬ ∀ i, ∃ a, (f i).step cfg D (.inner a) = some (f (i + 1)) := by
  intro h
  refine C26_pull_returns (cfg := cfg) (fun i => (f i).cs) (fun i => ?_)
  obtain ⟨a, ha⟩ := h i
  obtain ⟨h1, h2, _⟩ := inner_step ha
  exact ⟨a, h1, h2⟩

/-- The first `i` actions. -/
theorem run_range {act : Nat → SAct} {f : Nat → Sys} (h : ∀ i, (f i).step cfg D (act i) = some (f (i + 1))) :
    ∀ i, (f 0).run cfg D ((List.range i).map act) = some (f i)
  | 0 => rfl
  | i + 1 => by
    rw [List.range_succ, List.map_append, sys_append (run_range h i)]
    simp only [List.map_cons, List.map_nil, Sys.run, h i]

/-- The results only grow. -/
theorem plain_results {s s' : Sys} {a : SAct} (ha : a.Plain) (hs : s.step cfg D a = some s') :
    s.cs.results.length ≤ s'.cs.results.length := by
  cases a with
  | inner a => exact (inner_step hs).2.2.1
  | pull o =>
    simp only [Sys.step] at hs
    split at hs
    · cases hs
    · split at hs
      · obtain ⟨cs', h1, h2⟩ := Option.map_eq_some_iff.1 hs
        rw [← h2]
        simp only [St.step] at h1
        split at h1
        · rw [← Option.some.inj h1]
        · cases h1
      · obtain rfl := Option.some.inj hs
        exact le_refl _
  | abandon =>
    simp only [Sys.step] at hs
    split at hs
    · cases hs
    · obtain ⟨cs', h1, h2⟩ := Option.map_eq_some_iff.1 hs
      rw [← h2]
      simp only [St.abandon] at h1
      split at h1
      · cases h1
      · rw [← Option.some.inj h1]
  | restart o => cases ha
  | die a k o => cases ha

/-- C81: the consumer catches up, in every unlimited schedule in which it does not go on abandoning its pulls, after which it
stays so. -/
theorem C81_catches_up_partial (hD : D.Ok) (h0 : StartsAt cfg base p0) {as : List SAct} (hQ : Q → p0 = none)
    (ha : ∀ a ∈ as, a.Ok Q) {s : Sys} (hr : (Sys.start d p0).run cfg D as = some s) (hN : Nodes cfg D B r pre base d (taken as ++ [n]))
    (hread : ∀ n' ∈ taken as ++ [n], Readable n') (hans : Answers n)
    (hlong : ∀ n' ∈ taken as, n'.chain.length ≤ n.chain.length)
    (hvalid : ∀ n' ∈ taken as ++ [n], ∀ b ∈ n'.chain, cfg.valid b.hash = true) (hvb : cfg.validPoint base = true)
    (hpos : (p0 = some base ∧ base ≠ .header 0 cfg.genesisParent) ∨ s.w.out ≠ []) {act : Nat → SAct} {f : Nat → Sys}
    (hf : f 0 = s) (hplain : ∀ i, (act i).Plain) (hkeep : ∀ i, act i ≠ .abandon) (hn : ∀ i, ∀ n' ∈ taken [act i], n' = n)
    (hstep : ∀ i, (f i).step cfg D (act i) = some (f (i + 1))) :
    ∃ i, ∀ j, i ≤ j → (f j).w.out = ((after pre.length n).take ((after pre.length n).length - d)).map D.view := by
  subst hf
  have hpl : ∀ i, ∀ a ∈ (List.range i).map act, a.Plain := by
    intro i a ha
    obtain ⟨k, _, rfl⟩ := List.mem_map.1 ha
    exact hplain k
  have htk : ∀ i, ∀ n' ∈ taken ((List.range i).map act), n' = n := by
    intro i n' hn'
    obtain ⟨a, ha, h1⟩ := List.mem_flatMap.1 hn'
    obtain ⟨k, _, rfl⟩ := List.mem_map.1 ha
    exact hn k n' (by simpa [taken] using h1)
  have h := SInv.run (Q := Q) hD hQ h0 (SInv.start cfg D B r pre base d p0 Q) ha hr
    (by simpa using hN.left)
  rw [List.nil_append] at h
  have hrunk : ∀ i k, (f i).run cfg D ((List.range k).map (fun x => act (i + x))) = some (f (i + k)) := fun i k =>
    run_range (act := fun x => act (i + x)) (f := fun x => f (i + x)) (fun x => hstep (i + x)) k
  have htkk : ∀ i k, ∀ n' ∈ taken ((List.range k).map (fun x => act (i + x))), n' = n := by
    intro i k n' hn'
    obtain ⟨a, ha, h1⟩ := List.mem_flatMap.1 hn'
    obtain ⟨x, _, rfl⟩ := List.mem_map.1 ha
    exact hn (i + x) n' (by simpa [taken] using h1)
  have hplk : ∀ i k, ∀ a ∈ (List.range k).map (fun x => act (i + x)), a.Plain := by
    intro i k a ha
    obtain ⟨x, _, rfl⟩ := List.mem_map.1 ha
    exact hplain (i + x)
  have hinvQ : ∀ i, SInv cfg D B r pre base d p0 Q (taken as ++ taken ((List.range i).map act)) (f i) := fun i =>
    SInv.run hD hQ h0 h (fun a ha => (hpl i a ha).ok) (run_range hstep i) (nodes_repeat hN (htk i))
  -- what a crash left behind is received with the first pull
  obtain ⟨i0, hi0⟩ : ∃ i0, SInv cfg D B r pre base d p0 False (taken as ++ taken ((List.range i0).map act)) (f i0) := by
    by_contra hcon
    have hlag : ∀ i, Q ∧ Lags B r (f i) := fun i => (lags_or (hinvQ i)).resolve_left (fun hx => hcon ⟨i, hx⟩)
    refine C81_returns (cfg := cfg) (D := D) f (fun i => ?_)
    rcases (lags_step hD hQ (hinvQ i) (nodes_repeat hN (htk i)) (hlag i).1 (hlag i).2 (hplain i) (hstep i)).2 with ⟨a, h1⟩ | h1
    · exact ⟨a, by rw [← h1]; exact hstep i⟩
    · exact absurd (hlag (i + 1)).2 h1
  have hmonoQ : ∀ i, (f 0).cs.results.length ≤ (f i).cs.results.length := by
    intro i
    induction i with
    | zero => exact le_refl _
    | succ i ih => exact ih.trans (plain_results (hplain i) (hstep i))
  have hinv : ∀ i, i0 ≤ i → ∃ N', (∀ n' ∈ N', n' = n) ∧ SInv cfg D B r pre base d p0 False (taken as ++ N') (f i) := by
    intro i hi
    obtain ⟨k, rfl⟩ := Nat.exists_eq_add_of_le hi
    have hall : ∀ n' ∈ taken ((List.range i0).map act) ++ taken ((List.range k).map (fun x => act (i0 + x))), n' = n := by
      intro n' hn'
      rcases List.mem_append.1 hn' with h1 | h1
      · exact htk i0 n' h1
      · exact htkk i0 k n' h1
    refine ⟨_, hall, ?_⟩
    rw [← List.append_assoc]
    refine SInv.run hD (by simp) h0 hi0 (fun a ha => (hplk i0 k a ha).ok) (hrunk i0 k) ?_
    rw [List.append_assoc]
    exact nodes_repeat hN hall
  -- a pull in progress follows each action of the consumer, and the results only grow
  have hcase : ∀ i, i0 ≤ i → ((∃ a, act i = .inner a) ∧ (f i).cs.results.length ≤ (f (i + 1)).cs.results.length ∧
      ((f (i + 1)).cs.results.length = (f i).cs.results.length → (f (i + 1)).pend = (f i).pend)) ∨
      (f i).pend = none ∧ (f (i + 1)).pend ≠ none ∧ (f (i + 1)).cs.results = (f i).cs.results := by
    intro i hi0
    have hs := hstep i
    cases hac : act i with
    | inner a =>
      rw [hac] at hs
      obtain ⟨_, _, h1, h2⟩ := inner_step hs
      exact .inl ⟨⟨a, rfl⟩, h1, h2⟩
    | pull o =>
      have ho : o.Ok := by have := hplain i; rw [hac] at this; exact this
      rw [hac] at hs
      obtain ⟨N', hN', hi⟩ := hinv i hi0
      obtain ⟨S, hw⟩ := hi.wi
      obtain ⟨ps, hreq⟩ := request_caught hw hi.feed ((nodes_repeat hN hN').points hD hi.sub)
        (hw.out.resolve_right (fun hx => by obtain ⟨_, hx, _⟩ := hx; exact hx)) ho
      simp only [Sys.step] at hs
      split at hs
      · cases hs
      · rename_i hp
        rw [hreq] at hs
        dsimp only at hs
        obtain ⟨cs', h1, h2⟩ := Option.map_eq_some_iff.1 hs
        refine .inr ⟨hp, by rw [← h2]; simp, ?_⟩
        rw [← h2]
        simp only [St.step] at h1
        split at h1
        · rw [← Option.some.inj h1]
        · cases h1
    | abandon => exact absurd hac (hkeep i)
    | restart o => have := hplain i; rw [hac] at this; cases this
    | die a k o => have := hplain i; rw [hac] at this; cases this
  have hmono : ∀ i j, i ≤ j → (f i).cs.results.length ≤ (f j).cs.results.length := by
    intro i j hij
    induction j, hij using Nat.le_induction with
    | base => exact le_refl _
    | succ j _ ih => exact ih.trans (plain_results (hplain j) (hstep j))
  have hinner : ∀ i, i0 ≤ i → ∃ j, i ≤ j ∧ (f j).pend = none ∧ (f (j + 1)).pend ≠ none := by
    intro i hi
    by_contra hcon
    refine C81_returns (cfg := cfg) (D := D) (fun k => f (i + k)) (fun k => ?_)
    rcases hcase (i + k) (by omega) with ⟨⟨a, h1⟩, _⟩ | ⟨h1, h2, _⟩
    · exact ⟨a, by rw [← h1]; exact hstep (i + k)⟩
    · exact absurd ⟨i + k, by omega, h1, h2⟩ hcon
  have hgrow : ∀ i, i0 ≤ i → ∃ j, i ≤ j ∧ (f i).cs.results.length < (f j).cs.results.length := by
    intro i hi
    by_contra hcon
    have hconst : ∀ j, i ≤ j → (f j).cs.results.length = (f i).cs.results.length := by
      intro j hj
      have h1 := hmono i j hj
      by_contra h2
      exact hcon ⟨j, hj, by omega⟩
    obtain ⟨j, hj, _, h2⟩ := hinner i hi
    have hpend : ∀ k, j + 1 ≤ k → (f k).pend ≠ none := by
      intro k hk
      induction k, hk using Nat.le_induction with
      | base => exact h2
      | succ k hk ih =>
        rcases hcase k (by omega) with ⟨_, _, h3⟩ | ⟨h3, _⟩
        · rw [h3 ((hconst (k + 1) (by omega)).trans (hconst k (by omega)).symm)]
          exact ih
        · exact absurd h3 ih
    obtain ⟨k, hk, h3, _⟩ := hinner (j + 1) (by omega)
    exact hpend k hk h3
  have hreach : ∀ K, ∃ i, i0 ≤ i ∧ (f 0).cs.results.length + K ≤ (f i).cs.results.length := by
    intro K
    induction K with
    | zero => exact ⟨i0, le_refl _, hmonoQ i0⟩
    | succ K ih =>
      obtain ⟨i, h1, hi⟩ := ih
      obtain ⟨j, h2, hj⟩ := hgrow i h1
      exact ⟨j, by omega, by omega⟩
  obtain ⟨K, hK⟩ := C81_catches_up_count_partial hD h0 hQ ha hr hN hread hans hlong hvalid hvb hpos
  obtain ⟨i, _, hi⟩ := hreach K
  exact ⟨i, fun j hj => hK _ _ (hpl j) (htk j) (run_range hstep j) (hi.trans (hmono i j hj))⟩

/-! ### Where it fails -/

/-- The identifiers of the sample blocks are lists of zeroes: block `h` follows block `h - 1`, but block 4 follows block 2. -/
def demoParent (h : Nat) : Nat := if h = 4 then 2 else h - 1

def demoNumber (h : Nat) : Nat := if 4 ≤ h then h - 2 else h - 1

def demoDecoder : Decoder where
  view x := ⟨List.replicate x.hash 0, List.replicate (demoParent x.hash) 0, demoNumber x.hash, x.slot⟩
  nf v := some (.header v.payload v.id.length)

def demoBlock (h : Nat) : NBlock := ⟨10 * h, h, .ok⟩

def demoB (k : Key) : Block := demoDecoder.view (demoBlock k.length)

def demoNet (hs : List Nat) : Net := ⟨true, true, hs.map demoBlock, .value (), [], none, false⟩

/-- Following begins at block 1 if nothing else is said; the parent of the genesis block is block 0. -/
def demoCfg : Config := ⟨.header 10 1, 0, .header 20 2, fun _ => true⟩

def demoOrders : Orders := ⟨id, id, id⟩

theorem demo_orders : demoOrders.Ok := ⟨fun _ => List.Perm.refl _, fun _ => List.Perm.refl _, fun _ => List.Perm.refl _⟩

theorem demo_decoder : demoDecoder.Ok := by
  refine ⟨fun x => ?_, fun x y h => ?_⟩
  · simp [demoDecoder, NBlock.point]
  · simp only [NBlock.point, Point.header.injEq] at h
    simp [demoDecoder, h.2]

/-- A request and its `k` events. -/
def demoRequest (n : Net) (k : Nat) : List SAct :=
  .inner .send :: .inner (.take n) :: (List.replicate k (SAct.inner .emit) ++ [.inner .finish, .inner .recv])

/-- Pulls of further events of the request. -/
def demoMore (k : Nat) : List SAct := (List.replicate k [SAct.pull demoOrders, .inner .recv]).flatten

/-- Two blocks are delivered. -/
def demoActs (n : Net) : List SAct := .pull demoOrders :: demoRequest n 2 ++ demoMore 1

theorem demo_acts (n : Net) : ∀ a ∈ demoActs n, a.Ok False := by
  simp [demoActs, demoRequest, demoMore, SAct.Ok, demo_orders, or_imp, forall_and]

/-- The state after that. -/
def demoState (p0 : Option Point) (n : Net) : Sys :=
  ((Sys.start 2 p0).run demoCfg demoDecoder (demoActs n)).getD (Sys.start 2 p0)

theorem demo_taken (n : Net) : taken (demoActs n) = [n] := rfl

theorem linked_of_chain {l : List NBlock} (h : l.IsChain (fun x y =>
    (D.view y).parent = (D.view x).id ∧ (D.view y).number = (D.view x).number + 1)) (l1 : List NBlock) (x y : NBlock)
    (l2 : List NBlock) (he : l = l1 ++ x :: y :: l2) :
    (D.view y).parent = (D.view x).id ∧ (D.view y).number = (D.view x).number + 1 := by
  subst he
  induction l1 with
  | nil => exact (List.isChain_cons_cons.1 h).1
  | cons z l1 ih =>
    refine ih ?_
    cases l1 with
    | nil => exact (List.isChain_cons_cons.1 h).2
    | cons z' l1 => exact (List.isChain_cons_cons.1 h).2

theorem demo_node {hs : List Nat} {pre : List NBlock} (h1 : pre <+: (demoNet hs).chain)
    (h2 : ((demoNet hs).chain.map NBlock.point).Nodup) (h3 : ∀ b ∈ (demoNet hs).chain, b.point ≠ .header 0 demoCfg.genesisParent)
    (h4 : (after pre.length (demoNet hs)).head? = some (demoBlock 2))
    (h5 : (after pre.length (demoNet hs)).IsChain (fun x y => (demoDecoder.view y).parent = (demoDecoder.view x).id ∧
      (demoDecoder.view y).number = (demoDecoder.view x).number + 1))
    (h6 : ∀ x ∈ after pre.length (demoNet hs), demoDecoder.view x = demoB (demoDecoder.view x).id ∧
      (demoDecoder.view x).number < 2 ^ 64 ∧ (demoDecoder.view x).id ≠ (demoB (List.replicate 2 0)).parent) :
    NodeOk demoCfg demoDecoder demoB (List.replicate 2 0) pre (demoNet hs) where
  common := h1
  nodup := h2
  parsed b hb := by
    obtain ⟨h, _, rfl⟩ := List.mem_map.1 hb
    simp [demoBlock]
  genesis := h3
  first x l he := by
    rw [he] at h4
    rw [Option.some.inj h4]
    rfl
  linked := linked_of_chain h5
  block := h6

/-- The node changes block 3 for blocks 4, 5 and 6. -/
theorem demo_nodes : Nodes demoCfg demoDecoder demoB (List.replicate 2 0) [demoBlock 1] (.header 10 1) 2
    [demoNet [1, 2, 3], demoNet [1, 2, 4, 5, 6]] := by
  refine ⟨fun n hn => ?_, fun n _ => .inl ⟨demoBlock 1, rfl, rfl⟩, List.pairwise_pair.2 (by unfold Agree; decide)⟩
  have hn' : n = demoNet [1, 2, 3] ∨ n = demoNet [1, 2, 4, 5, 6] := by simpa using hn
  rcases hn' with rfl | rfl
  · exact demo_node (by decide) (by decide) (by decide) (by decide) (by decide) (by decide)
  · exact demo_node (by decide) (by decide) (by decide) (by decide) (by decide) (by decide)

/-- The same, followed from the parent of the genesis block, which is block 2. -/
theorem demo_genesis_nodes : Nodes demoCfg demoDecoder demoB (List.replicate 2 0) [] (.header 0 0) 2
    [demoNet [2, 3], demoNet [2, 4, 5, 6]] := by
  have hb : ∀ h hs, (demoNet (h :: hs)).chain = demoBlock h :: hs.map demoBlock := fun _ _ => rfl
  refine ⟨fun n hn => ?_, fun n hn => .inr ⟨rfl, rfl, by decide, fun x l he => ?_⟩,
    List.pairwise_pair.2 (by unfold Agree; decide)⟩
  · have hn' : n = demoNet [2, 3] ∨ n = demoNet [2, 4, 5, 6] := by simpa using hn
    rcases hn' with rfl | rfl
    · exact demo_node (by decide) (by decide) (by decide) (by decide) (by decide) (by decide)
    · exact demo_node (by decide) (by decide) (by decide) (by decide) (by decide) (by decide)
  · have hn' : n = demoNet [2, 3] ∨ n = demoNet [2, 4, 5, 6] := by simpa using hn
    rcases hn' with rfl | rfl
    · rw [hb] at he
      rw [← (List.cons.inj he).1]
      rfl
    · rw [hb] at he
      rw [← (List.cons.inj he).1]
      rfl

theorem demo_readable (hs : List Nat) : Readable (demoNet hs) := by
  intro b hb
  obtain ⟨h, _, rfl⟩ := List.mem_map.1 (by simpa [demoNet] using hb : b ∈ hs.map demoBlock)
  rfl

/-- A schedule with a change of the node's chain: the consumer has received blocks 2 and 4. -/
example : ∃ s, (Sys.start 2 (some (.header 10 1))).run demoCfg demoDecoder (demoActs (demoNet [1, 2, 3]) ++
      (.pull demoOrders :: .inner .recv :: demoRequest (demoNet [1, 2, 4, 5, 6]) 4) ++ demoMore 3) = some s ∧
    s.w.out = ((after 1 (demoNet [1, 2, 4, 5, 6])).take 2).map demoDecoder.view :=
  ⟨_, rfl, by decide +kernel⟩

/-- The same with abandoned pulls: one before its request is made, one that waits for the answer, one after all events have
been sent. -/
example : ∃ s, (Sys.start 2 (some (.header 10 1))).run demoCfg demoDecoder ([.pull demoOrders, .abandon, .pull demoOrders,
      .inner .send, .abandon, .pull demoOrders, .inner (.take (demoNet [1, 2, 3])), .inner .emit, .abandon, .inner .emit,
      .inner .finish, .pull demoOrders, .inner .recv, .pull demoOrders, .abandon] ++ demoMore 1 ++
      (.pull demoOrders :: .inner .recv :: demoRequest (demoNet [1, 2, 4, 5, 6]) 4) ++ demoMore 3) = some s ∧
    s.w.out = ((after 1 (demoNet [1, 2, 4, 5, 6])).take 2).map demoDecoder.view :=
  ⟨_, rfl, by decide +kernel⟩

/-- A pull at the start asks the Cardano source. -/
example : (Sys.start 2 (some (.header 10 1))).w.src.request demoDecoder.nf demoOrders
    (Sys.start 2 (some (.header 10 1))).w.pos = .ok (.inr [.header 10 1]) := by rfl

/-- The hypotheses of the theorems are met by this schedule. -/
example : demoDecoder.Ok ∧ StartsAt demoCfg (.header 10 1) (some (.header 10 1)) ∧
    (∀ a ∈ demoActs (demoNet [1, 2, 3]), a.Ok False) ∧
    Nodes demoCfg demoDecoder demoB (List.replicate 2 0) [demoBlock 1] (.header 10 1) 2
      (taken (demoActs (demoNet [1, 2, 3])) ++ [demoNet [1, 2, 4, 5, 6]]) ∧
    (∀ n' ∈ taken (demoActs (demoNet [1, 2, 3])) ++ [demoNet [1, 2, 4, 5, 6]], Readable n') ∧
    Answers (demoNet [1, 2, 4, 5, 6]) :=
  ⟨demo_decoder, .inl rfl, demo_acts _, demo_nodes, by
    intro n hn
    have hn' : n = demoNet [1, 2, 3] ∨ n = demoNet [1, 2, 4, 5, 6] := by simpa [demo_taken] using hn
    rcases hn' with rfl | rfl <;> exact demo_readable _, ⟨rfl, rfl, rfl, rfl⟩⟩

/-- A crash after block 6 is stored: block 4 is confirmed and the consumer has only block 2, and it gets block 4 with its next
pull. -/
def crashActs : List SAct := (.pull demoOrders :: demoRequest (demoNet [1, 2, 4, 5, 6]) 4) ++ demoMore 2 ++
  [.pull demoOrders, .die .recv 100 demoOrders]

example : (∀ a ∈ crashActs, a.Ok True) ∧ StartsAt demoCfg (.header 10 1) none ∧
    (Answers (demoNet [1, 2, 4, 5, 6]) ∧ Readable (demoNet [1, 2, 4, 5, 6])) ∧
    ∃ s, (Sys.start 2 none).run demoCfg demoDecoder crashActs = some s ∧
      s.w.out = ((after 1 (demoNet [1, 2, 4, 5, 6])).take 1).map demoDecoder.view ∧ Lags demoB (List.replicate 2 0) s ∧
      ∃ s', s.run demoCfg demoDecoder [.pull demoOrders] = some s' ∧
        s'.w.out = ((after 1 (demoNet [1, 2, 4, 5, 6])).take 2).map demoDecoder.view :=
  ⟨by simp [crashActs, demoRequest, demoMore, SAct.Ok, demo_orders, or_imp, forall_and], .inr ⟨rfl, rfl⟩,
    ⟨⟨rfl, rfl, rfl, rfl⟩, demo_readable _⟩, _, rfl, by decide +kernel,
    ⟨List.replicate 4 0, by decide +kernel, by decide +kernel⟩, _, rfl, by decide +kernel⟩

/-- A request that gives nothing. -/
def demoEmpty (n : Net) : List SAct :=
  [.pull demoOrders, .inner .recv, .inner .send, .inner (.take n), .inner .finish, .inner .recv]

/-- Nothing is in progress. -/
def Quiet (w : World Point) (s : Sys) : Prop :=
  s.w = w ∧ s.pend = none ∧ s.cs.connected = true ∧ s.cs.handler = .idle ∧ s.cs.queue = none ∧ s.cs.puller = .idle ∧
    s.cs.current.isSome ∧ s.cs.buf = []

theorem quiet_cycle {w : World Point} {ps : List Point} (hreq : w.src.request D.nf demoOrders w.pos = .ok (.inr ps))
    (hps : ps ≠ []) (hh : Cardano.handle cfg n ps = ([], .done)) {s : Sys} (h : Quiet w s) :
    ∃ s', s.run cfg D (demoEmpty n) = some s' ∧ Quiet w s' ∧ s'.cs.results.length = s.cs.results.length + 1 := by
  obtain ⟨⟨con, hd, q, pu, cur, buf, nx, asked, plan, net, got, cl, res⟩, w', pend⟩ := s
  obtain ⟨h0, h1, h2, h3, h4, h5, h6, h7⟩ := h
  dsimp only at h0 h1 h2 h3 h4 h5 h6 h7
  subst h0 h1 h2 h3 h4 h5 h7
  obtain ⟨c, rfl⟩ := Option.isSome_iff_exists.1 h6
  have hw : w'.step D.nf (.pull demoOrders (fun _ => reply D .nothing)) = w' := by
    simp [World.step, MSrc.pull, hreq, reply, MSrc.answer, released, advance, heard, blockOf, Sources.failure]
  refine ⟨⟨⟨true, .idle, none, .idle, some nx, [], nx + 1, Cardano.set asked nx ps, Cardano.set plan nx [],
    Cardano.set net nx (some n), got, cl, res ++ [.nothing]⟩, w', none⟩, ?_, ⟨rfl, rfl, rfl, rfl, rfl, rfl, rfl, rfl⟩, by simp⟩
  simp [demoEmpty, Sys.run, Sys.step, hreq, St.step, going, St.recv, St.send, St.take, St.finish, St.alive, hh, hps,
      resultOf, hw]

theorem quiet_cycles {w : World Point} {ps : List Point} (hreq : w.src.request D.nf demoOrders w.pos = .ok (.inr ps))
    (hps : ps ≠ []) (hh : Cardano.handle cfg n ps = ([], .done)) : ∀ (K : Nat) {s : Sys}, Quiet w s →
    ∃ s', s.run cfg D (List.replicate K (demoEmpty n)).flatten = some s' ∧ Quiet w s' ∧
      s'.cs.results.length = s.cs.results.length + K
  | 0, s, h => ⟨s, rfl, h, rfl⟩
  | K + 1, s, h => by
    obtain ⟨s1, h1, h2, h3⟩ := quiet_cycle hreq hps hh h
    obtain ⟨s2, h4, h5, h6⟩ := quiet_cycles hreq hps hh K h2
    refine ⟨s2, ?_, h5, by omega⟩
    rw [List.replicate_succ, List.flatten_cons, sys_append h1, h4]

theorem cycles_plain (K : Nat) : (∀ a ∈ (List.replicate K (demoEmpty n)).flatten, a.Plain) ∧
    ∀ n' ∈ taken (List.replicate K (demoEmpty n)).flatten, n' = n := by
  have h : ∀ a ∈ (List.replicate K (demoEmpty n)).flatten, a ∈ demoEmpty n := by
    intro a ha
    obtain ⟨l, hl, h1⟩ := List.mem_flatten.1 ha
    rwa [List.eq_of_mem_replicate hl] at h1
  refine ⟨fun a ha => ?_, fun n' hn' => ?_⟩
  · have := h a ha
    simp only [demoEmpty, List.mem_cons, List.not_mem_nil, or_false] at this
    rcases this with rfl | rfl | rfl | rfl | rfl | rfl
    · exact demo_orders
    all_goals trivial
  · obtain ⟨a, ha, h1⟩ := List.mem_flatMap.1 hn'
    have := h a ha
    simp only [demoEmpty, List.mem_cons, List.not_mem_nil, or_false] at this
    rcases this with rfl | rfl | rfl | rfl | rfl | rfl <;> simp_all [takenBy]

/-- C81: without a position a consumer does not catch up if the node changes its chain before the first block is confirmed:
only positions of blocks not on the chain any more are asked for, and the source gives nothing for ever. -/
theorem C81_no_position_false : ¬ ∀ (cfg : Config) (D : Decoder) (B : Key → Block) (r : Key) (pre : List NBlock) (base : Point)
    (d : Nat) (p0 : Option Point) (as : List SAct) (s : Sys) (n : Net), D.Ok → StartsAt cfg base p0 → (∀ a ∈ as, a.Ok False) →
    (Sys.start d p0).run cfg D as = some s → Nodes cfg D B r pre base d (taken as ++ [n]) →
    (∀ n' ∈ taken as ++ [n], Readable n') → Answers n → (∀ n' ∈ taken as, n'.chain.length ≤ n.chain.length) →
    (∀ n' ∈ taken as ++ [n], ∀ b ∈ n'.chain, cfg.valid b.hash = true) → cfg.validPoint base = true →
    ∃ K, ∀ as' s', (∀ a ∈ as', a.Plain) → (∀ n' ∈ taken as', n' = n) → s.run cfg D as' = some s' →
      s.cs.results.length + K ≤ s'.cs.results.length →
      s'.w.out = ((after pre.length n).take ((after pre.length n).length - d)).map D.view := by
  intro h
  obtain ⟨K, hK⟩ := h demoCfg demoDecoder demoB (List.replicate 2 0) [demoBlock 1] (.header 10 1) 2 none
    (demoActs (demoNet [1, 2, 3])) (demoState none (demoNet [1, 2, 3])) (demoNet [1, 2, 4, 5, 6]) demo_decoder
    (.inr ⟨rfl, rfl⟩) (demo_acts _) rfl demo_nodes
    (by
      intro n hn
      have hn' : n = demoNet [1, 2, 3] ∨ n = demoNet [1, 2, 4, 5, 6] := by simpa [demo_taken] using hn
      rcases hn' with rfl | rfl <;> exact demo_readable _) ⟨rfl, rfl, rfl, rfl⟩
    (by
      intro n hn
      rw [demo_taken] at hn
      rw [List.mem_singleton.1 hn]
      decide) (fun _ _ _ _ => rfl) rfl
  obtain ⟨s', h1, h2, h3⟩ := quiet_cycles (cfg := demoCfg) (D := demoDecoder) (n := demoNet [1, 2, 4, 5, 6])
    (ps := [.header 30 3]) (w := (demoState none (demoNet [1, 2, 3])).w) (by decide +kernel) (by decide) (by decide +kernel) K
    (s := demoState none (demoNet [1, 2, 3])) ⟨rfl, rfl, rfl, rfl, rfl, rfl, rfl, rfl⟩
  have h4 := hK _ s' (cycles_plain K).1 (cycles_plain K).2 h1 (by rw [h3])
  rw [h2.1] at h4
  revert h4
  clear * -
  decide +kernel

/-- C81: neither does a consumer that begins at the parent of the genesis block, the position from which the source gives the
whole chain: that position is only understood alone, and the tips are asked for with it. -/
theorem C81_genesis_false : ¬ ∀ (cfg : Config) (D : Decoder) (B : Key → Block) (r : Key) (pre : List NBlock) (base : Point)
    (d : Nat) (p0 : Option Point) (as : List SAct) (s : Sys) (n : Net), D.Ok → p0 = some base → (∀ a ∈ as, a.Ok False) →
    (Sys.start d p0).run cfg D as = some s → Nodes cfg D B r pre base d (taken as ++ [n]) →
    (∀ n' ∈ taken as ++ [n], Readable n') → Answers n → (∀ n' ∈ taken as, n'.chain.length ≤ n.chain.length) →
    (∀ n' ∈ taken as ++ [n], ∀ b ∈ n'.chain, cfg.valid b.hash = true) → cfg.validPoint base = true →
    ∃ K, ∀ as' s', (∀ a ∈ as', a.Plain) → (∀ n' ∈ taken as', n' = n) → s.run cfg D as' = some s' →
      s.cs.results.length + K ≤ s'.cs.results.length →
      s'.w.out = ((after pre.length n).take ((after pre.length n).length - d)).map D.view := by
  intro h
  obtain ⟨K, hK⟩ := h demoCfg demoDecoder demoB (List.replicate 2 0) [] (.header 0 0) 2 (some (.header 0 0))
    (demoActs (demoNet [2, 3])) (demoState (some (.header 0 0)) (demoNet [2, 3])) (demoNet [2, 4, 5, 6]) demo_decoder
    rfl (demo_acts _) rfl demo_genesis_nodes
    (by
      intro n hn
      have hn' : n = demoNet [2, 3] ∨ n = demoNet [2, 4, 5, 6] := by simpa [demo_taken] using hn
      rcases hn' with rfl | rfl <;> exact demo_readable _) ⟨rfl, rfl, rfl, rfl⟩
    (by
      intro n hn
      rw [demo_taken] at hn
      rw [List.mem_singleton.1 hn]
      decide) (fun _ _ _ _ => rfl) rfl
  obtain ⟨s', h1, h2, h3⟩ := quiet_cycles (cfg := demoCfg) (D := demoDecoder) (n := demoNet [2, 4, 5, 6])
    (ps := [.header 30 3, .header 0 0]) (w := (demoState (some (.header 0 0)) (demoNet [2, 3])).w) (by decide +kernel) (by decide) (by decide +kernel) K
    (s := demoState (some (.header 0 0)) (demoNet [2, 3])) ⟨rfl, rfl, rfl, rfl, rfl, rfl, rfl, rfl⟩
  have h4 := hK _ s' (cycles_plain K).1 (cycles_plain K).2 h1 (by rw [h3])
  rw [h2.1] at h4
  revert h4
  clear * -
  decide +kernel

/-- A node one block of which cannot be converted: the epoch of block 4 is not known. -/
def demoBad : Net := { demoNet [1, 2, 4, 5, 6, 7, 8] with
  chain := [demoBlock 1, demoBlock 2, { demoBlock 4 with parsed := .error }, demoBlock 5, demoBlock 6, demoBlock 7, demoBlock 8] }

/-- C81: if a block cannot be converted, the pull fails, but the next one goes on with the block after it: the consumer receives
blocks that do not follow each other, and the ones before the gap are lost too. -/
theorem C81_skipped_block_false : ¬ ∀ (cfg : Config) (D : Decoder) (d : Nat) (n : Net) (b0 : NBlock) (l : List NBlock)
    (as : List SAct) (s : Sys), D.Ok → n.chain = b0 :: l → (n.chain.map NBlock.point).Nodup →
    l.IsChain (fun x y => (D.view y).parent = (D.view x).id ∧ (D.view y).number = (D.view x).number + 1) →
    (∀ a ∈ as, a.Ok False) → (∀ n' ∈ taken as, n' = n) → (Sys.start d (some b0.point)).run cfg D as = some s →
    s.w.out <+: l.map D.view := by
  intro h
  have h1 := h demoCfg demoDecoder 2 demoBad (demoBlock 1) _
    (.pull demoOrders :: demoRequest demoBad 6 ++ demoMore 5) _ demo_decoder rfl (by decide) (by decide)
    (by simp [demoRequest, demoMore, SAct.Ok, demo_orders, or_imp, forall_and])
    (fun n' hn' => List.mem_singleton.1 hn') rfl
  revert h1
  decide +kernel

end Verif.Props
