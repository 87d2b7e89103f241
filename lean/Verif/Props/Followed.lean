import Verif.Sources.FollowedChain
import Verif.Props.Confirmed
import Verif.Props.ForkHandling

/-!
# C82: following a Cardano node with its rollbacks

`Sys.run` runs a consumer of the fork handling source over the Cardano source; `taken as` are the nodes (what the node and the
connection did) at the requests the handler took, and `Nodes` says what is assumed of them, as in C81: each chain begins with the
same blocks `pre` and goes on with a chain that begins with the block `r` (`after` gives it); rollbacks are at most `d` blocks
long, `d` being the confirmation depth. `s.w.chain` is the chain a consumer has that applies each event it receives (newest block
first, the parent of `r`, at the position `base`, last); it is `none` if an event does not fit. `s.w.got` are the blocks the
Cardano source has delivered, newest first, and `lastNew` is the one delivered last that had not been delivered before.
-/

namespace Verif.Props

open Verif.Multiverse Verif.Sources.Followed
open Verif.Sources hiding Act QuietRestarts
open Verif.Sources.Cardano (Point NBlock Net Out PullRes St Config)
open Verif.Sources.Confirmed (Decoder reply going NodeOk Nodes BaseOk after Agree From Effect effect Readable Live Req handle_all)

variable {cfg : Config} {D : Decoder} {B : Key → Block} {r : Key} {pre : List NBlock} {base : Point} {n : Net} {d : Nat}

/-- The chain of a consumer that has applied the first `j` blocks of the node's chain. -/
def chainOf (D : Decoder) (B : Key → Block) (r : Key) (blocks : List NBlock) (j : Nat) : List Key :=
  ((blocks.take j).map (fun x => (D.view x).id)).reverse ++ [(B r).parent]

/-- C82: in every schedule all events fit and nothing fails but the connection; the consumer's chain is part of a chain of the
node, and the queued blocks lead from its end to the block the node sent last. -/
theorem C82_chain (hD : D.Ok) {as : List Act} (ha : ∀ a ∈ as, a.Ok)
    (hq : QuietRestarts cfg (pointOf B D.nf r base) D (Sys.start d (B r).parent) as) {s : Sys}
    (hr : (Sys.start d (B r).parent).run cfg (pointOf B D.nf r base) D as = some s)
    (hN : Nodes cfg D B r pre base d (taken as)) :
    s.w.failed = none ∧ (s.w.got = [] → s.w.chain = some [(B r).parent]) ∧
    ∀ v, lastNew s.w.got = some v → ∃ n ∈ taken as, ∃ m a, (after pre.length n)[m]? = some a ∧ D.view a = v ∧
      ∃ j, j + s.w.src.events.length = m + 1 ∧ s.w.chain = some (chainOf D B r (after pre.length n) j) := by
  have h := (FSInv.start cfg D B r pre base d).run hD ha hq hr (by simpa using hN)
  rw [List.nil_append] at h
  refine ⟨?_, h.chain_nil, fun v hv => ?_⟩
  · obtain ⟨S, hw⟩ := h.wi
    exact hw.failed
  · obtain ⟨n, hn, x, hx, rfl⟩ := h.sent.from v (lastNew_mem hv)
    obtain ⟨m, hm, rfl⟩ := List.getElem_of_mem hx
    have e := List.getElem?_eq_getElem hm
    obtain ⟨j, h1, h2⟩ := h.chain_at hv (hN.ok n hn) e rfl
    exact ⟨n, hn, m, _, e, rfl, j, h1, h2⟩

/-- The first part of a schedule. -/
theorem quiet_left {pt : Key → Option Point} : ∀ {as as' : List Act} {s : Sys}, QuietRestarts cfg pt D s (as ++ as') →
    QuietRestarts cfg pt D s as
  | [], _, _, _ => trivial
  | _ :: _, _, _, h => ⟨h.1, fun s' hs => quiet_left (h.2 s' hs)⟩

theorem quiet_right {pt : Key → Option Point} : ∀ {as as' : List Act} {s s' : Sys}, QuietRestarts cfg pt D s (as ++ as') →
    s.run cfg pt D as = some s' → QuietRestarts cfg pt D s' as'
  | [], _, s, s', h, hr => by
    obtain rfl := Option.some.inj hr
    exact h
  | a :: as, _, s, s', h, hr => by
    rw [Sys.run] at hr
    cases hs : s.step cfg pt D a with
    | none => rw [hs] at hr; cases hr
    | some s1 =>
      rw [hs] at hr
      exact quiet_right (h.2 s1 hs) hr

theorem fsys_append {pt : Key → Option Point} : ∀ {l l' : List Act} {x y : Sys}, x.run cfg pt D l = some y →
    x.run cfg pt D (l ++ l') = y.run cfg pt D l'
  | [], l', x, y, h => by
    obtain rfl := Option.some.inj h
    rfl
  | a :: l, l', x, y, h => by
    rw [Sys.run] at h
    rw [List.cons_append, Sys.run]
    cases hst : x.step cfg pt D a with
    | none => rw [hst] at h; cases h
    | some z =>
      rw [hst] at h
      exact fsys_append h

/-- C82: the consumer is never made to go back more than `d` blocks: whatever happens later, its chain keeps all blocks but the
last `d`. -/
theorem C82_stable (hD : D.Ok) {as as' : List Act} (ha : ∀ a ∈ as ++ as', a.Ok)
    (hq : QuietRestarts cfg (pointOf B D.nf r base) D (Sys.start d (B r).parent) (as ++ as')) {s s' : Sys}
    (hr : (Sys.start d (B r).parent).run cfg (pointOf B D.nf r base) D as = some s)
    (hr' : s.run cfg (pointOf B D.nf r base) D as' = some s') (hN : Nodes cfg D B r pre base d (taken (as ++ as'))) :
    ∃ c c', s.w.chain = some c ∧ s'.w.chain = some c' ∧ c.drop d <:+ c' := by
  rw [taken_append] at hN
  have h := (FSInv.start cfg D B r pre base d).run hD (fun a h => ha a (List.mem_append.2 (.inl h))) (quiet_left hq) hr
    (by simpa using hN.left)
  rw [List.nil_append] at h
  have ha' : ∀ a ∈ as', a.Ok := fun a h => ha a (List.mem_append.2 (.inr h))
  have h' := h.run hD ha' (quiet_right hq hr) hr' hN
  obtain ⟨_, hw⟩ := h.wi
  obtain ⟨_, hw'⟩ := h'.wi
  obtain ⟨c, hc, _⟩ := hw.chain
  obtain ⟨c', hc', _⟩ := hw'.chain
  exact ⟨c, c', hc, hc', h.stable hD ha' (quiet_right hq hr) hr' hN hc hc'⟩

/-! ### Schedules go on -/

/-- C82: nothing blocks. When no pull is in progress the consumer can pull; when one is, the Cardano source or its handler can
go on, whatever the node does. -/
theorem C82_progress (hD : D.Ok) {as : List Act} (ha : ∀ a ∈ as, a.Ok)
    (hq : QuietRestarts cfg (pointOf B D.nf r base) D (Sys.start d (B r).parent) as) {s : Sys}
    (hr : (Sys.start d (B r).parent).run cfg (pointOf B D.nf r base) D as = some s)
    (hN : Nodes cfg D B r pre base d (taken as)) :
    (s.pend = none → ∀ o, (s.step cfg (pointOf B D.nf r base) D (.pull o)).isSome) ∧
    (s.pend ≠ none → ∀ n : Net, ∃ a, (s.step cfg (pointOf B D.nf r base) D (.inner a)).isSome ∧ ∀ n' ∈ taken [.inner a], n' = n) := by
  have h := (FSInv.start cfg D B r pre base d).run hD ha hq hr (by simpa using hN)
  refine ⟨fun hp o => ?_, fun hp n => ?_⟩
  · simp only [Sys.step, hp]
    split
    · simp only [St.step, h.idle.1 hp, Option.map_some, Option.isSome_some]
    · rfl
  · have hne : s.cs.puller ≠ .idle := fun he => hp (h.idle.2 he)
    have key : ∀ a, going a = true → (s.cs.step cfg a).isSome → (s.step cfg (pointOf B D.nf r base) D (.inner a)).isSome := by
      intro a h1 h2
      simp only [Sys.step, h1, if_true, Option.isSome_map, h2]
    rcases progress_of_inv h.ci hne with h1 | h1 | h1 | h1 | h1
    · exact ⟨.recv, key _ rfl h1, by simp [taken, takenBy]⟩
    · exact ⟨.send, key _ rfl h1, by simp [taken, takenBy]⟩
    · exact ⟨.take n, key _ rfl (h1 n), by simp [taken, takenBy]⟩
    · exact ⟨.emit, key _ rfl h1, by simp [taken, takenBy]⟩
    · exact ⟨.finish, key _ rfl h1, by simp [taken, takenBy]⟩

/-- What an action of the Cardano source or its handler does to the pull in progress. -/
theorem finner_step {pt : Key → Option Point} {s s' : Sys} {a : Cardano.Act} (hs : s.step cfg pt D (.inner a) = some s') :
    Internal a ∧ s.cs.step cfg a = some s'.cs ∧ s.cs.results.length ≤ s'.cs.results.length ∧
    (s'.cs.results.length = s.cs.results.length → s'.pend = s.pend ∧ s'.w = s.w) := by
  simp only [Sys.step] at hs
  split at hs
  · rename_i hg
    obtain ⟨cs', h1, h2⟩ := Option.map_eq_some_iff.1 hs
    have hint : Internal a := by cases a <;> trivial
    have hcs : s'.cs = cs' := by
      rw [← h2]
      split <;> rfl
    have hle : s.cs.results.length ≤ cs'.results.length := by
      cases effect hg h1 with
      | quiet h2 => rw [h2]
      | event c o hc h2 => rw [h2]; simp
      | ended x hx h2 => rw [h2]; simp
      | sent f hf h2 h3 => rw [h3]
    rw [hcs]
    refine ⟨hint, h1, hle, fun hl => ?_⟩
    have : resultOf s cs' = none := by
      unfold resultOf
      cases s.pend with
      | none => rfl
      | some o => dsimp only; rw [List.drop_of_length_le (by omega)]; rfl
    rw [this] at h2
    rw [← h2]
    exact ⟨rfl, rfl⟩
  · cases hs

/-- C82: every pull ends: an unlimited schedule has pulls without limit. -/
theorem C82_returns {pt : Key → Option Point} (f : Nat → Sys) :
    ¬ ∀ i, ∃ a, (f i).step cfg pt D (.inner a) = some (f (i + 1)) := by
  intro h
  refine C26_pull_returns (cfg := cfg) (fun i => (f i).cs) (fun i => ?_)
  obtain ⟨a, ha⟩ := h i
  obtain ⟨h1, h2, _⟩ := finner_step ha
  exact ⟨a, h1, h2⟩

/-- The first `i` actions. -/
theorem frun_range {pt : Key → Option Point} {act : Nat → Act} {f : Nat → Sys}
    (h : ∀ i, (f i).step cfg pt D (act i) = some (f (i + 1))) :
    ∀ i, (f 0).run cfg pt D ((List.range i).map act) = some (f i)
  | 0 => rfl
  | i + 1 => by
    rw [List.range_succ, List.map_append, fsys_append (frun_range h i)]
    simp only [List.map_cons, List.map_nil, Sys.run, h i]

/-! ### Catching up -/

/-- C82: the consumer catches up. Whatever happened before, if from some moment on the node answers and keeps its chain, which is
longer than those before, then after a number of answers of the node the consumer's chain together with the queued blocks is that
chain. The block at `d` must have been received before, or the node's chain must only have grown (`Anchored`). -/
theorem C82_catches_up_count_partial (hD : D.Ok) {as : List Act} (ha : ∀ a ∈ as, a.Ok)
    (hq : QuietRestarts cfg (pointOf B D.nf r base) D (Sys.start d (B r).parent) as) {s : Sys}
    (hr : (Sys.start d (B r).parent).run cfg (pointOf B D.nf r base) D as = some s)
    (hN : Nodes cfg D B r pre base d (taken as ++ [n]))
    (hread : ∀ n' ∈ taken as ++ [n], Readable n') (hans : Answers n)
    (hlong : ∀ n' ∈ taken as, n'.chain.length < n.chain.length) (hnew : after pre.length n ≠ [])
    (hvalid : ∀ n' ∈ taken as ++ [n], ∀ b ∈ n'.chain, cfg.valid b.hash = true) (hvb : cfg.validPoint base = true)
    (hanch : Anchored cfg B r base d n (taken as) s.w.got) :
    ∃ K, ∀ as' s', (∀ a ∈ as', a.Plain) → (∀ n' ∈ taken as', n' = n) →
      s.run cfg (pointOf B D.nf r base) D as' = some s' → s.cs.results.length + K ≤ s'.cs.results.length →
      lastNew s'.w.got = (after pre.length n).getLast?.map D.view ∧
      ∃ j, j + s'.w.src.events.length = (after pre.length n).length ∧
        s'.w.chain = some (chainOf D B r (after pre.length n) j) := by
  have h := (FSInv.start cfg D B r pre base d).run hD ha hq hr (by simpa using hN.left)
  have hl := live_run hD (FSInv.start cfg D B r pre base d) Live.start ha hq hr
    (by simpa using hN.left) (by simpa using fun n' hn' => hread n' (List.mem_append.2 (.inl hn')))
  have hreq0 := (FSInv.start cfg D B r pre base d).requests hD (by intro c hc; exact absurd hc (Nat.not_lt_zero _)) ha hq hr
    (by simpa using hN.left)
  rw [List.nil_append] at h hreq0
  refine ⟨((List.range s.cs.next).map (fun c => (s.cs.plan c).length + (1 + n.chain.length + n.originRange.length))).sum +
      (1 + n.chain.length + n.originRange.length) + s.cs.next + 2 + (s.cs.plan s.cs.next).length,
    fun as' s' ha' hn' hr' hK => ?_⟩
  have hN' := nodes_repeat hN hn'
  have hN'' : Nodes cfg D B r pre base d (taken as ++ taken as' ++ [n]) := by
    rw [List.append_assoc]
    refine nodes_repeat hN (fun x hx => ?_)
    rcases List.mem_append.1 hx with hx | hx
    · exact hn' x hx
    · exact List.mem_singleton.1 hx
  have hmem : ∀ x ∈ taken as ++ taken as', x ∈ taken as ++ [n] := by
    intro x hx
    rcases List.mem_append.1 hx with hx | hx
    · exact List.mem_append.2 (.inl hx)
    · rw [hn' x hx]; simp
  have hread' : ∀ n' ∈ taken as ++ taken as', Readable n' := fun x hx => hread x (hmem x hx)
  have hok' : ∀ a ∈ as', a.Ok := fun a h => (ha' a h).ok
  have h' := h.run hD hok' (quiet_plain ha') hr' hN'
  have hl' := live_run hD h hl hok' (quiet_plain ha') hr' hN' hread'
  have ht' := FTInv.run hD hans.connects h hl (FTInv.refl n s) hanch ha' hn' hr' hN'' hread'
  obtain ⟨hlt, hnet, hgot⟩ := ht'.done h' hl' ((Nat.le_add_left _ _).trans hK)
  have hnN : n ∈ taken as ++ taken as' := h'.nets _ n hnet
  have hnok := hN'.ok n hnN
  obtain ⟨q, hq', hqc⟩ := ht'.anchor s.cs.next (le_refl _) (by omega)
  cases ht : (after pre.length n).getLast? with
  | none => exact absurd (List.getLast?_eq_none_iff.1 ht) hnew
  | some t =>
    have hreq : Req D base pre.length (taken as ++ taken as') s'.w.got (s'.cs.asked s.cs.next) :=
      h.requests hD hreq0 hok' (quiet_plain ha') hr' hN' _ (by omega)
    have hv : ∀ p ∈ s'.cs.asked s.cs.next, cfg.validPoint p = true := by
      intro p hp
      rcases hreq p hp with rfl | ⟨n', hn1, u, hu, _, rfl⟩
      · exact hvb
      · have hok := hN'.ok n' hn1
        exact hvalid n' (hmem n' hn1) u (by rw [hok.chain]; exact List.mem_append.2 (.inr hu))
    have hparsed : ∀ b ∈ n.chain, b.parsed = .ok := fun b hb => hread n (by simp) b (List.mem_append.2 (.inl hb))
    have htg : D.view t ∈ s'.w.got := by
      rcases handle_all hD hnok (hN'.base n hnN) hN'.ok hreq hans.intersects hans.range hans.cut hparsed hv hq' hqc ht with
        h1 | h1
      · exact h1
      · refine h'.del s.cs.next t ?_
        rw [hgot, h'.ci.plan, hnet]
        exact h1
    obtain ⟨_, hlast⟩ := lastNew_top hN.ok hlong ht hn' h'.feed h'.sent htg
    have hidx : (after pre.length n)[(after pre.length n).length - 1]? = some t := by
      rw [← ht, List.getLast?_eq_getElem?]
    have hpos1 : 0 < (after pre.length n).length := List.length_pos_of_ne_nil hnew
    obtain ⟨j, h1, h2⟩ := h'.chain_at hlast hnok hidx rfl
    exact ⟨hlast, j, by omega, h2⟩

theorem frequest_ok (hD : D.Ok) {N : List Net} {s : Sys} (h : FSInv cfg D B r pre base d N s)
    (hN : Nodes cfg D B r pre base d N) {o : Orders} (ho : o.Ok) :
    ∃ ps, s.w.src.request D.nf o (position (pointOf B D.nf r base) s.w.chain) = .ok ps := by
  obtain ⟨S, hw⟩ := h.wi
  refine FSrc.request_ok hw.rel (fun k hk => ?_) hw.conf ho _
  obtain ⟨v, hv, rfl⟩ := hw.inv.sub k hk
  rw [← (h.feed.ok v hv).1]
  exact ((fpoints hD hN h.sent.from).1 v hv).1

/-- What an action does. -/
theorem fstep_case (hD : D.Ok) {N : List Net} {s s' : Sys} (h : FSInv cfg D B r pre base d N s)
    (hN : Nodes cfg D B r pre base d N) {a : Act} (ha : a.Plain) (hkeep : a ≠ .abandon)
    (hs : s.step cfg (pointOf B D.nf r base) D a = some s') :
    ((∃ b, a = .inner b) ∧ s.cs.results.length ≤ s'.cs.results.length ∧
      (s'.cs.results.length = s.cs.results.length → s'.pend = s.pend ∧ s'.w = s.w)) ∨
    s.pend = none ∧ s'.cs.results = s.cs.results ∧
      (s'.pend ≠ none ∧ s.w.src.events = [] ∧ s'.w = s.w ∨ s'.pend = none ∧ s'.w.src.events.length < s.w.src.events.length) := by
  cases a with
  | inner b =>
    obtain ⟨_, _, h1, h2⟩ := finner_step hs
    exact .inl ⟨⟨b, rfl⟩, h1, h2⟩
  | abandon => exact absurd rfl hkeep
  | restart o it => cases ha
  | pull o =>
    right
    simp only [Sys.step] at hs
    split at hs
    · cases hs
    · rename_i hp
      obtain ⟨ps, hps⟩ := frequest_ok hD h hN ha
      split at hs
      · rename_i he _
        obtain ⟨cs', h1, rfl⟩ := Option.map_eq_some_iff.1 hs
        simp only [St.step] at h1
        split at h1
        · obtain rfl := Option.some.inj h1
          exact ⟨hp, rfl, .inl ⟨by simp, he, rfl⟩⟩
        · cases h1
      · rename_i hno
        obtain rfl := Option.some.inj hs
        refine ⟨hp, rfl, .inr ⟨rfl, ?_⟩⟩
        cases hev : s.w.src.events with
        | nil => exact absurd hps (hno ps hev)
        | cons e es =>
          show (s.w.step (pointOf B D.nf r base) D.nf (.pull o (fun _ => .error ()))).src.events.length < _
          simp only [FWorld.step, FSrc.pull, hev, List.length_cons]
          omega

/-- C82: the consumer catches up, in every unlimited schedule in which it does not go on abandoning its pulls, after which it
stays so. -/
theorem C82_catches_up_partial (hD : D.Ok) {as : List Act} (ha : ∀ a ∈ as, a.Ok)
    (hq : QuietRestarts cfg (pointOf B D.nf r base) D (Sys.start d (B r).parent) as) {s : Sys}
    (hr : (Sys.start d (B r).parent).run cfg (pointOf B D.nf r base) D as = some s)
    (hN : Nodes cfg D B r pre base d (taken as ++ [n]))
    (hread : ∀ n' ∈ taken as ++ [n], Readable n') (hans : Answers n)
    (hlong : ∀ n' ∈ taken as, n'.chain.length < n.chain.length) (hnew : after pre.length n ≠ [])
    (hvalid : ∀ n' ∈ taken as ++ [n], ∀ b ∈ n'.chain, cfg.valid b.hash = true) (hvb : cfg.validPoint base = true)
    (hanch : Anchored cfg B r base d n (taken as) s.w.got) {act : Nat → Act} {f : Nat → Sys}
    (hf : f 0 = s) (hplain : ∀ i, (act i).Plain) (hkeep : ∀ i, act i ≠ .abandon) (hn : ∀ i, ∀ n' ∈ taken [act i], n' = n)
    (hstep : ∀ i, (f i).step cfg (pointOf B D.nf r base) D (act i) = some (f (i + 1))) :
    ∃ i, ∀ j, i ≤ j → (f j).w.chain = some (chainOf D B r (after pre.length n) (after pre.length n).length) := by
  subst hf
  have hpl : ∀ i, ∀ a ∈ (List.range i).map act, a.Plain := by
    intro i a ha
    obtain ⟨k, _, rfl⟩ := List.mem_map.1 ha
    exact hplain k
  have htk : ∀ i, ∀ n' ∈ taken ((List.range i).map act), n' = n := by
    intro i n' hn'
    obtain ⟨a, ha, h1⟩ := List.mem_flatMap.1 hn'
    obtain ⟨k, _, rfl⟩ := List.mem_map.1 ha
    exact hn k n' (by simpa [taken] using h1)
  have h := (FSInv.start cfg D B r pre base d).run hD ha hq hr (by simpa using hN.left)
  rw [List.nil_append] at h
  have hinv : ∀ i, FSInv cfg D B r pre base d (taken as ++ taken ((List.range i).map act)) (f i) := fun i =>
    h.run hD (fun a ha => (hpl i a ha).ok) (quiet_plain (hpl i)) (frun_range hstep i) (nodes_repeat hN (htk i))
  have hcase := fun i => fstep_case hD (hinv i) (nodes_repeat hN (htk i)) (hplain i) (hkeep i) (hstep i)
  have hmono1 : ∀ i, (f i).cs.results.length ≤ (f (i + 1)).cs.results.length := by
    intro i
    rcases hcase i with ⟨_, h1, _⟩ | ⟨_, h1, _⟩
    · exact h1
    · rw [h1]
  have hmono : ∀ i j, i ≤ j → (f i).cs.results.length ≤ (f j).cs.results.length := by
    intro i j hij
    induction j, hij using Nat.le_induction with
    | base => exact le_refl _
    | succ j _ ih => exact ih.trans (hmono1 j)
  -- the consumer pulls without limit
  have hpulls : ∀ i, ∃ j, i ≤ j ∧ (f j).pend = none ∧ ((f (j + 1)).pend ≠ none ∧ (f j).w.src.events = [] ∨
      (f (j + 1)).w.src.events.length < (f j).w.src.events.length) := by
    intro i
    by_contra hcon
    refine C82_returns (cfg := cfg) (D := D) (pt := pointOf B D.nf r base) (fun k => f (i + k)) (fun k => ?_)
    rcases hcase (i + k) with ⟨⟨a, h1⟩, _⟩ | ⟨h1, _, h2⟩
    · exact ⟨a, by rw [← h1]; exact hstep (i + k)⟩
    · refine absurd ⟨i + k, by omega, h1, ?_⟩ hcon
      rcases h2 with ⟨h2, h3, _⟩ | ⟨_, h2⟩
      · exact .inl ⟨h2, h3⟩
      · exact .inr h2
  -- if the queue does not grow it gets empty
  have hdrain : ∀ q i, (f i).w.src.events.length ≤ q →
      (∀ j, i ≤ j → (f (j + 1)).w.src.events.length ≤ (f j).w.src.events.length) → ∃ j, i ≤ j ∧ (f j).w.src.events = [] := by
    intro q
    induction q with
    | zero => exact fun i h1 _ => ⟨i, le_refl _, List.length_eq_zero_iff.1 (by omega)⟩
    | succ q ih =>
      intro i h1 h2
      have hle : ∀ j, i ≤ j → (f j).w.src.events.length ≤ (f i).w.src.events.length := by
        intro j hij
        induction j, hij using Nat.le_induction with
        | base => exact le_refl _
        | succ j hj ih => exact (h2 j hj).trans ih
      obtain ⟨j, hj, _, h3 | h3⟩ := hpulls i
      · exact ⟨j, hj, h3.2⟩
      · have := hle j hj
        obtain ⟨k, hk, h4⟩ := ih (j + 1) (by omega) (fun k hk => h2 k (by omega))
        exact ⟨k, by omega, h4⟩
  have hgrow : ∀ i, ∃ j, i ≤ j ∧ (f i).cs.results.length < (f j).cs.results.length := by
    intro i
    by_contra hcon
    have hconst : ∀ j, i ≤ j → (f j).cs.results.length = (f i).cs.results.length := by
      intro j hj
      have h1 := hmono i j hj
      by_contra h2
      exact hcon ⟨j, hj, by omega⟩
    have hstepc : ∀ j, i ≤ j → (f (j + 1)).w.src.events.length ≤ (f j).w.src.events.length := by
      intro j hj
      rcases hcase j with ⟨_, _, h1⟩ | ⟨_, _, ⟨_, _, h1⟩ | ⟨_, h1⟩⟩
      · rw [(h1 ((hconst (j + 1) (by omega)).trans (hconst j hj).symm)).2]
      · rw [h1]
      · omega
    obtain ⟨i', hi', he⟩ := hdrain _ i (le_refl _) hstepc
    have hempty : ∀ j, i' ≤ j → (f j).w.src.events.length = 0 := by
      intro j hij
      induction j, hij using Nat.le_induction with
      | base => rw [he]; rfl
      | succ j hj ih =>
        have := hstepc j (by omega)
        omega
    obtain ⟨j, hj, _, h2 | h2⟩ := hpulls i'
    swap
    · have := hempty j hj
      omega
    have hpend : ∀ k, j + 1 ≤ k → (f k).pend ≠ none := by
      intro k hk
      induction k, hk using Nat.le_induction with
      | base => exact h2.1
      | succ k hk ih =>
        rcases hcase k with ⟨_, _, h3⟩ | ⟨h3, _⟩
        · rw [(h3 ((hconst (k + 1) (by omega)).trans (hconst k (by omega)).symm)).1]
          exact ih
        · exact absurd h3 ih
    obtain ⟨k, hk, h3, _⟩ := hpulls (j + 1)
    exact hpend k hk h3
  have hreach : ∀ K, ∃ i, (f 0).cs.results.length + K ≤ (f i).cs.results.length := by
    intro K
    induction K with
    | zero => exact ⟨0, le_refl _⟩
    | succ K ih =>
      obtain ⟨i, hi⟩ := ih
      obtain ⟨j, _, hj⟩ := hgrow i
      exact ⟨j, by omega⟩
  obtain ⟨K, hK⟩ := C82_catches_up_count_partial hD ha hq hr hN hread hans hlong hnew hvalid hvb hanch
  obtain ⟨i, hi⟩ := hreach K
  have hend := fun j (hj : i ≤ j) => hK _ _ (hpl j) (htk j) (frun_range hstep j) (hi.trans (hmono i j hj))
  have hdown : ∀ j, i ≤ j → (f (j + 1)).w.src.events.length ≤ (f j).w.src.events.length := by
    intro j hj
    refine (hinv j).grows hD (hplain j).ok (fun o it he => ?_) (hstep j) ?_ ?_
    · have := hplain j
      rw [he] at this
      cases this
    · rw [List.append_assoc]
      refine nodes_repeat hN (fun x hx => ?_)
      rcases List.mem_append.1 hx with hx | hx
      · exact htk j x hx
      · exact hn j x hx
    · rw [(hend (j + 1) (by omega)).1, (hend j hj).1]
  obtain ⟨i', hi', he⟩ := hdrain _ i (le_refl _) hdown
  have hempty : ∀ j, i' ≤ j → (f j).w.src.events.length = 0 := by
    intro j hij
    induction j, hij using Nat.le_induction with
    | base => rw [he]; rfl
    | succ j hj ih =>
      have := hdown j (by omega)
      omega
  refine ⟨i', fun j hj => ?_⟩
  obtain ⟨_, j', h1, h2⟩ := hend j (by omega)
  have := hempty j hj
  rw [h2, show j' = (after pre.length n).length by omega]

/-! ### Where it fails -/

/-- The positions of the sample blocks. -/
def fdemoPt : Key → Option Point := pointOf demoB demoDecoder.nf (List.replicate 2 0) (.header 10 1)

/-- A request and its `k` events. -/
def fdemoRequest (n : Net) (k : Nat) : List Act :=
  .inner .send :: .inner (.take n) :: (List.replicate k (Act.inner .emit) ++ [.inner .finish, .inner .recv])

/-- Two blocks are delivered; the second pull gives a queued event. -/
def fdemoActs (n : Net) : List Act :=
  .pull demoOrders :: fdemoRequest n 2 ++ [.pull demoOrders, .pull demoOrders, .inner .recv]

theorem fdemo_acts (n : Net) : ∀ a ∈ fdemoActs n, a.Ok := by
  simp [fdemoActs, fdemoRequest, Followed.Act.Ok, demo_orders, or_imp, forall_and]

/-- The state after some actions. -/
def fdemoState (d : Nat) (as : List Act) : Sys :=
  ((Sys.start d (demoB (List.replicate 2 0)).parent).run demoCfg fdemoPt demoDecoder as).getD
    (Sys.start d (demoB (List.replicate 2 0)).parent)

theorem fdemo_quiet : ∀ {as : List Act} {s : Sys}, (∀ a ∈ as, ∀ o it, a ≠ .restart o it) →
    QuietRestarts demoCfg fdemoPt demoDecoder s as
  | [], _, _ => trivial
  | _ :: _, _, h => ⟨fun o it he => absurd he (h _ (by simp) o it), fun _ _ => fdemo_quiet (fun a ha => h a (List.mem_cons_of_mem _ ha))⟩

/-- Blocks 2 and 3, then a change of the node's chain: the consumer is told to go back to block 2. -/
def fdemoSwitch : List Act :=
  fdemoActs (demoNet [1, 2, 3]) ++ (.pull demoOrders :: .inner .recv :: fdemoRequest (demoNet [1, 2, 4]) 1)

/-- The same, with the pull of the queued block. -/
def fdemoReturn : List Act := fdemoSwitch ++ [.pull demoOrders]

theorem fdemo_switch : (∀ a ∈ fdemoSwitch, a.Ok) ∧ ∀ a ∈ fdemoSwitch, ∀ o it, a ≠ .restart o it := by
  simp [fdemoSwitch, fdemoActs, fdemoRequest, Followed.Act.Ok, demo_orders, or_imp, forall_and]

theorem fdemo_taken : taken fdemoSwitch = [demoNet [1, 2, 3], demoNet [1, 2, 4]] := rfl

theorem fdemo_nodes (hs : List Nat) (h : hs = [1, 2, 3] ∨ hs = [1, 2, 4, 5]) :
    Nodes demoCfg demoDecoder demoB (List.replicate 2 0) [demoBlock 1] (.header 10 1) 1
      [demoNet [1, 2, 3], demoNet [1, 2, 4], demoNet hs] := by
  refine ⟨fun n hn => ?_, fun n _ => ?_, ?_⟩
  · have hn' : n = demoNet [1, 2, 3] ∨ n = demoNet [1, 2, 4] ∨ n = demoNet hs := by simpa using hn
    rcases hn' with rfl | rfl | rfl
    · exact demo_node (by decide) (by decide) (by decide) (by decide) (by decide) (by decide)
    · exact demo_node (by decide) (by decide) (by decide) (by decide) (by decide) (by decide)
    · rcases h with rfl | rfl
      · exact demo_node (by decide) (by decide) (by decide) (by decide) (by decide) (by decide)
      · exact demo_node (by decide) (by decide) (by decide) (by decide) (by decide) (by decide)
  · exact .inl ⟨demoBlock 1, rfl, rfl⟩
  · rcases h with rfl | rfl
    · refine List.Pairwise.cons ?_ (List.pairwise_pair.2 (by unfold Agree; decide))
      simp only [List.mem_cons, List.not_mem_nil, or_false, forall_eq_or_imp, forall_eq, Agree]
      decide
    · refine List.Pairwise.cons ?_ (List.pairwise_pair.2 (by unfold Agree; decide))
      simp only [List.mem_cons, List.not_mem_nil, or_false, forall_eq_or_imp, forall_eq, Agree]
      decide

theorem fdemo_readable {N : List Net} {n : Net} {hs hs' : List Nat} (h : N = [demoNet hs, demoNet hs']) (h' : ∃ hs, n = demoNet hs) :
    ∀ n' ∈ N ++ [n], Readable n' := by
  obtain ⟨hs2, rfl⟩ := h'
  subst h
  intro n' hn
  have hn' : n' = demoNet hs ∨ n' = demoNet hs' ∨ n' = demoNet hs2 := by simpa using hn
  rcases hn' with rfl | rfl | rfl <;> exact demo_readable _

/-- After the change the consumer has block 2 and block 4 is queued; a further pull gives it. -/
example : (fdemoState 1 fdemoSwitch).w.chain = some [List.replicate 2 0, List.replicate 1 0] ∧
    (fdemoState 1 fdemoSwitch).w.src.events.length = 1 ∧
    (fdemoState 1 fdemoReturn).w.chain =
      some (chainOf demoDecoder demoB (List.replicate 2 0) (after 1 (demoNet [1, 2, 4])) 2) := by
  decide +kernel

/-- Abandoned pulls change nothing of what the consumer is told. -/
example : ∃ s, (Sys.start 1 (demoB (List.replicate 2 0)).parent).run demoCfg fdemoPt demoDecoder ([.pull demoOrders, .abandon,
      .pull demoOrders, .inner .send, .abandon] ++ (.pull demoOrders :: .inner (.take (demoNet [1, 2, 3])) ::
      (List.replicate 2 (Act.inner .emit) ++ [.inner .finish, .abandon, .pull demoOrders, .inner .recv])) ++
      [.pull demoOrders, .pull demoOrders, .inner .recv] ++
      (.pull demoOrders :: .inner .recv :: fdemoRequest (demoNet [1, 2, 4]) 1)) = some s ∧
    s.w.chain = (fdemoState 1 fdemoSwitch).w.chain ∧ s.w.chain ≠ none := ⟨_, rfl, by decide +kernel, by decide +kernel⟩

/-- The hypotheses of the theorems are met by this schedule, with a node that has two more blocks later. -/
example : ∃ s, (Sys.start 1 (demoB (List.replicate 2 0)).parent).run demoCfg fdemoPt demoDecoder fdemoSwitch = some s ∧
    (∀ a ∈ fdemoSwitch, a.Ok) ∧
    QuietRestarts demoCfg fdemoPt demoDecoder (Sys.start 1 (demoB (List.replicate 2 0)).parent) fdemoSwitch ∧
    Nodes demoCfg demoDecoder demoB (List.replicate 2 0) [demoBlock 1] (.header 10 1) 1
      (taken fdemoSwitch ++ [demoNet [1, 2, 4, 5]]) ∧
    (∀ n' ∈ taken fdemoSwitch ++ [demoNet [1, 2, 4, 5]], Readable n') ∧ Answers (demoNet [1, 2, 4, 5]) ∧
    (∀ n' ∈ taken fdemoSwitch, n'.chain.length < (demoNet [1, 2, 4, 5]).chain.length) ∧
    after 1 (demoNet [1, 2, 4, 5]) ≠ [] ∧
    Anchored demoCfg demoB (List.replicate 2 0) (.header 10 1) 1 (demoNet [1, 2, 4, 5]) (taken fdemoSwitch) s.w.got :=
  ⟨fdemoState 1 fdemoSwitch, rfl, fdemo_switch.1, fdemo_quiet fdemo_switch.2, fdemo_nodes _ (.inr rfl),
    fdemo_readable fdemo_taken ⟨_, rfl⟩, ⟨rfl, rfl, rfl, rfl⟩, by rw [fdemo_taken]; decide, by decide,
    .inl ⟨demoB (List.replicate 3 0), by decide +kernel, by decide⟩⟩

/-- A request that gives nothing. -/
def fdemoEmpty (n : Net) : List Act :=
  [.pull demoOrders, .inner .recv, .inner .send, .inner (.take n), .inner .finish, .inner .recv]

/-- Nothing is in progress. -/
def FQuiet (w : FWorld Point) (s : Sys) : Prop :=
  s.w = w ∧ s.pend = none ∧ s.cs.connected = true ∧ s.cs.handler = .idle ∧ s.cs.queue = none ∧ s.cs.puller = .idle ∧
    s.cs.current.isSome ∧ s.cs.buf = []

theorem fquiet_cycle {pt : Key → Option Point} {w : FWorld Point} {ps : List Point} (he : w.src.events = [])
    (hreq : w.src.request D.nf demoOrders (position pt w.chain) = .ok ps)
    (hps : ps ≠ []) (hh : Cardano.handle cfg n ps = ([], .done)) {s : Sys} (h : FQuiet w s) :
    ∃ s', s.run cfg pt D (fdemoEmpty n) = some s' ∧ FQuiet w s' ∧ s'.cs.results.length = s.cs.results.length + 1 := by
  obtain ⟨⟨con, hd, q, pu, cur, buf, nx, asked, plan, net, got, cl, res⟩, w', pend⟩ := s
  obtain ⟨h0, h1, h2, h3, h4, h5, h6, h7⟩ := h
  dsimp only at h0 h1 h2 h3 h4 h5 h6 h7
  subst h0 h1 h2 h3 h4 h5 h7
  obtain ⟨c, rfl⟩ := Option.isSome_iff_exists.1 h6
  have hw : w'.step pt D.nf (.pull demoOrders (fun _ => reply D .nothing)) = w' := by
    simp [FWorld.step, FSrc.pull, he, hreq, reply, FSrc.answer, follow, heard, blockOf, ffailure]
  refine ⟨⟨⟨true, .idle, none, .idle, some nx, [], nx + 1, Cardano.set asked nx ps, Cardano.set plan nx [],
    Cardano.set net nx (some n), got, cl, res ++ [.nothing]⟩, w', none⟩, ?_, ⟨rfl, rfl, rfl, rfl, rfl, rfl, rfl, rfl⟩, by simp⟩
  simp [fdemoEmpty, Sys.run, Sys.step, he, hreq, St.step, going, St.recv, St.send, St.take, St.finish, St.alive, hh, hps,
      resultOf, hw]

theorem fquiet_cycles {pt : Key → Option Point} {w : FWorld Point} {ps : List Point} (he : w.src.events = [])
    (hreq : w.src.request D.nf demoOrders (position pt w.chain) = .ok ps)
    (hps : ps ≠ []) (hh : Cardano.handle cfg n ps = ([], .done)) : ∀ (K : Nat) {s : Sys}, FQuiet w s →
    ∃ s', s.run cfg pt D (List.replicate K (fdemoEmpty n)).flatten = some s' ∧ FQuiet w s' ∧
      s'.cs.results.length = s.cs.results.length + K
  | 0, s, h => ⟨s, rfl, h, rfl⟩
  | K + 1, s, h => by
    obtain ⟨s1, h1, h2, h3⟩ := fquiet_cycle he hreq hps hh h
    obtain ⟨s2, h4, h5, h6⟩ := fquiet_cycles he hreq hps hh K h2
    refine ⟨s2, ?_, h5, by omega⟩
    rw [List.replicate_succ, List.flatten_cons, fsys_append h1, h4]

theorem fcycles_plain (K : Nat) : (∀ a ∈ (List.replicate K (fdemoEmpty n)).flatten, a.Plain) ∧
    ∀ n' ∈ taken (List.replicate K (fdemoEmpty n)).flatten, n' = n := by
  have h : ∀ a ∈ (List.replicate K (fdemoEmpty n)).flatten, a ∈ fdemoEmpty n := by
    intro a ha
    obtain ⟨l, hl, h1⟩ := List.mem_flatten.1 ha
    rwa [List.eq_of_mem_replicate hl] at h1
  refine ⟨fun a ha => ?_, fun n' hn' => ?_⟩
  · have := h a ha
    simp only [fdemoEmpty, List.mem_cons, List.not_mem_nil, or_false] at this
    rcases this with rfl | rfl | rfl | rfl | rfl | rfl
    · exact demo_orders
    all_goals trivial
  · obtain ⟨a, ha, h1⟩ := List.mem_flatMap.1 hn'
    have := h a ha
    simp only [fdemoEmpty, List.mem_cons, List.not_mem_nil, or_false] at this
    rcases this with rfl | rfl | rfl | rfl | rfl | rfl <;> simp_all [takenBy]

/-- C82: a consumer does not catch up if the node changes its chain before `d` blocks have been received: only the position of a
block not on the chain any more is asked for, and the source gives nothing for ever. -/
theorem C82_early_fork_false : ¬ ∀ (cfg : Config) (D : Decoder) (B : Key → Block) (r : Key) (pre : List NBlock) (base : Point)
    (d : Nat) (as : List Act) (s : Sys) (n : Net), D.Ok → (∀ a ∈ as, a.Ok) →
    QuietRestarts cfg (pointOf B D.nf r base) D (Sys.start d (B r).parent) as →
    (Sys.start d (B r).parent).run cfg (pointOf B D.nf r base) D as = some s →
    Nodes cfg D B r pre base d (taken as ++ [n]) → (∀ n' ∈ taken as ++ [n], Readable n') → Answers n →
    (∀ n' ∈ taken as, n'.chain.length < n.chain.length) → after pre.length n ≠ [] →
    (∀ n' ∈ taken as ++ [n], ∀ b ∈ n'.chain, cfg.valid b.hash = true) → cfg.validPoint base = true →
    ∃ K, ∀ as' s', (∀ a ∈ as', a.Plain) → (∀ n' ∈ taken as', n' = n) →
      s.run cfg (pointOf B D.nf r base) D as' = some s' → s.cs.results.length + K ≤ s'.cs.results.length →
      s'.w.src.events = [] → s'.w.chain = some (chainOf D B r (after pre.length n) (after pre.length n).length) := by
  intro h
  obtain ⟨K, hK⟩ := h demoCfg demoDecoder demoB (List.replicate 2 0) [demoBlock 1] (.header 10 1) 2
    (fdemoActs (demoNet [1, 2, 3])) (fdemoState 2 (fdemoActs (demoNet [1, 2, 3]))) (demoNet [1, 2, 4, 5, 6]) demo_decoder
    (fdemo_acts _) (fdemo_quiet (by simp [fdemoActs, fdemoRequest, or_imp, forall_and])) rfl demo_nodes
    (by
      intro n hn
      have hn' : n = demoNet [1, 2, 3] ∨ n = demoNet [1, 2, 4, 5, 6] := by simpa [fdemoActs, fdemoRequest, taken, takenBy] using hn
      rcases hn' with rfl | rfl <;> exact demo_readable _) ⟨rfl, rfl, rfl, rfl⟩
    (by
      intro n hn
      have hn' : n = demoNet [1, 2, 3] := by simpa [fdemoActs, fdemoRequest, taken, takenBy] using hn
      rw [hn']
      decide) (by decide) (fun _ _ _ _ => rfl) rfl
  obtain ⟨s', h1, h2, h3⟩ := fquiet_cycles (cfg := demoCfg) (D := demoDecoder) (n := demoNet [1, 2, 4, 5, 6]) (pt := fdemoPt)
    (ps := [.header 30 3]) (w := (fdemoState 2 (fdemoActs (demoNet [1, 2, 3]))).w) (by decide +kernel) (by decide +kernel)
    (by decide) (by decide +kernel) K
    (s := fdemoState 2 (fdemoActs (demoNet [1, 2, 3]))) ⟨rfl, rfl, rfl, rfl, rfl, rfl, rfl, rfl⟩
  have h4 := hK _ s' (fcycles_plain K).1 (fcycles_plain K).2 h1 (by rw [h3])
  rw [h2.1] at h4
  revert h4
  clear * -
  decide +kernel

/-- C82: if the node goes back to a chain that the source knows, of the same length as the one it has now, the consumer is not
told, and stays on the abandoned chain for as long as the node's chain does not grow. -/
theorem C82_return_false : ¬ ∀ (cfg : Config) (D : Decoder) (B : Key → Block) (r : Key) (pre : List NBlock) (base : Point)
    (d : Nat) (as : List Act) (s : Sys) (n : Net), D.Ok → (∀ a ∈ as, a.Ok) →
    QuietRestarts cfg (pointOf B D.nf r base) D (Sys.start d (B r).parent) as →
    (Sys.start d (B r).parent).run cfg (pointOf B D.nf r base) D as = some s →
    Nodes cfg D B r pre base d (taken as ++ [n]) → (∀ n' ∈ taken as ++ [n], Readable n') → Answers n →
    (∀ n' ∈ taken as, n'.chain.length ≤ n.chain.length) → after pre.length n ≠ [] →
    (∀ n' ∈ taken as ++ [n], ∀ b ∈ n'.chain, cfg.valid b.hash = true) → cfg.validPoint base = true →
    Anchored cfg B r base d n (taken as) s.w.got →
    ∃ K, ∀ as' s', (∀ a ∈ as', a.Plain) → (∀ n' ∈ taken as', n' = n) →
      s.run cfg (pointOf B D.nf r base) D as' = some s' → s.cs.results.length + K ≤ s'.cs.results.length →
      s'.w.src.events = [] → s'.w.chain = some (chainOf D B r (after pre.length n) (after pre.length n).length) := by
  intro h
  obtain ⟨K, hK⟩ := h demoCfg demoDecoder demoB (List.replicate 2 0) [demoBlock 1] (.header 10 1) 1
    fdemoReturn (fdemoState 1 fdemoReturn) (demoNet [1, 2, 3]) demo_decoder
    (by simp [fdemoReturn, fdemoSwitch, fdemoActs, fdemoRequest, Followed.Act.Ok, demo_orders, or_imp, forall_and])
    (fdemo_quiet (by simp [fdemoReturn, fdemoSwitch, fdemoActs, fdemoRequest, or_imp, forall_and])) rfl (fdemo_nodes _ (.inl rfl))
    (fdemo_readable (hs := [1, 2, 3]) (hs' := [1, 2, 4]) rfl ⟨_, rfl⟩) ⟨rfl, rfl, rfl, rfl⟩
    (by
      intro n hn
      have hn' : n = demoNet [1, 2, 3] ∨ n = demoNet [1, 2, 4] := by
        simpa [fdemoReturn, fdemoSwitch, fdemoActs, fdemoRequest, taken, takenBy] using hn
      rcases hn' with rfl | rfl <;> decide) (by decide) (fun _ _ _ _ => rfl) rfl
    (.inl ⟨demoB (List.replicate 3 0), by decide +kernel, by decide⟩)
  obtain ⟨s', h1, h2, h3⟩ := fquiet_cycles (cfg := demoCfg) (D := demoDecoder) (n := demoNet [1, 2, 3]) (pt := fdemoPt)
    (ps := [.header 30 3, .header 20 2, .header 40 4]) (w := (fdemoState 1 fdemoReturn).w)
    (by decide +kernel) (by decide +kernel) (by decide) (by decide +kernel) K
    (s := fdemoState 1 fdemoReturn) ⟨rfl, rfl, rfl, rfl, rfl, rfl, rfl, rfl⟩
  have h4 := hK _ s' (fcycles_plain K).1 (fcycles_plain K).2 h1 (by rw [h3])
  rw [h2.1] at h4
  revert h4
  clear * -
  decide +kernel

/-- C82: if the program is stopped while a block is queued, the queue is lost, and the next event does not fit the consumer's
chain. -/
theorem C82_restart_false : ¬ ∀ (cfg : Config) (D : Decoder) (B : Key → Block) (r : Key) (pre : List NBlock) (base : Point)
    (d : Nat) (as : List Act) (s : Sys), D.Ok → (∀ a ∈ as, a.Ok) →
    (Sys.start d (B r).parent).run cfg (pointOf B D.nf r base) D as = some s →
    Nodes cfg D B r pre base d (taken as) → s.w.chain ≠ none := by
  intro h
  refine h demoCfg demoDecoder demoB (List.replicate 2 0) [demoBlock 1] (.header 10 1) 2
    (.pull demoOrders :: fdemoRequest (demoNet [1, 2]) 1 ++
      .restart demoOrders id :: .pull demoOrders :: fdemoRequest (demoNet [1, 2, 3]) 1)
    (fdemoState 2 (.pull demoOrders :: fdemoRequest (demoNet [1, 2]) 1 ++
      .restart demoOrders id :: .pull demoOrders :: fdemoRequest (demoNet [1, 2, 3]) 1)) demo_decoder
    (by simp [fdemoRequest, Followed.Act.Ok, demo_orders, or_imp, forall_and]) rfl ?_ (by decide +kernel)
  refine ⟨fun n hn => ?_, fun n _ => .inl ⟨demoBlock 1, rfl, rfl⟩, List.pairwise_pair.2 (by unfold Agree; decide)⟩
  have hn' : n = demoNet [1, 2] ∨ n = demoNet [1, 2, 3] := by simpa [fdemoRequest, taken, takenBy] using hn
  rcases hn' with rfl | rfl
  · exact demo_node (by decide) (by decide) (by decide) (by decide) (by decide) (by decide)
  · exact demo_node (by decide) (by decide) (by decide) (by decide) (by decide) (by decide)

/-- The blocks before and after the one that cannot be converted are delivered. -/
def fdemoSkip : List Act := .pull demoOrders :: fdemoRequest demoBad 6 ++
  [.pull demoOrders, .pull demoOrders, .inner .recv, .pull demoOrders, .inner .recv]

/-- C82: if a block cannot be converted, the pull fails, but the next one goes on with the block after it, which does not fit the
consumer's chain. -/
theorem C82_skipped_block_false : ¬ ∀ (cfg : Config) (D : Decoder) (B : Key → Block) (r : Key) (d : Nat) (n : Net) (b0 x0 : NBlock)
    (l : List NBlock) (as : List Act) (s : Sys), D.Ok → n.chain = b0 :: x0 :: l → (n.chain.map NBlock.point).Nodup →
    (x0 :: l).IsChain (fun x y => (D.view y).parent = (D.view x).id ∧ (D.view y).number = (D.view x).number + 1) →
    (D.view x0).id = r → (∀ x ∈ x0 :: l, D.view x = B (D.view x).id) →
    (∀ a ∈ as, a.Plain) → (∀ n' ∈ taken as, n' = n) →
    (Sys.start d (B r).parent).run cfg (pointOf B D.nf r b0.point) D as = some s → s.w.chain ≠ none := by
  intro h
  refine h demoCfg demoDecoder demoB (List.replicate 2 0) 2 demoBad (demoBlock 1) (demoBlock 2) _
    fdemoSkip (fdemoState 2 fdemoSkip)
    demo_decoder rfl (by decide) (by decide) rfl (by decide)
    (by simp [fdemoSkip, fdemoRequest, Followed.Act.Plain, demo_orders, or_imp, forall_and])
    (fun n' hn' => List.mem_singleton.1 hn') rfl (by decide +kernel)

end Verif.Props
