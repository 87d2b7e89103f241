import Verif.Sources.FollowedInv
import Verif.Sources.ConfirmedLive

/-!
# The fork handling source catches up
-/

namespace Verif.Sources.Followed

open Verif.Multiverse
open Verif.Sources.Cardano (Point NBlock Net Out PullRes St Config handle CInv planOf evOf)
open Verif.Sources.Confirmed (Decoder reply going NodeOk Nodes BaseOk after Agree From Effect effect Readable Live effect_queue
  handle_length Req after_getElem)

variable {cfg : Config} {D : Decoder} {B : Key → Block} {r : Key} {pre : List NBlock} {base : Point} {n : Net} {d : Nat}

/-- The chain to a block of the node's chain. -/
theorem chainTo_ids (h : NodeOk cfg D B r pre n) {m : Nat} {a : NBlock} (ha : (after pre.length n)[m]? = some a) :
    chainTo B r (some (D.view a).id) =
      (((after pre.length n).take (m + 1)).map (fun x => (D.view x).id)).reverse ++ [(B r).parent] := by
  have hb := (h.block a (List.mem_of_getElem? ha)).1
  have hn := h.number ha
  rw [hb] at hn
  rw [chainTo, hn, Nat.add_sub_cancel_left, h.path ha]

/-- Where a request can be answered: the node's chain has one of the positions. -/
def OnChain (n : Net) (p : Point) : Prop := ∃ b ∈ n.chain, b.point = p

/-- What is needed for that: `d` blocks have been received; or the node's chain has only grown. -/
def Anchored (cfg : Config) (B : Key → Block) (r : Key) (base : Point) (d : Nat) (n : Net) (N : List Net) (got : List Block) : Prop :=
  (∃ x ∈ got, (B r).number + d ≤ x.number) ∨
  (∀ n' ∈ N, n'.chain <+: n.chain) ∧ (base ≠ .header 0 cfg.genesisParent ∨ got ≠ [])

theorem FSInv.anchor (hD : D.Ok) {N : List Net} {s : Sys} (h : FSInv cfg D B r pre base d N s)
    (hN : Nodes cfg D B r pre base d (N ++ [n])) (he : s.w.src.events = []) {o : Orders} {qs : List Point}
    (hq : s.w.src.request D.nf o (position (pointOf B D.nf r base) s.w.chain) = .ok qs)
    (ha : Anchored cfg B r base d n N s.w.got) : ∃ p ∈ qs, OnChain n p := by
  obtain ⟨S, hw⟩ := h.wi
  obtain ⟨_, h2, h3⟩ := request_mem hq
  have hok := hN.ok n (by simp)
  rcases ha with ⟨x, hx, hdeep⟩ | ⟨hgrow, hgot⟩
  · obtain ⟨c, hc⟩ := Option.ne_none_iff_exists'.1 (hw.deep x hx hdeep)
    obtain ⟨y, hy, hyd, rfl⟩ := hw.anc c hc
    obtain ⟨n', hn', z, hz, rfl⟩ := h.sent.from y hy
    have hok' := hN.ok n' (List.mem_append.2 (.inl hn'))
    obtain ⟨m, hm, rfl⟩ := List.getElem_of_mem hz
    have ez := List.getElem?_eq_getElem hm
    have hnum := hok'.number ez
    obtain ⟨a, h4, h5⟩ := hok'.anc ez (i := d) (by omega)
    have hag : Agree d n' n := (List.pairwise_append.1 hN.agree).2.2 n' hn' n (by simp)
    have h6 : (after pre.length n)[m - d]? = some a := by
      rw [agree_after (.inr hag) ez (by omega)]
      exact h4
    have hst := hw.conf _ hc
    have hget : s.w.src.mv.get (Sources.anc B d (D.view (after pre.length n')[m]).id) = some (D.view a) := by
      rw [hw.rel.get, if_pos hst, ← h5, ← (hok'.block a (List.mem_of_getElem? h4)).1]
    refine ⟨a.point, h3 _ _ _ hc hget (hD.point a), a, ?_, rfl⟩
    rw [hok.chain]
    exact List.mem_append.2 (.inr (List.mem_of_getElem? h6))
  · rcases h.pos hD he with ⟨h4, h5⟩ | ⟨n', hn', u, hu, _, _, h5, _⟩
    · refine ⟨base, h2 _ h5, ?_⟩
      rcases hgot with hgot | hgot
      · rcases hN.base n (by simp) with ⟨b0, hb0, hbb⟩ | ⟨hbb, _⟩
        · exact ⟨b0, by rw [hok.chain]; exact List.mem_append.2 (.inl (List.mem_of_getLast? hb0)), hbb.symm⟩
        · exact absurd hbb hgot
      · exact absurd h4 hgot
    · refine ⟨u.point, h2 _ h5, u, (hgrow n' hn').subset ?_, rfl⟩
      rw [(hN.ok n' (List.mem_append.2 (.inl hn'))).chain]
      exact List.mem_append.2 (.inr hu)

/-! ### With one node -/

/-- The tail has no restarts. -/
def Act.Plain : Act → Prop
  | .pull o => o.Ok
  | .inner _ => True
  | .abandon => True
  | .restart _ _ => False

theorem Act.Plain.ok {a : Act} (h : a.Plain) : a.Ok := by
  cases a with
  | pull o => exact h
  | inner a => trivial
  | abandon => trivial
  | restart o it => cases h

theorem quiet_plain {pt : Key → Option Point} : ∀ {as : List Act} {s : Sys}, (∀ a ∈ as, a.Plain) → QuietRestarts cfg pt D s as
  | [], _, _ => trivial
  | a :: as, s, h => by
    refine ⟨fun o it he => ?_, fun s' _ => quiet_plain (fun a' ha' => h a' (List.mem_cons_of_mem _ ha'))⟩
    have := h a (by simp)
    rw [he] at this
    cases this

/-- From `s0` on the handler takes requests with the same node `n`. -/
structure FTInv (n : Net) (s0 s : Sys) : Prop where
  next : s0.cs.next ≤ s.cs.next
  net : ∀ c, s0.cs.next ≤ c → c < s.cs.next → s.cs.net c = some n ∨ ∃ f, s.cs.queue = some (f, c)
  anchor : ∀ c, s0.cs.next ≤ c → c < s.cs.next → ∃ p ∈ s.cs.asked c, OnChain n p
  plan : ∀ c, s.cs.plan c = s0.cs.plan c ∨ (s.cs.plan c).length ≤ 1 + n.chain.length + n.originRange.length
  got : ∀ v ∈ s0.w.got, v ∈ s.w.got

theorem FTInv.refl (n : Net) (s : Sys) : FTInv n s s :=
  ⟨le_refl _, fun c h1 h2 => by omega, fun c h1 h2 => by omega, fun _ => .inl rfl, fun _ h => h⟩

theorem step_got_mono (pt : Key → Option Point) (w : FWorld Point) (a : FAct Point) :
    ∀ v ∈ w.got, v ∈ (w.step pt D.nf a).got := by
  intro v hv
  obtain ⟨l, hl⟩ := fstep_got pt D.nf w a
  rw [hl]
  exact List.mem_append.2 (.inr hv)

/-- A request that is made is put in the queue. -/
theorem sent_queue {s s' : St} {a : Cardano.Act} (ha : going a = true) (hs : s.step cfg a = some s') (hl : s'.handler ≠ .gone)
    (hnext : s.next < s'.next) : ∃ f, s'.queue = some (f, s.next) ∧ s'.net = s.net ∧ s.queue = none := by
  cases a with
  | send =>
    simp only [St.step, St.send] at hs
    split at hs
    · split at hs
      · obtain rfl := Option.some.inj hs
        exact absurd hnext (lt_irrefl _)
      · split at hs
        · cases hs
        · rename_i hq
          obtain rfl := Option.some.inj hs
          exact ⟨_, rfl, rfl, hq⟩
    · cases hs
  | pull f => cases ha
  | clear => cases ha
  | recv =>
    exfalso
    simp only [St.step, St.recv] at hs
    split at hs
    · split at hs
      · obtain rfl := Option.some.inj hs; exact lt_irrefl _ hnext
      · split at hs
        · cases hs
        · obtain rfl := Option.some.inj hs; exact lt_irrefl _ hnext
    · split at hs
      · obtain rfl := Option.some.inj hs; exact lt_irrefl _ hnext
      · split at hs
        · cases hs
        · obtain rfl := Option.some.inj hs; exact lt_irrefl _ hnext
    · cases hs
  | take n' =>
    exfalso
    simp only [St.step, St.take] at hs
    split at hs
    · split at hs
      · obtain rfl := Option.some.inj hs; exact lt_irrefl _ hnext
      · obtain rfl := Option.some.inj hs; exact lt_irrefl _ hnext
    · cases hs
  | emit =>
    exfalso
    simp only [St.step, St.emit] at hs
    split at hs
    · split at hs
      · split at hs
        · obtain rfl := Option.some.inj hs; exact lt_irrefl _ hnext
        · cases hs
      · split at hs
        · obtain rfl := Option.some.inj hs; exact lt_irrefl _ hnext
        · obtain rfl := Option.some.inj hs; exact lt_irrefl _ hnext
    · cases hs
  | finish =>
    exfalso
    simp only [St.step, St.finish] at hs
    split at hs
    · obtain rfl := Option.some.inj hs; exact lt_irrefl _ hnext
    · obtain rfl := Option.some.inj hs; exact lt_irrefl _ hnext
    · obtain rfl := Option.some.inj hs; exact lt_irrefl _ hnext
    · cases hs

theorem FTInv.step {N : List Net} {s0 s s' : Sys} (hD : D.Ok) (hN : Nodes cfg D B r pre base d (N ++ [n]))
    (h : FSInv cfg D B r pre base d N s) (hlive : Live s'.cs) (hconn : n.connects = true) (ht : FTInv n s0 s)
    (hanch : Anchored cfg B r base d n N s.w.got) {a : Act} (ha : a.Plain) (hn : ∀ n' ∈ taken [a], n' = n)
    (hs : s.step cfg (pointOf B D.nf r base) D a = some s') : FTInv n s0 s' := by
  cases a with
  | abandon =>
    simp only [Sys.step] at hs
    split at hs
    · cases hs
    · obtain ⟨cs', h1, rfl⟩ := Option.map_eq_some_iff.1 hs
      unfold St.abandon at h1
      split at h1
      · cases h1
      · obtain rfl := Option.some.inj h1
        exact ⟨ht.next, ht.net, ht.anchor, ht.plan, ht.got⟩
  | restart o it => cases ha
  | pull o =>
    simp only [Sys.step] at hs
    split at hs
    · cases hs
    · split at hs
      · obtain ⟨cs', h1, rfl⟩ := Option.map_eq_some_iff.1 hs
        simp only [St.step] at h1
        split at h1
        · obtain rfl := Option.some.inj h1
          exact ⟨ht.next, ht.net, ht.anchor, ht.plan, ht.got⟩
        · cases h1
      · obtain rfl := Option.some.inj hs
        exact ⟨ht.next, ht.net, ht.anchor, ht.plan, fun v hv => step_got_mono _ _ _ v (ht.got v hv)⟩
  | inner a =>
    simp only [Sys.step] at hs
    split at hs
    · rename_i hgo
      obtain ⟨cs', h1, hs⟩ := Option.map_eq_some_iff.1 hs
      have hcs : s'.cs = cs' := by
        rw [← hs]
        cases resultOf s cs' <;> rfl
      have hout : ∀ v ∈ s.w.got, v ∈ s'.w.got := by
        rw [← hs]
        cases resultOf s cs' with
        | none => exact fun v hv => hv
        | some y => exact fun v hv => step_got_mono _ _ _ v hv
      have hn' : ∀ n', a = .take n' → n' = n := by
        rintro n' rfl
        exact hn n' (by simp [taken, takenBy])
      rw [hcs] at hlive
      have hnext : s.cs.next ≤ cs'.next ∧
          ∀ c < cs'.next, (c < s.cs.next ∧ cs'.asked c = s.cs.asked c) ∨
            c = s.cs.next ∧ s.cs.next < cs'.next ∧ ∃ p ∈ cs'.asked c, OnChain n p := by
        cases effect hgo h1 with
        | quiet results got next asked cleared puller net =>
          rw [next, asked]
          exact ⟨le_refl _, fun c hc => .inl ⟨hc, rfl⟩⟩
        | event c o hc results got next asked cleared was puller net =>
          rw [next, asked]
          exact ⟨le_refl _, fun c hc => .inl ⟨hc, rfl⟩⟩
        | ended x hx results got next asked cleared was puller net =>
          rw [next, asked]
          exact ⟨le_refl _, fun c hc => .inl ⟨hc, rfl⟩⟩
        | sent f was puller results got next asked cleared net =>
          rw [next, asked]
          refine ⟨by omega, fun c hc => ?_⟩
          by_cases he : c = s.cs.next
          · subst he
            refine .inr ⟨rfl, by omega, ?_⟩
            rw [Cardano.set_eq]
            obtain ⟨_, o, ho, hne⟩ := h.pull f (.inr was)
            rw [if_neg hne]
            have hpend : s.pend ≠ none := fun hp => by
              have := h.idle.1 hp
              rw [was] at this
              cases this
            obtain ⟨o', ho'⟩ := Option.ne_none_iff_exists'.1 hpend
            exact h.anchor hD hN (h.req o' ho').2.1 ho hanch
          · rw [Cardano.set_ne _ _ he]
            exact .inl ⟨by omega, rfl⟩
      obtain ⟨k1, k3⟩ := hnext
      refine ⟨by rw [hcs]; exact ht.next.trans k1, fun c hc hc' => ?_, fun c hc hc' => ?_, fun c => ?_,
        fun v hv => hout v (ht.got v hv)⟩
      · rw [hcs] at hc' ⊢
        rcases k3 c hc' with ⟨h3, _⟩ | ⟨rfl, h3, _⟩
        · rcases effect_queue h1 hgo hn' hconn hlive.here with ⟨q1, q2, q3⟩ | ⟨f, q1, q2, q3, q4⟩ | ⟨f, c', q1, q2, q3⟩
          · rw [q1, q3]
            exact ht.net c hc h3
          · rw [q4]
            rcases ht.net c hc h3 with h4 | ⟨f', h4⟩
            · exact .inl h4
            · rw [q2] at h4
              cases h4
          · rw [q3]
            by_cases he : c = c'
            · subst he
              exact .inl (Cardano.set_eq _ _ _)
            · rw [Cardano.set_ne _ _ he]
              rcases ht.net c hc h3 with h4 | ⟨f', h4⟩
              · exact .inl h4
              · rw [q1] at h4
                obtain ⟨_, h5⟩ := Prod.mk.inj (Option.some.inj h4)
                exact absurd h5.symm he
        · obtain ⟨f, hf, _⟩ := sent_queue hgo h1 hlive.here h3
          exact .inr ⟨f, hf⟩
      · rw [hcs] at hc' ⊢
        rcases k3 c hc' with ⟨h3, h4⟩ | ⟨_, _, hp⟩
        · rw [h4]
          exact ht.anchor c hc h3
        · exact hp
      · rw [hcs]
        rcases effect_queue h1 hgo hn' hconn hlive.here with ⟨q1, q2, q3⟩ | ⟨f, q1, q2, q3, q4⟩ | ⟨f, c', q1, q2, q3⟩
        · rw [q2]; exact ht.plan c
        · rw [q3]; exact ht.plan c
        · rw [q2]
          by_cases he : c = c'
          · subst he
            rw [Cardano.set_eq]
            exact .inr (handle_length cfg n f)
          · rw [Cardano.set_ne _ _ he]
            exact ht.plan c
    · cases hs

/-- The source and the handler stay alive. -/
theorem live_sys {N : List Net} {s s' : Sys} (h : FSInv cfg D B r pre base d N s) (hl : Live s.cs)
    (hN : ∀ n ∈ N, Readable n) {a : Act} {pt : Key → Option Point} (hs : s.step cfg pt D a = some s') : Live s'.cs := by
  have hnet : ∀ c n, s.cs.net c = some n → Readable n := fun c n hn => hN n (h.nets c n hn)
  cases a with
  | abandon =>
    simp only [Sys.step] at hs
    split at hs
    · cases hs
    · obtain ⟨cs', h1, rfl⟩ := Option.map_eq_some_iff.1 hs
      exact hl.abandon h1
  | restart o it =>
    simp only [Sys.step] at hs
    obtain rfl := Option.some.inj hs
    exact Live.start
  | pull o =>
    simp only [Sys.step] at hs
    split at hs
    · cases hs
    · split at hs
      · obtain ⟨cs', h1, rfl⟩ := Option.map_eq_some_iff.1 hs
        exact hl.pull h1
      · obtain rfl := Option.some.inj hs
        exact hl
  | inner a =>
    simp only [Sys.step] at hs
    split at hs
    · rename_i hgo
      obtain ⟨cs', h1, hs⟩ := Option.map_eq_some_iff.1 hs
      have hcs : s'.cs = cs' := by
        rw [← hs]
        cases resultOf s cs' <;> rfl
      rw [hcs]
      exact hl.step h.ci hnet hgo h1
    · cases hs

theorem live_run (hD : D.Ok) : ∀ {as : List Act} {N : List Net} {s s' : Sys}, FSInv cfg D B r pre base d N s → Live s.cs →
    (∀ a ∈ as, a.Ok) → QuietRestarts cfg (pointOf B D.nf r base) D s as → s.run cfg (pointOf B D.nf r base) D as = some s' →
    Nodes cfg D B r pre base d (N ++ taken as) → (∀ n ∈ N ++ taken as, Readable n) → Live s'.cs
  | [], N, s, s', _, hl, _, _, hr, _, _ => by
    obtain rfl := Option.some.inj hr
    exact hl
  | a :: as, N, s, s', h, hl, ha, hq, hr, hN, hR => by
    rw [Sys.run] at hr
    cases hs : s.step cfg (pointOf B D.nf r base) D a with
    | none => rw [hs] at hr; cases hr
    | some s1 =>
      rw [hs] at hr
      have e : N ++ taken (a :: as) = (N ++ taken [a]) ++ taken as := by
        rw [List.append_assoc, ← taken_append]
        rfl
      rw [e] at hN hR
      exact live_run hD (h.step hD (ha a (by simp)) hq.1 hs hN.left)
        (live_sys h hl (fun n hn => hR n (by simp [hn])) hs) (fun a' ha' => ha a' (List.mem_cons_of_mem _ ha'))
        (hq.2 s1 hs) hr hN hR

theorem Anchored.mono {N N' : List Net} {got got' : List Block} (h : Anchored cfg B r base d n N got)
    (hN : ∀ x ∈ N', x ∈ N ∨ x = n) (hg : ∀ v ∈ got, v ∈ got') : Anchored cfg B r base d n N' got' := by
  rcases h with ⟨x, hx, h1⟩ | ⟨h1, h2⟩
  · exact .inl ⟨x, hg x hx, h1⟩
  · refine .inr ⟨fun x hx => ?_, h2.imp_right (fun h3 => ?_)⟩
    · rcases hN x hx with h3 | rfl
      · exact h1 x h3
      · exact List.prefix_rfl
    · obtain ⟨v, hv⟩ := List.exists_mem_of_ne_nil _ h3
      exact List.ne_nil_of_mem (hg v hv)

theorem FTInv.run (hD : D.Ok) (hconn : n.connects = true) {s0 : Sys} : ∀ {as : List Act} {N : List Net} {s s' : Sys},
    FSInv cfg D B r pre base d N s → Live s.cs → FTInv n s0 s → Anchored cfg B r base d n N s.w.got →
    (∀ a ∈ as, a.Plain) → (∀ n' ∈ taken as, n' = n) → s.run cfg (pointOf B D.nf r base) D as = some s' →
    Nodes cfg D B r pre base d (N ++ taken as ++ [n]) → (∀ n ∈ N ++ taken as, Readable n) → FTInv n s0 s'
  | [], N, s, s', _, _, ht, _, _, _, hr, _, _ => by
    obtain rfl := Option.some.inj hr
    exact ht
  | a :: as, N, s, s', h, hl, ht, hanch, ha, hn, hr, hN, hR => by
    rw [Sys.run] at hr
    cases hs : s.step cfg (pointOf B D.nf r base) D a with
    | none => rw [hs] at hr; cases hr
    | some s1 =>
      rw [hs] at hr
      have e : N ++ taken (a :: as) = (N ++ taken [a]) ++ taken as := by
        rw [List.append_assoc, ← taken_append]
        rfl
      have e2 : taken (a :: as) = taken [a] ++ taken as := taken_append [a] as
      rw [e] at hN hR
      rw [e2] at hn
      have hl1 := live_sys h hl (fun n hn => hR n (by simp [hn])) hs
      have hq : ∀ o it, a = .restart o it → Sources.Quiet s.w := by
        intro o it he
        have := ha a (by simp)
        rw [he] at this
        cases this
      have hN1 : Nodes cfg D B r pre base d (N ++ [n]) := by
        refine ⟨fun x hx => hN.ok x ?_, fun x hx => hN.base x ?_, hN.agree.sublist ?_⟩
        · rcases List.mem_append.1 hx with hx | hx
          · simp [hx]
          · simp [List.mem_singleton.1 hx]
        · rcases List.mem_append.1 hx with hx | hx
          · simp [hx]
          · simp [List.mem_singleton.1 hx]
        · refine List.Sublist.append ?_ (List.Sublist.refl _)
          exact (List.prefix_append N _).sublist.trans (List.prefix_append _ _).sublist
      have ht1 := ht.step hD hN1 h hl1 hconn hanch (ha a (by simp)) (fun n' hn' => hn n' (List.mem_append.2 (.inl hn'))) hs
      have h1 := (FTInv.refl n s).step hD hN1 h hl1 hconn hanch (ha a (by simp)) (fun n' hn' => hn n' (List.mem_append.2 (.inl hn'))) hs
      refine FTInv.run hD hconn (h.step hD (ha a (by simp)).ok hq hs hN.left.left) hl1 ht1
        (hanch.mono (fun x hx => ?_) h1.got)
        (fun a' ha' => ha a' (List.mem_cons_of_mem _ ha')) (fun n' hn' => hn n' (List.mem_append.2 (.inr hn'))) hr hN hR
      rcases List.mem_append.1 hx with hx | hx
      · exact .inl hx
      · exact .inr (hn x (List.mem_append.2 (.inl hx)))

/-- After enough results the request made first after `s0` has been answered completely. -/
theorem FTInv.done {N : List Net} {s0 s : Sys} (h : FSInv cfg D B r pre base d N s) (hl : Live s.cs) (ht : FTInv n s0 s)
    (hlong : ((List.range s0.cs.next).map (fun c => (s0.cs.plan c).length + (1 + n.chain.length + n.originRange.length))).sum +
      (1 + n.chain.length + n.originRange.length) + s0.cs.next + 2 + (s0.cs.plan s0.cs.next).length ≤ s.cs.results.length) :
    s0.cs.next + 1 < s.cs.next ∧ s.cs.net s0.cs.next = some n ∧ s.cs.got s0.cs.next = s.cs.plan s0.cs.next := by
  have hnext : s0.cs.next + 1 < s.cs.next := by
    by_contra hlt
    have hcount := hl.count
    rw [h.ci.res] at hcount
    have hsum : ∀ k, k ≤ s0.cs.next → ((List.range k).flatMap s.cs.got).length ≤
        ((List.range k).map (fun c => (s0.cs.plan c).length + (1 + n.chain.length + n.originRange.length))).sum := by
      intro k
      induction k with
      | zero => simp
      | succ k ih =>
        intro hk
        have ih' := ih (by omega)
        rw [List.range_succ, List.flatMap_append, List.map_append, List.length_append, List.sum_append]
        have hg := (h.ci.pre k).length_le
        simp only [List.flatMap_cons, List.flatMap_nil, List.append_nil, List.map_cons, List.map_nil, List.sum_cons,
          List.sum_nil]
        rcases ht.plan k with hp | hp
        · rw [hp] at hg; omega
        · omega
    have hle := ht.next
    rcases Nat.lt_or_ge s0.cs.next s.cs.next with h1 | h1
    · have he : s.cs.next = s0.cs.next + 1 := by omega
      rw [he, List.range_succ, List.flatMap_append, List.length_append] at hcount
      simp only [List.flatMap_cons, List.flatMap_nil, List.append_nil] at hcount
      have h2 := hsum s0.cs.next (le_refl _)
      have hg := (h.ci.pre s0.cs.next).length_le
      rcases ht.plan s0.cs.next with hp | hp
      · rw [hp] at hg; omega
      · omega
    · have he : s.cs.next = s0.cs.next := by omega
      rw [he] at hcount
      have h2 := hsum s0.cs.next (le_refl _)
      omega
  have hcur : s.cs.current ≠ some s0.cs.next := by
    intro hc
    have := (h.ci.cur _ hc).1
    omega
  obtain ⟨h1, h2⟩ := h.ci.lost s0.cs.next (by omega) hcur (h.cleared _)
  refine ⟨hnext, ?_, h1⟩
  rcases ht.net s0.cs.next (le_refl _) (by omega) with h3 | ⟨f, h3⟩
  · exact h3
  · exact absurd h3 ((Cardano.alive_false.1 h2).1 f)

/-! ### The last block of a long chain is the last new block -/

theorem prefix_append_cases {α : Type} {A R N1 : List α} {a : α} (h : N1 ++ [a] <+: A ++ R) :
    N1 ++ [a] <+: A ∨ ∃ R', N1 ++ [a] = A ++ R' ∧ R' <+: R ∧ a ∈ R := by
  rcases Nat.lt_or_ge A.length (N1 ++ [a]).length with hlt | hge
  · right
    obtain ⟨R', hR'⟩ := List.prefix_of_prefix_length_le (List.prefix_append A R) h (by omega)
    have hpre : R' <+: R := by
      rw [← hR'] at h
      exact (List.prefix_append_right_inj _).1 h
    refine ⟨R', hR'.symm, hpre, ?_⟩
    have hne : R' ≠ [] := by
      rintro rfl
      rw [List.append_nil] at hR'
      rw [hR'] at hlt
      omega
    have h1 := congrArg List.getLast? hR'
    rw [List.getLast?_append, List.getLast?_append] at h1
    cases hl : R'.getLast? with
    | none => exact absurd (List.getLast?_eq_none_iff.1 hl) hne
    | some x =>
      rw [hl] at h1
      have : x = a := by simpa using h1
      exact hpre.subset (this ▸ List.mem_of_getLast? hl)
  · left
    exact List.prefix_of_prefix_length_le h (List.prefix_append A R) hge

theorem lastNew_top {A : List Net} (hN : ∀ n' ∈ A ++ [n], NodeOk cfg D B r pre n')
    (hlong : ∀ n' ∈ A, n'.chain.length < n.chain.length) {t : NBlock} (ht : (after pre.length n).getLast? = some t) :
    ∀ {G : List Block} {R : List Net}, (∀ n' ∈ R, n' = n) → Feed B r G → Sent D pre.length (A ++ R) G → D.view t ∈ G →
      (∀ x ∈ after pre.length n, D.view x ∈ G) ∧ lastNew G = some (D.view t)
  | [], _, _, _, _, h => by cases h
  | v :: G, R, hR, hf, ⟨N1, n1, h1, h2, h3⟩, h => by
    have hok := hN n (by simp)
    have hidx : (after pre.length n)[(after pre.length n).length - 1]? = some t := by
      rw [← ht, List.getLast?_eq_getElem?]
    have hold : ∀ {M : List Net} {x : Block}, M <+: A → From D pre.length M [x] → x ≠ D.view t := by
      intro M x hM hx
      obtain ⟨n', hn', y, hy, rfl⟩ := hx x (by simp)
      have hok' := hN n' (List.mem_append.2 (.inl (hM.subset hn')))
      obtain ⟨m, hm, rfl⟩ := List.getElem_of_mem hy
      have e1 := hok'.number (List.getElem?_eq_getElem hm)
      have e2 := hok.number hidx
      have e3 := hlong n' (hM.subset hn')
      have e4 : (after pre.length n').length = n'.chain.length - pre.length := List.length_drop
      have e5 : (after pre.length n).length = n.chain.length - pre.length := List.length_drop
      intro he
      rw [he] at e1
      omega
    rcases prefix_append_cases h1 with hA | ⟨R', hR1, hR2, hn1⟩
    · exfalso
      have hs' : Sent D pre.length A (v :: G) := ⟨N1, n1, hA, h2, h3⟩
      exact hold List.prefix_rfl (fun x hx => by
        rw [List.mem_singleton.1 hx]
        exact hs'.from _ h) rfl
    · rw [hR n1 hn1] at h2
      rw [hR1] at h3
      have hR'' : ∀ n' ∈ R', n' = n := fun n' hn' => hR n' (hR2.subset hn')
      have hall : ∀ {F : List Block}, Feed B r F → D.view t ∈ F → ∀ x ∈ after pre.length n, D.view x ∈ F := by
        intro F hF htF x hx
        obtain ⟨m, hm, rfl⟩ := List.getElem_of_mem hx
        obtain ⟨a, h4, h5⟩ := hok.anc hidx (i := (after pre.length n).length - 1 - m) (by omega)
        rw [show (after pre.length n).length - 1 - ((after pre.length n).length - 1 - m) = m by omega,
          List.getElem?_eq_getElem hm] at h4
        obtain rfl := Option.some.inj h4
        have hnum := hok.number hidx
        obtain ⟨w, hw, h6, _⟩ := hF.anc ((after pre.length n).length - 1 - m) htF (by omega)
        have he : w = D.view (after pre.length n)[m] :=
          (hF.ok w hw).1.trans ((congrArg B (h6.trans h5.symm)).trans (hok.block _ (List.getElem_mem hm)).1.symm)
        rw [← he]
        exact hw
      refine ⟨hall hf h, ?_⟩
      by_cases htG : D.view t ∈ G
      · obtain ⟨h4, h5⟩ := lastNew_top hN hlong ht hR'' hf.tail h3 htG
        obtain ⟨x, hx, rfl⟩ := h2
        rw [lastNew, if_pos (h4 x hx)]
        exact h5
      · rcases List.mem_cons.1 h with h4 | h4
        · rw [lastNew, ← h4, if_neg htG]
        · exact absurd h4 htG

/-- An answer that gives no new block changes nothing for the consumer. -/
theorem FInv.repeat {w : FWorld Point} {S : Tree} (h : FInv B d r D.nf base w S) {o : Orders}
    (he : w.src.events = []) {ps : List Point} (hq : w.src.request D.nf o (position (pointOf B D.nf r base) w.chain) = .ok ps)
    {x : PullRes} (hx : ∀ v ∈ answerBlock D x, v ∈ w.got) (hs : Shallow B d r (answerBlock D x ++ w.got)) :
    (w.step (pointOf B D.nf r base) D.nf (.pull o (fun _ => reply D x))).chain = w.chain ∧
    (w.step (pointOf B D.nf r base) D.nf (.pull o (fun _ => reply D x))).src.events = [] := by
  obtain ⟨c, hc, _⟩ := h.chain
  have key : ∀ y, reply D x = y → (follow (pointOf B D.nf r base) w.chain
      (w.src.answer D.nf o (position (pointOf B D.nf r base) w.chain) y).1 = w.chain) ∧
      (w.src.answer D.nf o (position (pointOf B D.nf r base) w.chain) y).2.events = [] := by
    intro y hy
    cases y with
    | error e => exact ⟨rfl, he⟩
    | ok y =>
      cases y with
      | none => exact ⟨rfl, he⟩
      | some ev =>
        cases ev with
        | tip k => exact ⟨by rw [hc]; rfl, he⟩
        | block v =>
          have hv : answerBlock D x = [v] := by
            unfold answerBlock
            rw [hy]
            rfl
          rw [hv] at hx hs
          have hst : (S v.id).isSome := h.inv.keep v (hx v (by simp)) hs.2.1
          have hg : (w.src.mv.get v.id).isSome := by rw [h.rel.get, if_pos hst]; rfl
          simp only [FSrc.answer, hg, if_true]
          exact ⟨rfl, he⟩
  obtain ⟨k1, k2⟩ := key _ rfl
  simp only [FWorld.step, FSrc.pull, he, hq]
  exact ⟨k1, k2⟩

end Verif.Sources.Followed
