import Verif.Sources.ConfirmedInv

/-!
# The confirming source catches up
-/

namespace Verif.Sources.Confirmed

open Verif.Multiverse
open Verif.Sources.Cardano (Point NBlock Net Out PullRes St Config handle blockFetch readBlocks parseAll CInv planOf evOf)

variable {cfg : Config} {D : Decoder} {B : Key → Block} {r : Key} {pre : List NBlock} {base : Point} {n : Net}
  {d : Nat} {p0 q0 : Option Point} {Q : Prop}

/-- All blocks the node gives can be converted. -/
def Readable (n : Net) : Prop := ∀ b ∈ n.chain ++ n.originRange, b.parsed = .ok

theorem parseAll_fine : ∀ {l : List NBlock}, (∀ b ∈ l, b.parsed = .ok) → (parseAll l).2 = false
  | [], _ => rfl
  | b :: l, h => by
    rw [parseAll, h b (by simp)]
    exact parseAll_fine (fun x hx => h x (List.mem_cons_of_mem _ hx))

theorem handle_fine (h : Readable n) (f : List Point) : (handle cfg n f).2 ≠ .panicked := by
  have hsub : ∀ p, ∀ b ∈ n.blocksFrom p, b.parsed = .ok := by
    intro p b hb
    cases p with
    | origin => exact h b (List.mem_append.2 (.inr hb))
    | header x y => exact h b (List.mem_append.2 (.inl ((List.dropWhile_sublist _).subset hb)))
  have hread : ∀ ig p, (readBlocks ig n.cut (n.blocksFrom p)).2 ≠ .panicked := by
    intro ig p
    obtain ⟨m, hm⟩ : ∃ m, (readBlocks ig n.cut (n.blocksFrom p)).2 =
        if (parseAll (if ig then ((n.blocksFrom p).take m).drop 1 else (n.blocksFrom p).take m)).2 then .panicked else
          match n.cut with
          | none => .done
          | some k => if k ≤ (n.blocksFrom p).length then .dropped else .done := by
      cases n.cut with
      | none => exact ⟨(n.blocksFrom p).length, by rw [List.take_length]; rfl⟩
      | some m => exact ⟨m, rfl⟩
    rw [hm, parseAll_fine]
    · cases n.cut with
      | none => simp
      | some k =>
        simp only [Bool.false_eq_true, if_false]
        split <;> simp
    · intro b hb
      refine hsub p b ?_
      split at hb
      · exact List.mem_of_mem_take (List.mem_of_mem_drop hb)
      · exact List.mem_of_mem_take hb
  have key : ∀ g ig, (blockFetch cfg n g ig).2 ≠ .panicked := by
    intro g ig
    unfold blockFetch
    split
    · split
      · split
        · simp
        · split
          · simp
          · dsimp only
            split
            · simp
            · simp
            · exact hread _ _
      · simp
    · simp
  unfold handle
  split <;> exact key _ _

/-- The handler is there, and each request has had at most one answer that nothing came. -/
structure Live (s : St) : Prop where
  here : s.handler ≠ .gone
  count : s.results.length + (if s.puller = .awaiting then 1 else 0) ≤ (s.results.filterMap evOf).length + s.next

theorem Live.start : Live St.start := ⟨by simp [St.start], by simp [St.start]⟩

theorem Live.pull {s s' : St} (h : Live s) {f : List Point} (hs : s.step cfg (.pull f) = some s') : Live s' := by
  simp only [St.step] at hs
  split at hs
  · rename_i hp
    obtain rfl := Option.some.inj hs
    refine ⟨h.here, ?_⟩
    have := h.count
    rw [hp] at this
    simp only [reduceCtorEq, if_false] at this
    dsimp only
    rw [if_neg (by split <;> simp)]
    exact this
  · cases hs

theorem Live.abandon {s s' : St} (h : Live s) (hs : s.abandon = some s') : Live s' := by
  unfold St.abandon at hs
  split at hs
  · cases hs
  · obtain rfl := Option.some.inj hs
    refine ⟨h.here, ?_⟩
    have := h.count
    simp only [reduceCtorEq, if_false]
    omega

theorem Live.step {s s' : St} (hci : CInv cfg s) (h : Live s) (hn : ∀ c n, s.net c = some n → Readable n)
    {a : Cardano.Act} (ha : going a = true) (hs : s.step cfg a = some s') : Live s' := by
  have hhere : s'.handler ≠ .gone := by
    cases a with
    | pull f => cases ha
    | clear => cases ha
    | recv =>
      simp only [St.step, St.recv] at hs
      split at hs
      · split at hs
        · obtain rfl := Option.some.inj hs; exact h.here
        · split at hs
          · cases hs
          · obtain rfl := Option.some.inj hs; exact h.here
      · split at hs
        · obtain rfl := Option.some.inj hs; exact h.here
        · split at hs
          · cases hs
          · obtain rfl := Option.some.inj hs; exact h.here
      · cases hs
    | send =>
      simp only [St.step, St.send] at hs
      split at hs
      · split at hs
        · obtain rfl := Option.some.inj hs; exact h.here
        · split at hs
          · cases hs
          · obtain rfl := Option.some.inj hs; exact h.here
      · cases hs
    | take n =>
      simp only [St.step, St.take] at hs
      split at hs
      · split at hs
        · obtain rfl := Option.some.inj hs; simp
        · obtain rfl := Option.some.inj hs; exact h.here
      · cases hs
    | emit =>
      simp only [St.step, St.emit] at hs
      split at hs
      · split at hs
        · split at hs
          · obtain rfl := Option.some.inj hs; simp
          · cases hs
        · split at hs
          · obtain rfl := Option.some.inj hs; simp
          · obtain rfl := Option.some.inj hs; simp
      · cases hs
    | finish =>
      simp only [St.step, St.finish] at hs
      split at hs
      · obtain rfl := Option.some.inj hs; simp
      · obtain rfl := Option.some.inj hs; simp
      · rename_i c hh
        obtain ⟨_, ⟨n, h1, h2⟩, _⟩ := hci.busy c [] .panicked hh
        exact absurd h2.symm (handle_fine (hn c n h1) _)
      · cases hs
  refine ⟨hhere, ?_⟩
  have hc := h.count
  cases effect ha hs with
  | quiet results got next asked cleared puller net =>
    rw [results, next]
    rcases puller with hp | ⟨f, hp, hp'⟩
    · rw [hp]; exact hc
    · rw [hp'] 
      simp only [reduceCtorEq, if_false]
      omega
  | event c o hcur results got next asked cleared was puller net =>
    rw [results, next, puller, List.filterMap_append]
    simp only [reduceCtorEq, if_false, List.length_append, List.length_cons, List.length_nil]
    simp [evOf]
    omega
  | ended x hx results got next asked cleared was puller net =>
    rw [results, next, puller, List.filterMap_append]
    have hx' : [x].filterMap evOf = [] := by rcases hx with rfl | rfl <;> rfl
    rw [hx']
    simp only [reduceCtorEq, if_false, List.length_append, List.length_cons, List.length_nil]
    -- only a pull that waits for the first answer to its request ends so
    have haw : s.puller = .awaiting := by
      cases a with
      | pull f => cases ha
      | clear => cases ha
      | recv =>
        simp only [St.step, St.recv] at hs
        split at hs
        · split at hs
          · obtain rfl := Option.some.inj hs
            rw [St.receive] at results
            simp at results
            rcases hx with rfl | rfl <;> cases results
          · split at hs
            · cases hs
            · obtain rfl := Option.some.inj hs
              cases puller
        · rename_i hp _
          exact hp
        · cases hs
      | send =>
        simp only [St.step, St.send] at hs
        split at hs
        · split at hs
          · rename_i hg
            exact absurd hg h.here
          · split at hs
            · cases hs
            · obtain rfl := Option.some.inj hs
              cases puller
        · cases hs
      | take n =>
        simp only [St.step, St.take] at hs
        split at hs
        · split at hs
          · obtain rfl := Option.some.inj hs; simp at results
          · obtain rfl := Option.some.inj hs; simp at results
        · cases hs
      | emit =>
        simp only [St.step, St.emit] at hs
        split at hs
        · split at hs
          · split at hs
            · obtain rfl := Option.some.inj hs; simp at results
            · cases hs
          · split at hs
            · obtain rfl := Option.some.inj hs; simp at results
            · obtain rfl := Option.some.inj hs; simp at results
        · cases hs
      | finish =>
        simp only [St.step, St.finish] at hs
        split at hs
        · obtain rfl := Option.some.inj hs; simp at results
        · obtain rfl := Option.some.inj hs; simp at results
        · obtain rfl := Option.some.inj hs; simp at results
        · cases hs
    rw [haw] at hc
    simp only [if_true] at hc
    omega
  | sent f was puller results got next asked cleared net =>
    rw [results, next, puller]
    rw [was] at hc
    simp only [reduceCtorEq, if_false, if_true] at hc ⊢
    omega

/-! ### With one node -/

/-- A position the consumer has had: it began there, or received the block. -/
def Anchor (D : Decoder) (q0 : Option Point) (w : World Point) (p : Point) : Prop :=
  q0 = some p ∨ ∃ v ∈ w.out, D.nf v = some p

theorem step_out_mono (nf : Block → Option Point) (w : World Point) (o : Orders)
    (resp : List Point → Except Unit (Option Ev)) : ∀ v ∈ w.out, v ∈ (w.step nf (.pull o resp)).out := by
  intro v hv
  exact List.mem_append.2 (.inl hv)

/-- From `s0` on the handler takes requests with the same node `n`. -/
structure TInv (D : Decoder) (q0 : Option Point) (n : Net) (s0 s : Sys) : Prop where
  next : s0.cs.next ≤ s.cs.next
  net : ∀ c, s0.cs.next ≤ c → c < s.cs.next → s.cs.net c = some n ∨ ∃ f, s.cs.queue = some (f, c)
  anchor : ∀ c, s0.cs.next ≤ c → c < s.cs.next → ∃ p ∈ s.cs.asked c, Anchor D q0 s.w p
  plan : ∀ c, s.cs.plan c = s0.cs.plan c ∨ (s.cs.plan c).length ≤ 1 + n.chain.length + n.originRange.length
  res : s0.cs.results.length ≤ s.cs.results.length
  out : ∀ v ∈ s0.w.out, v ∈ s.w.out

theorem TInv.refl (D : Decoder) (q0 : Option Point) (n : Net) (s : Sys) : TInv D q0 n s s :=
  ⟨le_refl _, fun c h1 h2 => by omega, fun c h1 h2 => by omega, fun _ => .inl rfl, le_refl _, fun _ h => h⟩

/-- Effects on the queue and the plans. -/
theorem effect_queue {s s' : St} {a : Cardano.Act} (hs : s.step cfg a = some s') (ha : going a = true)
    (hn : ∀ n', a = .take n' → n' = n) (hconn : n.connects = true) (hl : s'.handler ≠ .gone) :
    (s'.queue = s.queue ∧ s'.plan = s.plan ∧ s'.net = s.net) ∨
    (∃ f, s'.queue = some (f, s.next) ∧ s.queue = none ∧ s'.plan = s.plan ∧ s'.net = s.net) ∨
    (∃ f c, s.queue = some (f, c) ∧ s'.plan = Cardano.set s.plan c (handle cfg n f).1 ∧
      s'.net = Cardano.set s.net c (some n)) := by
  cases a with
  | pull f => cases ha
  | clear => cases ha
  | recv =>
    left
    simp only [St.step, St.recv] at hs
    split at hs
    · split at hs
      · obtain rfl := Option.some.inj hs; exact ⟨rfl, rfl, rfl⟩
      · split at hs
        · cases hs
        · obtain rfl := Option.some.inj hs; exact ⟨rfl, rfl, rfl⟩
    · split at hs
      · obtain rfl := Option.some.inj hs; exact ⟨rfl, rfl, rfl⟩
      · split at hs
        · cases hs
        · obtain rfl := Option.some.inj hs; exact ⟨rfl, rfl, rfl⟩
    · cases hs
  | send =>
    simp only [St.step, St.send] at hs
    split at hs
    · split at hs
      · obtain rfl := Option.some.inj hs; exact .inl ⟨rfl, rfl, rfl⟩
      · split at hs
        · cases hs
        · rename_i hq
          obtain rfl := Option.some.inj hs
          exact .inr (.inl ⟨_, rfl, hq, rfl, rfl⟩)
    · cases hs
  | take n' =>
    obtain rfl := hn n' rfl
    simp only [St.step, St.take] at hs
    split at hs
    · rename_i f c hh hq
      split at hs
      · obtain rfl := Option.some.inj hs
        exact .inr (.inr ⟨f, c, hq, rfl, rfl⟩)
      · rename_i hcon
        rw [hconn] at hcon
        simp at hcon
    · cases hs
  | emit =>
    left
    simp only [St.step, St.emit] at hs
    split at hs
    · split at hs
      · split at hs
        · obtain rfl := Option.some.inj hs; exact ⟨rfl, rfl, rfl⟩
        · cases hs
      · split at hs
        · obtain rfl := Option.some.inj hs; exact ⟨rfl, rfl, rfl⟩
        · obtain rfl := Option.some.inj hs; exact ⟨rfl, rfl, rfl⟩
    · cases hs
  | finish =>
    left
    simp only [St.step, St.finish] at hs
    split at hs
    · obtain rfl := Option.some.inj hs; exact ⟨rfl, rfl, rfl⟩
    · obtain rfl := Option.some.inj hs; exact ⟨rfl, rfl, rfl⟩
    · obtain rfl := Option.some.inj hs; exact absurd rfl hl
    · cases hs

/-- The consumer's position is one it has had. -/
theorem SInv.pos_anchor {N : List Net} {s : Sys} (h : SInv cfg D B r pre base d p0 Q N s) (hD : D.Ok)
    (hN : Nodes cfg D B r pre base d N) (ha : q0 = p0 ∧ p0 ≠ none ∨ s.w.out ≠ []) :
    ∃ p, s.w.pos = some p ∧ Anchor D q0 s.w p := by
  obtain ⟨S, hw⟩ := h.wi
  rw [hw.pos]
  cases hl : s.w.out.getLast? with
  | none =>
    have : s.w.out = [] := List.getLast?_eq_none_iff.1 hl
    rcases ha with ⟨hq, ha⟩ | ha
    · obtain ⟨p, hp⟩ := Option.ne_none_iff_exists'.1 ha
      exact ⟨p, hp, .inl (hq.trans hp)⟩
    · exact absurd this ha
  | some v =>
    have hv := List.mem_of_getLast? hl
    obtain ⟨p, hp⟩ := Option.isSome_iff_exists.1 ((hN.points hD h.sub).1 v (hw.sub v hv))
    exact ⟨p, hp, .inr ⟨v, hv, hp⟩⟩

/-- The tail has no restarts and no crashes. -/
def SAct.Plain : SAct → Prop
  | .pull o => o.Ok
  | .inner _ => True
  | .abandon => True
  | _ => False

theorem TInv.step {N : List Net} {s0 s s' : Sys} (hD : D.Ok) (hN : Nodes cfg D B r pre base d N)
    (h : SInv cfg D B r pre base d p0 Q N s) (hlive : Live s'.cs) (hconn : n.connects = true) (ht : TInv D q0 n s0 s)
    (hanch : q0 = p0 ∧ p0 ≠ none ∨ s0.w.out ≠ []) {a : SAct} (ha : a.Plain) (hn : ∀ n' ∈ taken [a], n' = n)
    (hs : s.step cfg D a = some s') : TInv D q0 n s0 s' := by
  have hanch' : q0 = p0 ∧ p0 ≠ none ∨ s.w.out ≠ [] := by
    rcases hanch with h1 | h1
    · exact .inl h1
    · obtain ⟨v, hv⟩ := List.exists_mem_of_ne_nil _ h1
      exact .inr (List.ne_nil_of_mem (ht.out v hv))
  cases a with
  | restart o => cases ha
  | die a k o => cases ha
  | abandon =>
    simp only [Sys.step] at hs
    split at hs
    · cases hs
    · obtain ⟨cs', h1, rfl⟩ := Option.map_eq_some_iff.1 hs
      unfold St.abandon at h1
      split at h1
      · cases h1
      · obtain rfl := Option.some.inj h1
        exact ⟨ht.next, ht.net, ht.anchor, ht.plan, ht.res, ht.out⟩
  | pull o =>
    simp only [Sys.step] at hs
    split at hs
    · cases hs
    · split at hs
      · obtain ⟨cs', h1, rfl⟩ := Option.map_eq_some_iff.1 hs
        simp only [St.step] at h1
        split at h1
        · obtain rfl := Option.some.inj h1
          exact ⟨ht.next, ht.net, ht.anchor, ht.plan, ht.res, ht.out⟩
        · cases h1
      · obtain rfl := Option.some.inj hs
        refine ⟨ht.next, ht.net, fun c h1 h2 => ?_, ht.plan, ht.res, fun v hv => step_out_mono _ _ _ _ v (ht.out v hv)⟩
        obtain ⟨p, hp, h3⟩ := ht.anchor c h1 h2
        refine ⟨p, hp, ?_⟩
        rcases h3 with h3 | ⟨v, hv, h3⟩
        · exact .inl h3
        · exact .inr ⟨v, step_out_mono _ _ _ _ v hv, h3⟩
  | inner a =>
    simp only [Sys.step] at hs
    split at hs
    · rename_i hgo
      obtain ⟨cs', h1, hs⟩ := Option.map_eq_some_iff.1 hs
      have hcs : s'.cs = cs' := by
        rw [← hs]
        cases resultOf s cs' <;> rfl
      have hout : ∀ v ∈ s.w.out, v ∈ s'.w.out := by
        rw [← hs]
        cases resultOf s cs' with
        | none => exact fun v hv => hv
        | some y => exact fun v hv => step_out_mono _ _ _ _ v hv
      have hmono : ∀ p, Anchor D q0 s.w p → Anchor D q0 s'.w p := by
        rintro p (h3 | ⟨v, hv, h3⟩)
        · exact .inl h3
        · exact .inr ⟨v, hout v hv, h3⟩
      have hn' : ∀ n', a = .take n' → n' = n := by
        rintro n' rfl
        exact hn n' (by simp [taken, takenBy])
      have heff := effect hgo h1
      rw [hcs] at hlive
      -- the number of the next request, the questions, the results
      have hnext : s.cs.next ≤ cs'.next ∧ s.cs.results.length ≤ cs'.results.length ∧
          ∀ c < cs'.next, (c < s.cs.next ∧ cs'.asked c = s.cs.asked c) ∨
            c = s.cs.next ∧ ∃ p ∈ cs'.asked c, Anchor D q0 s.w p := by
        cases heff with
        | quiet results got next asked cleared puller net =>
          rw [next, asked, results]
          exact ⟨le_refl _, le_refl _, fun c hc => .inl ⟨hc, rfl⟩⟩
        | event c o hc results got next asked cleared was puller net =>
          rw [next, asked, results]
          exact ⟨le_refl _, by simp, fun c hc => .inl ⟨hc, rfl⟩⟩
        | ended x hx results got next asked cleared was puller net =>
          rw [next, asked, results]
          exact ⟨le_refl _, by simp, fun c hc => .inl ⟨hc, rfl⟩⟩
        | sent f was puller results got next asked cleared net =>
          rw [next, asked, results]
          refine ⟨by omega, le_refl _, fun c hc => ?_⟩
          by_cases he : c = s.cs.next
          · subst he
            refine .inr ⟨rfl, ?_⟩
            rw [Cardano.set_eq]
            obtain ⟨p, hp, hpa⟩ := h.pos_anchor hD hN hanch'
            have hpf := (h.pull f (.inr was)).2.2 p hp
            rw [if_neg (List.ne_nil_of_mem hpf)]
            exact ⟨p, hpf, hpa⟩
          · rw [Cardano.set_ne _ _ he]
            exact .inl ⟨by omega, rfl⟩
      obtain ⟨k1, k2, k3⟩ := hnext
      refine ⟨by rw [hcs]; exact ht.next.trans k1, fun c hc hc' => ?_, fun c hc hc' => ?_, fun c => ?_,
        by rw [hcs]; exact ht.res.trans k2, fun v hv => hout v (ht.out v hv)⟩
      · rw [hcs] at hc' ⊢
        rcases effect_queue h1 hgo hn' hconn hlive.here with ⟨q1, q2, q3⟩ | ⟨f, q1, q2, q3, q4⟩ | ⟨f, c', q1, q2, q3⟩
        · rw [q1, q3]
          rcases k3 c hc' with ⟨h3, _⟩ | ⟨rfl, _⟩
          · exact ht.net c hc h3
          · -- a new request is queued
            exfalso
            cases heff with
            | quiet results got next => omega
            | event c o hc results got next => omega
            | ended x hx results got next => omega
            | sent f was puller results got next =>
              cases a with
              | send =>
                simp only [St.step, St.send, was] at h1
                split at h1
                · obtain rfl := Option.some.inj h1
                  dsimp only at next
                  omega
                · split at h1
                  · cases h1
                  · rename_i hq
                    obtain rfl := Option.some.inj h1
                    dsimp only at q1
                    rw [hq] at q1
                    cases q1
              | pull f => cases hgo
              | clear => cases hgo
              | recv =>
                simp only [St.step, St.recv, was] at h1
                cases h1
              | take n' =>
                simp only [St.step, St.take] at h1
                split at h1
                · split at h1
                  · obtain rfl := Option.some.inj h1; dsimp only at next; omega
                  · obtain rfl := Option.some.inj h1; dsimp only at next; omega
                · cases h1
              | emit =>
                simp only [St.step, St.emit] at h1
                split at h1
                · split at h1
                  · split at h1
                    · obtain rfl := Option.some.inj h1; dsimp only at next; omega
                    · cases h1
                  · split at h1
                    · obtain rfl := Option.some.inj h1; dsimp only at next; omega
                    · obtain rfl := Option.some.inj h1; dsimp only at next; omega
                · cases h1
              | finish =>
                simp only [St.step, St.finish] at h1
                split at h1
                · obtain rfl := Option.some.inj h1; dsimp only at next; omega
                · obtain rfl := Option.some.inj h1; dsimp only at next; omega
                · obtain rfl := Option.some.inj h1; dsimp only at next; omega
                · cases h1
        · rw [q1, q4]
          rcases k3 c hc' with ⟨h3, _⟩ | ⟨rfl, _⟩
          · rcases ht.net c hc h3 with h4 | ⟨f', h4⟩
            · exact .inl h4
            · rw [q2] at h4
              cases h4
          · exact .inr ⟨f, rfl⟩
        · rw [q3]
          by_cases he : c = c'
          · subst he
            exact .inl (Cardano.set_eq _ _ _)
          · rw [Cardano.set_ne _ _ he]
            rcases k3 c hc' with ⟨h3, _⟩ | ⟨rfl, _⟩
            · rcases ht.net c hc h3 with h4 | ⟨f', h4⟩
              · exact .inl h4
              · rw [q1] at h4
                obtain ⟨_, h5⟩ := Prod.mk.inj (Option.some.inj h4)
                exact absurd h5.symm he
            · -- a take does not make a request
              exfalso
              have hlt := (h.ci.queue f c' q1).1
              have hnet := (h.ci.queue f c' q1).2.2.1
              cases heff with
              | quiet results got next => omega
              | event c o hc results got next => omega
              | ended x hx results got next => omega
              | sent f was puller results got next asked cleared net =>
                rw [net] at q3
                have := congrFun q3 c'
                rw [Cardano.set_eq, hnet] at this
                cases this
      · rw [hcs] at hc' ⊢
        rcases k3 c hc' with ⟨h3, h4⟩ | ⟨_, p, hp, hpa⟩
        · obtain ⟨p, hp, hpa⟩ := ht.anchor c hc h3
          rw [h4]
          exact ⟨p, hp, hmono p hpa⟩
        · exact ⟨p, hp, hmono p hpa⟩
      · rw [hcs]
        rcases effect_queue h1 hgo hn' hconn hlive.here with ⟨q1, q2, q3⟩ | ⟨f, q1, q2, q3, q4⟩ | ⟨f, c', q1, q2, q3⟩
        · rw [q2]; exact ht.plan c
        · rw [q3]; exact ht.plan c
        · rw [q2]
          by_cases he : c = c'
          · subst he
            rw [Cardano.set_eq]
            exact .inr (handle_length cfg n f)
          · rw [Cardano.set_ne _ _ he]
            exact ht.plan c
    · cases hs

/-- The source and the handler stay alive. -/
theorem Live.sys {N : List Net} {s s' : Sys} (h : SInv cfg D B r pre base d p0 Q N s) (hl : Live s.cs)
    (hN : ∀ n ∈ N, Readable n) {a : SAct} (hs : s.step cfg D a = some s') : Live s'.cs := by
  have hnet : ∀ c n, s.cs.net c = some n → Readable n := fun c n hn => hN n (h.nets c n hn)
  cases a with
  | restart o =>
    simp only [Sys.step] at hs
    obtain rfl := Option.some.inj hs
    exact Live.start
  | abandon =>
    simp only [Sys.step] at hs
    split at hs
    · cases hs
    · obtain ⟨cs', h1, rfl⟩ := Option.map_eq_some_iff.1 hs
      exact hl.abandon h1
  | die a k o =>
    simp only [Sys.step] at hs
    split at hs
    · obtain ⟨cs', h1, hs⟩ := Option.bind_eq_some_iff.1 hs
      obtain ⟨y, _, rfl⟩ := Option.map_eq_some_iff.1 hs
      exact Live.start
    · cases hs
  | pull o =>
    simp only [Sys.step] at hs
    split at hs
    · cases hs
    · split at hs
      · obtain ⟨cs', h1, rfl⟩ := Option.map_eq_some_iff.1 hs
        exact hl.pull h1
      · obtain rfl := Option.some.inj hs
        exact hl
  | inner a =>
    simp only [Sys.step] at hs
    split at hs
    · rename_i hgo
      obtain ⟨cs', h1, hs⟩ := Option.map_eq_some_iff.1 hs
      have hcs : s'.cs = cs' := by
        rw [← hs]
        cases resultOf s cs' <;> rfl
      rw [hcs]
      exact hl.step h.ci hnet hgo h1
    · cases hs

theorem Live.run (hD : D.Ok) (hQ : Q → p0 = none) (h0 : StartsAt cfg base p0) : ∀ {as : List SAct} {N : List Net} {s s' : Sys},
    SInv cfg D B r pre base d p0 Q N s → Live s.cs → (∀ a ∈ as, a.Ok Q) → s.run cfg D as = some s' →
    Nodes cfg D B r pre base d (N ++ taken as) → (∀ n ∈ N ++ taken as, Readable n) → Live s'.cs
  | [], N, s, s', _, hl, _, hr, _, _ => by
    obtain rfl := Option.some.inj hr
    exact hl
  | a :: as, N, s, s', h, hl, ha, hr, hN, hR => by
    rw [Sys.run] at hr
    cases hs : s.step cfg D a with
    | none => rw [hs] at hr; cases hr
    | some s1 =>
      rw [hs] at hr
      have e : N ++ taken (a :: as) = (N ++ taken [a]) ++ taken as := by
        rw [List.append_assoc, ← taken_append]
        rfl
      rw [e] at hN hR
      exact Live.run hD hQ h0 (h.step hD hQ h0 (ha a (by simp)) hs hN.left)
        (hl.sys h (fun n hn => hR n (by simp [hn])) hs) (fun a' ha' => ha a' (List.mem_cons_of_mem _ ha')) hr hN hR

theorem SAct.Plain.ok {a : SAct} (h : a.Plain) : a.Ok Q := by
  cases a with
  | pull o => exact h
  | inner a => trivial
  | abandon => trivial
  | restart o => cases h
  | die a k o => cases h

theorem TInv.run (hD : D.Ok) (hQ : Q → p0 = none) (h0 : StartsAt cfg base p0) (hconn : n.connects = true) {s0 : Sys}
    (hanch : q0 = p0 ∧ p0 ≠ none ∨ s0.w.out ≠ []) : ∀ {as : List SAct} {N : List Net} {s s' : Sys},
    SInv cfg D B r pre base d p0 Q N s → Live s.cs → TInv D q0 n s0 s → (∀ a ∈ as, a.Plain) → (∀ n' ∈ taken as, n' = n) →
    s.run cfg D as = some s' → Nodes cfg D B r pre base d (N ++ taken as) → (∀ n ∈ N ++ taken as, Readable n) →
    TInv D q0 n s0 s'
  | [], N, s, s', _, _, ht, _, _, hr, _, _ => by
    obtain rfl := Option.some.inj hr
    exact ht
  | a :: as, N, s, s', h, hl, ht, ha, hn, hr, hN, hR => by
    rw [Sys.run] at hr
    cases hs : s.step cfg D a with
    | none => rw [hs] at hr; cases hr
    | some s1 =>
      rw [hs] at hr
      have e : N ++ taken (a :: as) = (N ++ taken [a]) ++ taken as := by
        rw [List.append_assoc, ← taken_append]
        rfl
      have e2 : taken (a :: as) = taken [a] ++ taken as := taken_append [a] as
      rw [e] at hN hR
      rw [e2] at hn
      have hl1 := hl.sys h (fun n hn => hR n (by simp [hn])) hs
      exact TInv.run hD hQ h0 hconn hanch (h.step hD hQ h0 (ha a (by simp)).ok hs hN.left) hl1
        (ht.step hD hN.left.left h hl1 hconn hanch (ha a (by simp)) (fun n' hn' => hn n' (List.mem_append.2 (.inl hn'))) hs)
        (fun a' ha' => ha a' (List.mem_cons_of_mem _ ha')) (fun n' hn' => hn n' (List.mem_append.2 (.inr hn'))) hr hN hR

/-- After enough pulls the request made first after `s0` has been answered completely. -/
theorem TInv.done {N : List Net} {s0 s : Sys} (h : SInv cfg D B r pre base d p0 Q N s) (hl : Live s.cs)
    (ht : TInv D q0 n s0 s)
    (hlong : ((List.range s0.cs.next).map (fun c => (s0.cs.plan c).length + (1 + n.chain.length + n.originRange.length))).sum +
      (1 + n.chain.length + n.originRange.length) + s0.cs.next + 2 + (s0.cs.plan s0.cs.next).length ≤ s.cs.results.length) :
    s0.cs.next + 1 < s.cs.next ∧ s.cs.net s0.cs.next = some n ∧ s.cs.got s0.cs.next = s.cs.plan s0.cs.next := by
  have hnext : s0.cs.next + 1 < s.cs.next := by
    by_contra hlt
    have hcount := hl.count
    rw [h.ci.res] at hcount
    have hsum : ∀ k, k ≤ s0.cs.next → ((List.range k).flatMap s.cs.got).length ≤
        ((List.range k).map (fun c => (s0.cs.plan c).length + (1 + n.chain.length + n.originRange.length))).sum := by
      intro k
      induction k with
      | zero => simp
      | succ k ih =>
        intro hk
        have ih' := ih (by omega)
        rw [List.range_succ, List.flatMap_append, List.map_append, List.length_append, List.sum_append]
        have hg := (h.ci.pre k).length_le
        simp only [List.flatMap_cons, List.flatMap_nil, List.append_nil, List.map_cons, List.map_nil, List.sum_cons,
          List.sum_nil]
        rcases ht.plan k with hp | hp
        · rw [hp] at hg; omega
        · omega
    have hle := ht.next
    rcases Nat.lt_or_ge s0.cs.next s.cs.next with h1 | h1
    · have he : s.cs.next = s0.cs.next + 1 := by omega
      rw [he, List.range_succ, List.flatMap_append, List.length_append] at hcount
      simp only [List.flatMap_cons, List.flatMap_nil, List.append_nil] at hcount
      have h2 := hsum s0.cs.next (le_refl _)
      have hg := (h.ci.pre s0.cs.next).length_le
      rcases ht.plan s0.cs.next with hp | hp
      · rw [hp] at hg; omega
      · omega
    · have he : s.cs.next = s0.cs.next := by omega
      rw [he] at hcount
      have h2 := hsum s0.cs.next (le_refl _)
      omega
  have hcur : s.cs.current ≠ some s0.cs.next := by
    intro hc
    have := (h.ci.cur _ hc).1
    omega
  obtain ⟨h1, h2⟩ := h.ci.lost s0.cs.next (by omega) hcur (h.cleared _)
  refine ⟨hnext, ?_, h1⟩
  rcases ht.net s0.cs.next (le_refl _) (by omega) with h3 | ⟨f, h3⟩
  · exact h3
  · exact absurd h3 ((Cardano.alive_false.1 h2).1 f)

end Verif.Sources.Confirmed
