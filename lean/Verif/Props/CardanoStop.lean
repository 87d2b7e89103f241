import Verif.Sources.CardanoStop
import Verif.Props.CardanoSource

/-!
# C85: abandoned pulls, cleared buffers and the end of the Cardano source
-/

namespace Verif.Props

open Verif.Sources.Cardano

variable {cfg : Config} {x y z : XSt}

/-- C85: whichever pulls are abandoned, at whatever moment, no event is lost, repeated or out of order: the events
returned are, one after the other, those of the requests in their order; what was received for a request is a first
part of what the handler sends for it, and all of it when the next request is made, unless buffers were cleared. -/
theorem C85_stream {as : List XAct} (h : XSt.start.run cfg as = some x) :
    x.st.results.filterMap evOf = (List.range x.st.next).flatMap x.st.got ∧
    ∀ c < x.st.next, x.st.got c <+: replyTo cfg (x.st.asked c) (x.st.net c) ∧
      (c + 1 < x.st.next → x.st.cleared c = false → x.st.got c = replyTo cfg (x.st.asked c) (x.st.net c)) :=
  stream_of_inv (CInv.xrun (CInv.start cfg) h)

/-- C85: a pull returns nothing only if the handler sends nothing for the last request. -/
theorem C85_nothing {as : List XAct} (h : XSt.start.run cfg as = some x)
    (hs : x.step cfg (.base .recv) = some y) (hr : y.st.results = x.st.results ++ [.nothing]) :
    ∃ c, x.st.next = c + 1 ∧ replyTo cfg (x.st.asked c) (x.st.net c) = [] := by
  have hi := CInv.xrun (CInv.start cfg) h
  simp only [XSt.step, ofHandler] at hs
  simp only [Bool.false_eq_true, if_false] at hs
  split at hs
  · obtain ⟨s, h1, rfl⟩ := Option.map_eq_some_iff.1 hs
    exact nothing_of_inv hi h1 hr
  · cases hs

/-- Before `stop` the handler's loop does not end, and a pull in progress means that `stop` was not called. -/
structure XInv (x : XSt) : Prop where
  exited : x.exited = true → x.running = false
  puller : x.running = false → x.st.puller = .idle ∧ x.st.current = none

theorem handler_keeps {s s' : St} {a : Act} (ha : ofHandler a = true) (hs : s.step cfg a = some s') :
    s'.puller = s.puller ∧ s'.current = s.current ∧ s'.got = s.got ∧ s'.next = s.next ∧ s'.results = s.results := by
  cases a with
  | pull f => cases ha
  | recv => cases ha
  | send => cases ha
  | clear => cases ha
  | take n =>
    simp only [St.step, St.take] at hs
    repeat' split at hs
    all_goals first | (obtain rfl := Option.some.inj hs; exact ⟨rfl, rfl, rfl, rfl, rfl⟩) | cases hs
  | emit =>
    simp only [St.step, St.emit] at hs
    repeat' split at hs
    all_goals first | (obtain rfl := Option.some.inj hs; exact ⟨rfl, rfl, rfl, rfl, rfl⟩) | cases hs
  | finish =>
    simp only [St.step, St.finish] at hs
    repeat' split at hs
    all_goals first | (obtain rfl := Option.some.inj hs; exact ⟨rfl, rfl, rfl, rfl, rfl⟩) | cases hs

theorem XInv.step (h : XInv x) {a : XAct} (hs : x.step cfg a = some y) : XInv y := by
  cases a with
  | base a =>
    simp only [XSt.step] at hs
    split at hs
    · rename_i ha
      split at hs
      · cases hs
      · obtain ⟨s, h1, rfl⟩ := Option.map_eq_some_iff.1 hs
        obtain ⟨k1, k2, _⟩ := handler_keeps ha h1
        exact ⟨h.exited, fun hr => ⟨k1.trans (h.puller hr).1, k2.trans (h.puller hr).2⟩⟩
    · split at hs
      · rename_i hr
        obtain ⟨s, h1, rfl⟩ := Option.map_eq_some_iff.1 hs
        refine ⟨h.exited, fun hr' => ?_⟩
        rw [show x.running = false from hr'] at hr
        cases hr
      · cases hs
  | abandon =>
    simp only [XSt.step] at hs
    split at hs
    · rename_i hr
      obtain ⟨s, h1, rfl⟩ := Option.map_eq_some_iff.1 hs
      refine ⟨h.exited, fun hr' => ?_⟩
      rw [show x.running = false from hr'] at hr
      cases hr
    · cases hs
  | stop =>
    simp only [XSt.step] at hs
    split at hs
    · rename_i hr
      obtain ⟨s, h1, rfl⟩ := Option.map_eq_some_iff.1 hs
      refine ⟨fun _ => rfl, fun _ => ?_⟩
      simp only [St.step] at h1
      split at h1
      · rename_i hp
        obtain rfl := Option.some.inj h1
        exact ⟨hp, rfl⟩
      · cases h1
    · cases hs
  | exit =>
    simp only [XSt.step] at hs
    split at hs
    · cases hs
    · rename_i hr
      split at hs
      · obtain rfl := Option.some.inj hs
        simp only [Bool.or_eq_true, not_or, Bool.not_eq_true] at hr
        exact ⟨fun _ => hr.1, h.puller⟩
      · cases hs

theorem XInv.start : XInv XSt.start := ⟨by simp [XSt.start], by simp [XSt.start]⟩

theorem XInv.run : ∀ {as : List XAct} {x y : XSt}, XInv x → x.run cfg as = some y → XInv y
  | [], x, y, h, hr => by
    obtain rfl := Option.some.inj hr
    exact h
  | a :: as, x, y, h, hr => by
    simp only [XSt.run] at hr
    cases h1 : x.step cfg a with
    | none => simp [h1] at hr
    | some t =>
      simp only [h1] at hr
      exact XInv.run (h.step h1) hr

/-- C85: as long as a pull has not returned, it or the handler can go on, whatever the node does, and whatever pulls
were abandoned before. (That this does not go on for ever is `C26_pull_returns`, which is about any state.) -/
theorem C85_progress {as : List XAct} (h : XSt.start.run cfg as = some x) (hp : x.st.puller ≠ .idle) :
    (x.step cfg (.base .recv)).isSome ∨ (x.step cfg (.base .send)).isSome ∨
      (∀ n, (x.step cfg (.base (.take n))).isSome) ∨ (x.step cfg (.base .emit)).isSome ∨
      (x.step cfg (.base .finish)).isSome := by
  have hi := CInv.xrun (CInv.start cfg) h
  have hx := XInv.run XInv.start h
  have hr : x.running = true := by
    cases hr : x.running with
    | true => rfl
    | false => exact absurd (hx.puller hr).1 hp
  have he : x.exited = false := by
    cases he : x.exited with
    | false => rfl
    | true =>
      rw [hx.exited he] at hr
      cases hr
  simpa [XSt.step, ofHandler, hr, he] using progress_of_inv hi hp

/-! ### Clearing the buffers -/

/-- The requests from the `k`-th on are the only ones that are still read. -/
structure FromReq (k : Nat) (s : St) : Prop where
  next : k ≤ s.next
  cur : ∀ c, s.current = some c → k ≤ c

theorem FromReq.step {k : Nat} {s s' : St} (h : FromReq k s) {a : Act} (hs : s.step cfg a = some s') :
    FromReq k s' ∧ ∀ c < k, s'.got c = s.got c := by
  by_cases ha : ofHandler a = true
  · obtain ⟨-, k2, k3, k4, -⟩ := handler_keeps ha hs
    exact ⟨⟨k4 ▸ h.next, fun c hc => h.cur c (k2 ▸ hc)⟩, fun c _ => by rw [k3]⟩
  · cases a with
    | pull f =>
      simp only [St.step] at hs
      split at hs
      · obtain rfl := Option.some.inj hs
        exact ⟨⟨h.next, h.cur⟩, fun _ _ => rfl⟩
      · cases hs
    | recv =>
      have key : ∀ {c : Nat} {o : Out} {rest : List Out}, s.current = some c →
          FromReq k (s.receive c o rest) ∧ ∀ c' < k, (s.receive c o rest).got c' = s.got c' := by
        intro c o rest hc
        refine ⟨⟨h.next, h.cur⟩, fun c' hc' => ?_⟩
        have := h.cur c hc
        exact set_ne _ _ (by omega)
      simp only [St.step, St.recv] at hs
      split at hs
      · rename_i f c hp hc
        split at hs
        · obtain rfl := Option.some.inj hs
          exact key hc
        · split at hs
          · cases hs
          · obtain rfl := Option.some.inj hs
            exact ⟨⟨h.next, h.cur⟩, fun _ _ => rfl⟩
      · rename_i c hp hc
        split at hs
        · obtain rfl := Option.some.inj hs
          exact key hc
        · split at hs
          · cases hs
          · obtain rfl := Option.some.inj hs
            exact ⟨⟨h.next, h.cur⟩, fun _ _ => rfl⟩
      · cases hs
    | send =>
      simp only [St.step, St.send] at hs
      split at hs
      · split at hs
        · obtain rfl := Option.some.inj hs
          exact ⟨⟨h.next, h.cur⟩, fun _ _ => rfl⟩
        · split at hs
          · cases hs
          · obtain rfl := Option.some.inj hs
            refine ⟨⟨Nat.le_succ_of_le h.next, fun c hc => ?_⟩, fun _ _ => rfl⟩
            obtain rfl := Option.some.inj hc
            exact h.next
      · cases hs
    | clear =>
      simp only [St.step] at hs
      split at hs
      · obtain rfl := Option.some.inj hs
        exact ⟨⟨h.next, by simp⟩, fun _ _ => rfl⟩
      · cases hs
    | take n => exact absurd rfl ha
    | emit => exact absurd rfl ha
    | finish => exact absurd rfl ha

theorem FromReq.xstep {k : Nat} (h : FromReq k x.st) {a : XAct} (hs : x.step cfg a = some y) :
    FromReq k y.st ∧ ∀ c < k, y.st.got c = x.st.got c := by
  cases a with
  | base a =>
    simp only [XSt.step] at hs
    split at hs
    · split at hs
      · cases hs
      · obtain ⟨s, h1, rfl⟩ := Option.map_eq_some_iff.1 hs
        exact h.step h1
    · split at hs
      · obtain ⟨s, h1, rfl⟩ := Option.map_eq_some_iff.1 hs
        exact h.step h1
      · cases hs
  | abandon =>
    simp only [XSt.step] at hs
    split at hs
    · obtain ⟨s, h1, rfl⟩ := Option.map_eq_some_iff.1 hs
      unfold St.abandon at h1
      split at h1
      · cases h1
      · obtain rfl := Option.some.inj h1
        exact ⟨⟨h.next, h.cur⟩, fun _ _ => rfl⟩
    · cases hs
  | stop =>
    simp only [XSt.step] at hs
    split at hs
    · obtain ⟨s, h1, rfl⟩ := Option.map_eq_some_iff.1 hs
      exact h.step h1
    · cases hs
  | exit =>
    simp only [XSt.step] at hs
    split at hs
    · cases hs
    · split at hs
      · obtain rfl := Option.some.inj hs
        exact ⟨h, fun _ _ => rfl⟩
      · cases hs

theorem FromReq.xrun {k : Nat} : ∀ {as : List XAct} {x y : XSt}, FromReq k x.st → x.run cfg as = some y →
    ∀ c < k, y.st.got c = x.st.got c
  | [], x, y, _, hr => by
    obtain rfl := Option.some.inj hr
    exact fun _ _ => rfl
  | a :: as, x, y, h, hr => by
    simp only [XSt.run] at hr
    cases h1 : x.step cfg a with
    | none => simp [h1] at hr
    | some t =>
      simp only [h1] at hr
      obtain ⟨h2, h3⟩ := h.xstep h1
      exact fun c hc => (FromReq.xrun h2 hr c hc).trans (h3 c hc)

/-- C85: after the buffers have been cleared, no event of an earlier request is returned any more. -/
theorem C85_cleared {as bs : List XAct} (_h : XSt.start.run cfg as = some x)
    (hs : x.step cfg (.base .clear) = some y) (hz : y.run cfg bs = some z) :
    ∀ c < y.st.next, z.st.got c = x.st.got c := by
  simp only [XSt.step, ofHandler] at hs
  simp only [Bool.false_eq_true, if_false] at hs
  split at hs
  · obtain ⟨s, h1, rfl⟩ := Option.map_eq_some_iff.1 hs
    simp only [St.step] at h1
    split at h1
    · obtain rfl := Option.some.inj h1
      intro c hc
      exact FromReq.xrun ⟨Nat.le_refl _, by simp⟩ hz c hc
    · cases h1
  · cases hs

/-! ### Stopping -/

/-- Only the first event of the rest of a request may be a tip. -/
def TipFirst (os : List Out) : Prop := ∀ o ∈ os.drop 1, ∀ p, o ≠ .tip p

theorem parseAll_noTip : ∀ (bs : List NBlock), ∀ o ∈ (parseAll bs).1, ∀ p, o ≠ .tip p
  | [], o, ho, _ => by simp [parseAll] at ho
  | b :: bs, o, ho, p => by
    simp only [parseAll] at ho
    split at ho
    · rcases List.mem_cons.1 ho with rfl | ho
      · simp
      · exact parseAll_noTip bs o ho p
    · rcases List.mem_cons.1 ho with rfl | ho
      · simp
      · exact parseAll_noTip bs o ho p
    · simp at ho

theorem blockFetch_tipFirst (n : Net) (f : List Point) (i : Bool) : TipFirst (blockFetch cfg n f i).1 := by
  unfold blockFetch
  split
  · split
    · split
      · simp [TipFirst]
      · split
        · simp [TipFirst]
        · cases n.range with
          | failed => cases n.tipDue <;> simp [TipFirst]
          | nothing => cases n.tipDue <;> simp [TipFirst]
          | value u =>
            intro o ho p
            cases hd : n.tipDue with
            | true =>
              simp only [hd, if_true, List.singleton_append, List.drop_succ_cons, List.drop_zero] at ho
              exact parseAll_noTip _ o ho p
            | false =>
              simp only [hd, Bool.false_eq_true, if_false, List.nil_append] at ho
              exact parseAll_noTip _ o (List.mem_of_mem_drop ho) p
    · simp [TipFirst]
  · simp [TipFirst]

theorem handle_tipFirst (n : Net) (f : List Point) : TipFirst (handle cfg n f).1 := by
  unfold handle
  split <;> exact blockFetch_tipFirst _ _ _

/-- The rest of the request in progress begins with at most one tip. -/
def TInv (s : St) : Prop := ∀ c rest e, s.handler = .busy c rest e → TipFirst rest

theorem TInv.step {s s' : St} (h : TInv s) {a : Act} (hs : s.step cfg a = some s') : TInv s' := by
  intro c rest e hh
  cases a with
  | pull f =>
    simp only [St.step] at hs
    repeat' split at hs
    all_goals first | (obtain rfl := Option.some.inj hs; exact h c rest e hh) | cases hs
  | recv =>
    simp only [St.step, St.recv, St.receive] at hs
    repeat' split at hs
    all_goals first | (obtain rfl := Option.some.inj hs; exact h c rest e hh) | cases hs
  | send =>
    simp only [St.step, St.send] at hs
    repeat' split at hs
    all_goals first | (obtain rfl := Option.some.inj hs; exact h c rest e hh) | cases hs
  | clear =>
    simp only [St.step] at hs
    repeat' split at hs
    all_goals first | (obtain rfl := Option.some.inj hs; exact h c rest e hh) | cases hs
  | take n =>
    simp only [St.step, St.take] at hs
    split at hs
    · rename_i f c' hi hq
      split at hs
      · obtain rfl := Option.some.inj hs
        simp only [Handler.busy.injEq] at hh
        rw [← hh.2.1]
        exact handle_tipFirst _ _
      · obtain rfl := Option.some.inj hs
        exact h c rest e hh
    · cases hs
  | emit =>
    simp only [St.step, St.emit] at hs
    split at hs
    · rename_i c' o rest' e' hb
      have h1 := h _ _ _ hb
      have h2 : TipFirst rest' := fun o' ho' p => h1 o' (List.mem_of_mem_drop ho') p
      split at hs
      · split at hs
        · obtain rfl := Option.some.inj hs
          simp only [Handler.busy.injEq] at hh
          rw [← hh.2.1]
          exact h2
        · cases hs
      · split at hs
        · obtain rfl := Option.some.inj hs
          simp only [Handler.busy.injEq] at hh
          rw [← hh.2.1]
          exact h2
        · obtain rfl := Option.some.inj hs
          cases hh
    · cases hs
  | finish =>
    simp only [St.step, St.finish] at hs
    repeat' split at hs
    all_goals first | (obtain rfl := Option.some.inj hs; cases hh) | cases hs

theorem TInv.xstep (h : TInv x.st) {a : XAct} (hs : x.step cfg a = some y) : TInv y.st := by
  cases a with
  | base a =>
    simp only [XSt.step] at hs
    split at hs
    · split at hs
      · cases hs
      · obtain ⟨s, h1, rfl⟩ := Option.map_eq_some_iff.1 hs
        exact h.step h1
    · split at hs
      · obtain ⟨s, h1, rfl⟩ := Option.map_eq_some_iff.1 hs
        exact h.step h1
      · cases hs
  | abandon =>
    simp only [XSt.step] at hs
    split at hs
    · obtain ⟨s, h1, rfl⟩ := Option.map_eq_some_iff.1 hs
      unfold St.abandon at h1
      split at h1
      · cases h1
      · obtain rfl := Option.some.inj h1
        exact h
    · cases hs
  | stop =>
    simp only [XSt.step] at hs
    split at hs
    · obtain ⟨s, h1, rfl⟩ := Option.map_eq_some_iff.1 hs
      exact h.step h1
    · cases hs
  | exit =>
    simp only [XSt.step] at hs
    split at hs
    · cases hs
    · split at hs
      · obtain rfl := Option.some.inj hs
        exact h
      · cases hs

theorem TInv.xrun : ∀ {as : List XAct} {x y : XSt}, TInv x.st → x.run cfg as = some y → TInv y.st
  | [], x, y, h, hr => by
    obtain rfl := Option.some.inj hr
    exact h
  | a :: as, x, y, h, hr => by
    simp only [XSt.run] at hr
    cases h1 : x.step cfg a with
    | none => simp [h1] at hr
    | some t =>
      simp only [h1] at hr
      exact TInv.xrun (h.xstep h1) hr

/-- What the handler still does with the request in progress once nobody listens. -/
def busyWork : Handler → Nat
  | .busy _ (.tip _ :: _) _ => 2
  | .busy _ _ _ => 1
  | _ => 0

theorem busyWork_le (h : Handler) : busyWork h ≤ 2 := by
  unfold busyWork
  split <;> omega

/-- What is left to do after `stop`. -/
def stopWork (x : XSt) : Nat :=
  busyWork x.st.handler + (if x.st.queue = none then 0 else 3) + (if x.exited then 0 else 1)

theorem stopWork_step (hx : XInv x) (ht : TInv x.st) (hr : x.running = false) {a : XAct}
    (hs : x.step cfg a = some y) : y.running = false ∧ stopWork y + 1 ≤ stopWork x := by
  have hcur := (hx.puller hr).2
  cases a with
  | base a =>
    simp only [XSt.step, hr] at hs
    split at hs
    · rename_i ha
      split at hs
      · cases hs
      · obtain ⟨s, h1, rfl⟩ := Option.map_eq_some_iff.1 hs
        refine ⟨rfl, ?_⟩
        cases a with
        | pull f => cases ha
        | recv => cases ha
        | send => cases ha
        | clear => cases ha
        | take n =>
          simp only [St.step, St.take] at h1
          split at h1
          · rename_i f c hh hq
            split at h1
            · obtain rfl := Option.some.inj h1
              have := busyWork_le (.busy c (handle cfg n f).1 (handle cfg n f).2)
              simp only [stopWork, hq, hh]
              simp [busyWork] at *
              omega
            · obtain rfl := Option.some.inj h1
              simp [stopWork, hq, hh]
              omega
          · cases h1
        | emit =>
          simp only [St.step, St.emit, hcur] at h1
          split at h1
          · rename_i c o rest e hh
            rw [if_neg (by simp)] at h1
            split at h1
            · rename_i p
              obtain rfl := Option.some.inj h1
              have h2 := ht _ _ _ hh
              have h3 : busyWork (.busy c rest e) = 1 := by
                cases rest with
                | nil => rfl
                | cons o' rest =>
                  cases o' with
                  | tip q => exact absurd rfl (h2 _ (by simp) q)
                  | block b => rfl
                  | bad => rfl
              simp only [stopWork, hh, h3]
              simp only [busyWork]
              omega
            · rename_i hno
              obtain rfl := Option.some.inj h1
              have h3 : busyWork (.busy c (o :: rest) e) = 1 := by
                cases o with
                | tip q => exact absurd rfl (hno q)
                | block b => rfl
                | bad => rfl
              simp only [stopWork, hh, h3]
              simp only [busyWork]
              omega
          · cases h1
        | finish =>
          simp only [St.step, St.finish] at h1
          split at h1
          · rename_i c hh
            obtain rfl := Option.some.inj h1
            simp only [stopWork, hh, busyWork]
            omega
          · rename_i c hh
            obtain rfl := Option.some.inj h1
            simp only [stopWork, hh, busyWork]
            omega
          · rename_i c hh
            obtain rfl := Option.some.inj h1
            simp only [stopWork, hh, busyWork]
            simp
            split <;> omega
          · cases h1
    · cases hs
  | abandon => simp [XSt.step, hr] at hs
  | stop => simp [XSt.step, hr] at hs
  | exit =>
    simp only [XSt.step, hr] at hs
    split at hs
    · cases hs
    · rename_i he
      split at hs
      · rename_i hh hq
        obtain rfl := Option.some.inj hs
        refine ⟨rfl, ?_⟩
        simp only [Bool.false_or, Bool.not_eq_true] at he
        simp [stopWork, he]
      · cases hs

theorem stopWork_run : ∀ {as : List XAct} {x y : XSt}, XInv x → TInv x.st → x.running = false →
    x.run cfg as = some y → y.running = false ∧ stopWork y + as.length ≤ stopWork x
  | [], x, y, _, _, hr, h => by
    obtain rfl := Option.some.inj h
    exact ⟨hr, Nat.le_refl _⟩
  | a :: as, x, y, hx, ht, hr, h => by
    simp only [XSt.run] at h
    cases h1 : x.step cfg a with
    | none => simp [h1] at h
    | some t =>
      simp only [h1] at h
      obtain ⟨h2, h3⟩ := stopWork_step hx ht hr h1
      obtain ⟨h4, h5⟩ := stopWork_run (hx.step h1) (ht.xstep h1) h2 h
      refine ⟨h4, ?_⟩
      rw [List.length_cons]
      omega

/-- C85: `stop` returns, whatever was going on: after it at most six steps of the handler follow, however many blocks
the request in progress has, and until `stop` returns there is one that can be made, whatever the node does. -/
theorem C85_stop {as bs : List XAct} (h : XSt.start.run cfg as = some x) (hs : x.step cfg .stop = some y)
    (hz : y.run cfg bs = some z) :
    bs.length ≤ 6 ∧ z.st.results = x.st.results ∧
    (z.returned = true ∨ (∀ n, (z.step cfg (.base (.take n))).isSome) ∨ (z.step cfg (.base .emit)).isSome ∨
      (z.step cfg (.base .finish)).isSome ∨ (z.step cfg .exit).isSome) := by
  have hxx := XInv.run XInv.start h
  have htx : TInv x.st := TInv.xrun (x := XSt.start) (fun c rest e he => by cases he) h
  have hxy := hxx.step hs
  have hty := htx.xstep hs
  have hry : y.running = false ∧ y.st.results = x.st.results := by
    simp only [XSt.step] at hs
    split at hs
    · obtain ⟨s, h1, rfl⟩ := Option.map_eq_some_iff.1 hs
      refine ⟨rfl, ?_⟩
      simp only [St.step] at h1
      split at h1
      · obtain rfl := Option.some.inj h1
        rfl
      · cases h1
    · cases hs
  obtain ⟨hrz, hle⟩ := stopWork_run hxy hty hry.1 hz
  have hres : ∀ {bs : List XAct} {y z : XSt}, y.running = false → y.run cfg bs = some z → z.st.results = y.st.results := by
    intro bs
    induction bs with
    | nil =>
      intro y z _ hz
      obtain rfl := Option.some.inj hz
      rfl
    | cons a bs ih =>
      intro y z hr hz
      simp only [XSt.run] at hz
      cases h1 : y.step cfg a with
      | none => simp [h1] at hz
      | some t =>
        simp only [h1] at hz
        have key : t.running = false ∧ t.st.results = y.st.results := by
          cases a with
          | base a =>
            simp only [XSt.step, hr] at h1
            split at h1
            · rename_i ha
              split at h1
              · cases h1
              · obtain ⟨s, h2, rfl⟩ := Option.map_eq_some_iff.1 h1
                exact ⟨rfl, (handler_keeps ha h2).2.2.2.2⟩
            · cases h1
          | abandon => simp [XSt.step, hr] at h1
          | stop => simp [XSt.step, hr] at h1
          | exit =>
            simp only [XSt.step, hr] at h1
            split at h1
            · cases h1
            · split at h1
              · obtain rfl := Option.some.inj h1
                exact ⟨rfl, rfl⟩
              · cases h1
        exact (ih key.1 hz).trans key.2
  refine ⟨?_, (hres hry.1 hz).trans hry.2, ?_⟩
  · have h1 := busyWork_le y.st.handler
    have h2 : (if y.st.queue = none then 0 else 3) ≤ 3 := by split <;> omega
    have h3 : (if y.exited = true then 0 else 1) ≤ 1 := by split <;> omega
    unfold stopWork at hle
    omega
  · have hxz := XInv.run hxy hz
    have hcur := (hxz.puller hrz).2
    have hex : ∀ a, ofHandler a = true → z.exited = false → (z.step cfg (.base a)).isSome = (z.st.step cfg a).isSome := by
      intro a ha he
      simp [XSt.step, ha, he]
    cases he : z.exited with
    | true =>
      left
      simp [XSt.returned, hrz, he]
    | false =>
      rw [hex .emit rfl he, hex .finish rfl he]
      simp only [hex (.take _) rfl he]
      cases hh : z.st.handler with
      | gone =>
        left
        simp [XSt.returned, hrz, hh]
      | idle =>
        cases hq : z.st.queue with
        | none =>
          right; right; right; right
          simp [XSt.step, hrz, he, hh, hq]
        | some w =>
          right; left
          obtain ⟨f, c⟩ := w
          intro n
          simp only [St.step, St.take, hh, hq]
          split <;> rfl
      | busy c rest e =>
        right; right
        cases rest with
        | nil =>
          right; left
          cases e <;> simp [St.step, St.finish, hh]
        | cons o rest =>
          left
          simp only [St.step, St.emit, hh, hcur]
          rw [if_neg (by simp)]
          cases o <;> rfl

/-- C85: when `stop` has returned everything has ended: the handler makes no further step. -/
theorem C85_stopped (h : z.returned = true) (a : XAct) : z.step cfg a = none := by
  simp only [XSt.returned, Bool.and_eq_true, Bool.not_eq_true', Bool.or_eq_true, decide_eq_true_eq] at h
  obtain ⟨hr, hx⟩ := h
  cases a with
  | base a =>
    simp only [XSt.step, hr]
    cases hh : ofHandler a with
    | false => simp
    | true =>
      rcases hx with hx | hx
      · simp [hx]
      · simp only [if_true]
        split
        · rfl
        · rw [Option.map_eq_none_iff]
          cases a <;> first | (simp [ofHandler] at hh; done) | simp [St.step, St.take, St.emit, St.finish, hx]
  | abandon => simp [XSt.step, hr]
  | stop => simp [XSt.step, hr]
  | exit =>
    simp only [XSt.step, hr]
    rcases hx with hx | hx
    · simp [hx]
    · rw [hx]
      split <;> rfl

/-- What the comment of `clear_buffers` says, that the rest of the request in progress is received and thrown away, is
not what happens: the handler drops the connection at the next block, although the node did nothing wrong. -/
theorem C85_connection_false : ¬ ∀ (cfg : Config) (as : List XAct) (x : XSt),
    (∀ n, XAct.base (.take n) ∈ as → Smooth n ∧ ChainOk n.chain) → (∀ p, cfg.validPoint p = true) →
    XSt.start.run cfg as = some x → x.st.connected = true := by
  intro h
  have h1 := h sampleCfg [.base (.pull []), .base .send, .base (.take (sampleNet sampleChain)), .base .emit, .base .recv,
    .base .clear, .base .emit] _ (by
      intro n hn
      have : n = sampleNet sampleChain := by simpa using hn
      rw [this]
      exact ⟨⟨rfl, rfl, rfl, by decide⟩, by decide, by decide⟩) (fun p => by cases p <;> rfl) rfl
  exact absurd h1 (by decide +kernel)

/-- A pull abandoned while it waits for the handler, one abandoned before its request is made; the events come with the
pulls after them. -/
example : ∃ x, XSt.start.run sampleCfg [.base (.pull []), .abandon, .base (.pull [.header 10 1]), .base .send, .abandon,
      .base (.take (sampleNet sampleChain)), .base .emit, .base (.pull []), .abandon, .base .emit, .base (.pull []),
      .base .recv, .base (.pull []), .base .recv] = some x ∧ x.st.next = 1 ∧ x.st.asked 0 = [.header 10 1] ∧
    x.st.results = [.event (.tip (.header 31 3)), .event (.block ⟨25, 2, .ok⟩)] :=
  ⟨_, rfl, rfl, by decide +kernel, by decide +kernel⟩

/-- The buffers are cleared with a request in the channel of requests, which is answered to nobody; the next pull gets
the answer to its own request. -/
example : ∃ x y z, XSt.start.run sampleCfg [.base (.pull [.header 0 0]), .base .send, .abandon] = some x ∧
    x.step sampleCfg (.base .clear) = some y ∧
    y.run sampleCfg [.base (.pull [.header 25 2]), .base (.take (sampleNet sampleChain)), .base .send, .base .emit,
      .base .emit, .base (.take (sampleNet sampleChain)), .base .emit, .base .recv, .base (.pull []), .base .emit,
      .base .recv] = some z ∧ y.st.next = 1 ∧
    z.st.results = [.event (.tip (.header 31 3)), .event (.block ⟨31, 3, .ok⟩)] :=
  ⟨_, _, _, rfl, rfl, rfl, rfl, by decide +kernel⟩

/-- Six steps after `stop`: a request in progress and another one waiting. -/
example : ∃ x y z, XSt.start.run sampleCfg [.base (.pull [.header 0 0]), .base .send, .base (.take (sampleNet sampleChain)),
      .abandon, .base .clear, .base (.pull []), .base .send, .abandon] = some x ∧
    x.step sampleCfg .stop = some y ∧
    y.run sampleCfg [.base .emit, .base .emit, .base (.take (sampleNet sampleChain)), .base .emit, .base .emit, .exit] =
      some z ∧ z.returned = true ∧ y.returned = false :=
  ⟨_, _, _, rfl, rfl, rfl, by decide +kernel, by decide +kernel⟩

/-- A pull can go on after an abandoned one. -/
example : ∃ x, XSt.start.run sampleCfg [.base (.pull []), .base .send, .abandon, .base (.pull [])] = some x ∧
    x.st.puller = .reading [] := ⟨_, rfl, rfl⟩

end Verif.Props
