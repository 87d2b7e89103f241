import Verif.Sources.Tips
import Mathlib.Data.List.Induction
import Mathlib.Tactic.NormNum
import Mathlib.Tactic.Ring

/-!
# C95: tips are announced at a steady pace
-/

namespace Verif.Props

open Verif.Sources.Cardano

/-! ### Specification -/

/-- The time goes on from `t` through the requests. -/
def TimesFrom (t : Int) : List Req → Prop
  | [] => True
  | r :: rs => t ≤ r.asked ∧ r.asked ≤ r.noted ∧ TimesFrom r.noted rs

/-- The request finds news: all its positions (the genesis in place of the genesis parent) are well formed,
and the newest of them on the node's chain is not its tip. -/
def FindsNews (c : Config) (r : Req) : Prop :=
  let from' := if r.from' = [.header 0 c.genesisParent] then [c.genesis] else r.from'
  from'.all c.validPoint = true ∧ r.net.intersects = true ∧
    ∃ p, (from'.insertionSort newer).find? r.net.on = some p ∧ r.net.tip ≠ p

/-- The handler is there and has, or gets, a connection. -/
def Served (k : Clock) (r : Req) : Prop := k.gone = false ∧ (k.connected = true ∨ r.net.connects = true)

/-- The handler announces the tip for request `r` after the requests `pre`. -/
def Announces (c : Config) (pace : Nat) (k : Clock) (pre : List Req) (r : Req) : Prop :=
  ∃ p, Out.tip p ∈ ((k.after c pace pre).serve c pace r).1

/-- The number of announcements. -/
def announced (c : Config) (pace : Nat) (k : Clock) : List Req → Nat
  | [] => 0
  | r :: rs => (if (k.serve c pace r).1.any isTip then 1 else 0) + announced c pace (k.serve c pace r).2 rs

/-! ### Helpers -/

theorem parseAll_anyTip (bs : List NBlock) : (parseAll bs).1.any isTip = false := by
  induction bs with
  | nil => rfl
  | cons b bs ih =>
    unfold parseAll
    cases b.parsed <;> simp [isTip, ih]

theorem readBlocks_anyTip (i : Bool) (cut : Option Nat) (bs : List NBlock) :
    (readBlocks i cut bs).1.any isTip = false := parseAll_anyTip _

/-- The events of a request: a tip event first, if it finds news and one is due, then no other one; the rest
and the end do not depend on whether one is due. -/
theorem handle_tips (c : Config) (r : Req) : ∃ rest e, rest.any isTip = false ∧ ∀ due,
    handle c (r.netAt due) r.from' =
      ((open Classical in if FindsNews c r ∧ due = true then [Out.tip r.net.tip] else []) ++ rest, e) := by
  classical
  have key : ∀ from' i, ∃ rest e, rest.any isTip = false ∧ ∀ due, blockFetch c (r.netAt due) from' i =
      ((if (from'.all c.validPoint = true ∧ r.net.intersects = true ∧
        ∃ p, (from'.insertionSort newer).find? r.net.on = some p ∧ r.net.tip ≠ p) ∧ due = true
        then [Out.tip r.net.tip] else []) ++ rest, e) := by
    intro from' i
    unfold blockFetch
    by_cases h1 : from'.all c.validPoint = true
    · by_cases h2 : r.net.intersects = true
      · cases h3 : (from'.insertionSort newer).find? r.net.on with
        | none =>
          refine ⟨[], .done, rfl, fun due => ?_⟩
          have h3' : (from'.insertionSort newer).find? (r.netAt due).on = none := h3
          have h2' : (r.netAt due).intersects = true := h2
          simp only [h1, h2', h3', if_true]
          rw [if_neg (by simp)]
          rfl
        | some p =>
          by_cases h4 : r.net.tip = p
          · refine ⟨[], .done, rfl, fun due => ?_⟩
            have h3' : (from'.insertionSort newer).find? (r.netAt due).on = some p := h3
            have h2' : (r.netAt due).intersects = true := h2
            have h4' : (r.netAt due).tip = p := h4
            simp only [h1, h2', h3', h4', if_true]
            rw [if_neg (by simp [h4])]
            rfl
          · obtain ⟨rest, e, h5, h6⟩ : ∃ rest e, rest.any isTip = false ∧ ∀ due,
                (match (r.netAt due).range with
                  | .failed => ((if (r.netAt due).tipDue then [Out.tip (r.netAt due).tip] else []), End.dropped)
                  | .nothing => ((if (r.netAt due).tipDue then [Out.tip (r.netAt due).tip] else []), End.done)
                  | .value _ =>
                    let x := readBlocks i (r.netAt due).cut ((r.netAt due).blocksFrom p)
                    ((if (r.netAt due).tipDue then [Out.tip (r.netAt due).tip] else []) ++ x.1, x.2)) =
                ((if due = true then [Out.tip r.net.tip] else []) ++ rest, e) := by
              cases h7 : r.net.range with
              | failed =>
                refine ⟨[], .dropped, rfl, fun due => ?_⟩
                have h7' : (r.netAt due).range = .failed := h7
                simp only [h7', List.append_nil]
                rfl
              | nothing =>
                refine ⟨[], .done, rfl, fun due => ?_⟩
                have h7' : (r.netAt due).range = .nothing := h7
                simp only [h7', List.append_nil]
                rfl
              | value a =>
                refine ⟨_, (readBlocks i r.net.cut (r.net.blocksFrom p)).2, readBlocks_anyTip i r.net.cut (r.net.blocksFrom p), fun due => ?_⟩
                have h7' : (r.netAt due).range = .value a := h7
                have h8 : (r.netAt due).blocksFrom p = r.net.blocksFrom p := by
                  cases p <;> rfl
                simp only [h7', h8]
                rfl
            refine ⟨rest, e, h5, fun due => ?_⟩
            have h3' : (from'.insertionSort newer).find? (r.netAt due).on = some p := h3
            have h2' : (r.netAt due).intersects = true := h2
            have h4' : ¬ (r.netAt due).tip = p := h4
            simp only [h1, h2', h3', if_true]
            rw [if_neg h4']
            refine (h6 due).trans ?_
            congr 2
            by_cases hd : due = true
            · rw [if_pos hd, if_pos ⟨⟨trivial, h2, p, rfl, h4⟩, hd⟩]
            · rw [if_neg hd, if_neg (fun h => hd h.2)]
      · refine ⟨[], .dropped, rfl, fun due => ?_⟩
        have h2' : ¬ (r.netAt due).intersects = true := h2
        simp only [h1, if_true]
        rw [if_neg h2', if_neg (fun h => h2 h.1.2.1)]
        rfl
    · refine ⟨[], .dropped, rfl, fun due => ?_⟩
      rw [if_neg h1, if_neg (fun h => h1 h.1.1)]
      rfl
  unfold handle FindsNews
  by_cases hg : r.from' = [.header 0 c.genesisParent]
  · simp only [if_pos hg]
    obtain ⟨rest, e, h1, h2⟩ := key [c.genesis] false
    exact ⟨rest, e, h1, h2⟩
  · simp only [if_neg hg]
    obtain ⟨rest, e, h1, h2⟩ := key r.from' true
    exact ⟨rest, e, h1, h2⟩

theorem serve_not {c : Config} {pace : Nat} {k : Clock} {r : Req} (h : ¬ Served k r) :
    k.serve c pace r = ([], k) := by
  unfold Clock.serve
  by_cases h1 : k.gone = true
  · rw [if_pos h1]
  · rw [if_neg h1, if_pos]
    unfold Served at h
    simp only [Bool.not_eq_true] at h1
    simp only [h1, true_and, not_or, Bool.not_eq_true] at h
    simp [h.1, h.2]

theorem serve_served {c : Config} {pace : Nat} {k : Clock} {r : Req} (h : Served k r) :
    k.serve c pace r = ((handle c (r.netAt (k.due pace r)) r.from').1,
      ⟨decide (r.ends (handle c (r.netAt (k.due pace r)) r.from') = .done),
        if (handle c (r.netAt (k.due pace r)) r.from').1.any isTip then r.noted else k.last,
        decide (r.ends (handle c (r.netAt (k.due pace r)) r.from') = .panicked)⟩) := by
  unfold Clock.serve
  rw [if_neg (by rw [h.1]; decide), if_neg]
  rcases h.2 with h | h <;> simp [h]

theorem any_isTip {l : List Out} : l.any isTip = true ↔ ∃ p, Out.tip p ∈ l := by
  rw [List.any_eq_true]
  constructor
  · rintro ⟨x, h1, h2⟩
    cases x with
    | tip p => exact ⟨p, h1⟩
    | block b => cases h2
    | bad => cases h2
  · rintro ⟨p, h⟩
    exact ⟨_, h, rfl⟩

theorem serve_tip {c : Config} {pace : Nat} {k : Clock} {r : Req} :
    (k.serve c pace r).1.any isTip = true ↔ Served k r ∧ FindsNews c r ∧ k.due pace r = true := by
  by_cases h : Served k r
  · rw [serve_served h]
    obtain ⟨rest, e, h1, h2⟩ := handle_tips c r
    rw [h2]
    by_cases h3 : FindsNews c r ∧ k.due pace r = true
    · simp only [if_pos h3]
      simp [isTip, h, h3.1, h3.2]
    · simp only [if_neg h3]
      simp only [List.nil_append, h1]
      constructor
      · intro h; cases h
      · intro h; exact absurd h.2 h3
  · rw [serve_not h]
    constructor
    · intro h; cases h
    · intro h'; exact absurd h'.1 h

theorem serve_last {c : Config} {pace : Nat} {k : Clock} {r : Req} :
    (k.serve c pace r).2.last = if (k.serve c pace r).1.any isTip then r.noted else k.last := by
  by_cases h : Served k r
  · rw [serve_served h]
  · rw [serve_not h]; rfl

theorem after_snoc {c : Config} {pace : Nat} (pre : List Req) : ∀ (k : Clock) (r : Req),
    k.after c pace (pre ++ [r]) = ((k.after c pace pre).serve c pace r).2 := by
  induction pre with
  | nil => intro k r; rfl
  | cons q pre ih => intro k r; exact ih _ r

theorem timesFrom_snoc {r : Req} : ∀ {pre : List Req} {t : Int}, TimesFrom t (pre ++ [r]) →
    TimesFrom t pre ∧ r.asked ≤ r.noted ∧ t ≤ r.asked ∧ ∀ q ∈ pre, q.noted ≤ r.asked := by
  intro pre
  induction pre with
  | nil => intro t h; exact ⟨trivial, h.2.1, h.1, by simp⟩
  | cons q pre ih =>
    intro t h
    obtain ⟨h1, h2, h3⟩ := h
    obtain ⟨h4, h5, h6, h7⟩ := ih h3
    refine ⟨⟨h1, h2, h4⟩, h5, by omega, ?_⟩
    intro x hx
    rcases List.mem_cons.1 hx with rfl | hx
    · exact h6
    · exact h7 x hx

/-- What `last_tip_event` is. -/
theorem last_spec {c : Config} {pace : Nat} {k : Clock} (pre : List Req) :
    ((k.after c pace pre).last = k.last ∧ ∀ p1 q p2, pre = p1 ++ q :: p2 → ¬ Announces c pace k p1 q) ∨
    ∃ p1 q p2, pre = p1 ++ q :: p2 ∧ Announces c pace k p1 q ∧ (k.after c pace pre).last = q.noted ∧
      ∀ p3 x p4, p2 = p3 ++ x :: p4 → ¬ Announces c pace k (p1 ++ q :: p3) x := by
  induction pre using List.reverseRecOn with
  | nil => exact .inl ⟨rfl, by simp⟩
  | append_singleton pre r ih =>
    rw [after_snoc, serve_last]
    by_cases h : ((k.after c pace pre).serve c pace r).1.any isTip = true
    · rw [if_pos h]
      refine .inr ⟨pre, r, [], rfl, any_isTip.1 h, rfl, ?_⟩
      intro p3 x p4 he
      simp at he
    · rw [if_neg h]
      have hr : ¬ Announces c pace k pre r := fun hc => h (any_isTip.2 hc)
      rcases ih with ⟨h1, h2⟩ | ⟨p1, q, p2, h1, h2, h3, h4⟩
      · refine .inl ⟨h1, ?_⟩
        intro p1 q p2 he
        rcases List.eq_nil_or_concat p2 with rfl | ⟨p2', x, rfl⟩
        · have := List.append_inj' (show pre ++ [r] = p1 ++ [q] from he) rfl
          rw [← this.1, ← List.singleton_inj.1 this.2]
          exact hr
        · rw [List.concat_eq_append, ← List.cons_append, ← List.append_assoc] at he
          exact h2 _ _ _ (List.append_inj' he rfl).1
      · refine .inr ⟨p1, q, p2 ++ [r], by rw [h1]; simp, h2, h3, ?_⟩
        intro p3 x p4 he
        rcases List.eq_nil_or_concat p4 with rfl | ⟨p4', y, rfl⟩
        · have := List.append_inj' (show p2 ++ [r] = p3 ++ [x] from he) rfl
          rw [← this.1, ← List.singleton_inj.1 this.2, ← h1]
          exact hr
        · rw [List.concat_eq_append, ← List.cons_append, ← List.append_assoc] at he
          exact h4 _ _ _ (List.append_inj' he rfl).1

/-! ### C95 -/

/-- The start, if it is in the range of the clock. -/
theorem start_last {now : Int} {pace : Nat} (h : -2 ^ 63 * 1000000000 ≤ now - pace) :
    Clock.start now pace = ⟨true, now - pace, false⟩ := by
  unfold Clock.start
  rw [if_pos h]

theorem announces_mem {pre p1 p2 : List Req} {q : Req}
    (h : pre = p1 ++ q :: p2) : q ∈ pre := by rw [h]; simp

/-- Along the requests `last_tip_event` grows. -/
theorem last_grows {c : Config} {pace : Nat} {k : Clock} {now : Int} : ∀ {p2 p1 : List Req} {q : Req},
    TimesFrom now (p1 ++ q :: p2) → k.last ≤ now → Announces c pace k p1 q →
    q.noted ≤ (k.after c pace (p1 ++ q :: p2)).last := by
  intro p2
  induction p2 using List.reverseRecOn with
  | nil =>
    intro p1 q ht hk ha
    rw [after_snoc, serve_last, if_pos (any_isTip.2 ha)]
  | append_singleton p2 r ih =>
    intro p1 q ht hk ha
    rw [← List.cons_append, ← List.append_assoc] at ht ⊢
    obtain ⟨h1, h2, h3, h4⟩ := timesFrom_snoc ht
    rw [after_snoc, serve_last]
    split
    · have := h4 q (by simp); omega
    · exact ih h1 hk ha

/-- **C95.** The tip is announced for exactly those requests that reach the node, find news, and come at
least the pace after every earlier announcement; so the first of them is announced. -/
theorem C95_exact (c : Config) (pace : Nat) (now : Int) (h0 : -2 ^ 63 * 1000000000 ≤ now - pace)
    (pre : List Req) (r : Req) (ht : TimesFrom now (pre ++ [r])) :
    Announces c pace (Clock.start now pace) pre r ↔
      Served ((Clock.start now pace).after c pace pre) r ∧ FindsNews c r ∧
      ∀ p1 q p2, pre = p1 ++ q :: p2 → Announces c pace (Clock.start now pace) p1 q →
        (pace : Int) ≤ r.asked - q.noted := by
  obtain ⟨ht1, ht2, ht3, ht4⟩ := timesFrom_snoc ht
  have hs := start_last h0
  unfold Announces
  rw [← any_isTip, serve_tip]
  refine and_congr_right fun _ => and_congr_right fun _ => ?_
  unfold Clock.due
  rw [decide_eq_true_iff]
  have hk : (Clock.start now pace).last ≤ now := by rw [hs]; simp only; omega
  constructor
  · intro h p1 q p2 he ha
    have h1 := last_grows (he ▸ ht1) hk ha
    rw [← he] at h1
    have h2 := ht4 q (announces_mem he)
    omega
  · intro h
    rcases last_spec (c := c) (pace := pace) (k := Clock.start now pace) pre with ⟨h1, _⟩ | ⟨p1, q, p2, he, ha, h1, _⟩
    · rw [h1, hs]
      simp only
      omega
    · have := h p1 q p2 he ha
      rw [h1]
      omega

/-- **C95.** An announcement is the first event of its request, and names the tip of the node; there is no
other one. The other events of the request are the same with and without it. -/
theorem C95_first (c : Config) (pace : Nat) (k : Clock) (r : Req) (hs : Served k r) :
    ∃ rest, rest.any isTip = false ∧ (handle c (r.netAt false) r.from').1 = rest ∧
      ((k.serve c pace r).1 = rest ∨ (k.serve c pace r).1 = Out.tip r.net.tip :: rest) := by
  classical
  obtain ⟨rest, e, h1, h2⟩ := handle_tips c r
  refine ⟨rest, h1, ?_, ?_⟩
  · rw [h2]
    simp
  · rw [serve_served hs, h2]
    by_cases h3 : FindsNews c r ∧ k.due pace r = true
    · right; simp only [if_pos h3]; rfl
    · left; simp only [if_neg h3]; rfl

/-- **C95.** There are never more announcements than the pace allows: in the time `t` at most `t / pace + 1`. -/
theorem C95_count (c : Config) (pace : Nat) (now t : Int) (h0 : -2 ^ 63 * 1000000000 ≤ now - pace)
    (rs : List Req) (ht : TimesFrom now rs) (hend : now ≤ t) (hall : ∀ r ∈ rs, r.noted ≤ t) :
    ((announced c pace (Clock.start now pace) rs : Int) - 1) * pace ≤ t - now := by
  have key : ∀ (rs : List Req) (k : Clock) (s : Int), TimesFrom s rs → k.last ≤ s → (∀ r ∈ rs, r.noted ≤ t) →
      s ≤ t → k.last + (announced c pace k rs : Int) * pace ≤ t := by
    intro rs
    induction rs with
    | nil =>
      intro k s _ h1 _ h2
      simp only [announced]
      omega
    | cons r rs ih =>
      intro k s h1 h2 h3 h4
      obtain ⟨h5, h6, h7⟩ := h1
      have h8 := h3 r (by simp)
      have hl := serve_last (c := c) (pace := pace) (k := k) (r := r)
      simp only [announced]
      by_cases h9 : (k.serve c pace r).1.any isTip = true
      · rw [if_pos h9] at hl ⊢
        have h10 := ih (k.serve c pace r).2 r.noted h7 (by omega) (fun x hx => h3 x (by simp [hx])) h8
        have hd := (serve_tip.1 h9).2.2
        unfold Clock.due at hd
        have hd' := of_decide_eq_true hd
        push_cast
        rw [add_mul, one_mul]
        rw [hl] at h10
        omega
      · rw [if_neg h9] at hl ⊢
        have h10 := ih (k.serve c pace r).2 r.noted h7 (by omega) (fun x hx => h3 x (by simp [hx])) h8
        rw [hl] at h10
        simpa using h10
  have hs := start_last h0
  have := key rs (Clock.start now pace) now ht (by rw [hs]; simp only; omega) hall hend
  rw [hs] at this ⊢
  simp only at this
  rw [sub_mul, one_mul]
  omega

/-- A node with two blocks, asked from the first. -/
def tipNet : Net := ⟨true, true, [⟨10, 1, .ok⟩, ⟨20, 2, .ok⟩], .value (), [], none, false⟩

/-- The configuration of the sample. -/
def tipCfg : Config := ⟨.header 10 1, 9, .header 10 1, fun _ => true⟩

/-- A request of the sample. -/
def tipReq (t : Int) (heard : Bool) : Req := ⟨tipNet, [.header 10 1], t, t + 1, heard⟩

/-- With a pace of 10 the requests at 0 and 15 are announced, the one at 5 is not. -/
example : TimesFrom 0 [tipReq 0 true, tipReq 5 true, tipReq 15 true] ∧
    FindsNews tipCfg (tipReq 5 true) ∧
    ((Clock.start 0 10).serve tipCfg 10 (tipReq 0 true)).1 = [.tip (.header 20 2), .block ⟨20, 2, .ok⟩] ∧
    (((Clock.start 0 10).after tipCfg 10 [tipReq 0 true]).serve tipCfg 10 (tipReq 5 true)).1 =
      [.block ⟨20, 2, .ok⟩] ∧
    announced tipCfg 10 (Clock.start 0 10) [tipReq 0 true, tipReq 5 true, tipReq 15 true] = 2 := by
  refine ⟨by simp [TimesFrom, tipReq], ⟨by decide, by decide, .header 10 1, by decide, by decide⟩, by decide +kernel,
    by decide +kernel, by decide +kernel⟩

/-- **C95.** A tip that reaches nobody does no harm: a request leaves the handler with its connection if the node's answer
ends well, unless there is a block to send and the receiver is gone; and it leaves it panicked only if the answer has a
block that does so and a receiver takes what comes before. -/
theorem C95_kept (c : Config) (pace : Nat) (k : Clock) (r : Req) (hs : Served k r) :
    ((k.serve c pace r).2.connected = true ↔ (handle c (r.netAt false) r.from').2 = .done ∧
      (r.heard = true ∨ (handle c (r.netAt false) r.from').1 = [])) ∧
    ((k.serve c pace r).2.gone = true ↔ (handle c (r.netAt false) r.from').2 = .panicked ∧
      (r.heard = true ∨ (handle c (r.netAt false) r.from').1 = [])) := by
  classical
  obtain ⟨rest, e, h1, h2⟩ := handle_tips c r
  have hall : ∀ due, (handle c (r.netAt due) r.from').1.all isTip = true ↔ rest = [] := by
    intro due
    rw [h2]
    have : ((if FindsNews c r ∧ due = true then [Out.tip r.net.tip] else []) : List Out).all isTip = true := by
      split <;> simp [isTip]
    rw [List.all_append, this, Bool.true_and]
    cases rest with
    | nil => simp
    | cons x xs =>
      simp only [List.any_cons, Bool.or_eq_false_iff] at h1
      simp [h1.1]
  have hr : (handle c (r.netAt false) r.from').1 = rest := by rw [h2]; simp
  have he : ∀ due, (handle c (r.netAt due) r.from').2 = e := fun due => by rw [h2]
  rw [serve_served hs]
  simp only [decide_eq_true_eq, Req.ends, Bool.or_eq_true, hall, hr, he]
  split
  · rename_i h; simp [h]
  · rename_i h; simp [h]

/-- Both happen: the request after a lost tip with blocks has no connection, and without blocks it has. -/
example : ((Clock.start 0 10).after tipCfg 10 [tipReq 0 false]).connected = false ∧
    ((Clock.start 0 10).after tipCfg 10 [tipReq 0 true]).connected = true ∧
    ((Clock.start 0 10).after tipCfg 10 [{ tipReq 0 false with
      net := { (tipReq 0 false).net with range := .nothing } }]).connected = true ∧
    ((Clock.start 0 10).serve tipCfg 10 { tipReq 0 false with
      net := { (tipReq 0 false).net with range := .nothing } }).1 = [.tip (.header 20 2)] := by
  decide +kernel

/-- **C95 is false** for the receiver: an announcement to a receiver that is gone counts, so that the next
request gets none although the consumer has never received one. -/
theorem C95_heard_false : ∃ (c : Config) (pace : Nat) (now : Int) (q r : Req), TimesFrom now [q, r] ∧
    Served ((Clock.start now pace).after c pace [q]) r ∧ FindsNews c r ∧ r.heard = true ∧
    q.gets ((Clock.start now pace).serve c pace q).1 = [] ∧
    (r.gets (((Clock.start now pace).after c pace [q]).serve c pace r).1).any isTip = false :=
  ⟨tipCfg, 10, 0, tipReq 0 false, tipReq 5 true, by simp [TimesFrom, tipReq], ⟨by decide +kernel, .inr rfl⟩,
    ⟨by decide, by decide, .header 10 1, by decide, by decide⟩, rfl, by decide +kernel, by decide +kernel⟩

/-- **C95 is false** for a pace that reaches before the range of the clock: the handler panics at once and no
request is answered. -/
theorem C95_pace_false : ∃ (pace : Nat), ∀ (c : Config) (rs : List Req) (r : Req),
    (((Clock.start 0 pace).after c pace rs).serve c pace r).1 = [] := by
  refine ⟨2 ^ 64 * 1000000000, fun c rs r => ?_⟩
  have hg : ∀ (rs : List Req) (k : Clock), k.gone = true → (k.after c (2 ^ 64 * 1000000000) rs).gone = true := by
    intro rs
    induction rs with
    | nil => intro k h; exact h
    | cons q rs ih =>
      intro k h
      apply ih
      unfold Clock.serve
      rw [if_pos h]
      exact h
  have h0 : (Clock.start 0 (2 ^ 64 * 1000000000)).gone = true := by
    unfold Clock.start
    rw [if_neg (by norm_num)]
  unfold Clock.serve
  rw [if_pos (hg rs _ h0)]

end Verif.Props
