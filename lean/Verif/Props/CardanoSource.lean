import Verif.Sources.CardanoLemmas

/-!
# C26: the Cardano source

`asked c` are the positions of the `c`-th request, `net c` what the node and the connection did for it (none
if the connection could not be made again), `got c` what the pulls returned for it. `handle` gives what the
handler is to send.
-/

namespace Verif.Props

open Verif.Sources.Cardano

variable {cfg : Config} {s : St}

/-- What the handler sends for a request: nothing without connection. -/
def replyTo (cfg : Config) (f : List Point) (n : Option Net) : List Out :=
  match n with
  | none => []
  | some n => (handle cfg n f).1

theorem planOf_eq (f : List Point) (n : Option Net) : planOf cfg f n = replyTo cfg f n := by
  cases n <;> rfl

theorem stream_of_inv (hi : CInv cfg s) :
    s.results.filterMap evOf = (List.range s.next).flatMap s.got ∧
    ∀ c < s.next, s.got c <+: replyTo cfg (s.asked c) (s.net c) ∧
      (c + 1 < s.next → s.cleared c = false → s.got c = replyTo cfg (s.asked c) (s.net c)) := by
  refine ⟨hi.res, fun c hc => ⟨?_, fun h1 h2 => ?_⟩⟩
  · rw [← planOf_eq, ← hi.plan]
    exact hi.pre c
  · rw [← planOf_eq, ← hi.plan]
    refine (hi.lost c hc (fun hcur => ?_) h2).1
    have := (hi.cur c hcur).1
    omega

/-- C26: in every schedule of the pulls and the request handler, the events returned by the pulls are, one
after the other, those of the requests in their order; what was received for a request is a first part of
what the handler sends for it, and all of it when the next request is made, unless buffers were cleared. -/
theorem C26_stream {as : List Act} (h : St.start.run cfg as = some s) :
    s.results.filterMap evOf = (List.range s.next).flatMap s.got ∧
    ∀ c < s.next, s.got c <+: replyTo cfg (s.asked c) (s.net c) ∧
      (c + 1 < s.next → s.cleared c = false → s.got c = replyTo cfg (s.asked c) (s.net c)) :=
  stream_of_inv ((CInv.start cfg).run h)

theorem nothing_of_inv (hi : CInv cfg s) {s' : St}
    (hs : s.step cfg .recv = some s') (hr : s'.results = s.results ++ [.nothing]) :
    ∃ c, s.next = c + 1 ∧ replyTo cfg (s.asked c) (s.net c) = [] := by
  simp only [St.step, St.recv] at hs
  split at hs
  · rename_i f c hp hc
    split at hs
    · rw [← Option.some.inj hs] at hr
      have := (List.append_cancel_left hr)
      simp at this
    · split at hs
      · cases hs
      · rw [← Option.some.inj hs] at hr
        simp at hr
  · rename_i c hp hc
    split at hs
    · rw [← Option.some.inj hs] at hr
      have := (List.append_cancel_left hr)
      simp at this
    · rename_i hb
      split at hs
      · cases hs
      · rename_i hal
        refine ⟨c, (hi.cur c hc).1.symm, ?_⟩
        have h1 := hi.closed c hc (by simpa using hal)
        rw [hb, (hi.awaiting hp).2 c hc] at h1
        rw [← planOf_eq, ← hi.plan, ← h1]
        rfl
  · cases hs

/-- C26: a pull returns nothing only if the handler sends nothing for its request. -/
theorem C26_nothing {as : List Act} (h : St.start.run cfg as = some s) {s' : St}
    (hs : s.step cfg .recv = some s') (hr : s'.results = s.results ++ [.nothing]) :
    ∃ c, s.next = c + 1 ∧ replyTo cfg (s.asked c) (s.net c) = [] :=
  nothing_of_inv ((CInv.start cfg).run h) hs hr

theorem progress_of_inv (hi : CInv cfg s) (hp : s.puller ≠ .idle) :
    (s.step cfg .recv).isSome ∨ (s.step cfg .send).isSome ∨ (∀ n, (s.step cfg (.take n)).isSome) ∨
      (s.step cfg .emit).isSome ∨ (s.step cfg .finish).isSome := by
  -- the handler can go on when it has something to do and the buffer is empty
  have hh : ∀ c, s.current = some c → s.buf = [] → s.alive c = true ∨ s.queue ≠ none → s.handler ≠ .gone →
      (∀ n, (s.step cfg (.take n)).isSome) ∨ (s.step cfg .emit).isSome ∨ (s.step cfg .finish).isSome := by
    intro c hc hb hal hg
    cases hhd : s.handler with
    | gone => exact absurd hhd hg
    | idle =>
      cases hq : s.queue with
      | none =>
        exfalso
        rcases hal with hal | hal
        · simp [St.alive, hq, hhd] at hal
        · exact hal hq
      | some x =>
        left
        intro n
        obtain ⟨f, c'⟩ := x
        simp only [St.step, St.take, hhd, hq]
        split <;> rfl
    | busy c' rest e =>
      right
      cases rest with
      | nil =>
        right
        cases e <;> simp [St.step, St.finish, hhd]
      | cons o rest =>
        left
        simp only [St.step, St.emit, hhd, hb]
        split
        · rw [if_pos (by simp [bound])]
          rfl
        · cases o <;> rfl
  have hrecv : ∀ c, s.current = some c → (∃ f, s.puller = .reading f) ∨ s.puller = .awaiting →
      (s.step cfg .recv).isSome ∨ s.buf = [] ∧ s.alive c = true := by
    intro c hc hpp
    cases hb : s.buf with
    | cons o rest =>
      left
      rcases hpp with ⟨f, hf⟩ | hf <;> simp [St.step, St.recv, hf, hc, hb]
    | nil =>
      cases hal : s.alive c with
      | true => exact .inr ⟨rfl, rfl⟩
      | false =>
        left
        rcases hpp with ⟨f, hf⟩ | hf <;> simp [St.step, St.recv, hf, hc, hb, hal]
  have hgone : ∀ c, s.alive c = true → s.handler ≠ .gone := by
    intro c hal hg
    have hq := hi.gone hg
    simp [St.alive, hq, hg] at hal
  cases hpu : s.puller with
  | idle => exact absurd hpu hp
  | reading f =>
    obtain ⟨c, hc⟩ := Option.ne_none_iff_exists'.1 (hi.reading f hpu)
    rcases hrecv c hc (.inl ⟨f, hpu⟩) with h1 | ⟨h1, h2⟩
    · exact .inl h1
    · exact .inr (.inr (hh c hc h1 (.inl h2) (hgone c h2)))
  | awaiting =>
    obtain ⟨c, hc⟩ := Option.ne_none_iff_exists'.1 (hi.awaiting hpu).1
    rcases hrecv c hc (.inr hpu) with h1 | ⟨h1, h2⟩
    · exact .inl h1
    · exact .inr (.inr (hh c hc h1 (.inl h2) (hgone c h2)))
  | sending f =>
    cases hq : s.queue with
    | none =>
      right; left
      simp only [St.step, St.send, hpu, hq]
      split <;> rfl
    | some x =>
      obtain ⟨f', c'⟩ := x
      cases hhd : s.handler with
      | gone =>
        rw [hi.gone hhd] at hq
        cases hq
      | idle =>
        right; right; left
        intro n
        simp only [St.step, St.take, hhd, hq]
        split <;> rfl
      | busy c rest e =>
        right; right; right
        cases rest with
        | nil =>
          right
          cases e <;> simp [St.step, St.finish, hhd]
        | cons o rest =>
          left
          have hne : s.current ≠ some c := by
            intro hc
            have := (hi.sending f hpu c hc).2
            simp [St.alive, hhd] at this
          simp only [St.step, St.emit, hhd, if_neg hne]
          cases o <;> rfl

/-- C26: as long as a pull has not returned, it or the handler can go on, whatever the node does. -/
theorem C26_progress {as : List Act} (h : St.start.run cfg as = some s) (hp : s.puller ≠ .idle) :
    (s.step cfg .recv).isSome ∨ (s.step cfg .send).isSome ∨ (∀ n, (s.step cfg (.take n)).isSome) ∨
      (s.step cfg .emit).isSome ∨ (s.step cfg .finish).isSome :=
  progress_of_inv ((CInv.start cfg).run h) hp

/-- An action other than the beginning of a pull and the clearing of buffers. -/
def Internal : Act → Prop
  | .pull _ => False
  | .clear => False
  | _ => True

/-- The work left: phases of the pull, requests queued, events to send. -/
def work (s : St) : Nat × Nat × Nat :=
  (match s.puller with
    | .idle => 0
    | .awaiting => 1
    | .sending _ => 2
    | .reading _ => 3,
   match s.queue with
    | none => 0
    | some _ => 1,
   match s.handler with
    | .busy _ rest _ => rest.length + 1
    | _ => 0)

/-- C26: every pull returns: the pulls in progress and the handler cannot go on for ever. -/
theorem C26_pull_returns (f : Nat → St) : ¬ ∀ i, ∃ a, Internal a ∧ (f i).step cfg a = some (f (i + 1)) := by
  intro h
  have wf : WellFounded (Prod.Lex (· < ·) (Prod.Lex (· < ·) (· < ·)) : Nat × Nat × Nat → Nat × Nat × Nat → Prop) :=
    (Prod.lex Nat.lt_wfRel (Prod.lex Nat.lt_wfRel Nat.lt_wfRel)).wf
  have key : ∀ x : Nat × Nat × Nat, ∀ i, work (f i) = x → False := by
    intro x
    induction x using wf.induction with
    | _ x ih =>
      intro i hx
      obtain ⟨a, ha, hs⟩ := h i
      refine ih (work (f (i + 1))) ?_ (i + 1) rfl
      rw [← hx]
      generalize f i = s at hs
      generalize f (i + 1) = s' at hs
      cases a with
      | pull _ => cases ha
      | clear => cases ha
      | recv =>
        simp only [St.step, St.recv] at hs
        split at hs
        · rename_i g c hp hc
          split at hs
          · rw [← Option.some.inj hs]
            exact Prod.Lex.left _ _ (by simp [St.receive, hp])
          · split at hs
            · cases hs
            · rw [← Option.some.inj hs]
              exact Prod.Lex.left _ _ (by simp [hp])
        · rename_i c hp hc
          split at hs
          · rw [← Option.some.inj hs]
            exact Prod.Lex.left _ _ (by simp [St.receive, hp])
          · split at hs
            · cases hs
            · rw [← Option.some.inj hs]
              exact Prod.Lex.left _ _ (by simp [hp])
        · cases hs
      | send =>
        simp only [St.step, St.send] at hs
        split at hs
        · rename_i g hp
          split at hs
          · rw [← Option.some.inj hs]
            exact Prod.Lex.left _ _ (by simp [hp])
          · split at hs
            · cases hs
            · rw [← Option.some.inj hs]
              exact Prod.Lex.left _ _ (by simp [hp])
        · cases hs
      | take n =>
        simp only [St.step, St.take] at hs
        split at hs
        · rename_i g c hh hq
          split at hs
          · rw [← Option.some.inj hs]
            exact Prod.Lex.right _ (Prod.Lex.left _ _ (by simp [hq]))
          · rw [← Option.some.inj hs]
            exact Prod.Lex.right _ (Prod.Lex.left _ _ (by simp [hq]))
        · cases hs
      | emit =>
        simp only [St.step, St.emit] at hs
        split at hs
        · rename_i c o rest e hh
          split at hs
          · split at hs
            · rw [← Option.some.inj hs]
              exact Prod.Lex.right _ (Prod.Lex.right _ (by simp [hh]))
            · cases hs
          · split at hs
            · rw [← Option.some.inj hs]
              exact Prod.Lex.right _ (Prod.Lex.right _ (by simp [hh]))
            · rw [← Option.some.inj hs]
              exact Prod.Lex.right _ (Prod.Lex.right _ (by simp [hh]))
        · cases hs
      | finish =>
        simp only [St.step, St.finish] at hs
        split at hs
        · rename_i c hh
          rw [← Option.some.inj hs]
          exact Prod.Lex.right _ (Prod.Lex.right _ (by simp [hh]))
        · rename_i c hh
          rw [← Option.some.inj hs]
          exact Prod.Lex.right _ (Prod.Lex.right _ (by simp [hh]))
        · rename_i c hh
          rw [← Option.some.inj hs]
          cases hq : s.queue with
          | none => exact Prod.Lex.right _ (by simp only [hq]; exact Prod.Lex.right _ (by simp [hh]))
          | some x => exact Prod.Lex.right _ (Prod.Lex.left _ _ (by simp [hq]))
        · cases hs
  exact key _ 0 rfl

/-! ### What is sent for a request -/

/-- The node answers, the connection does not break, and the blocks can be read. -/
structure Smooth (n : Net) : Prop where
  intersects : n.intersects = true
  range : n.range = .value ()
  cut : n.cut = none
  parsed : ∀ b ∈ n.chain, b.parsed = .ok

/-- The tip event, if one is due. -/
def tipEvent (n : Net) : List Out := if n.tipDue then [.tip n.tip] else []

/-- The blocks of a chain have different points, and slots do not go down. -/
def ChainOk (bs : List NBlock) : Prop :=
  (bs.map NBlock.point).Nodup ∧ bs.Pairwise (fun a b => a.slot ≤ b.slot)

theorem blocksFrom_mid {n : Net} (hc : ChainOk n.chain) {pre post : List NBlock} {b : NBlock}
    (he : n.chain = pre ++ b :: post) : n.blocksFrom b.point = b :: post ∧ (n.tip = b.point ↔ post = []) := by
  have hnd := hc.1
  rw [he, List.map_append, List.map_cons, List.nodup_append] at hnd
  constructor
  · show n.chain.dropWhile (fun x => decide (x.point ≠ b.point)) = _
    rw [he, List.dropWhile_append_of_pos, List.dropWhile_cons_of_neg (by simp)]
    intro x hx
    have := hnd.2.2 x.point (List.mem_map_of_mem hx) b.point (by simp)
    simpa using this
  · unfold Net.tip
    rw [he, List.getLast?_append, List.getLast?_cons]
    simp only [Option.some_or]
    constructor
    · intro ht
      by_contra hne
      obtain ⟨x, hx⟩ := Option.ne_none_iff_exists'.1 (mt List.getLast?_eq_none_iff.1 hne)
      rw [hx, Option.getD_some] at ht
      have hmem := List.mem_of_getLast? hx
      have := (List.nodup_cons.1 hnd.2.1).1
      rw [← ht] at this
      exact this (List.mem_map_of_mem hmem)
    · rintro rfl
      rfl

theorem on_chain {n : Net} {b : NBlock} (hb : b ∈ n.chain) : n.on b.point = true := by
  show n.chain.any (fun x => decide (x.point = b.point)) = true
  simp only [List.any_eq_true, decide_eq_true_eq]
  exact ⟨b, hb, rfl⟩

theorem of_on {n : Net} {p : Point} (h : n.on p = true) : p = .origin ∨ ∃ b ∈ n.chain, b.point = p := by
  cases p with
  | origin => exact .inl rfl
  | header a b =>
    right
    have : n.chain.any (fun x => decide (x.point = .header a b)) = true := h
    simpa only [List.any_eq_true, decide_eq_true_eq] using this

theorem all_valid {f : List Point} (hf : ∀ slot h, .header slot h ∈ f → cfg.valid h = true) :
    f.all cfg.validPoint = true := by
  rw [List.all_eq_true]
  intro p hp
  cases p with
  | origin => rfl
  | header slot h => exact hf slot h hp

/-- C26: for an ordinary request, the handler sends the blocks after the newest requested point on the chain,
in order, up to the tip; nothing if that is the tip. `b` is the newest requested block: none after it is
requested, and the requested ones before it (and the origin) have smaller slots. -/
theorem C26_blocks {n : Net} (hs : Smooth n) (hc : ChainOk n.chain) {f : List Point}
    (hf : ∀ slot h, .header slot h ∈ f → cfg.valid h = true) (hg : f ≠ [.header 0 cfg.genesisParent])
    {pre post : List NBlock} {b : NBlock} (he : n.chain = pre ++ b :: post) (hb : b.point ∈ f)
    (hpost : ∀ x ∈ post, x.point ∉ f) (hpre : ∀ x ∈ pre, x.point ∈ f → x.slot < b.slot)
    (hor : .origin ∈ f → 0 < b.slot) :
    replyTo cfg f (some n) = if post = [] then [] else tipEvent n ++ post.map Out.block := by
  obtain ⟨h1, h2⟩ := blocksFrom_mid hc he
  have hbm : b ∈ n.chain := by rw [he]; simp
  have h3 : (f.insertionSort newer).find? n.on = some b.point := by
    refine find_newest hb (on_chain hbm) (fun q hq hon hne => ?_)
    rcases of_on hon with rfl | ⟨x, hx, rfl⟩
    · exact hor hq
    · rw [he] at hx
      rcases List.mem_append.1 hx with hx | hx
      · exact hpre x hx hq
      · rcases List.mem_cons.1 hx with rfl | hx
        · exact absurd rfl hne
        · exact absurd hq (hpost x hx)
  show (handle cfg n f).1 = _
  have hall : f.all cfg.validPoint = true := all_valid hf
  unfold handle blockFetch
  rw [if_neg hg, if_pos hall, if_pos hs.intersects]
  simp only [h3, hs.range]
  by_cases hp : post = []
  · rw [if_pos (h2.2 hp), if_pos hp]
  · rw [if_neg (mt h2.1 hp), if_neg hp]
    have h4 : parseAll post = (post.map Out.block, false) :=
      parseAll_ok (fun x hx => hs.parsed x (by rw [he]; simp [hx]))
    simp [readBlocks, hs.cut, h1, h4, tipEvent]

/-- C26: a request for the origin gives what the node gives for the range from the origin to its tip, without the first
of these blocks; nothing if the node has no block. -/
theorem C26_origin {n : Net} (hs : Smooth n) (ho : ∀ b ∈ n.originRange, b.parsed = .ok) :
    replyTo cfg [.origin] (some n) =
      if n.chain = [] then [] else tipEvent n ++ (n.originRange.drop 1).map Out.block := by
  show (handle cfg n _).1 = _
  unfold handle blockFetch
  rw [if_neg (by simp), if_pos (all_valid (f := [.origin]) (by simp)), if_pos hs.intersects]
  have h3 : (List.insertionSort newer [Point.origin]).find? n.on = some .origin := by simp [Net.on]
  simp only [h3, hs.range]
  cases hl : n.chain.getLast? with
  | none =>
    rw [if_pos (by simp [Net.tip, hl]), if_pos (List.getLast?_eq_none_iff.1 hl)]
  | some b =>
    have hne : n.chain ≠ [] := fun e => by simp [e] at hl
    rw [if_neg (by simp [Net.tip, hl, NBlock.point]), if_neg hne]
    have h4 : parseAll (n.originRange.drop 1) = ((n.originRange.drop 1).map Out.block, false) :=
      parseAll_ok (fun x hx => ho x (List.mem_of_mem_drop hx))
    have h5 : n.blocksFrom .origin = n.originRange := rfl
    rw [h5]
    simp only [readBlocks, hs.cut, if_true, h4]
    rfl

/-- C26: if no requested point is on the chain nothing is sent. -/
theorem C26_no_match {n : Net} (hs : Smooth n) {f : List Point} (hg : f ≠ [.header 0 cfg.genesisParent])
    (h : ∀ b ∈ n.chain, b.point ∉ f) (hor : .origin ∉ f) : replyTo cfg f (some n) = [] := by
  show (handle cfg n f).1 = _
  have h3 : (f.insertionSort newer).find? n.on = none := by
    refine find_nothing (fun q hq => ?_)
    by_contra hon
    rcases of_on (by simpa using hon) with rfl | ⟨x, hx, rfl⟩
    · exact hor hq
    · exact h x hx hq
  unfold handle blockFetch
  rw [if_neg hg, if_pos hs.intersects, h3]
  split <;> rfl

/-- C26: a request with an identifier that is not one of a block is not sent to the node: nothing is delivered, whatever
else is asked for, and the connection is dropped. -/
theorem C26_ill_formed (n : Net) {f : List Point} (hg : f ≠ [.header 0 cfg.genesisParent]) {slot h : Nat}
    (hm : .header slot h ∈ f) (hv : cfg.valid h = false) :
    replyTo cfg f (some n) = [] ∧ (handle cfg n f).2 = .dropped := by
  have hall : f.all cfg.validPoint = false := by
    rw [List.all_eq_false]
    exact ⟨_, hm, by simp [Config.validPoint, hv]⟩
  have he : handle cfg n f = ([], .dropped) := by
    unfold handle blockFetch
    rw [if_neg hg, hall]
    rfl
  exact ⟨by show (handle cfg n f).1 = _; rw [he], by rw [he]⟩

/-- C26: the request for the genesis block's parent gives the whole chain from the genesis block on, provided
there is a block after it. Missing: if the genesis block is the tip it is not sent. -/
theorem C26_genesis_partial {n : Net} (hs : Smooth n) (hc : ChainOk n.chain)
    (hf : cfg.validPoint cfg.genesis = true) {pre post : List NBlock} {b : NBlock} (he : n.chain = pre ++ b :: post)
    (hb : b.point = cfg.genesis) (hp : post ≠ []) :
    replyTo cfg [.header 0 cfg.genesisParent] (some n) = tipEvent n ++ (b :: post).map Out.block := by
  obtain ⟨h1, h2⟩ := blocksFrom_mid hc he
  have hbm : b ∈ n.chain := by rw [he]; simp
  show (handle cfg n _).1 = _
  unfold handle blockFetch
  rw [if_pos rfl, if_pos (by simp [hf]), if_pos hs.intersects]
  have h3 : (List.insertionSort newer [cfg.genesis]).find? n.on = some cfg.genesis := by
    refine find_newest (by simp) (by rw [← hb]; exact on_chain hbm) (fun q hq _ hne => ?_)
    exact absurd (List.mem_singleton.1 hq) hne
  rw [hb] at h1 h2
  simp only [h3, hs.range]
  rw [if_neg (mt h2.1 hp)]
  have h4 : parseAll (b :: post) = ((b :: post).map Out.block, false) :=
    parseAll_ok (fun x hx => hs.parsed x (by rw [he]; exact List.mem_append.2 (.inr hx)))
  simp [readBlocks, hs.cut, h1, h4, tipEvent]

theorem parseAll_prefix : ∀ {l l' : List NBlock}, l <+: l' → (parseAll l).1 <+: (parseAll l').1
  | [], l', _ => List.nil_prefix
  | a :: l, [], h => by simp at h
  | a :: l, a' :: l', h => by
    rw [List.cons_prefix_cons] at h
    obtain ⟨rfl, h⟩ := h
    have ih := parseAll_prefix h
    rw [parseAll, parseAll]
    cases a.parsed with
    | ok => exact List.cons_prefix_cons.2 ⟨rfl, ih⟩
    | error => exact List.cons_prefix_cons.2 ⟨rfl, ih⟩
    | panic => exact List.prefix_rfl

/-- C26: if the connection breaks, a first part of what would be sent is sent. -/
theorem C26_broken (n : Net) (k : Nat) (f : List Point) :
    replyTo cfg f (some { n with cut := some k }) <+: replyTo cfg f (some { n with cut := none }) := by
  have key : ∀ (g : List Point) (ig : Bool), (blockFetch cfg { n with cut := some k } g ig).1 <+:
      (blockFetch cfg { n with cut := none } g ig).1 := by
    intro g ig
    unfold blockFetch
    split
    · show (if n.intersects = true then _ else _ : List Out × End).1 <+:
        (if n.intersects = true then _ else _ : List Out × End).1
      split
      · show (match (g.insertionSort newer).find? n.on with | _ => _ : List Out × End).1 <+: _
        have e1 : ∀ c p, ({ n with cut := c } : Net).on p = n.on p := by
          intro c p
          cases p <;> rfl
        have e2 : ({ n with cut := some k } : Net).on = n.on := funext (e1 _)
        have e3 : ({ n with cut := none } : Net).on = n.on := funext (e1 _)
        rw [e2, e3]
        cases (g.insertionSort newer).find? n.on with
        | none => exact List.prefix_rfl
        | some p =>
          show (if n.tip = p then _ else _ : List Out × End).1 <+: (if n.tip = p then _ else _ : List Out × End).1
          split
          · exact List.prefix_rfl
          · show (match n.range with | _ => _ : List Out × End).1 <+: _
            cases n.range with
            | failed => exact List.prefix_rfl
            | nothing => exact List.prefix_rfl
            | value a =>
              refine (List.prefix_append_right_inj _).2 ?_
              simp only [readBlocks]
              refine parseAll_prefix ?_
              cases ig with
              | true =>
                simp only [if_true]
                rw [List.drop_take]
                exact List.take_prefix _ _
              | false =>
                simp only [Bool.false_eq_true, if_false]
                exact List.take_prefix _ _
      · exact List.prefix_rfl
    · exact List.prefix_rfl
  show (handle cfg _ f).1 <+: (handle cfg _ f).1
  unfold handle
  split
  · exact key _ _
  · exact key _ _

/-! ### The connection -/

/-- What the node did at the last request the handler took. -/
def lastNet : List Act → Option Net
  | [] => none
  | .take n :: as => (lastNet as).or (some n)
  | _ :: as => lastNet as

/-- A request that ended well on its connection: the points are well formed, the node answered, and the blocks
of the range were read to their end. -/
def EndedWell (cfg : Config) (n : Net) (f : List Point) : Prop :=
  let f' := if f = [.header 0 cfg.genesisParent] then [cfg.genesis] else f
  (∀ p ∈ f', cfg.validPoint p = true) ∧ n.intersects = true ∧
    ((∀ p ∈ f', n.on p = false) ∨
      ∃ p ∈ f', n.on p = true ∧ (n.tip = p ∨ n.range = .nothing ∨ n.range = .value () ∧
        ∀ k, n.cut = some k → (n.blocksFrom p).length < k))

theorem endedWell_of_done {n : Net} {f : List Point} (h : (handle cfg n f).2 = .done) : EndedWell cfg n f := by
  have key : ∀ (g : List Point) (ig : Bool), (blockFetch cfg n g ig).2 = .done →
      (∀ p ∈ g, cfg.validPoint p = true) ∧ n.intersects = true ∧ ((∀ p ∈ g, n.on p = false) ∨
      ∃ p ∈ g, n.on p = true ∧ (n.tip = p ∨ n.range = .nothing ∨ n.range = .value () ∧
        ∀ k, n.cut = some k → (n.blocksFrom p).length < k)) := by
    intro g ig hd
    unfold blockFetch at hd
    split at hd
    · rename_i hall
      split at hd
      · rename_i hint
        refine ⟨by simpa using hall, hint, ?_⟩
        split at hd
        · rename_i hnone
          left
          intro p hp
          have := List.find?_eq_none.1 hnone p ((List.mem_insertionSort newer).2 hp)
          simpa using this
        · rename_i p hsome
          right
          refine ⟨p, (List.mem_insertionSort newer).1 (List.mem_of_find?_eq_some hsome), List.find?_some hsome, ?_⟩
          split at hd
          · rename_i ht
            exact .inl ht
          · right
            cases hr : n.range with
            | failed => simp [hr] at hd
            | nothing => exact .inl rfl
            | value u =>
              refine .inr ⟨rfl, fun k hk => ?_⟩
              simp only [hr] at hd
              simp only [readBlocks, hk] at hd
              by_contra hle
              rw [if_pos (Nat.not_lt.1 hle)] at hd
              revert hd
              generalize (parseAll _).2 = x
              cases x <;> simp
      · cases hd
    · cases hd
  unfold handle at h
  unfold EndedWell
  split at h
  · rename_i hf
    simp only [hf, if_true]
    exact key _ _ h
  · rename_i hf
    simp only [hf, if_false]
    exact key _ _ h

/-- The connection is used, and the buffer is not full beyond its bound. -/
structure LInv (cfg : Config) (last : Option Net) (s : St) : Prop where
  busy : ∀ c rest e, s.handler = .busy c rest e → ∃ n, last = some n ∧ s.net c = some n
  idle : s.handler = .idle → s.connected = true → ∀ n, last = some n →
    ∃ c, s.net c = some n ∧ (handle cfg n (s.asked c)).2 = .done
  buf : s.buf.length ≤ 1000

theorem lastNet_append (as bs : List Act) : lastNet (as ++ bs) = (lastNet bs).or (lastNet as) := by
  induction as with
  | nil => simp [lastNet]
  | cons a as ih => cases a <;> simp [lastNet, ih]

theorem LInv.step {last : Option Net} {s s' : St} (hi : CInv cfg s) (h : LInv cfg last s) {a : Act}
    (hs : s.step cfg a = some s') : LInv cfg ((lastNet [a]).or last) s' := by
  cases a with
  | pull f =>
    simp only [St.step] at hs
    split at hs
    · obtain rfl := Option.some.inj hs
      exact ⟨h.busy, h.idle, h.buf⟩
    · cases hs
  | recv =>
    simp only [St.step, St.recv] at hs
    split at hs
    · split at hs
      · rename_i hb
        obtain rfl := Option.some.inj hs
        have := h.buf
        rw [hb] at this
        exact ⟨h.busy, h.idle, by simp [St.receive] at this ⊢; omega⟩
      · split at hs
        · cases hs
        · obtain rfl := Option.some.inj hs
          exact ⟨h.busy, h.idle, h.buf⟩
    · split at hs
      · rename_i hb
        obtain rfl := Option.some.inj hs
        have := h.buf
        rw [hb] at this
        exact ⟨h.busy, h.idle, by simp [St.receive] at this ⊢; omega⟩
      · split at hs
        · cases hs
        · obtain rfl := Option.some.inj hs
          exact ⟨h.busy, h.idle, h.buf⟩
    · cases hs
  | send =>
    simp only [St.step, St.send] at hs
    split at hs
    · split at hs
      · obtain rfl := Option.some.inj hs
        exact ⟨h.busy, h.idle, h.buf⟩
      · split at hs
        · cases hs
        · obtain rfl := Option.some.inj hs
          refine ⟨h.busy, fun h1 h2 n hn => ?_, by simp⟩
          obtain ⟨c, h3, h4⟩ := h.idle h1 h2 n hn
          have hne : c ≠ s.next := by
            rintro rfl
            rw [(hi.fresh _ (le_refl _)).2.1] at h3
            cases h3
          exact ⟨c, h3, by dsimp only; rw [set_ne _ _ hne]; exact h4⟩
    · cases hs
  | clear =>
    simp only [St.step] at hs
    split at hs
    · obtain rfl := Option.some.inj hs
      exact ⟨h.busy, h.idle, by simp⟩
    · cases hs
  | take n =>
    simp only [St.step, St.take] at hs
    split at hs
    · rename_i f c hhd hq
      split at hs
      · obtain rfl := Option.some.inj hs
        refine ⟨fun c' rest e he => ?_, fun he => (by cases he), h.buf⟩
        simp only [Handler.busy.injEq] at he
        obtain ⟨rfl, _⟩ := he
        exact ⟨n, rfl, set_eq _ _ _⟩
      · rename_i hcon
        obtain rfl := Option.some.inj hs
        refine ⟨fun c' rest e he => ?_, fun _ hc => ?_, h.buf⟩
        · simp only [hhd] at he
          cases he
        · simp only at hc
          rw [hc] at hcon
          exact absurd rfl hcon
    · cases hs
  | emit =>
    simp only [St.step, St.emit] at hs
    split at hs
    · rename_i c o rest e hhd
      split at hs
      · split at hs
        · rename_i hb
          obtain rfl := Option.some.inj hs
          refine ⟨fun c' rest' e' he => ?_, fun he => (by cases he), ?_⟩
          · simp only [Handler.busy.injEq] at he
            obtain ⟨rfl, _, _⟩ := he
            exact h.busy _ _ _ hhd
          · simp only [List.length_append, List.length_singleton]
            unfold bound at hb
            omega
        · cases hs
      · split at hs
        · obtain rfl := Option.some.inj hs
          refine ⟨fun c' rest' e' he => ?_, fun he => (by cases he), h.buf⟩
          simp only [Handler.busy.injEq] at he
          obtain ⟨rfl, _, _⟩ := he
          exact h.busy _ _ _ hhd
        · obtain rfl := Option.some.inj hs
          exact ⟨fun c' rest' e' he => (by cases he), fun _ hc => (by cases hc), h.buf⟩
    · cases hs
  | finish =>
    simp only [St.step, St.finish] at hs
    split at hs
    · rename_i c hhd
      obtain rfl := Option.some.inj hs
      refine ⟨fun c' rest' e' he => (by cases he), fun _ _ n hn => ?_, h.buf⟩
      obtain ⟨n', h1, h2⟩ := h.busy _ _ _ hhd
      obtain ⟨_, ⟨n'', h3, h4⟩, _⟩ := hi.busy _ _ _ hhd
      have hn' : last = some n := hn
      rw [h1] at hn'
      obtain rfl := Option.some.inj hn'
      rw [h2] at h3
      obtain rfl := Option.some.inj h3
      exact ⟨c, h2, h4.symm⟩
    · obtain rfl := Option.some.inj hs
      exact ⟨fun c' rest' e' he => (by cases he), fun _ hc => (by cases hc), h.buf⟩
    · obtain rfl := Option.some.inj hs
      exact ⟨fun c' rest' e' he => (by cases he), fun hc => (by cases hc), h.buf⟩
    · cases hs

theorem LInv.run {last : Option Net} : ∀ {as : List Act} {s s' : St}, CInv cfg s → LInv cfg last s →
    s.run cfg as = some s' → LInv cfg ((lastNet as).or last) s'
  | [], s, s', _, h, hr => by
    rw [← Option.some.inj hr]
    exact h
  | a :: as, s, s', hi, h, hr => by
    rw [St.run] at hr
    cases hs : s.step cfg a with
    | none => rw [hs] at hr; cases hr
    | some s1 =>
      rw [hs] at hr
      have := LInv.run (hi.step hs) (h.step hi hs) hr
      rw [← Option.or_assoc, ← lastNet_append] at this
      exact this

theorem LInv.start : LInv cfg none St.start := by
  constructor <;> simp [St.start]

/-- C26: a connection on which a request failed is never used again. In every schedule, when the handler is
between two requests and still has its connection, the request before ended well; so after a failure the next
request is made on a new connection or gets no answer. -/
theorem C26_connection {as : List Act} (h : St.start.run cfg as = some s) (hidle : s.handler = .idle)
    (hcon : s.connected = true) {n : Net} (hn : lastNet as = some n) :
    ∃ c, s.net c = some n ∧ EndedWell cfg n (s.asked c) := by
  have := LInv.start.run (CInv.start cfg) h
  rw [Option.or_none] at this
  obtain ⟨c, h1, h2⟩ := this.idle hidle hcon n hn
  exact ⟨c, h1, endedWell_of_done h2⟩

/-- C26: at most 1000 events are buffered, however fast the node is. -/
theorem C26_buffered {as : List Act} (h : St.start.run cfg as = some s) : s.buf.length ≤ 1000 :=
  (LInv.start.run (CInv.start cfg) h).buf

/-- Without connection some request has failed or was cleared. -/
def KInv (cfg : Config) (s : St) : Prop :=
  (∀ c rest e, s.handler = .busy c rest e → s.connected = true) ∧
  (s.connected = false → ∃ c n, s.net c = some n ∧ (s.cleared c = true ∨ (handle cfg n (s.asked c)).2 ≠ .done))

theorem KInv.step {a : Act} {s' : St} (hi : CInv cfg s) (h : KInv cfg s) (hs : s.step cfg a = some s') : KInv cfg s' := by
  obtain ⟨h1, h2⟩ := h
  cases a with
  | pull f =>
    simp only [St.step] at hs
    split at hs
    · cases hs; exact ⟨h1, h2⟩
    · cases hs
  | recv =>
    simp only [St.step, St.recv] at hs
    split at hs
    · split at hs
      · cases hs; exact ⟨h1, h2⟩
      · split at hs
        · cases hs
        · cases hs; exact ⟨h1, h2⟩
    · split at hs
      · cases hs; exact ⟨h1, h2⟩
      · split at hs
        · cases hs
        · cases hs; exact ⟨h1, h2⟩
    · cases hs
  | send =>
    simp only [St.step, St.send] at hs
    split at hs
    · split at hs
      · cases hs; exact ⟨h1, h2⟩
      · split at hs
        · cases hs
        · cases hs
          refine ⟨h1, fun hc => ?_⟩
          obtain ⟨c, n, h3, h4⟩ := h2 hc
          refine ⟨c, n, h3, ?_⟩
          have hne : c ≠ s.next := by
            rintro rfl
            rw [(hi.fresh s.next (Nat.le_refl _)).2.1] at h3
            cases h3
          simp only [set_ne _ _ hne]
          exact h4
    · cases hs
  | clear =>
    simp only [St.step] at hs
    split at hs
    · cases hs
      refine ⟨h1, fun hc => ?_⟩
      obtain ⟨c, n, h3, h4⟩ := h2 hc
      refine ⟨c, n, h3, ?_⟩
      rcases h4 with h4 | h4
      · left
        simp only
        cases s.current with
        | none => exact h4
        | some k =>
          by_cases hk : c = k
          · rw [hk]
            exact set_eq _ _ _
          · exact (set_ne _ _ hk).trans h4
      · exact .inr h4
    · cases hs
  | take n =>
    simp only [St.step, St.take] at hs
    split at hs
    · split at hs
      · cases hs
        exact ⟨fun _ _ _ _ => rfl, fun hc => by cases hc⟩
      · rename_i hh _ _
        cases hs
        exact ⟨fun c rest e hb => (by simp only at hb; rw [hh] at hb; cases hb), h2⟩
    · cases hs
  | emit =>
    simp only [St.step, St.emit] at hs
    split at hs
    · rename_i c o rest e hh
      have hcon := h1 _ _ _ hh
      split at hs
      · split at hs
        · cases hs
          exact ⟨fun _ _ _ _ => hcon, fun hc => by simp only at hc; rw [hcon] at hc; cases hc⟩
        · cases hs
      · rename_i hcur
        split at hs
        · cases hs
          exact ⟨fun _ _ _ _ => hcon, fun hc => by simp only at hc; rw [hcon] at hc; cases hc⟩
        · cases hs
          refine ⟨fun c rest e hb => (by cases hb), fun _ => ?_⟩
          obtain ⟨h3, ⟨n, h4, _⟩, _⟩ := hi.busy _ _ _ hh
          refine ⟨c, n, h4, .inl ?_⟩
          by_contra hcl
          have := (hi.lost c h3 hcur (by simpa using hcl)).2
          exact (alive_false.1 this).2 _ _ hh
    · cases hs
  | finish =>
    simp only [St.step, St.finish] at hs
    split at hs
    · rename_i c hh
      cases hs
      have hcon := h1 _ _ _ hh
      exact ⟨fun c rest e hb => (by cases hb), fun hc => by simp only at hc; rw [hcon] at hc; cases hc⟩
    · rename_i c hh
      cases hs
      obtain ⟨_, ⟨n, h4, h5⟩, _⟩ := hi.busy _ _ _ hh
      exact ⟨fun c rest e hb => (by cases hb), fun _ => ⟨c, n, h4, .inr (by rw [← h5]; simp)⟩⟩
    · rename_i c hh
      cases hs
      obtain ⟨_, ⟨n, h4, h5⟩, _⟩ := hi.busy _ _ _ hh
      exact ⟨fun c rest e hb => (by cases hb), fun _ => ⟨c, n, h4, .inr (by rw [← h5]; simp)⟩⟩
    · cases hs

theorem KInv.run : ∀ {as : List Act} {s s' : St}, CInv cfg s → KInv cfg s → s.run cfg as = some s' → KInv cfg s'
  | [], s, s', _, h, hr => by
    rw [← Option.some.inj hr]
    exact h
  | a :: as, s, s', hi, h, hr => by
    rw [St.run] at hr
    cases hs : s.step cfg a with
    | none => rw [hs] at hr; cases hr
    | some s1 =>
      rw [hs] at hr
      exact KInv.run (hi.step hs) (h.step hi hs) hr

/-- C26: connections are kept. A request that the handler takes is made, even if no new connection can be had, unless a request
before failed or was cleared; so the first one is made on the connection of `connect`. -/
theorem C26_kept {as : List Act} (h : St.start.run cfg as = some s) {n : Net} {s' : St} (hs : s.step cfg (.take n) = some s') :
    (∃ f c, s.queue = some (f, c) ∧ s'.net c = some n ∧ s'.plan c = replyTo cfg f (some n)) ∨
    n.connects = false ∧ ∃ c n0, s.net c = some n0 ∧ (s.cleared c = true ∨ (handle cfg n0 (s.asked c)).2 ≠ .done) := by
  have hk : KInv cfg s := KInv.run (CInv.start cfg) ⟨fun c rest e hb => (by cases hb), fun hc => (by cases hc)⟩ h
  simp only [St.step, St.take] at hs
  split at hs
  · rename_i f c _ hq
    split at hs
    · cases hs
      exact .inl ⟨f, c, hq, set_eq _ _ _, set_eq _ _ _⟩
    · rename_i hc
      rw [Bool.or_eq_true, not_or] at hc
      exact .inr ⟨by simpa using hc.2, hk.2 (by simpa using hc.1)⟩
  · cases hs

/-! ### Samples -/

/-- A configuration. -/
def sampleCfg : Config := ⟨.header 10 1, 100, .header 0 0, fun _ => true⟩

/-- A node with a chain. -/
def sampleNet (bs : List NBlock) : Net := ⟨true, true, bs, .value (), [], none, true⟩

/-- A chain: a boundary block and the block after it have the same slot. -/
def sampleChain : List NBlock := [⟨0, 0, .ok⟩, ⟨0, 7, .ok⟩, ⟨10, 1, .ok⟩, ⟨25, 2, .ok⟩, ⟨31, 3, .ok⟩]

example : Smooth (sampleNet sampleChain) ∧ ChainOk sampleChain ∧
    replyTo sampleCfg [.header 0 0, .header 10 1, .header 25 9] (some (sampleNet sampleChain)) =
      [.tip (.header 31 3), .block ⟨25, 2, .ok⟩, .block ⟨31, 3, .ok⟩] := by
  refine ⟨⟨rfl, rfl, rfl, by decide⟩, ⟨by decide, by decide⟩, by decide +kernel⟩

/-- A node that gives two blocks for a range from the origin: the second is delivered. -/
example : replyTo sampleCfg [.origin] (some { sampleNet sampleChain with originRange := [⟨0, 0, .ok⟩, ⟨0, 7, .ok⟩] }) =
    [.tip (.header 31 3), .block ⟨0, 7, .ok⟩] := by
  rw [C26_origin ⟨rfl, rfl, rfl, by decide⟩ (by decide)]
  decide +kernel

/-- A schedule: a pull makes a request from the default position and gets the tip event; the next one gets a
block while the handler goes on; buffers are cleared; the handler's next event fails. -/
example : ∃ s, St.start.run sampleCfg [.pull [], .send, .take (sampleNet sampleChain), .emit, .recv, .pull [],
      .emit, .recv, .emit, .pull [], .recv, .finish, .pull [.header 31 3], .recv, .send,
      .take (sampleNet sampleChain), .finish, .recv] = some s ∧
    s.results = [.event (.tip (.header 31 3)), .event (.block ⟨25, 2, .ok⟩), .event (.block ⟨31, 3, .ok⟩),
      .nothing] := ⟨_, rfl, by decide +kernel⟩

/-- A request whose connection breaks after two blocks: the connection is dropped. -/
example : ∃ s, St.start.run sampleCfg [.pull [], .send, .take { sampleNet sampleChain with cut := some 2 }, .emit, .recv,
      .emit, .finish] = some s ∧ s.handler = .idle ∧ s.connected = false ∧
    lastNet [.take (sampleNet sampleChain)] = some (sampleNet sampleChain) := ⟨_, rfl, by decide +kernel, rfl, rfl⟩

/-- A request that ends well. -/
example : ∃ s, St.start.run sampleCfg [.pull [], .send, .take (sampleNet sampleChain), .emit, .recv,
      .emit, .emit, .finish] = some s ∧ s.handler = .idle ∧ s.connected = true ∧ s.buf.length = 2 :=
  ⟨_, rfl, by decide +kernel, rfl, by decide +kernel⟩

/-- The first request needs no new connection; one after a request that broke does. -/
example : (∃ s s', St.start.run sampleCfg [.pull [], .send] = some s ∧
      s.step sampleCfg (.take { sampleNet sampleChain with connects := false }) = some s' ∧ s'.plan 0 ≠ []) ∧
    ∃ s s', St.start.run sampleCfg [.pull [], .send, .take { sampleNet sampleChain with cut := some 1 }, .emit, .recv, .finish,
        .pull [], .recv, .send] = some s ∧
      s.step sampleCfg (.take { sampleNet sampleChain with connects := false }) = some s' ∧ s'.plan 1 = [] :=
  ⟨⟨_, _, rfl, rfl, by decide +kernel⟩, ⟨_, _, rfl, rfl, by decide +kernel⟩⟩

/-- C26 is false if the genesis block is the tip: the genesis request gives nothing. -/
theorem C26_genesis_tip_false : ¬ ∀ (cfg : Config) (n : Net), Smooth n → ChainOk n.chain →
    cfg.validPoint cfg.genesis = true → ∀ b, n.chain.head? = some b → b.point = cfg.genesis →
    Out.block b ∈ replyTo cfg [.header 0 cfg.genesisParent] (some n) := by
  intro h
  have h1 := h sampleCfg (sampleNet [⟨0, 0, .ok⟩]) ⟨rfl, rfl, rfl, by decide⟩ ⟨by decide, by decide⟩ rfl
    ⟨0, 0, .ok⟩ rfl rfl
  revert h1
  decide +kernel

/-- C26 is false if two requested blocks have the same slot (a boundary block and the block after it): the
node may take the older one, and the other is delivered although it was requested from. -/
theorem C26_equal_slots_false : ¬ ∀ (cfg : Config) (n : Net) (f : List Point), Smooth n → ChainOk n.chain →
    (∀ p ∈ f, cfg.validPoint p = true) → f ≠ [.header 0 cfg.genesisParent] →
    ∀ b, Out.block b ∈ replyTo cfg f (some n) → b.point ∉ f := by
  intro h
  exact h sampleCfg (sampleNet sampleChain) [.header 0 0, .header 0 7] ⟨rfl, rfl, rfl, by decide⟩
    ⟨by decide, by decide⟩ (fun _ _ => by rename_i p _; cases p <;> rfl) (by decide) ⟨0, 7, .ok⟩
    (by decide +kernel) (by decide)

/-- C26 is false if the epoch of a block cannot be computed: the pull gives an error in its place, and the
next pull the block after it. -/
theorem C26_error_false : ¬ ∀ (cfg : Config) (n : Net) (f : List Point), n.intersects = true → n.cut = none →
    n.range = .value () → ChainOk n.chain → (∀ b ∈ n.chain, b.parsed ≠ .panic) →
    ∀ l1 u l2, replyTo cfg f (some n) = l1 ++ .bad :: .block u :: l2 → False := by
  intro h
  exact h sampleCfg (sampleNet [⟨10, 1, .ok⟩, ⟨25, 2, .error⟩, ⟨31, 3, .ok⟩]) [.header 10 1] rfl rfl rfl
    ⟨by decide, by decide⟩ (by decide) [.tip (.header 31 3)] ⟨31, 3, .ok⟩ [] (by decide +kernel)

/-- C26: what is sent when blocks cannot be read: the blocks after the newest requested point in order, an error in place
of each whose epoch cannot be computed, up to the first that cannot be decoded; there, and only there, the handler
panics. `rest` is empty or begins with that block. -/
theorem C26_unreadable {n : Net} (hi : n.intersects = true) (hr : n.range = .value ()) (hcut : n.cut = none)
    (hc : ChainOk n.chain) {f : List Point}
    (hf : ∀ slot h, .header slot h ∈ f → cfg.valid h = true) (hg : f ≠ [.header 0 cfg.genesisParent])
    {pre good rest : List NBlock} {b : NBlock} (he : n.chain = pre ++ b :: (good ++ rest)) (hb : b.point ∈ f)
    (hpost : ∀ x ∈ good ++ rest, x.point ∉ f) (hpre : ∀ x ∈ pre, x.point ∈ f → x.slot < b.slot)
    (hor : .origin ∈ f → 0 < b.slot) (hgood : ∀ x ∈ good, x.parsed ≠ .panic)
    (hrest : ∀ x, rest.head? = some x → x.parsed = .panic) (hne : good ++ rest ≠ []) :
    replyTo cfg f (some n) = tipEvent n ++ good.map (fun x => if x.parsed = .ok then .block x else .bad) ∧
    ((handle cfg n f).2 = .panicked ↔ rest ≠ []) ∧ (rest = [] → (handle cfg n f).2 = .done) := by
  obtain ⟨h1, h2⟩ := blocksFrom_mid hc he
  have hbm : b ∈ n.chain := by rw [he]; simp
  have h3 : (f.insertionSort newer).find? n.on = some b.point := by
    refine find_newest hb (on_chain hbm) (fun q hq hon hne => ?_)
    rcases of_on hon with rfl | ⟨x, hx, rfl⟩
    · exact hor hq
    · rw [he] at hx
      rcases List.mem_append.1 hx with hx | hx
      · exact hpre x hx hq
      · rcases List.mem_cons.1 hx with rfl | hx
        · exact absurd rfl hne
        · exact absurd hq (hpost x hx)
  have hx : parseAll rest = ([], decide (rest ≠ [])) := by
    cases rest with
    | nil => rfl
    | cons x xs => rw [parseAll, hrest x rfl]; rfl
  have h4 := parseAll_upto good rest hgood
  rw [hx, List.append_nil] at h4
  have hall : f.all cfg.validPoint = true := all_valid hf
  have hh : handle cfg n f = (tipEvent n ++ good.map (fun x => if x.parsed = .ok then .block x else .bad),
      if rest ≠ [] then .panicked else .done) := by
    unfold handle blockFetch
    rw [if_neg hg, if_pos hall, if_pos hi]
    simp only [h3, hr]
    rw [if_neg (mt h2.1 hne)]
    simp [readBlocks, hcut, h1, h4, tipEvent]
  refine ⟨?_, ?_, ?_⟩
  · show (handle cfg n f).1 = _
    rw [hh]
  · rw [hh]
    by_cases h : rest = [] <;> simp [h]
  · intro h
    rw [hh]
    simp [h]

/-- A block without an epoch and then one that cannot be decoded. -/
example : replyTo sampleCfg [.header 10 1]
      (some (sampleNet [⟨10, 1, .ok⟩, ⟨25, 2, .error⟩, ⟨31, 3, .ok⟩, ⟨35, 4, .panic⟩, ⟨40, 5, .ok⟩])) =
      [.tip (.header 40 5), .bad, .block ⟨31, 3, .ok⟩] ∧
    (handle sampleCfg (sampleNet [⟨10, 1, .ok⟩, ⟨25, 2, .error⟩, ⟨31, 3, .ok⟩, ⟨35, 4, .panic⟩, ⟨40, 5, .ok⟩])
      [.header 10 1]).2 = .panicked := by
  have h := C26_unreadable (cfg := sampleCfg)
    (n := sampleNet [⟨10, 1, .ok⟩, ⟨25, 2, .error⟩, ⟨31, 3, .ok⟩, ⟨35, 4, .panic⟩, ⟨40, 5, .ok⟩])
    rfl rfl rfl ⟨by decide, by decide⟩ (f := [.header 10 1]) (fun _ _ _ => rfl) (by decide) (pre := [])
    (b := ⟨10, 1, .ok⟩) (good := [⟨25, 2, .error⟩, ⟨31, 3, .ok⟩]) (rest := [⟨35, 4, .panic⟩, ⟨40, 5, .ok⟩]) rfl
    (by decide) (by decide) (by simp) (by simp) (by decide) (by simp) (by simp)
  exact ⟨h.1, h.2.1.2 (by simp)⟩

/-- C26: after a block that cannot be decoded the handler is gone, and no request is answered any more. -/
theorem C26_stopped : ∀ {as : List Act} {s s' : St}, s.handler = .gone → s.run cfg as = some s' →
    s'.handler = .gone ∧ s'.next = s.next
  | [], s, s', hg, h => by
    obtain rfl := Option.some.inj h
    exact ⟨hg, rfl⟩
  | a :: as, s, s', hg, h => by
    simp only [St.run] at h
    cases h1 : s.step cfg a with
    | none => simp [h1] at h
    | some t =>
      simp only [h1] at h
      have key : t.handler = .gone ∧ t.next = s.next := by
        cases a with
        | pull f =>
          simp only [St.step] at h1
          repeat' split at h1
          all_goals first | (obtain rfl := Option.some.inj h1; exact ⟨hg, rfl⟩) | cases h1
        | recv =>
          simp only [St.step, St.recv] at h1
          repeat' split at h1
          all_goals first | (obtain rfl := Option.some.inj h1; exact ⟨hg, rfl⟩) | cases h1
        | send =>
          simp only [St.step, St.send, if_pos hg] at h1
          repeat' split at h1
          all_goals first | (obtain rfl := Option.some.inj h1; exact ⟨hg, rfl⟩) | cases h1
        | clear =>
          simp only [St.step] at h1
          repeat' split at h1
          all_goals first | (obtain rfl := Option.some.inj h1; exact ⟨hg, rfl⟩) | cases h1
        | take n => simp [St.step, St.take, hg] at h1
        | emit => simp [St.step, St.emit, hg] at h1
        | finish => simp [St.step, St.finish, hg] at h1
      obtain ⟨h2, h3⟩ := C26_stopped key.1 h
      exact ⟨h2, h3.trans key.2⟩

/-- Such a block in the middle of the chain: the pull after it fails, and so does the next. -/
example : ∃ s, St.start.run sampleCfg [.pull [], .send,
      .take (sampleNet [⟨10, 1, .ok⟩, ⟨25, 2, .panic⟩, ⟨31, 3, .ok⟩]), .emit, .recv, .finish, .pull [], .recv, .send,
      .pull [], .recv, .send] = some s ∧ s.handler = .gone ∧
    s.results = [.event (.tip (.header 31 3)), .stopped, .stopped] := ⟨_, rfl, rfl, by decide +kernel⟩

end Verif.Props
