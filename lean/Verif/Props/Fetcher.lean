import Verif.Props.CardanoSource
import Verif.Sources.Fetcher
import Verif.Props.CoreNumbers

/-!
# C65: the block fetching tool

`toolRun` is a schedule of the tool's loop and of the request handler of its source; `printed` are the blocks
printed, oldest first; `s.net c` is what the node did for the `c`-th request of the tool.
-/

namespace Verif.Props

open Verif.Sources.Cardano Verif.Core

variable {cfg : Config} {since : List Point} {s : St}

/-! ### The option -/

theorem splitComma_spec : ∀ s : List Char, (∀ c ∈ s, c ≠ ',') ∧ splitComma s = [s] ∨
    ∃ a rest, s = a ++ ',' :: rest ∧ (∀ c ∈ a, c ≠ ',') ∧ splitComma s = a :: splitComma rest
  | [] => .inl ⟨by simp, rfl⟩
  | c :: cs => by
    by_cases hc : c = ','
    · subst hc
      exact .inr ⟨[], cs, rfl, by simp, by simp [splitComma]⟩
    · rcases splitComma_spec cs with ⟨h1, h2⟩ | ⟨a, rest, rfl, h2, h3⟩
      · refine .inl ⟨?_, by simp [splitComma, hc, h2]⟩
        intro x hx
        rcases List.mem_cons.1 hx with rfl | hx
        · exact hc
        · exact h1 x hx
      · refine .inr ⟨c :: a, rest, rfl, ?_, by simp [splitComma, hc, h3]⟩
        intro x hx
        rcases List.mem_cons.1 hx with rfl | hx
        · exact hc
        · exact h2 x hx

theorem comma_unique {a a' r r' : List Char} (h : a ++ ',' :: r = a' ++ ',' :: r') (ha : ∀ c ∈ a, c ≠ ',')
    (ha' : ∀ c ∈ a', c ≠ ',') : a = a' ∧ r = r' := by
  induction a generalizing a' with
  | nil =>
    cases a' with
    | nil => simpa using h
    | cons x a' =>
      have : x = ',' := by simp at h; exact h.1.symm
      exact absurd this (ha' x (by simp))
  | cons y a ih =>
    cases a' with
    | nil =>
      have : y = ',' := by simp at h; exact h.1
      exact absurd this (ha y (by simp))
    | cons x a' =>
      simp only [List.cons_append, List.cons.injEq] at h
      obtain ⟨h1, h2⟩ := ih h.2 (fun c hc => ha c (by simp [hc])) (fun c hc => ha' c (by simp [hc]))
      exact ⟨by rw [h.1, h1], h2⟩

/-- C65: the option is read exactly when it is a slot number, a comma and a block identifier, optionally followed
by a comma and anything. -/
theorem C65_since_read (t : List Char) (slot : Nat) (id : List Char) : parseSince t = .ok (slot, id) ↔
    ∃ a, parseU64 a = .ok slot ∧ (∀ c ∈ a, c ≠ ',') ∧ (∀ c ∈ id, c ≠ ',') ∧
      (t = a ++ ',' :: id ∨ ∃ more, t = a ++ ',' :: id ++ ',' :: more) := by
  rcases splitComma_spec t with ⟨h1, h2⟩ | ⟨a, rest, rfl, h2, h3⟩
  · -- no comma
    constructor
    · intro h
      unfold parseSince at h
      rw [h2] at h
      dsimp only at h
      split at h <;> cases h
    · rintro ⟨a, _, _, _, h | ⟨more, h⟩⟩
      · exact absurd rfl (h1 ',' (by rw [h]; simp))
      · exact absurd rfl (h1 ',' (by rw [h]; simp))
  · have key : parseSince (a ++ ',' :: rest) = match parseU64 a with
        | .error e => .error (.parse e)
        | .ok n => match splitComma rest with
          | [] => .error .panic
          | b :: _ => .ok (n, b) := by
      unfold parseSince
      rw [h3]
      rfl
    rw [key]
    have hsp : ∀ id : List Char, (∀ c ∈ id, c ≠ ',') →
        ((rest = id ∨ ∃ more, rest = id ++ ',' :: more) ↔ ∃ l, splitComma rest = id :: l) := by
      intro id hid
      rcases splitComma_spec rest with ⟨g1, g2⟩ | ⟨b, r2, rfl, g2, g3⟩
      · rw [g2]
        constructor
        · rintro (rfl | ⟨more, h⟩)
          · exact ⟨[], rfl⟩
          · exact absurd rfl (g1 ',' (by rw [h]; simp))
        · rintro ⟨l, h⟩
          simp only [List.cons.injEq] at h
          exact .inl h.1
      · rw [g3]
        constructor
        · rintro (h | ⟨more, h⟩)
          · exact absurd rfl (hid ',' (by rw [← h]; simp))
          · exact ⟨_, by rw [(comma_unique h g2 hid).1]⟩
        · rintro ⟨l, h⟩
          simp only [List.cons.injEq] at h
          exact .inr ⟨r2, by rw [h.1]⟩
    constructor
    · intro h
      cases hp : parseU64 a with
      | error e => simp [hp] at h
      | ok n =>
        simp only [hp] at h
        rcases splitComma_spec rest with ⟨g1, g2⟩ | ⟨b, r2, rfl, g2, g3⟩
        · simp only [g2, Except.ok.injEq, Prod.mk.injEq] at h
          obtain ⟨rfl, rfl⟩ := h
          exact ⟨a, hp, h2, g1, .inl rfl⟩
        · simp only [g3, Except.ok.injEq, Prod.mk.injEq] at h
          obtain ⟨rfl, rfl⟩ := h
          exact ⟨a, hp, h2, g2, .inr ⟨r2, by simp⟩⟩
    · rintro ⟨a', hp, ha', hid, ht⟩
      have : a = a' ∧ (rest = id ∨ ∃ more, rest = id ++ ',' :: more) := by
        rcases ht with ht | ⟨more, ht⟩
        · obtain ⟨e1, e2⟩ := comma_unique ht h2 ha'
          exact ⟨e1, .inl e2⟩
        · rw [List.append_assoc, List.cons_append] at ht
          obtain ⟨e1, e2⟩ := comma_unique ht h2 ha'
          exact ⟨e1, .inr ⟨more, e2⟩⟩
      obtain ⟨rfl, hr⟩ := this
      obtain ⟨l, hl⟩ := (hsp id hid).1 hr
      rw [hp, hl]

/-- C65: a slot number alone is not reported as an error: the tool panics. -/
theorem C65_since_panic_false : ¬ ∀ t : List Char, parseSince t ≠ .error .panic := by
  intro h
  exact h "4492800".toList (by decide)

/-! ### The blocks printed -/

/-- The block after the one at the point, on the node's chain. -/
def NextOn (n : Net) (p : Point) (b : NBlock) : Prop :=
  ∃ l x r, n.chain = l ++ x :: b :: r ∧ x.point = p

/-- Each block is related to the one before it, and the first one to the point. -/
def Consecutive (R : Point → NBlock → Prop) : Point → List NBlock → Prop
  | _, [] => True
  | p, b :: bs => R p b ∧ Consecutive R b.point bs

theorem Consecutive.append {R : Point → NBlock → Prop} : ∀ {p : Point} {l r : List NBlock}, Consecutive R p l →
    (∀ q, (match l.getLast? with | none => p | some b => b.point) = q → Consecutive R q r) → Consecutive R p (l ++ r)
  | p, [], r, _, hr => hr p rfl
  | p, b :: l, r, hl, hr => by
    refine ⟨hl.1, hl.2.append (fun q hq => hr q ?_)⟩
    rw [← hq]
    cases l with
    | nil => rfl
    | cons c l =>
      rw [List.getLast?_cons_cons, List.getLast?_eq_some_getLast (by simp)]

theorem Consecutive.prefix {R : Point → NBlock → Prop} : ∀ {p : Point} {l r : List NBlock}, l <+: r → Consecutive R p r →
    Consecutive R p l
  | p, [], r, _, _ => trivial
  | p, b :: l, [], h, _ => by simp at h
  | p, b :: l, c :: r, h, hr => by
    obtain ⟨rfl, h'⟩ := List.cons_prefix_cons.1 h
    exact ⟨hr.1, hr.2.prefix h'⟩

theorem consecutive_chain {n : Net} : ∀ {post pre : List NBlock} {b : NBlock}, n.chain = pre ++ b :: post →
    Consecutive (NextOn n) b.point post
  | [], _, _, _ => trivial
  | c :: post, pre, b, h => ⟨⟨pre, b, post, h, rfl⟩, consecutive_chain (pre := pre ++ [b]) (by simp [h])⟩

theorem Consecutive.mono {R R' : Point → NBlock → Prop} (h : ∀ p b, R p b → R' p b) : ∀ {p : Point} {l : List NBlock},
    Consecutive R p l → Consecutive R' p l
  | _, [], _ => trivial
  | _, _ :: _, hl => ⟨h _ _ hl.1, hl.2.mono h⟩

/-- No error is followed by another event. -/
theorem bad_last (h : ToolInv cfg since s) {c : Nat} (hc : c < s.next) : .bad ∉ (s.got c).dropLast := by
  intro hm
  obtain ⟨u, v, huv⟩ := List.append_of_mem hm
  have hne : s.got c ≠ [] := by
    intro he
    rw [he] at hm
    simp at hm
  obtain ⟨z, hg⟩ : ∃ z, s.got c = u ++ .bad :: (v ++ [z]) := by
    refine ⟨(s.got c).getLast hne, ?_⟩
    have := (List.dropLast_append_getLast hne).symm
    rw [huv] at this
    simpa using this
  have hsplit : (List.range s.next).flatMap s.got = (List.range c).flatMap s.got ++ (s.got c ++
      (List.range' (c + 1) (s.next - (c + 1))).flatMap s.got) := by
    have : List.range s.next = List.range c ++ (c :: List.range' (c + 1) (s.next - (c + 1))) := by
      rw [List.range_eq_range', List.range_eq_range', ← List.range'_succ, show s.next - (c + 1) + 1 = s.next - c by omega]
      have := @List.range'_append 0 c (s.next - c) 1
      simp only [Nat.zero_add, Nat.one_mul] at this
      rw [this]
      congr 1
      omega
    rw [this, List.flatMap_append, List.flatMap_cons]
  have hL : ∀ l r, s.results.filterMap evOf = l ++ .bad :: r → r = [] := by
    intro l r he
    obtain ⟨a, b, hab, _, hb⟩ := List.filterMap_eq_append_iff.1 he
    obtain ⟨x, y, z, hb', _, hy, hz⟩ := List.filterMap_eq_cons_iff.1 hb
    have hye : y = .event .bad := by
      cases y with
      | event o => simp only [evOf, Option.some.injEq] at hy; rw [hy]
      | nothing => cases hy
      | stopped => cases hy
    subst hye
    have := h.bad (a ++ x) z (by rw [hab, hb']; simp)
    subst this
    rw [← hz]
    rfl
  rw [h.base.res, hsplit, hg] at hL
  have := hL ((List.range c).flatMap s.got ++ u)
    (v ++ [z] ++ (List.range' (c + 1) (s.next - (c + 1))).flatMap s.got) (by simp)
  simp at this

/-- What the tool prints, by requests: nothing, or a block with the property and then consecutive ones. -/
theorem printed_steps (h : ToolInv cfg since s) (First : NBlock → Prop)
    (hg : ∀ c n b, s.net c = some n → b ∈ n.chain → b.point ≠ .header 0 cfg.genesisParent)
    (hfirst : ∀ c n q, c < s.next → s.net c = some n → q <+: (handle cfg n (orDefault cfg since)).1 → .bad ∉ q.dropLast →
      blocksOf q = [] ∨ ∃ b r, blocksOf q = b :: r ∧ b ∈ n.chain ∧ First b ∧ Consecutive (NextOn n) b.point r) :
    printed s = [] ∨ ∃ b r, printed s = b :: r ∧ First b ∧
      Consecutive (fun p b => ∃ c n, s.net c = some n ∧ NextOn n p b) b.point r := by
  unfold printed
  rw [h.base.res]
  suffices key : ∀ c ≤ s.next, blocksOf ((List.range c).flatMap s.got) = [] ∨
      ∃ b r, blocksOf ((List.range c).flatMap s.got) = b :: r ∧ First b ∧ (∀ x ∈ b :: r, ∃ c n, s.net c = some n ∧ x ∈ n.chain) ∧
      Consecutive (fun p b => ∃ c n, s.net c = some n ∧ NextOn n p b) b.point r by
    rcases key _ (le_refl _) with h | ⟨b, r, h1, h2, _, h3⟩
    · exact .inl h
    · exact .inr ⟨b, r, h1, h2, h3⟩
  intro c
  induction c with
  | zero => intro _; exact .inl rfl
  | succ c ih =>
    intro hc
    have hbad := bad_last h (show c < s.next by omega)
    have hasked := h.asked c (by omega)
    have hpre : s.got c <+: planOf cfg (s.asked c) (s.net c) := by
      rw [← h.base.plan]
      exact h.base.pre c
    rw [List.range_succ, List.flatMap_append, blocksOf_append]
    simp only [List.flatMap_cons, List.flatMap_nil, List.append_nil]
    cases hn : s.net c with
    | none =>
      rw [hn] at hpre
      have : s.got c = [] := List.prefix_nil.1 hpre
      rw [this]
      simp only [blocksOf, List.append_nil]
      exact ih (by omega)
    | some n =>
      rw [hn] at hpre
      have hpre' : s.got c <+: (handle cfg n (s.asked c)).1 := hpre
      rcases ih (by omega) with h1 | ⟨b, r, h1, h2, h3, h4⟩
      · have ha : s.asked c = orDefault cfg since := by
          rw [hasked, pullFrom, h1]
          rfl
        rw [ha] at hpre'
        rw [h1, List.nil_append]
        rcases hfirst c n _ (by omega) hn hpre' hbad with h5 | ⟨b, r, h5, h6, h7, h8⟩
        · exact .inl h5
        · refine .inr ⟨b, r, h5, h7, ?_, h8.mono (fun p b hb => ⟨c, n, hn, hb⟩)⟩
          -- the blocks are on the chain
          have hmem : ∀ (l : List NBlock) p, Consecutive (NextOn n) p l → ∀ x ∈ l, x ∈ n.chain := by
            intro l
            induction l with
            | nil => intro p _ x hx; cases hx
            | cons y l ih =>
              intro p hl x hx
              rcases List.mem_cons.1 hx with rfl | hx
              · obtain ⟨a, b', c', he, _⟩ := hl.1
                rw [he]; simp
              · exact ih _ hl.2 x hx
          intro x hx
          rcases List.mem_cons.1 hx with rfl | hx
          · exact ⟨c, n, hn, h6⟩
          · exact ⟨c, n, hn, hmem r _ h8 x hx⟩
      · -- the last block printed
        obtain ⟨z, hz⟩ : ∃ z, (b :: r).getLast? = some z := ⟨_, List.getLast?_eq_some_getLast (by simp)⟩
        have ha : s.asked c = [z.point] := by
          rw [hasked, pullFrom, h1, hz]
          rfl
        obtain ⟨c', n', hn', hz'⟩ := h3 z (List.mem_of_getLast? hz)
        have hzg := hg c' n' z hn' hz'
        rw [ha] at hpre'
        unfold handle at hpre'
        rw [if_neg (by simpa using hzg)] at hpre'
        rw [h1]
        right
        rcases blockFetch_blocks (by simp [NBlock.point]) hpre' hbad with h5 | ⟨pre, y, post, h5, h6, h7⟩
        · exact ⟨b, r, by rw [h5]; simp, h2, h3, h4⟩
        · simp only [if_true] at h7
          have h8 : Consecutive (NextOn n) z.point (blocksOf (s.got c)) := by
            rw [← h6]
            exact (consecutive_chain h5).prefix h7
          refine ⟨b, r ++ blocksOf (s.got c), rfl, h2, ?_, h4.append (fun q hq => ?_)⟩
          · intro x hx
            rw [← List.cons_append, List.mem_append] at hx
            rcases hx with hx | hx
            · exact h3 x hx
            · exact ⟨c, n, hn, by rw [h5]; simp [h7.subset hx]⟩
          · have : q = z.point := by
              rw [← hq]
              cases r with
              | nil => simp at hz; rw [hz]; rfl
              | cons b' r =>
                rw [List.getLast?_cons_cons] at hz
                rw [hz]
            rw [this]
            exact h8.mono (fun p b hb => ⟨c, n, hn, hb⟩)

/-- C65: started from a point (given, or the default one of the network), the tool prints blocks without
gap: the first follows the point, and every further one the one printed before it, on the chain the node had at
the time; in every schedule, with connections breaking at any place. `hg`: no block has the identifier of the
parent of the genesis block. -/
theorem C65_consecutive {as : List Act} (h : toolRun cfg since St.start as = some s) (p : Point)
    (hp : orDefault cfg since = [p]) (ho : p ≠ .origin) (hgen : p ≠ .header 0 cfg.genesisParent)
    (hg : ∀ c n b, s.net c = some n → b ∈ n.chain → b.point ≠ .header 0 cfg.genesisParent) :
    Consecutive (fun p b => ∃ c n, s.net c = some n ∧ NextOn n p b) p (printed s) := by
  have hi := (ToolInv.start cfg since).run h
  have key := printed_steps hi (fun b => ∃ c n, s.net c = some n ∧ NextOn n p b) hg ?_
  · rcases key with h1 | ⟨b, r, h1, h2, h3⟩
    · rw [h1]; trivial
    · rw [h1]; exact ⟨h2, h3⟩
  · intro c n q hc hn hq hb
    rw [hp, handle, if_neg (by simpa using hgen)] at hq
    rcases blockFetch_blocks ho hq hb with h1 | ⟨pre, y, post, h1, h2, h3⟩
    · exact .inl h1
    · simp only [if_true] at h3
      have h4 : Consecutive (NextOn n) p (blocksOf q) := by
        rw [← h2]
        exact (consecutive_chain h1).prefix h3
      cases hq' : blocksOf q with
      | nil => exact .inl rfl
      | cons b r =>
        rw [hq'] at h3 h4
        refine .inr ⟨b, r, rfl, ?_, ⟨c, n, hn, h4.1⟩, h4.2⟩
        rw [h1]
        simp [h3.subset (show b ∈ b :: r by simp)]

/-- C65: started from the parent of the genesis block, the tool prints the genesis block first, and then without
gap. -/
theorem C65_from_genesis {as : List Act} (h : toolRun cfg since St.start as = some s)
    (hp : orDefault cfg since = [.header 0 cfg.genesisParent]) (ho : cfg.genesis ≠ .origin)
    (hg : ∀ c n b, s.net c = some n → b ∈ n.chain → b.point ≠ .header 0 cfg.genesisParent) :
    printed s = [] ∨ ∃ b r, printed s = b :: r ∧ b.point = cfg.genesis ∧
      Consecutive (fun p b => ∃ c n, s.net c = some n ∧ NextOn n p b) b.point r := by
  have hi := (ToolInv.start cfg since).run h
  refine printed_steps hi (fun b => b.point = cfg.genesis) hg ?_
  intro c n q hc hn hq hb
  rw [hp, handle, if_pos rfl] at hq
  rcases blockFetch_blocks ho hq hb with h1 | ⟨pre, y, post, h1, h2, h3⟩
  · exact .inl h1
  · simp only [Bool.false_eq_true, if_false] at h3
    cases hq' : blocksOf q with
    | nil => exact .inl rfl
    | cons b r =>
      rw [hq'] at h3
      obtain ⟨rfl, h3'⟩ := List.cons_prefix_cons.1 h3
      exact .inr ⟨b, r, rfl, by rw [h1]; simp, h2, (consecutive_chain h1).prefix h3'⟩

/-- C65: when the tool ends because a pull returned nothing, the last block printed is the last of the node's
chain, provided the node answered and the block is still on its chain. -/
theorem C65_end_partial {as : List Act} (h : toolRun cfg since St.start as = some s) {s' : St}
    (hs : toolStep cfg since s .recv = some s') (hr : s'.results = s.results ++ [.nothing]) {b : NBlock}
    (hb : (printed s).getLast? = some b) (hv : cfg.valid b.hash = true)
    (hg : b.point ≠ .header 0 cfg.genesisParent) :
    ∃ c, s.next = c + 1 ∧ ∀ n, s.net c = some n → Smooth n → ChainOk n.chain → b ∈ n.chain →
      n.chain.getLast? = some b := by
  have hi := (ToolInv.start cfg since).run h
  obtain ⟨c, hc, hrep⟩ := C26_nothing (toolRun_run h) hs hr
  refine ⟨c, hc, fun n hn hsm hch hbm => ?_⟩
  have haw : s.got c = [] := by
    have hs' : s.recv = some s' := hs
    unfold St.recv at hs'
    split at hs'
    · split at hs'
      · rw [← Option.some.inj hs'] at hr
        have := List.append_cancel_left hr
        simp at this
      · split at hs'
        · cases hs'
        · rw [← Option.some.inj hs'] at hr
          simp at hr
    · rename_i c' hp hcur
      have := (hi.base.awaiting hp).2 c' hcur
      have h1 := (hi.base.cur c' hcur).1
      have : c' = c := by omega
      subst this
      assumption
    · cases hs'
  have ha : s.asked c = [b.point] := by
    rw [hi.asked c (by omega)]
    have : blocksOf ((List.range c).flatMap s.got) = printed s := by
      unfold printed
      rw [hi.base.res, hc, List.range_succ, List.flatMap_append]
      simp [haw]
    rw [pullFrom, this, hb]
    rfl
  obtain ⟨pre, post, he⟩ := List.append_of_mem hbm
  rw [ha, hn, C26_blocks hsm hch (f := [b.point]) (by simp [NBlock.point, hv]) (by simpa using hg) he (by simp) ?_ ?_ ?_] at hrep
  · by_cases hp : post = []
    · subst hp
      rw [he]
      simp
    · rw [if_neg hp] at hrep
      cases post with
      | nil => exact absurd rfl hp
      | cons x post => simp [tipEvent] at hrep
  · intro x hx hxb
    have hnd := hch.1
    rw [he, List.map_append, List.map_cons, List.nodup_append] at hnd
    rw [List.mem_singleton] at hxb
    exact (List.nodup_cons.1 hnd.2.1).1 (hxb ▸ List.mem_map_of_mem hx)
  · intro x hx hxb
    have hnd := hch.1
    rw [he, List.map_append, List.map_cons, List.nodup_append] at hnd
    rw [List.mem_singleton] at hxb
    exact absurd hxb (hnd.2.2 x.point (List.mem_map_of_mem hx) b.point (by simp))
  · intro hx
    rw [List.mem_singleton] at hx
    cases hx

/-- C65: the tool goes on exactly as long as the pulls give events that are no errors, and then pulls from the last block
printed, or from where it was started if there is none. -/
theorem C65_goes_on (s : St) (hi : s.puller = .idle) (f : List Point) :
    (∃ s', toolStep cfg since s (.pull f) = some s') ↔
      (∀ r, s.results.getLast? = some r → ∃ o, r = .event o ∧ o ≠ .bad) ∧
      f = ((printed s).getLast?.map (fun b => [b.point])).getD since := by
  have hf : pullFrom since (s.results.filterMap evOf) = ((printed s).getLast?.map (fun b => [b.point])).getD since := by
    unfold pullFrom printed
    cases (blocksOf (s.results.filterMap evOf)).getLast? <;> rfl
  have he : ended s = false ↔ ∀ r, s.results.getLast? = some r → ∃ o, r = .event o ∧ o ≠ .bad := by
    unfold ended
    cases s.results.getLast? with
    | none => simp
    | some r =>
      rcases r with o | _ | _
      · cases o <;> simp
      · simp
      · simp
  rw [← hf, ← he]
  simp only [toolStep, St.step, hi]
  split <;> simp_all

/-! ### Samples -/

/-- The chain after a fork. -/
def forkedChain : List NBlock := [⟨0, 0, .ok⟩, ⟨10, 1, .ok⟩, ⟨26, 8, .ok⟩, ⟨33, 9, .ok⟩, ⟨40, 11, .ok⟩]

/-- A run with a broken connection after one block; the tool goes on from there. -/
example : ∃ s, toolRun sampleCfg [] St.start [.pull [], .send, .take { sampleNet sampleChain with cut := some 2 },
      .emit, .recv, .pull [], .emit, .recv, .finish, .pull [.header 25 2], .recv, .send, .take (sampleNet sampleChain),
      .emit, .recv, .emit, .pull [.header 25 2], .recv] = some s ∧
    printed s = [⟨25, 2, .ok⟩, ⟨31, 3, .ok⟩] := ⟨_, rfl, by decide +kernel⟩

example : ∃ s, toolRun sampleCfg [] St.start [.pull [], .send, .take (sampleNet sampleChain), .emit, .recv, .pull [], .emit,
      .recv] = some s ∧ ∃ s', toolStep sampleCfg [] s (.pull [.header 25 2]) = some s' :=
  ⟨_, rfl, (C65_goes_on _ rfl _).2
    ⟨fun _ hr => ⟨.block ⟨25, 2, .ok⟩, (Option.some.inj hr).symm.trans rfl, by decide⟩, by decide +kernel⟩⟩

/-- The genesis block and the next ones. -/
example : ∃ s, toolRun sampleCfg [.header 0 100] St.start [.pull [.header 0 100], .send, .take (sampleNet sampleChain),
      .emit, .emit, .emit, .emit, .recv, .pull [.header 0 100], .recv, .pull [.header 0 0], .recv] = some s ∧
    printed s = [⟨0, 0, .ok⟩, ⟨0, 7, .ok⟩] := ⟨_, rfl, by decide +kernel⟩

/-- C65 is false after a fork: when the last block printed is no longer on the node's chain the tool ends as if it
had printed everything. -/
theorem C65_fork_false : ¬ ∀ (cfg : Config) (since : List Point) (as : List Act) (s : St),
    toolRun cfg since St.start as = some s → (∀ c n, s.net c = some n → Smooth n ∧ ChainOk n.chain) →
    s.results.getLast? = some .nothing → ∀ b, (printed s).getLast? = some b →
    ∃ c n, s.next = c + 1 ∧ s.net c = some n ∧ n.chain.getLast? = some b := by
  intro h
  obtain ⟨s, h0, h1, h2, h3, h4⟩ : ∃ s, toolRun sampleCfg [] St.start [.pull [], .send,
      .take (sampleNet sampleChain), .emit, .recv, .pull [], .emit, .recv, .pull [.header 25 2], .emit, .recv, .finish,
      .pull [.header 31 3], .recv, .send, .take (sampleNet forkedChain), .finish, .recv] = some s ∧
      s.results.getLast? = some .nothing ∧ (printed s).getLast? = some ⟨31, 3, .ok⟩ ∧ s.next = 2 ∧
      s.net = Verif.Sources.Cardano.set (Verif.Sources.Cardano.set (fun _ => none) 0 (some (sampleNet sampleChain))) 1 (some (sampleNet forkedChain)) :=
    ⟨_, rfl, by decide +kernel, by decide +kernel, rfl, rfl⟩
  have hnet : ∀ c n, s.net c = some n → n = sampleNet sampleChain ∨ c = 1 ∧ n = sampleNet forkedChain := by
    intro c n hn
    rw [h4] at hn
    unfold Verif.Sources.Cardano.set at hn
    dsimp only at hn
    split at hn
    · exact .inr ⟨by assumption, (Option.some.inj hn).symm⟩
    · split at hn
      · exact .inl (Option.some.inj hn).symm
      · cases hn
  have key := h _ _ _ _ h0 ?_ h1 _ h2
  · obtain ⟨c, n, h5, h6, h7⟩ := key
    have hc : c = 1 := by omega
    subst hc
    have hn : n = sampleNet forkedChain := by
      rw [h4] at h6
      exact (Option.some.inj h6).symm
    subst hn
    revert h7
    decide +kernel
  · intro c n hn
    rcases hnet c n hn with rfl | ⟨_, rfl⟩
    · exact ⟨⟨rfl, rfl, rfl, by decide⟩, by decide, by decide⟩
    · exact ⟨⟨rfl, rfl, rfl, by decide⟩, by decide, by decide⟩

end Verif.Props
