import Verif.Sources.ConfirmedPlan

/-!
# The invariant of the two sources together
-/

namespace Verif.Sources.Confirmed

open Verif.Multiverse
open Verif.Sources.Cardano (Point NBlock Net Out PullRes St Config handle CInv planOf)

variable {cfg : Config} {D : Decoder} {B : Key → Block} {r : Key} {pre : List NBlock} {base : Point} {n : Net}
  {d : Nat} {p0 : Option Point} {Q : Prop}

/-! ### Chains as lists -/

theorem NodeOk.number (h : NodeOk cfg D B r pre n) : ∀ {m : Nat} {a : NBlock}, (after pre.length n)[m]? = some a →
    (D.view a).number = (B r).number + m
  | 0, a, ha => by
    cases hl : after pre.length n with
    | nil => rw [hl] at ha; cases ha
    | cons x l =>
      rw [hl] at ha
      obtain rfl : x = a := by simpa using ha
      have h1 := (h.block x (by rw [hl]; simp)).1
      rw [h.first x l hl] at h1
      rw [h1]
      rfl
  | m + 1, a, ha => by
    have hlt : m + 1 < (after pre.length n).length := (List.getElem?_eq_some_iff.1 ha).1
    have hm : (after pre.length n)[m]? = some ((after pre.length n)[m]'(by omega)) := List.getElem?_eq_getElem _
    have hs : after pre.length n = (after pre.length n).take m ++ (after pre.length n)[m]'(by omega) :: a ::
        (after pre.length n).drop (m + 2) := by
      have h2 := (List.getElem?_eq_some_iff.1 ha).2
      conv_lhs => rw [← List.take_append_drop m (after pre.length n), List.drop_eq_getElem_cons (by omega),
        List.drop_eq_getElem_cons hlt, h2]
    rw [(h.linked _ _ _ _ hs).2, h.number hm]
    rfl

theorem NodeOk.parent (h : NodeOk cfg D B r pre n) {m : Nat} {a : NBlock} (ha : (after pre.length n)[m + 1]? = some a) :
    ∃ a', (after pre.length n)[m]? = some a' ∧ (D.view a).parent = (D.view a').id := by
  have hlt : m + 1 < (after pre.length n).length := (List.getElem?_eq_some_iff.1 ha).1
  refine ⟨(after pre.length n)[m]'(by omega), List.getElem?_eq_getElem _, ?_⟩
  have hs : after pre.length n = (after pre.length n).take m ++ (after pre.length n)[m]'(by omega) :: a ::
      (after pre.length n).drop (m + 2) := by
    have h2 := (List.getElem?_eq_some_iff.1 ha).2
    conv_lhs => rw [← List.take_append_drop m (after pre.length n), List.drop_eq_getElem_cons (by omega),
      List.drop_eq_getElem_cons hlt, h2]
  exact (h.linked _ _ _ _ hs).1

/-- The ancestors of a block of a chain are the blocks before it. -/
theorem NodeOk.anc (h : NodeOk cfg D B r pre n) : ∀ {i m : Nat} {a : NBlock}, (after pre.length n)[m]? = some a → i ≤ m →
    ∃ a', (after pre.length n)[m - i]? = some a' ∧ (D.view a').id = Sources.anc B i (D.view a).id
  | 0, m, a, ha, _ => ⟨a, ha, rfl⟩
  | i + 1, 0, a, ha, hi => by omega
  | i + 1, m + 1, a, ha, hi => by
    obtain ⟨a1, h1, h2⟩ := h.parent ha
    obtain ⟨a2, h3, h4⟩ := h.anc h1 (i := i) (by omega)
    refine ⟨a2, by rw [Nat.add_sub_add_right]; exact h3, ?_⟩
    have hm : a ∈ after pre.length n := List.mem_of_getElem? ha
    rw [h4, Sources.anc, ← (h.block a hm).1, h2]

/-- The chain up to a block, as the specification of the multiverse source has it. -/
theorem NodeOk.path (h : NodeOk cfg D B r pre n) : ∀ {m : Nat} {a : NBlock}, (after pre.length n)[m]? = some a →
    Sources.path B m (D.view a).id = ((after pre.length n).take (m + 1)).map (fun x => (D.view x).id)
  | 0, a, ha => by
    rw [Sources.path, List.take_add_one, ha]
    simp
  | m + 1, a, ha => by
    obtain ⟨a1, h1, h2⟩ := h.parent ha
    have hm : a ∈ after pre.length n := List.mem_of_getElem? ha
    rw [Sources.path, ← (h.block a hm).1, h2, h.path h1, List.take_add_one (i := m + 1), ha]
    simp

/-- The node's later chain contains the earlier one but for its last `d` blocks. -/
def Agree (d : Nat) (n n' : Net) : Prop := n.chain.take (n.chain.length - d) <+: n'.chain

theorem Agree.getElem {n' : Net} (h : Agree d n n') {i : Nat} (hi : i + d < n.chain.length) :
    n'.chain[i]? = n.chain[i]? := by
  obtain ⟨l, hl⟩ := h
  rw [← hl, List.getElem?_append_left (by rw [List.length_take]; omega), List.getElem?_take, if_pos (by omega)]

theorem after_getElem (k : Nat) (n : Net) (i : Nat) : (after k n)[i]? = n.chain[k + i]? := by
  unfold after
  rw [List.getElem?_drop]

/-- What is known about the nodes: they are proper, following begins at `base`, and rollbacks are at most `d` blocks long. -/
structure Nodes (cfg : Config) (D : Decoder) (B : Key → Block) (r : Key) (pre : List NBlock) (base : Point) (d : Nat)
    (N : List Net) : Prop where
  ok : ∀ n ∈ N, NodeOk cfg D B r pre n
  base : ∀ n ∈ N, BaseOk cfg pre base n
  agree : N.Pairwise (Agree d)

theorem Nodes.left {N N' : List Net} (h : Nodes cfg D B r pre base d (N ++ N')) : Nodes cfg D B r pre base d N :=
  ⟨fun n hn => h.ok n (List.mem_append.2 (.inl hn)), fun n hn => h.base n (List.mem_append.2 (.inl hn)),
    (List.pairwise_append.1 h.agree).1⟩

/-- Every block in `G` is from one of the chains. -/
def From (D : Decoder) (k : Nat) (N : List Net) (G : List Block) : Prop :=
  ∀ v ∈ G, ∃ n ∈ N, ∃ x ∈ after k n, v = D.view x

theorem From.mono {k : Nat} {N : List Net} (N' : List Net) {G : List Block} (h : From D k N G) :
    From D k (N ++ N') G := by
  intro v hv
  obtain ⟨n, hn, h1⟩ := h v hv
  exact ⟨n, List.mem_append.2 (.inl hn), h1⟩

theorem Req.mono {k : Nat} {N : List Net} (N' : List Net) {G G' : List Block} {f : List Point}
    (h : Req D base k N G f) (hG : ∀ v ∈ G, v ∈ G') : Req D base k (N ++ N') G' f := by
  intro p hp
  rcases h p hp with h1 | ⟨n, hn, u, hu, h1, h2⟩
  · exact .inl h1
  · exact .inr ⟨n, List.mem_append.2 (.inl hn), u, hu, hG _ h1, h2⟩

theorem Nodes.agrees {N : List Net} (h : Nodes cfg D B r pre base d N) {n1 n2 : Net} (h1 : n1 ∈ N) (h2 : n2 ∈ N) :
    n1 = n2 ∨ Agree d n1 n2 ∨ Agree d n2 n1 := by
  obtain ⟨i, hi, rfl⟩ := List.getElem_of_mem h1
  obtain ⟨j, hj, rfl⟩ := List.getElem_of_mem h2
  have hp := List.pairwise_iff_getElem.1 h.agree
  rcases Nat.lt_trichotomy i j with hlt | rfl | hlt
  · exact .inr (.inl (hp i j hi hj hlt))
  · exact .inl rfl
  · exact .inr (.inr (hp j i hj hi hlt))

theorem Nodes.commonPrefix {N : List Net} (h : Nodes cfg D B r pre base d N) {G : List Block}
    (hG : From D pre.length N G) : CommonPrefix B d r G := by
  intro x hx y hy i j hi hj hxi hxy
  obtain ⟨n1, hn1, a, ha, rfl⟩ := hG x hx
  obtain ⟨n2, hn2, b, hb, rfl⟩ := hG y hy
  obtain ⟨m1, hm1, rfl⟩ := List.getElem_of_mem ha
  obtain ⟨m2, hm2, rfl⟩ := List.getElem_of_mem hb
  have e1 : (after pre.length n1)[m1]? = some _ := List.getElem?_eq_getElem hm1
  have e2 : (after pre.length n2)[m2]? = some _ := List.getElem?_eq_getElem hm2
  have k1 := (h.ok n1 hn1).number e1
  have k2 := (h.ok n2 hn2).number e2
  rw [k1] at hxi hxy
  rw [k2] at hxy
  obtain ⟨a', h1, h2⟩ := (h.ok n1 hn1).anc e1 (i := i) (by omega)
  obtain ⟨b', h3, h4⟩ := (h.ok n2 hn2).anc e2 (i := j) (by omega)
  rw [← h2, ← h4]
  have hl1 : pre.length + m1 < n1.chain.length := by
    have := hm1
    unfold after at this
    rw [List.length_drop] at this
    omega
  have hl2 : pre.length + m2 < n2.chain.length := by
    have := hm2
    unfold after at this
    rw [List.length_drop] at this
    omega
  have hlvl : m2 - j = m1 - i := by omega
  have hab : a' = b' := by
    rw [after_getElem] at h1 h3
    rw [hlvl] at h3
    have : n1.chain[pre.length + (m1 - i)]? = n2.chain[pre.length + (m1 - i)]? := by
      rcases h.agrees hn1 hn2 with rfl | hag | hag
      · rfl
      · exact (hag.getElem (by omega)).symm
      · exact hag.getElem (by omega)
    rw [h1, h3] at this
    exact Option.some.inj this
  rw [hab]

theorem Nodes.points (hD : D.Ok) {N : List Net} (h : Nodes cfg D B r pre base d N) {G : List Block}
    (hG : From D pre.length N G) : Points D.nf G := by
  refine ⟨fun v hv => ?_, fun u hu v hv he => ?_⟩
  · obtain ⟨n, _, x, _, rfl⟩ := hG v hv
    rw [hD.point]
    rfl
  · obtain ⟨n1, hn1, x, hx, rfl⟩ := hG u hu
    obtain ⟨n2, hn2, y, hy, rfl⟩ := hG v hv
    rw [hD.point, hD.point] at he
    exact ((h.ok n1 hn1).block x hx).1.trans
      ((congrArg B (hD.id x y (Option.some.inj he))).trans ((h.ok n2 hn2).block y hy).1.symm)

/-! ### Steps of the Cardano source -/

/-- What an action of the Cardano source or its handler does. -/
inductive Effect (cfg : Config) (s s' : St) (a : Cardano.Act) : Prop where
  | quiet (results : s'.results = s.results) (got : s'.got = s.got) (next : s'.next = s.next) (asked : s'.asked = s.asked)
      (cleared : s'.cleared = s.cleared)
      (puller : s'.puller = s.puller ∨ ∃ f, s.puller = .reading f ∧ s'.puller = .sending f)
      (net : ∀ c n, s'.net c = some n → s.net c = some n ∨ a = .take n) (current : s'.current = s.current)
  | event (c : Nat) (o : Out) (hc : s.current = some c) (results : s'.results = s.results ++ [.event o])
      (got : s'.got = Cardano.set s.got c (s.got c ++ [o])) (next : s'.next = s.next) (asked : s'.asked = s.asked)
      (cleared : s'.cleared = s.cleared) (was : s.puller ≠ .idle) (puller : s'.puller = .idle) (net : s'.net = s.net)
      (current : s'.current = s.current)
  | ended (x : PullRes) (hx : x = .nothing ∨ x = .stopped) (results : s'.results = s.results ++ [x]) (got : s'.got = s.got)
      (next : s'.next = s.next) (asked : s'.asked = s.asked) (cleared : s'.cleared = s.cleared) (was : s.puller ≠ .idle)
      (puller : s'.puller = .idle) (net : s'.net = s.net) (current : s'.current = s.current)
  | sent (f : List Point) (was : s.puller = .sending f) (puller : s'.puller = .awaiting) (results : s'.results = s.results)
      (got : s'.got = s.got) (next : s'.next = s.next + 1)
      (asked : s'.asked = Cardano.set s.asked s.next (if f = [] then [cfg.from'] else f))
      (cleared : s'.cleared = s.cleared) (net : s'.net = s.net) (current : s'.current = some s.next)

theorem effect {s s' : St} {a : Cardano.Act} (ha : going a = true) (hs : s.step cfg a = some s') : Effect cfg s s' a := by
  cases a with
  | pull f => cases ha
  | clear => cases ha
  | recv =>
    simp only [St.step, St.recv] at hs
    split at hs
    · rename_i f c hp hc
      split at hs
      · rename_i o rest hb
        obtain rfl := Option.some.inj hs
        exact .event c o hc rfl rfl rfl rfl rfl (by rw [hp]; simp) rfl rfl rfl
      · split at hs
        · cases hs
        · obtain rfl := Option.some.inj hs
          exact .quiet rfl rfl rfl rfl rfl (.inr ⟨f, hp, rfl⟩) (fun _ _ h => .inl h) rfl
    · rename_i c hp hc
      split at hs
      · rename_i o rest hb
        obtain rfl := Option.some.inj hs
        exact .event c o hc rfl rfl rfl rfl rfl (by rw [hp]; simp) rfl rfl rfl
      · split at hs
        · cases hs
        · obtain rfl := Option.some.inj hs
          exact .ended .nothing (.inl rfl) rfl rfl rfl rfl rfl (by rw [hp]; simp) rfl rfl rfl
    · cases hs
  | send =>
    simp only [St.step, St.send] at hs
    split at hs
    · rename_i f hp
      split at hs
      · obtain rfl := Option.some.inj hs
        exact .ended .stopped (.inr rfl) rfl rfl rfl rfl rfl (by rw [hp]; simp) rfl rfl rfl
      · split at hs
        · cases hs
        · obtain rfl := Option.some.inj hs
          exact .sent f hp rfl rfl rfl rfl rfl rfl rfl rfl
    · cases hs
  | take n =>
    simp only [St.step, St.take] at hs
    split at hs
    · rename_i f c hh hq
      split at hs
      · obtain rfl := Option.some.inj hs
        refine .quiet rfl rfl rfl rfl rfl (.inl rfl) (fun c' n' h => ?_) rfl
        dsimp only at h
        by_cases hc : c' = c
        · subst hc
          rw [Cardano.set_eq] at h
          exact .inr (by rw [Option.some.inj h])
        · rw [Cardano.set_ne _ _ hc] at h
          exact .inl h
      · obtain rfl := Option.some.inj hs
        exact .quiet rfl rfl rfl rfl rfl (.inl rfl) (fun _ _ h => .inl h) rfl
    · cases hs
  | emit =>
    simp only [St.step, St.emit] at hs
    split at hs
    · split at hs
      · split at hs
        · obtain rfl := Option.some.inj hs
          exact .quiet rfl rfl rfl rfl rfl (.inl rfl) (fun _ _ h => .inl h) rfl
        · cases hs
      · split at hs
        · obtain rfl := Option.some.inj hs
          exact .quiet rfl rfl rfl rfl rfl (.inl rfl) (fun _ _ h => .inl h) rfl
        · obtain rfl := Option.some.inj hs
          exact .quiet rfl rfl rfl rfl rfl (.inl rfl) (fun _ _ h => .inl h) rfl
    · cases hs
  | finish =>
    simp only [St.step, St.finish] at hs
    split at hs
    · obtain rfl := Option.some.inj hs
      exact .quiet rfl rfl rfl rfl rfl (.inl rfl) (fun _ _ h => .inl h) rfl
    · obtain rfl := Option.some.inj hs
      exact .quiet rfl rfl rfl rfl rfl (.inl rfl) (fun _ _ h => .inl h) rfl
    · obtain rfl := Option.some.inj hs
      exact .quiet rfl rfl rfl rfl rfl (.inl rfl) (fun _ _ h => .inl h) rfl
    · cases hs

/-! ### The invariant -/

/-- The state of the two sources and the consumer; `N` are the nodes so far. -/
structure SInv (cfg : Config) (D : Decoder) (B : Key → Block) (r : Key) (pre : List NBlock) (base : Point) (d : Nat)
    (p0 : Option Point) (Q : Prop) (N : List Net) (s : Sys) : Prop where
  ci : CInv cfg s.cs
  wi : ∃ S, WInv B d r D.nf p0 Q s.w S
  sub : From D pre.length N s.w.got
  feed : Feed B r s.w.got
  nets : ∀ c n, s.cs.net c = some n → n ∈ N
  del : ∀ c b, .block b ∈ s.cs.got c → D.view b ∈ s.w.got
  asked : ∀ c < s.cs.next, Req D base pre.length N s.w.got (s.cs.asked c)
  pull : ∀ f, s.cs.puller = .reading f ∨ s.cs.puller = .sending f → Req D base pre.length N s.w.got f ∧
    (f = [] → cfg.from' = base) ∧ ∀ p, s.w.pos = some p → p ∈ f
  idle : s.pend = none ↔ s.cs.puller = .idle
  req : ∀ o, s.pend = some o → o.Ok ∧ ∃ ps, s.w.src.request D.nf o s.w.pos = .ok (.inr ps)
  cleared : ∀ c, s.cs.cleared c = false

/-- Where the consumer begins: at `base`, or without position if that is the default of the Cardano source. -/
def StartsAt (cfg : Config) (base : Point) (p0 : Option Point) : Prop :=
  p0 = some base ∨ p0 = none ∧ cfg.from' = base

/-- Proper orders; crashes only if allowed. -/
def SAct.Ok (Q : Prop) : SAct → Prop
  | .pull o => o.Ok
  | .inner _ => True
  | .abandon => True
  | .restart o => o.Ok
  | .die _ _ o => Q ∧ o.Ok

theorem SInv.start (cfg : Config) (D : Decoder) (B : Key → Block) (r : Key) (pre : List NBlock) (base : Point) (d : Nat)
    (p0 : Option Point) (Q : Prop) : SInv cfg D B r pre base d p0 Q [] (Sys.start d p0) where
  ci := CInv.start cfg
  wi := ⟨_, WInv.start B d r D.nf p0 Q⟩
  sub := by simp [From, Sys.start, World.start]
  feed := ⟨by simp [Sys.start, World.start], by simp [Sys.start, World.start],
    fun l1 v l2 h => by simp [Sys.start, World.start] at h⟩
  nets := by simp [Sys.start, St.start]
  del := by simp [Sys.start, St.start]
  asked := by simp [Sys.start, St.start]
  pull := by simp [Sys.start, St.start]
  idle := by simp [Sys.start, St.start]
  req := by simp [Sys.start]
  cleared := by simp [Sys.start, St.start]

theorem seg_of_prefix {tips : List Out} (ht : ∀ o ∈ tips, ∃ p, o = Out.tip p) {seg : List NBlock} {L : List Out} {b : NBlock}
    (h : L ++ [Out.block b] <+: tips ++ seg.map Out.block) :
    ∃ s1 s2, seg = s1 ++ b :: s2 ∧ ∀ x ∈ s1, Out.block x ∈ L := by
  obtain ⟨R, hR⟩ := h
  rw [List.append_assoc, List.singleton_append] at hR
  rcases List.append_eq_append_iff.1 hR with ⟨a', h1, h2⟩ | ⟨c', h1, h2⟩
  · cases a' with
    | nil =>
      rw [List.nil_append] at h2
      cases seg with
      | nil => cases h2
      | cons x seg =>
        obtain ⟨h3, _⟩ := List.cons.inj h2
        cases h3
        exact ⟨[], seg, rfl, by simp⟩
    | cons y a' =>
      obtain ⟨h3, _⟩ := List.cons.inj h2
      obtain ⟨p, hp⟩ := ht y (by rw [h1]; simp)
      rw [hp] at h3
      cases h3
  · obtain ⟨s1, s2, h3, h4, h5⟩ := List.map_eq_append_iff.1 h2
    cases s2 with
    | nil => cases h5
    | cons x s2 =>
      obtain ⟨h6, _⟩ := List.cons.inj h5
      cases h6
      refine ⟨s1, s2, h3, fun y hy => ?_⟩
      rw [h1, ← h4]
      exact List.mem_append.2 (.inr (List.mem_map_of_mem hy))

/-- The next block received follows a block received before, or is the first. -/
theorem SInv.follows (hD : D.Ok) {N : List Net} {s : Sys} (h : SInv cfg D B r pre base d p0 Q N s)
    (hN : Nodes cfg D B r pre base d N) {c : Nat} (hc : c < s.cs.next) {b : NBlock}
    (hp : s.cs.got c ++ [.block b] <+: planOf cfg (s.cs.asked c) (s.cs.net c)) :
    (∃ n ∈ N, b ∈ after pre.length n) ∧ Feed B r (D.view b :: s.w.got) := by
  cases hn : s.cs.net c with
  | none =>
    rw [hn] at hp
    obtain ⟨R, hR⟩ := hp
    simp [planOf] at hR
  | some n =>
    have hnN := h.nets c n hn
    have hok := hN.ok n hnN
    rw [hn] at hp
    obtain ⟨tips, l1, seg, l2, h1, h2, h3, h4⟩ := handle_seg hD hok (hN.base n hnN) hN.ok (h.asked c hc)
    have hp' : s.cs.got c ++ [.block b] <+: tips ++ seg.map Out.block := by rw [← h1]; exact hp
    obtain ⟨s1, s2, h5, h6⟩ := seg_of_prefix h2 hp'
    rw [h5] at h3
    have hb : b ∈ after pre.length n := by rw [h3]; simp
    refine ⟨⟨n, hnN, hb⟩, ?_⟩
    have hpar : (D.view b).id = r ∨ ∃ u ∈ s.w.got, u.id = (D.view b).parent ∧ (D.view b).number = u.number + 1 := by
      have hlink : ∀ l x l', after pre.length n = l ++ x :: b :: l' → D.view x ∈ s.w.got →
          ∃ u ∈ s.w.got, u.id = (D.view b).parent ∧ (D.view b).number = u.number + 1 := by
        intro l x l' he hx
        obtain ⟨h7, h8⟩ := hok.linked l x b l' he
        exact ⟨D.view x, hx, h7.symm, h8⟩
      rcases List.eq_nil_or_concat s1 with rfl | ⟨s1', y, rfl⟩
      · rcases h4 with h4 | ⟨rfl, _⟩ | ⟨u, hu, hug⟩
        · rw [h5] at h4
          cases h4
        · left
          exact hok.first b (s2 ++ l2) (by rw [h3]; simp)
        · right
          obtain ⟨l1', rfl⟩ := List.getLast?_eq_some_iff.1 hu
          exact hlink l1' u (s2 ++ l2) (by rw [h3]; simp) hug
      · right
        exact hlink (l1 ++ s1') y (s2 ++ l2) (by rw [h3]; simp [List.concat_eq_append]) (h.del c y (h6 y (by simp)))
    obtain ⟨hb1, hb2, hb3⟩ := hok.block b hb
    refine ⟨fun v hv => ?_, fun v hv => ?_, fun m1 v m2 he => ?_⟩
    · rcases List.mem_cons.1 hv with rfl | hv
      · exact ⟨hb1, hb2⟩
      · exact h.feed.ok v hv
    · rcases List.mem_cons.1 hv with rfl | hv
      · exact hb3
      · exact h.feed.rootParent v hv
    · cases m1 with
      | nil =>
        obtain ⟨rfl, rfl⟩ := List.cons.inj he
        exact hpar
      | cons y m1 =>
        obtain ⟨_, h7⟩ := List.cons.inj he
        exact h.feed.order m1 v m2 h7

/-- The positions requested. -/
theorem SInv.request (hD : D.Ok) {N : List Net} {s : Sys} (h : SInv cfg D B r pre base d p0 Q N s)
    (hN : Nodes cfg D B r pre base d N) (h0 : StartsAt cfg base p0) {o : Orders} (ho : o.Ok) {qs : List Point}
    (hq : s.w.src.request D.nf o s.w.pos = .ok (.inr qs)) :
    Req D base pre.length N s.w.got qs ∧ (qs = [] → cfg.from' = base) ∧ ∀ p, s.w.pos = some p → p ∈ qs := by
  obtain ⟨S, hw⟩ := h.wi
  have hpts := hN.points hD h.sub
  obtain ⟨ps, h1, h2⟩ := request_eq hw.rel (hw.inv.point h.feed hpts) ho s.w.pos
  have hgot : ∀ v ∈ s.w.got, ∀ p, D.nf v = some p → ∃ n' ∈ N, ∃ u ∈ after pre.length n', D.view u ∈ s.w.got ∧ u.point = p := by
    intro v hv p hp
    obtain ⟨n', hn', u, hu, rfl⟩ := h.sub v hv
    rw [hD.point] at hp
    exact ⟨n', hn', u, hu, hv, Option.some.inj hp⟩
  have htips : Req D base pre.length N s.w.got ps := by
    intro p hp
    obtain ⟨k, hk, hkp⟩ := (h2 p).1 hp
    obtain ⟨v, hv, rfl⟩ := hw.inv.sub k ((hw.rel.tips k).1 hk).1
    rw [← (h.feed.ok v hv).1] at hkp
    exact .inr (hgot v hv p hkp)
  have hposr : ∀ p, s.w.pos = some p → p = base ∨ ∃ n' ∈ N, ∃ u ∈ after pre.length n', D.view u ∈ s.w.got ∧ u.point = p := by
    intro p hp
    rw [hw.pos] at hp
    cases hl : s.w.out.getLast? with
    | none =>
      rw [hl] at hp
      rcases h0 with h0 | ⟨h0, _⟩
      · rw [h0] at hp
        exact .inl (Option.some.inj hp).symm
      · rw [h0] at hp
        cases hp
    | some v =>
      rw [hl] at hp
      exact .inr (hgot v (hw.sub v (List.mem_of_getLast? hl)) p hp)
  have hposn : s.w.pos = none → cfg.from' = base := by
    intro hp
    rw [hw.pos] at hp
    cases hl : s.w.out.getLast? with
    | none =>
      rw [hl] at hp
      rcases h0 with h0 | ⟨_, h0⟩
      · rw [h0] at hp
        cases hp
      · exact h0
    | some v =>
      rw [hl] at hp
      have := hpts.1 v (hw.sub v (List.mem_of_getLast? hl))
      simp only [Option.map_some, Option.getD_some] at hp
      rw [hp] at this
      cases this
  have hqs : qs = ps ++ s.w.pos.toList := by
    rw [h1] at hq
    unfold fromCheck at hq
    split at hq
    · split at hq
      · cases hq
      · split at hq
        · rename_i hp
          rw [hp]
          simpa using hq.symm
        · rename_i f hp
          split at hq
          · rw [hp]
            simpa using hq.symm
          · cases hq
    · simpa using hq.symm
  subst hqs
  refine ⟨fun p hp => ?_, fun he => ?_, fun p hp => ?_⟩
  · rcases List.mem_append.1 hp with hp | hp
    · exact htips p hp
    · exact hposr p (by simpa using hp)
  · refine hposn ?_
    have := (List.append_eq_nil_iff.1 he).2
    simpa using this
  · rw [hp]
    simp

theorem World.step_pull_got {nf : Block → Option Point} {w : World Point} {o : Orders}
    {resp : List Point → Except Unit (Option Ev)} {ps : List Point} (h : w.src.request nf o w.pos = .ok (.inr ps)) :
    (w.step nf (.pull o resp)).got = (blockOf (resp ps)).toList ++ w.got := by
  simp only [World.step, MSrc.pull, h, heard]

theorem World.step_crash_got {nf : Block → Option Point} {w : World Point} {o o' : Orders} {k : Nat}
    {resp : List Point → Except Unit (Option Ev)} {ps : List Point} (h : w.src.request nf o w.pos = .ok (.inr ps)) :
    (w.step nf (.crash o resp k o')).got = (blockOf (resp ps)).toList ++ w.got := by
  have hren : ∀ (w : World Point) (m : MV) (o : Orders), (w.renew m o).got = w.got := by
    intro w m o
    unfold World.renew
    split <;> rfl
  simp only [World.step, MSrc.pull, h, heard]
  split
  · rfl
  · rw [hren]

theorem World.step_restart_got {nf : Block → Option Point} {w : World Point} {o : Orders} :
    (w.step nf (.restart o)).got = w.got := by
  simp only [World.step, World.renew]
  split <;> rfl

/-- An action of the Cardano source that does not end a pull. -/
theorem SInv.silent {N N' : List Net} {s : Sys} (h : SInv cfg D B r pre base d p0 Q N s) {a : Cardano.Act} {cs' : St}
    (ha : going a = true) (hs : s.cs.step cfg a = some cs') (hN' : ∀ n, a = .take n → n ∈ N ++ N')
    (hr : cs'.results = s.cs.results) :
    SInv cfg D B r pre base d p0 Q (N ++ N') ⟨cs', s.w, s.pend⟩ := by
  have hci := h.ci.step hs
  have hmono : ∀ {f}, Req D base pre.length N s.w.got f → Req D base pre.length (N ++ N') s.w.got f :=
    fun hf => hf.mono N' (fun _ hv => hv)
  cases effect ha hs with
  | quiet results got next asked cleared puller net =>
    refine ⟨hci, h.wi, h.sub.mono N', h.feed, fun c n hn => ?_, ?_, ?_, ?_, ?_, h.req, ?_⟩
    · rcases net c n hn with h1 | h1
      · exact List.mem_append.2 (.inl (h.nets c n h1))
      · exact hN' n h1
    · show ∀ c b, _ ∈ cs'.got c → _
      rw [got]; exact h.del
    · show ∀ c < cs'.next, Req _ _ _ _ _ (cs'.asked c)
      rw [next, asked]
      exact fun c hc => hmono (h.asked c hc)
    · show ∀ f, cs'.puller = _ ∨ cs'.puller = _ → _
      intro f hf
      have : s.cs.puller = .reading f ∨ s.cs.puller = .sending f := by
        rcases puller with hp | ⟨f', hp, hp'⟩
        · rw [← hp]; exact hf
        · rw [hp'] at hf
          rcases hf with hf | hf
          · cases hf
          · cases hf
            exact .inl hp
      exact ⟨hmono (h.pull f this).1, (h.pull f this).2⟩
    · show _ ↔ cs'.puller = .idle
      rw [h.idle]
      rcases puller with hp | ⟨f', hp, hp'⟩
      · rw [hp]
      · rw [hp, hp']
        simp
    · show ∀ c, cs'.cleared c = false
      rw [cleared]; exact h.cleared
  | event c o hc results got next asked cleared was puller net =>
    rw [results] at hr
    simp at hr
  | ended x hx results got next asked cleared was puller net =>
    rw [results] at hr
    simp at hr
  | sent f was puller results got next asked cleared net =>
    refine ⟨hci, h.wi, h.sub.mono N', h.feed, ?_, ?_, ?_, ?_, ?_, h.req, ?_⟩
    · show ∀ c n, cs'.net c = some n → _
      rw [net]
      exact fun c n hn => List.mem_append.2 (.inl (h.nets c n hn))
    · show ∀ c b, _ ∈ cs'.got c → _
      rw [got]; exact h.del
    · show ∀ c < cs'.next, Req _ _ _ _ _ (cs'.asked c)
      rw [next, asked]
      intro c hc
      by_cases he : c = s.cs.next
      · subst he
        rw [Cardano.set_eq]
        obtain ⟨h1, h2, _⟩ := h.pull f (.inr was)
        split
        · rename_i hf
          intro p hp
          rw [List.mem_singleton.1 hp]
          exact .inl (h2 hf)
        · exact hmono h1
      · rw [Cardano.set_ne _ _ he]
        exact hmono (h.asked c (by omega))
    · show ∀ f, cs'.puller = _ ∨ cs'.puller = _ → _
      rw [puller]
      intro f hf
      rcases hf with hf | hf <;> cases hf
    · show _ ↔ cs'.puller = .idle
      rw [h.idle, was, puller]
      simp
    · show ∀ c, cs'.cleared c = false
      rw [cleared]; exact h.cleared

/-- An action that ends the pull: what is delivered. -/
theorem SInv.answered (hD : D.Ok) {N : List Net} {s : Sys} (h : SInv cfg D B r pre base d p0 Q N s)
    (hN : Nodes cfg D B r pre base d N) {a : Cardano.Act} {cs' : St} (ha : going a = true) (hs : s.cs.step cfg a = some cs')
    {x : PullRes} (hr : cs'.results = s.cs.results ++ [x]) {ps : List Point} :
    s.cs.puller ≠ .idle ∧ cs'.puller = .idle ∧ cs'.next = s.cs.next ∧ cs'.asked = s.cs.asked ∧ cs'.cleared = s.cs.cleared ∧
    cs'.net = s.cs.net ∧
    Feed B r ((blockOf ((fun _ : List Point => reply D x) ps)).toList ++ s.w.got) ∧
    From D pre.length N ((blockOf ((fun _ : List Point => reply D x) ps)).toList ++ s.w.got) ∧
    ∀ c b, .block b ∈ cs'.got c → D.view b ∈ (blockOf ((fun _ : List Point => reply D x) ps)).toList ++ s.w.got := by
  have hci := h.ci.step hs
  cases effect ha hs with
  | quiet results got next asked cleared puller net =>
    rw [results] at hr
    simp at hr
  | sent f was puller results got next asked cleared net =>
    rw [results] at hr
    simp at hr
  | ended x' hx results got next asked cleared was puller net =>
    rw [results] at hr
    have hxx : x' = x := by simpa using hr
    subst hxx
    have hb : blockOf ((fun _ : List Point => reply D x') ps) = none := by
      rcases hx with rfl | rfl <;> rfl
    rw [hb]
    refine ⟨was, puller, next, asked, cleared, net, h.feed, h.sub, ?_⟩
    rw [got]
    exact h.del
  | event c o hc results got next asked cleared was puller net =>
    rw [results] at hr
    have hxx : PullRes.event o = x := by simpa using hr
    subst hxx
    have hcn := (h.ci.cur c hc).1
    refine ⟨was, puller, next, asked, cleared, net, ?_⟩
    cases o with
    | tip p =>
      refine ⟨h.feed, h.sub, fun c' b hb => h.del c' b ?_⟩
      rw [got] at hb
      by_cases he : c' = c
      · subst he
        rw [Cardano.set_eq] at hb
        simpa using hb
      · rw [Cardano.set_ne _ _ he] at hb
        exact hb
    | bad =>
      refine ⟨h.feed, h.sub, fun c' b hb => h.del c' b ?_⟩
      rw [got] at hb
      by_cases he : c' = c
      · subst he
        rw [Cardano.set_eq] at hb
        simpa using hb
      · rw [Cardano.set_ne _ _ he] at hb
        exact hb
    | block b =>
      have hp := hci.pre c
      rw [hci.plan, got, Cardano.set_eq, asked, net] at hp
      obtain ⟨⟨n, hn, hbn⟩, hfeed⟩ := h.follows hD hN (by omega) hp
      refine ⟨hfeed, fun v hv => ?_, fun c' b' hb' => ?_⟩
      · rcases List.mem_cons.1 hv with rfl | hv
        · exact ⟨n, hn, b, hbn, rfl⟩
        · exact h.sub v hv
      · rw [got] at hb'
        by_cases he : c' = c
        · subst he
          rw [Cardano.set_eq] at hb'
          rcases List.mem_append.1 hb' with hb' | hb'
          · exact List.mem_cons_of_mem _ (h.del c' b' hb')
          · have : b' = b := by simpa using hb'
            rw [this]
            exact List.mem_cons_self
        · rw [Cardano.set_ne _ _ he] at hb'
          exact List.mem_cons_of_mem _ (h.del c' b' hb')

/-- A fresh Cardano source with a consumer. -/
theorem SInv.fresh {N : List Net} {w : World Point} (hw : ∃ S, WInv B d r D.nf p0 Q w S)
    (hsub : From D pre.length N w.got) (hfeed : Feed B r w.got) :
    SInv cfg D B r pre base d p0 Q N ⟨.start, w, none⟩ where
  ci := CInv.start cfg
  wi := hw
  sub := hsub
  feed := hfeed
  nets := by simp [St.start]
  del := by simp [St.start]
  asked := by simp [St.start]
  pull := by simp [St.start]
  idle := by simp [St.start]
  req := by simp
  cleared := by simp [St.start]

theorem resultOf_some {s : Sys} {cs' : St} {o : Orders} {x : PullRes} (h : resultOf s cs' = some (o, x))
    {a : Cardano.Act} (ha : going a = true) (hs : s.cs.step cfg a = some cs') :
    s.pend = some o ∧ cs'.results = s.cs.results ++ [x] := by
  unfold resultOf at h
  split at h
  · cases h
  · rename_i o' hp
    obtain ⟨x', h1, h2⟩ := Option.map_eq_some_iff.1 h
    obtain ⟨rfl, rfl⟩ := Prod.mk.inj h2
    refine ⟨hp, ?_⟩
    cases effect ha hs with
    | quiet results => rw [results] at h1; simp at h1
    | sent _ _ _ results => rw [results] at h1; simp at h1
    | ended y _ results =>
      rw [results] at h1 ⊢
      simp at h1
      rw [h1]
    | event c y _ results =>
      rw [results] at h1 ⊢
      simp at h1
      rw [h1]

theorem resultOf_none {s : Sys} {cs' : St} (h : resultOf s cs' = none) {a : Cardano.Act} (ha : going a = true)
    (hs : s.cs.step cfg a = some cs') (hidle : s.pend = none ↔ s.cs.puller = .idle) : cs'.results = s.cs.results := by
  have hcase : cs'.results = s.cs.results ∨ s.cs.puller ≠ .idle ∧ ∃ y, cs'.results = s.cs.results ++ [y] := by
    cases effect ha hs with
    | quiet results => exact .inl results
    | sent _ _ _ results => exact .inl results
    | ended y _ results _ _ _ _ was => exact .inr ⟨was, y, results⟩
    | event c y _ results _ _ _ _ was => exact .inr ⟨was, _, results⟩
  rcases hcase with h1 | ⟨h1, y, h2⟩
  · exact h1
  · exfalso
    unfold resultOf at h
    split at h
    · rename_i hp
      exact h1 (hidle.1 hp)
    · rw [h2] at h
      simp at h

theorem SInv.step (hD : D.Ok) (hQ : Q → p0 = none) (h0 : StartsAt cfg base p0) {N : List Net} {s s' : Sys}
    (h : SInv cfg D B r pre base d p0 Q N s) {a : SAct} (ha : a.Ok Q) (hs : s.step cfg D a = some s')
    (hN : Nodes cfg D B r pre base d (N ++ taken [a])) : SInv cfg D B r pre base d p0 Q (N ++ taken [a]) s' := by
  have hmono0 : ∀ {N' : List Net} {s : Sys}, SInv cfg D B r pre base d p0 Q N s → SInv cfg D B r pre base d p0 Q (N ++ N') s := by
    intro N' s h
    exact ⟨h.ci, h.wi, h.sub.mono N', h.feed, fun c n hn => List.mem_append.2 (.inl (h.nets c n hn)), h.del,
      fun c hc => (h.asked c hc).mono N' (fun _ hv => hv),
      fun f hf => ⟨(h.pull f hf).1.mono N' (fun _ hv => hv), (h.pull f hf).2⟩, h.idle, h.req, h.cleared⟩
  have hmono := hmono0 (N' := taken [a]) h
  obtain ⟨S, hw⟩ := h.wi
  cases a with
  | pull o =>
    simp only [Sys.step] at hs
    split at hs
    · cases hs
    · rename_i hpend
      have hidle := h.idle.1 hpend
      split at hs
      · rename_i qs hq
        obtain ⟨cs', h1, rfl⟩ := Option.map_eq_some_iff.1 hs
        obtain ⟨h2, h3, h4⟩ := hmono.request hD hN h0 ha hq
        have hci := h.ci.step h1
        simp only [St.step, hidle] at h1
        obtain rfl := Option.some.inj h1
        refine ⟨hci, h.wi, hmono.sub, h.feed, hmono.nets, h.del, hmono.asked, ?_, ?_, ?_, h.cleared⟩
        · intro f hf
          simp only at hf
          have : f = qs := by
            split at hf
            · rcases hf with hf | hf <;> cases hf
              rfl
            · rcases hf with hf | hf <;> cases hf
              rfl
          rw [this]
          exact ⟨h2, h3, h4⟩
        · simp only [reduceCtorEq, false_iff]
          split <;> simp
        · intro o' ho'
          obtain rfl := Option.some.inj ho'
          exact ⟨ha, qs, hq⟩
      · rename_i hq
        obtain rfl := Option.some.inj hs
        have hgot : (s.w.step D.nf (.pull o (fun _ => .error ()))).got = s.w.got := by
          simp only [World.step, MSrc.pull]
          cases hreq : s.w.src.request D.nf o s.w.pos with
          | error e => rfl
          | ok y =>
            cases y with
            | inl b => rfl
            | inr ps => exact absurd hreq (hq ps)
        have hf := h.feed
        have hcp := hN.commonPrefix hmono.sub
        have hp := hN.points hD hmono.sub
        rw [← hgot] at hf hcp hp
        refine ⟨h.ci, hw.step hQ (a := .pull o (fun _ => .error ())) ha hf hcp hp, ?_, hf, hmono.nets, ?_, ?_, ?_, ?_, by simp, h.cleared⟩
        · show From _ _ _ (s.w.step D.nf (.pull o (fun _ => .error ()))).got
          rw [hgot]
          exact hmono.sub
        · show ∀ c b, _ → _ ∈ (s.w.step D.nf (.pull o (fun _ => .error ()))).got
          rw [hgot]
          exact h.del
        · show ∀ c < _, Req _ _ _ _ (s.w.step D.nf (.pull o (fun _ => .error ()))).got _
          rw [hgot]
          exact hmono.asked
        · intro f hf'
          have hf'' : s.cs.puller = .reading f ∨ s.cs.puller = .sending f := hf'
          rw [hidle] at hf''
          rcases hf'' with hf'' | hf'' <;> cases hf''
        · simp [hidle]
  | inner a =>
    simp only [Sys.step] at hs
    split at hs
    · rename_i hgo
      obtain ⟨cs', h1, hs⟩ := Option.map_eq_some_iff.1 hs
      cases hres : resultOf s cs' with
      | none =>
        rw [hres] at hs
        subst hs
        refine h.silent hgo h1 (fun n hn => ?_) (resultOf_none hres hgo h1 h.idle)
        subst hn
        simp [taken, takenBy]
      | some y =>
        obtain ⟨o, x⟩ := y
        rw [hres] at hs
        subst hs
        obtain ⟨h2, h3⟩ := resultOf_some hres hgo h1
        obtain ⟨ho, ps, hps⟩ := h.req o h2
        obtain ⟨_, k2, k3, k4, k5, k6, k7, k8, k9⟩ := hmono.answered hD hN hgo h1 h3 (ps := ps)
        have hgot : (s.w.step D.nf (.pull o (fun _ => reply D x))).got = _ :=
          World.step_pull_got (resp := fun _ => reply D x) hps
        rw [← hgot] at k7 k8 k9
        have hsub : ∀ v ∈ s.w.got, v ∈ (s.w.step D.nf (.pull o (fun _ => reply D x))).got := by
          intro v hv
          rw [hgot]
          exact List.mem_append.2 (.inr hv)
        refine ⟨h.ci.step h1, hw.step hQ (a := .pull o (fun _ => reply D x)) ho k7 (hN.commonPrefix k8) (hN.points hD k8),
          k8, k7, ?_, k9, ?_, ?_, by simp [k2], by simp, ?_⟩
        · show ∀ c n, cs'.net c = some n → _
          rw [k6]
          exact hmono.nets
        · show ∀ c < cs'.next, Req _ _ _ _ _ (cs'.asked c)
          rw [k3, k4]
          intro c hc
          have := (h.asked c hc).mono (taken [.inner a]) hsub
          exact this
        · show ∀ f, cs'.puller = _ ∨ cs'.puller = _ → _
          rw [k2]
          intro f hf
          rcases hf with hf | hf <;> cases hf
        · show ∀ c, cs'.cleared c = false
          rw [k5]
          exact h.cleared
    · cases hs
  | abandon =>
    simp only [Sys.step] at hs
    split at hs
    · cases hs
    · obtain ⟨cs', h1, rfl⟩ := Option.map_eq_some_iff.1 hs
      have hci := h.ci.abandon h1
      unfold St.abandon at h1
      split at h1
      · cases h1
      · obtain rfl := Option.some.inj h1
        exact ⟨hci, h.wi, hmono.sub, h.feed, hmono.nets, h.del, hmono.asked, by simp, by simp, by simp, h.cleared⟩
  | restart o =>
    simp only [Sys.step] at hs
    obtain rfl := Option.some.inj hs
    have hgot : (s.w.step D.nf (.restart o)).got = s.w.got := World.step_restart_got
    have hf := h.feed
    have hsub := hmono.sub
    rw [← hgot] at hf hsub
    exact SInv.fresh (hw.step hQ ha hf (hN.commonPrefix hsub) (hN.points hD hsub)) hsub hf
  | die a k o' =>
    simp only [Sys.step] at hs
    split at hs
    · rename_i hgo
      obtain ⟨cs', h1, hs⟩ := Option.bind_eq_some_iff.1 hs
      obtain ⟨⟨o, x⟩, hres, rfl⟩ := Option.map_eq_some_iff.1 hs
      obtain ⟨h2, h3⟩ := resultOf_some hres hgo h1
      obtain ⟨ho, ps, hps⟩ := h.req o h2
      obtain ⟨_, k2, k3, k4, k5, k6, k7, k8, k9⟩ := hmono.answered hD hN hgo h1 h3 (ps := ps)
      have hgot : (s.w.step D.nf (.crash o (fun _ => reply D x) k o')).got = _ :=
        World.step_crash_got (resp := fun _ => reply D x) hps
      rw [← hgot] at k7 k8
      exact SInv.fresh (hw.step hQ (a := .crash o (fun _ => reply D x) k o') ⟨ha.1, ho, ha.2⟩ k7 (hN.commonPrefix k8)
        (hN.points hD k8)) k8 k7
    · cases hs

theorem taken_append (as bs : List SAct) : taken (as ++ bs) = taken as ++ taken bs := List.flatMap_append

theorem SInv.run (hD : D.Ok) (hQ : Q → p0 = none) (h0 : StartsAt cfg base p0) : ∀ {as : List SAct} {N : List Net} {s s' : Sys},
    SInv cfg D B r pre base d p0 Q N s → (∀ a ∈ as, a.Ok Q) → s.run cfg D as = some s' →
    Nodes cfg D B r pre base d (N ++ taken as) → SInv cfg D B r pre base d p0 Q (N ++ taken as) s'
  | [], N, s, s', h, _, hr, _ => by
    obtain rfl := Option.some.inj hr
    simpa [taken] using h
  | a :: as, N, s, s', h, ha, hr, hN => by
    rw [Sys.run] at hr
    cases hs : s.step cfg D a with
    | none => rw [hs] at hr; cases hr
    | some s1 =>
      rw [hs] at hr
      have e : N ++ taken (a :: as) = (N ++ taken [a]) ++ taken as := by
        rw [List.append_assoc, ← taken_append]
        rfl
      rw [e] at hN ⊢
      exact SInv.run hD hQ h0 (h.step hD hQ h0 (ha a (by simp)) hs hN.left)
        (fun a' ha' => ha a' (List.mem_cons_of_mem _ ha')) hr hN

end Verif.Sources.Confirmed
