import Verif.Sources.Confirmed
import Verif.Sources.CardanoLemmas
import Verif.Sources.MultiWorld

/-!
# What the node sends to the multiverse source
-/

namespace Verif.Sources.Confirmed

open Verif.Multiverse
open Verif.Sources.Cardano (Point NBlock Net Out PullRes St Config handle blockFetch readBlocks parseAll newer CInv planOf)

/-- What is assumed of decoding: the position after a block is its point, and blocks with the same point have the same
identifier. -/
structure Decoder.Ok (D : Decoder) : Prop where
  point : ∀ x, D.nf (D.view x) = some x.point
  id : ∀ x y, x.point = y.point → (D.view x).id = (D.view y).id

/-- The blocks of the node's chain after the first `k`. -/
def after (k : Nat) (n : Net) : List NBlock := n.chain.drop k

/-- The node during a request. Its chain begins with `pre`, which does not change; what follows is a chain of blocks of
the tree `B` that begins with `r`. No block has the same point as another, and all can be converted (or cannot be
decoded at all, which stops the handler). -/
structure NodeOk (cfg : Config) (D : Decoder) (B : Key → Block) (r : Key) (pre : List NBlock) (n : Net) : Prop where
  common : pre <+: n.chain
  nodup : (n.chain.map NBlock.point).Nodup
  parsed : ∀ b ∈ n.chain, b.parsed ≠ .error
  genesis : ∀ b ∈ n.chain, b.point ≠ .header 0 cfg.genesisParent
  first : ∀ x l, after pre.length n = x :: l → (D.view x).id = r
  linked : ∀ l1 x y l2, after pre.length n = l1 ++ x :: y :: l2 →
    (D.view y).parent = (D.view x).id ∧ (D.view y).number = (D.view x).number + 1
  block : ∀ x ∈ after pre.length n,
    D.view x = B (D.view x).id ∧ (D.view x).number < 2 ^ 64 ∧ (D.view x).id ≠ (B r).parent

/-- Where following begins: at the last block of `pre`; or at the parent of the genesis block, if `pre` is empty and the
chain begins with the genesis block. -/
def BaseOk (cfg : Config) (pre : List NBlock) (base : Point) (n : Net) : Prop :=
  (∃ b0, pre.getLast? = some b0 ∧ base = b0.point) ∨
  (base = .header 0 cfg.genesisParent ∧ pre = [] ∧ cfg.genesis ≠ .origin ∧
    ∀ x l, n.chain = x :: l → x.point = cfg.genesis)

variable {cfg : Config} {D : Decoder} {B : Key → Block} {r : Key} {pre : List NBlock} {base : Point} {n : Net}

theorem NodeOk.chain (h : NodeOk cfg D B r pre n) : n.chain = pre ++ after pre.length n := by
  obtain ⟨l, hl⟩ := h.common
  unfold after
  rw [← hl]
  simp

theorem parseAll_noError : ∀ {l : List NBlock}, (∀ b ∈ l, b.parsed ≠ .error) →
    ∃ l', l' <+: l ∧ (parseAll l).1 = l'.map Out.block
  | [], _ => ⟨[], List.prefix_rfl, rfl⟩
  | b :: l, h => by
    obtain ⟨l', h1, h2⟩ := parseAll_noError (fun x hx => h x (List.mem_cons_of_mem _ hx))
    have hb := h b (by simp)
    rw [parseAll]
    cases hp : b.parsed with
    | ok => exact ⟨b :: l', List.cons_prefix_cons.2 ⟨rfl, h1⟩, by simp [h2]⟩
    | error => exact absurd hp hb
    | panic => exact ⟨[], List.nil_prefix, rfl⟩

/-- The blocks from a block of the chain on. -/
theorem blocksFrom_split (hnd : (n.chain.map NBlock.point).Nodup) {l1 l2 : List NBlock} {b : NBlock}
    (he : n.chain = l1 ++ b :: l2) : n.blocksFrom b.point = b :: l2 := by
  rw [he, List.map_append, List.map_cons, List.nodup_append] at hnd
  show n.chain.dropWhile (fun x => decide (x.point ≠ b.point)) = _
  rw [he, List.dropWhile_append_of_pos, List.dropWhile_cons_of_neg (by simp)]
  intro x hx
  have := hnd.2.2 x.point (List.mem_map_of_mem hx) b.point (by simp)
  simpa using this

theorem on_iff {p : Point} : n.on p = true ↔ p = .origin ∨ ∃ b ∈ n.chain, b.point = p := by
  cases p with
  | origin => simp [Net.on]
  | header a b => simp [Net.on]

/-- A position that is requested: where following began, or the point of a block in `G`. -/
def Req (D : Decoder) (base : Point) (k : Nat) (N : List Net) (G : List Block) (f : List Point) : Prop :=
  ∀ p ∈ f, p = base ∨ ∃ n' ∈ N, ∃ u ∈ after k n', D.view u ∈ G ∧ u.point = p

/-- The block of the chain at a requested point. -/
theorem NodeOk.found (hD : D.Ok) (h : NodeOk cfg D B r pre n) {n' : Net} (h' : NodeOk cfg D B r pre n') {u x : NBlock}
    (hu : u ∈ after pre.length n') (hx : x ∈ n.chain) (he : x.point = u.point) :
    x ∈ after pre.length n ∧ D.view x = D.view u := by
  have hxa : x ∈ after pre.length n := by
    rw [h.chain] at hx
    rcases List.mem_append.1 hx with hx | hx
    · exfalso
      have hnd := h'.nodup
      rw [h'.chain, List.map_append, List.nodup_append] at hnd
      exact hnd.2.2 x.point (List.mem_map_of_mem hx) u.point (List.mem_map_of_mem hu) he
    · exact hx
  refine ⟨hxa, ?_⟩
  exact (h.block x hxa).1.trans ((congrArg B (hD.id x u he)).trans (h'.block u hu).1.symm)

/-- The blocks after a requested point of the chain. -/
theorem found_split (hD : D.Ok) (h : NodeOk cfg D B r pre n) (hb : BaseOk cfg pre base n) {N : List Net}
    (hN : ∀ n' ∈ N, NodeOk cfg D B r pre n') {G : List Block} {f : List Point} (hf : Req D base pre.length N G f)
    {p : Point} (hpf : p ∈ f) (hon : p = .origin ∨ ∃ b ∈ n.chain, b.point = p) :
    ∃ l1 l2, (n.blocksFrom p).drop 1 = l2 ∧ after pre.length n = l1 ++ l2 ∧
      (l1 = [] ∧ base ∈ f ∨ ∃ u, l1.getLast? = some u ∧ D.view u ∈ G) := by
  rcases hf p hpf with h1 | ⟨n', hn', u, hu, hG, h1⟩
  · rcases hb with ⟨b0, hb0, hbb⟩ | ⟨hbb, hpre, _, _⟩
    · obtain ⟨l, hl⟩ := List.getLast?_eq_some_iff.1 hb0
      refine ⟨[], after pre.length n, ?_, rfl, .inl ⟨rfl, by rw [← h1]; exact hpf⟩⟩
      have : n.chain = l ++ b0 :: after pre.length n := by
        refine h.chain.trans ?_
        conv_lhs => rw [hl, List.append_assoc]
        rw [← hl]
        rfl
      rw [h1, hbb, blocksFrom_split h.nodup this]
      rfl
    · exfalso
      rcases hon with hon | ⟨x, hx, hxp⟩
      · rw [h1, hbb] at hon
        cases hon
      · exact h.genesis x hx (by rw [hxp, h1, hbb])
  · rcases hon with hon | ⟨x, hx, hxp⟩
    · rw [← h1] at hon
      cases hon
    · obtain ⟨h2, h3⟩ := h.found hD (hN n' hn') hu hx (by rw [hxp, h1])
      obtain ⟨l, l2, h4⟩ := List.append_of_mem h2
      have hch : n.chain = (pre ++ l) ++ x :: l2 := by
        conv_lhs => rw [h.chain, h4]
        simp
      refine ⟨l ++ [x], l2, ?_, by rw [h4]; simp, .inr ⟨x, by simp, by rw [h3]; exact hG⟩⟩
      rw [← hxp, blocksFrom_split h.nodup hch]
      rfl

/-- The segment of the chain that is sent for a request. -/
theorem handle_seg (hD : D.Ok) (h : NodeOk cfg D B r pre n) (hb : BaseOk cfg pre base n) {N : List Net}
    (hN : ∀ n' ∈ N, NodeOk cfg D B r pre n') {G : List Block} {f : List Point} (hf : Req D base pre.length N G f) :
    ∃ tips l1 seg l2, (handle cfg n f).1 = tips ++ seg.map Out.block ∧ (∀ o ∈ tips, ∃ p, o = .tip p) ∧
      after pre.length n = l1 ++ seg ++ l2 ∧ (seg = [] ∨ l1 = [] ∧ base ∈ f ∨ ∃ u, l1.getLast? = some u ∧ D.view u ∈ G) := by
  have hnil : ∀ {x : List Out}, (∀ o ∈ x, ∃ p, o = Out.tip p) →
      ∃ tips l1 seg l2, x = tips ++ seg.map Out.block ∧ (∀ o ∈ tips, ∃ p, o = .tip p) ∧
      after pre.length n = l1 ++ seg ++ l2 ∧ (seg = [] ∨ l1 = [] ∧ base ∈ f ∨ ∃ u, l1.getLast? = some u ∧ D.view u ∈ G) := by
    intro x hx
    exact ⟨x, [], [], after pre.length n, by simp, hx, rfl, .inl rfl⟩
  have htips : ∀ o ∈ (if n.tipDue then [Out.tip n.tip] else []), ∃ p, o = Out.tip p := by
    intro o ho
    split at ho
    · exact ⟨_, List.mem_singleton.1 ho⟩
    · cases ho
  -- the blocks after the point found
  have key : ∀ (g : List Point) (ig : Bool) (p : Point), (∃ l1 l2, (if ig then (n.blocksFrom p).drop 1 else n.blocksFrom p) = l2 ∧
        after pre.length n = l1 ++ l2 ∧ (l1 = [] ∧ base ∈ f ∨ ∃ u, l1.getLast? = some u ∧ D.view u ∈ G)) →
      (g.insertionSort newer).find? n.on = some p →
      ∃ tips l1 seg l2, (blockFetch cfg n g ig).1 = tips ++ seg.map Out.block ∧ (∀ o ∈ tips, ∃ p, o = .tip p) ∧
      after pre.length n = l1 ++ seg ++ l2 ∧ (seg = [] ∨ l1 = [] ∧ base ∈ f ∨ ∃ u, l1.getLast? = some u ∧ D.view u ∈ G) := by
    rintro g ig p ⟨l1, l2, h1, h2, h3⟩ hfind
    unfold blockFetch
    rw [hfind]
    split
    · split
      · dsimp only
        split
        · exact hnil (by simp)
        · split
          · exact hnil htips
          · exact hnil htips
          · have hpre : ∃ l3, l3 <+: l2 ∧ (readBlocks ig n.cut (n.blocksFrom p)).1 = l3.map Out.block := by
              obtain ⟨m, hm⟩ : ∃ m, readBlocks ig n.cut (n.blocksFrom p) =
                  ((parseAll (if ig then ((n.blocksFrom p).take m).drop 1 else (n.blocksFrom p).take m)).1,
                    (readBlocks ig n.cut (n.blocksFrom p)).2) := by
                cases n.cut with
                | none => exact ⟨(n.blocksFrom p).length, by rw [List.take_length]; rfl⟩
                | some m => exact ⟨m, rfl⟩
              have hin : (if ig then ((n.blocksFrom p).take m).drop 1 else (n.blocksFrom p).take m) <+: l2 := by
                rw [← h1]
                cases ig
                · exact List.take_prefix _ _
                · simp only [if_true]
                  rw [List.drop_take]
                  exact List.take_prefix _ _
              obtain ⟨l3, h4, h5⟩ := parseAll_noError (l := if ig then ((n.blocksFrom p).take m).drop 1
                  else (n.blocksFrom p).take m) (by
                intro b hb
                refine h.parsed b ?_
                rw [h.chain, h2]
                have := hin.subset hb
                simp [this])
              refine ⟨l3, h4.trans hin, ?_⟩
              rw [hm]
              exact h5
            obtain ⟨l3, ⟨l4, h4⟩, h5⟩ := hpre
            refine ⟨_, l1, l3, l4, by rw [h5], htips, ?_, .inr h3⟩
            rw [h2, ← h4, List.append_assoc]
      · exact hnil (by simp)
    · exact hnil (by simp)
  have hnone : ∀ (g : List Point) (ig : Bool), (g.insertionSort newer).find? n.on = none →
      (blockFetch cfg n g ig).1 = [] := by
    intro g ig hfind
    unfold blockFetch
    rw [hfind]
    split
    · split <;> rfl
    · rfl
  unfold handle
  split
  · rename_i hfe
    -- the request for the genesis block's parent
    cases hfind : (List.insertionSort newer [cfg.genesis]).find? n.on with
    | none => rw [hnone _ _ hfind]; exact hnil (by simp)
    | some p =>
      have hp : p = cfg.genesis := by
        have := List.mem_of_find?_eq_some hfind
        simpa using this
      refine key _ _ p ?_ hfind
      have hbase : base = .header 0 cfg.genesisParent := by
        rcases hf (.header 0 cfg.genesisParent) (by rw [hfe]; simp) with h1 | ⟨n', hn', u, hu, _, h1⟩
        · exact h1.symm
        · exfalso
          have h2 := hN n' hn'
          exact h2.genesis u (by rw [h2.chain]; exact List.mem_append.2 (.inr hu)) h1
      rcases hb with ⟨b0, hb0, hbb⟩ | ⟨_, hpre, hgen, hfirst⟩
      · exfalso
        rw [hbase] at hbb
        exact h.genesis b0 (by rw [h.chain]; exact List.mem_append.2 (.inl (List.mem_of_getLast? hb0))) hbb.symm
      · refine ⟨[], after pre.length n, ?_, rfl, .inl ⟨rfl, by rw [hbase, hfe]; simp⟩⟩
        have hch : after pre.length n = n.chain := by rw [hpre]; rfl
        rw [hch]
        simp only [Bool.false_eq_true, if_false]
        cases hc : n.chain with
        | nil =>
          subst hp
          have hon := List.find?_some hfind
          rw [on_iff, hc] at hon
          rcases hon with hon | ⟨_, hx, _⟩
          · exact absurd hon hgen
          · cases hx
        | cons x l =>
          rw [hp, ← hfirst x l hc]
          exact blocksFrom_split h.nodup (l1 := []) hc
  · cases hfind : (f.insertionSort newer).find? n.on with
    | none => rw [hnone _ _ hfind]; exact hnil (by simp)
    | some p =>
      have hpf : p ∈ f := (List.mem_insertionSort newer).1 (List.mem_of_find?_eq_some hfind)
      have hon := on_iff.1 (List.find?_some hfind)
      refine key _ _ p ?_ hfind
      simp only [if_true]
      exact found_split hD h hb hN hf hpf hon

/-- If a requested point is on the chain of a node that answers, its last block is sent or known. -/
theorem handle_all (hD : D.Ok) (h : NodeOk cfg D B r pre n) (hb : BaseOk cfg pre base n) {N : List Net}
    (hN : ∀ n' ∈ N, NodeOk cfg D B r pre n') {G : List Block} {f : List Point} (hf : Req D base pre.length N G f)
    (hi : n.intersects = true) (hr : n.range = .value ()) (hc : n.cut = none) (hp : ∀ b ∈ n.chain, b.parsed = .ok)
    (hv : ∀ p ∈ f, cfg.validPoint p = true) {q : Point} (hq : q ∈ f) (hqc : ∃ b ∈ n.chain, b.point = q) {t : NBlock}
    (ht : (after pre.length n).getLast? = some t) : D.view t ∈ G ∨ .block t ∈ (handle cfg n f).1 := by
  have hne : f ≠ [.header 0 cfg.genesisParent] := by
    rintro rfl
    obtain ⟨b, hb1, hb2⟩ := hqc
    exact h.genesis b hb1 (by rw [hb2]; exact List.mem_singleton.1 hq)
  have htm : t ∈ after pre.length n := List.mem_of_getLast? ht
  have htip : n.tip = t.point := by
    unfold Net.tip
    rw [h.chain, List.getLast?_append, ht]
    rfl
  have hall : f.all cfg.validPoint = true := List.all_eq_true.2 hv
  unfold handle blockFetch
  rw [if_neg hne, if_pos hall, if_pos hi]
  cases hfind : (f.insertionSort newer).find? n.on with
  | none =>
    have := List.find?_eq_none.1 hfind q ((List.mem_insertionSort newer).2 hq)
    exact absurd (on_iff.2 (.inr hqc)) this
  | some p =>
    have hpf : p ∈ f := (List.mem_insertionSort newer).1 (List.mem_of_find?_eq_some hfind)
    have hon := on_iff.1 (List.find?_some hfind)
    dsimp only
    split
    · rename_i hpt
      left
      rw [htip] at hpt
      rcases hf p hpf with h1 | ⟨n', hn', u, hu, hG, h1⟩
      · exfalso
        have htc : t ∈ n.chain := by rw [h.chain]; exact List.mem_append.2 (.inr htm)
        rcases hb with ⟨b0, hb0, hbb⟩ | ⟨hbb, _⟩
        · have hnd := h.nodup
          rw [h.chain, List.map_append, List.nodup_append] at hnd
          exact hnd.2.2 b0.point (List.mem_map_of_mem (List.mem_of_getLast? hb0)) t.point (List.mem_map_of_mem htm)
            (by rw [hpt, h1, hbb])
        · exact h.genesis t htc (by rw [hpt, h1, hbb])
      · obtain ⟨_, h3⟩ := h.found hD (hN n' hn') hu (x := t) (by rw [h.chain]; exact List.mem_append.2 (.inr htm))
          (by rw [hpt, h1])
        rw [h3]
        exact hG
    · obtain ⟨l1, l2, h1, h2, h3⟩ := found_split hD h hb hN hf hpf hon
      rw [hr]
      dsimp only
      have h4 : (parseAll ((n.blocksFrom p).drop 1)).1 = ((n.blocksFrom p).drop 1).map Out.block := by
        have : ∀ {l : List NBlock}, (∀ x ∈ l, x.parsed = .ok) → (parseAll l).1 = l.map Out.block := by
          intro l hl
          induction l with
          | nil => rfl
          | cons a l ih =>
            rw [parseAll, hl a (by simp)]
            simp [ih (fun x hx => hl x (List.mem_cons_of_mem _ hx))]
        refine this (fun x hx => hp x ?_)
        rw [h.chain, h2]
        rw [h1] at hx
        simp [hx]
      by_cases hl2 : l2 = []
      · left
        rw [hl2, List.append_nil] at h2
        rw [h2] at ht
        rcases h3 with ⟨h3, _⟩ | ⟨u, h3, h5⟩
        · rw [h3] at ht
          cases ht
        · rw [ht] at h3
          rw [Option.some.inj h3]
          exact h5
      · right
        refine List.mem_append.2 (.inr ?_)
        simp only [readBlocks, hc, if_true]
        rw [h4, h1]
        refine List.mem_map_of_mem ?_
        rw [h2, List.getLast?_append] at ht
        cases hl : l2.getLast? with
        | none => exact absurd (List.getLast?_eq_none_iff.1 hl) hl2
        | some y =>
          rw [hl] at ht
          have : y = t := Option.some.inj ht
          rw [← this]
          exact List.mem_of_getLast? hl

theorem parseAll_length : ∀ l : List NBlock, (parseAll l).1.length ≤ l.length
  | [] => le_refl _
  | b :: l => by
    have := parseAll_length l
    rw [parseAll]
    cases b.parsed <;> simp <;> omega

/-- How much is sent at most. -/
theorem handle_length (cfg : Config) (n : Net) (f : List Point) :
    (handle cfg n f).1.length ≤ 1 + n.chain.length + n.originRange.length := by
  have hfrom : ∀ p, (n.blocksFrom p).length ≤ n.chain.length + n.originRange.length := by
    intro p
    cases p with
    | origin => simp [Net.blocksFrom]
    | header a b =>
      have := (List.dropWhile_suffix (l := n.chain) (fun x => decide (x.point ≠ .header a b))).length_le
      simp only [Net.blocksFrom]
      omega
  have key : ∀ g ig, (blockFetch cfg n g ig).1.length ≤ 1 + n.chain.length + n.originRange.length := by
    intro g ig
    have htip : (if n.tipDue then [Out.tip n.tip] else []).length ≤ 1 := by split <;> simp
    unfold blockFetch
    split
    · split
      · split
        · simp
        · rename_i p _
          split
          · simp
          · dsimp only
            split
            · dsimp only; omega
            · dsimp only; omega
            · have hf := hfrom p
              have : (readBlocks ig n.cut (n.blocksFrom p)).1.length ≤ (n.blocksFrom p).length := by
                unfold readBlocks
                refine (parseAll_length _).trans ?_
                cases n.cut <;> cases ig <;> simp
              rw [List.length_append]
              omega
      · simp
    · simp
  unfold handle
  split <;> exact key _ _

end Verif.Sources.Confirmed
