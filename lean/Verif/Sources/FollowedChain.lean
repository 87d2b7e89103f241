import Verif.Sources.FollowedLive

/-!
# The chain of a consumer of the fork handling source
-/

namespace Verif.Sources.Followed

open Verif.Multiverse
open Verif.Sources.Cardano (Point NBlock Net Out PullRes St Config handle CInv planOf evOf)
open Verif.Sources.Confirmed (Decoder reply going NodeOk Nodes BaseOk after Agree From Effect effect Req)

variable {cfg : Config} {D : Decoder} {B : Key → Block} {r : Key} {pre : List NBlock} {base : Point} {n : Net} {d : Nat}

theorem suffix_take {α : Type} {L c : List α} {p : α} (h : c <:+ L.reverse ++ [p]) (hc : c ≠ []) :
    c = (L.take (c.length - 1)).reverse ++ [p] ∧ c.length - 1 ≤ L.length := by
  have h1 : c.reverse <+: p :: L := by
    have := List.reverse_prefix.2 h
    simpa using this
  have h2 := List.prefix_iff_eq_take.1 h1
  have hl := h1.length_le
  rw [List.length_reverse] at h2 hl
  have hpos : 0 < c.length := List.length_pos_of_ne_nil hc
  obtain ⟨k, hk⟩ : ∃ k, c.length = k + 1 := ⟨c.length - 1, by omega⟩
  rw [hk] at h2 hl ⊢
  rw [List.take_succ_cons] at h2
  refine ⟨?_, by simpa using hl⟩
  rw [← List.reverse_reverse c, h2]
  simp

/-- The consumer's chain: the part of the node's chain up to a block, from which the queued blocks lead to the one delivered
last. -/
theorem FSInv.chain_at {N : List Net} {s : Sys} (h : FSInv cfg D B r pre base d N s)
    {v : Block} (hv : lastNew s.w.got = some v) {nv : Net} (hn : NodeOk cfg D B r pre nv) {m : Nat} {a : NBlock}
    (ha : (after pre.length nv)[m]? = some a) (hav : v = D.view a) :
    ∃ j, j + s.w.src.events.length = m + 1 ∧
      s.w.chain = some ((((after pre.length nv).take j).map (fun x => (D.view x).id)).reverse ++ [(B r).parent]) := by
  obtain ⟨S, hw⟩ := h.wi
  obtain ⟨c, hc, hcc⟩ := hw.chain
  have hlast := hw.last
  rw [hv, hav] at hlast
  rw [hlast, Option.map_some, chainTo_ids hn ha] at hcc
  obtain ⟨h1, h2⟩ := consumeAll_length hw.queue hcc
  have hs := consumeAll_blocks hw.queue hcc
  have hne : c ≠ [] := by
    intro he
    have := h2 he
    simp at this
  obtain ⟨h3, h4⟩ := suffix_take hs hne
  have hlt : m < (after pre.length nv).length := (List.getElem?_eq_some_iff.1 ha).1
  have hpos : 0 < c.length := List.length_pos_of_ne_nil hne
  simp only [List.length_append, List.length_reverse, List.length_map, List.length_take, List.length_cons,
    List.length_nil] at h1 h4
  have hj : c.length - 1 ≤ m + 1 := by omega
  refine ⟨c.length - 1, by omega, ?_⟩
  rw [← List.map_take, List.take_take, min_eq_left hj] at h3
  rw [hc]
  exact congrArg some h3

theorem FSInv.chain_nil {N : List Net} {s : Sys} (h : FSInv cfg D B r pre base d N s) (hg : s.w.got = []) :
    s.w.chain = some [(B r).parent] := by
  obtain ⟨S, hw⟩ := h.wi
  obtain ⟨c, hc, hcc⟩ := hw.chain
  have hl := hw.last
  rw [hg] at hl
  rw [hw.idle hg, hl] at hcc
  rw [hc]
  exact hcc

/-- How far back the queued blocks begin. -/
theorem FSInv.back {N : List Net} {s : Sys} (h : FSInv cfg D B r pre base d N s) (hN : Nodes cfg D B r pre base d N)
    {l : List Block} {v : Block} {G : List Block} (he : s.w.got = l ++ v :: G) (hv : v ∉ G) (hl : ∀ x ∈ l, x ∈ v :: G) :
    ∀ x ∈ G, x.number + s.w.src.events.length ≤ v.number + d := by
  obtain ⟨S, hw⟩ := h.wi
  intro x hx
  cases hu : lastNew G with
  | none =>
    rw [lastNew_none hu] at hx
    cases hx
  | some u =>
    have hs := h.sent
    have hf := h.feed
    rw [he] at hs hf
    obtain ⟨i, j, h1, h2, h3, h4, h5⟩ := fork_at hN hs.append hf.append hv hu
    have h6 := hw.roll l v G he hv hl u hu i j h1 h2 h3 h4
    have h7 := h5 x hx
    omega

theorem Sys.step_got (cfg : Config) (pt : Key → Option Point) {s s' : Sys} {a : Act} (hs : s.step cfg pt D a = some s') :
    ∃ l, s'.w.got = l ++ s.w.got := by
  cases a with
  | pull o =>
    simp only [Sys.step] at hs
    split at hs
    · cases hs
    · split at hs
      · obtain ⟨cs', _, rfl⟩ := Option.map_eq_some_iff.1 hs
        exact ⟨[], rfl⟩
      · obtain rfl := Option.some.inj hs
        exact fstep_got pt D.nf s.w _
  | inner a =>
    simp only [Sys.step] at hs
    split at hs
    · obtain ⟨cs', _, rfl⟩ := Option.map_eq_some_iff.1 hs
      cases resultOf s cs' with
      | none => exact ⟨[], rfl⟩
      | some y => exact fstep_got pt D.nf s.w _
    · cases hs
  | abandon =>
    simp only [Sys.step] at hs
    split at hs
    · cases hs
    · obtain ⟨cs', h1, rfl⟩ := Option.map_eq_some_iff.1 hs
      exact ⟨[], rfl⟩
  | restart o it =>
    obtain rfl := Option.some.inj hs
    exact fstep_got pt D.nf s.w _

theorem Sys.run_got (cfg : Config) (pt : Key → Option Point) : ∀ {as : List Act} {s s' : Sys}, s.run cfg pt D as = some s' →
    ∃ l, s'.w.got = l ++ s.w.got
  | [], s, s', hr => by
    obtain rfl := Option.some.inj hr
    exact ⟨[], rfl⟩
  | a :: as, s, s', hr => by
    rw [Sys.run] at hr
    cases hs : s.step cfg pt D a with
    | none => rw [hs] at hr; cases hr
    | some s1 =>
      rw [hs] at hr
      obtain ⟨l, hl⟩ := Sys.step_got cfg pt hs
      obtain ⟨l', hl'⟩ := Sys.run_got cfg pt hr
      exact ⟨l' ++ l, by rw [hl', hl, List.append_assoc]⟩

theorem lastNew_append : ∀ {l : List Block} {v : Block} {G : List Block}, v ∉ G → (∀ x ∈ l, x ∈ v :: G) →
    lastNew (l ++ v :: G) = some v
  | [], v, G, h, _ => by rw [List.nil_append, lastNew, if_neg h]
  | x :: l, v, G, h, hl => by
    rw [List.cons_append, lastNew, if_pos (List.mem_append.2 (.inr (hl x (by simp)))),
      lastNew_append h (fun y hy => hl y (List.mem_cons_of_mem _ hy))]

/-- If the last new block was there before, nothing else is new. -/
theorem lastNew_same : ∀ {l G : List Block} {u : Block}, lastNew (l ++ G) = some u → u ∈ G → ∀ x ∈ l, x ∈ G
  | [], _, _, _, _, x, hx => by cases hx
  | y :: l, G, u, h, hu, x, hx => by
    rw [List.cons_append, lastNew] at h
    split at h
    · rename_i hy
      have ih := lastNew_same h hu
      rcases List.mem_cons.1 hx with rfl | hx
      · rcases List.mem_append.1 hy with hy | hy
        · exact ih x hy
        · exact hy
      · exact ih x hx
    · rename_i hy
      rw [Option.some.inj h] at hy
      exact absurd (List.mem_append.2 (.inr hu)) hy

/-- Without a new block the consumer's chain only grows. -/
theorem FSInv.grows (hD : D.Ok) {N : List Net} {s s' : Sys} (h : FSInv cfg D B r pre base d N s) {a : Act} (ha : a.Ok)
    (hq : ∀ o it, a = .restart o it → Sources.Quiet s.w)
    (hs : s.step cfg (pointOf B D.nf r base) D a = some s') (hN : Nodes cfg D B r pre base d (N ++ taken [a]))
    (hl : lastNew s'.w.got = lastNew s.w.got) : s'.w.src.events.length ≤ s.w.src.events.length := by
  obtain ⟨S, hw⟩ := h.wi
  cases a with
  | pull o =>
    simp only [Sys.step] at hs
    split at hs
    · cases hs
    · split at hs
      · obtain ⟨cs', _, rfl⟩ := Option.map_eq_some_iff.1 hs
        exact le_refl _
      · rename_i hno
        obtain rfl := Option.some.inj hs
        show (s.w.step (pointOf B D.nf r base) D.nf (.pull o (fun _ => .error ()))).src.events.length ≤ _
        simp only [FWorld.step, FSrc.pull]
        cases hev : s.w.src.events with
        | cons e es => simp
        | nil =>
          cases hreq : s.w.src.request D.nf o (position (pointOf B D.nf r base) s.w.chain) with
          | error e => simp [hev]
          | ok ps => exact absurd hreq (hno ps hev)
  | inner a =>
    simp only [Sys.step] at hs
    split at hs
    · rename_i hgo
      obtain ⟨cs', h1, hs⟩ := Option.map_eq_some_iff.1 hs
      cases hres : resultOf s cs' with
      | none =>
        rw [hres] at hs
        subst hs
        exact le_refl _
      | some y =>
        obtain ⟨o, x⟩ := y
        rw [hres] at hs
        subst hs
        obtain ⟨h2, h3⟩ := result_some hres hgo h1
        obtain ⟨ho, he, ps, hps⟩ := h.req o h2
        have hgot := Followed.step_got he hps x
        show (s.w.step (pointOf B D.nf r base) D.nf (.pull o (fun _ => reply D x))).src.events.length ≤ _
        rw [hgot] at hl
        have hx : ∀ v ∈ answerBlock D x, v ∈ s.w.got := by
          intro v hv
          have hav : answerBlock D x = [v] := by
            unfold answerBlock at hv ⊢
            rw [Option.mem_toList] at hv
            rw [hv]
            rfl
          by_contra hvg
          rw [hav, List.singleton_append, lastNew, if_neg hvg] at hl
          exact hvg (lastNew_mem hl.symm)
        have hsh : Shallow B d r (answerBlock D x ++ s.w.got) := by
          have hi := h.step hD (a := .inner a) (s' := ⟨cs', s.w.step (pointOf B D.nf r base) D.nf (.pull o (fun _ => reply D x)), none⟩)
            ha hq (by simp only [Sys.step, hgo, if_true, h1, Option.map_some, hres]) hN
          have hsh' := hi.shallow
          rw [hgot] at hsh'
          exact hsh'
        rw [(FInv.repeat hw he hps hx hsh).2]
        simp
    · cases hs
  | abandon =>
    simp only [Sys.step] at hs
    split at hs
    · cases hs
    · obtain ⟨cs', h1, rfl⟩ := Option.map_eq_some_iff.1 hs
      exact le_refl _
  | restart o it =>
    obtain rfl := Option.some.inj hs
    have he := (hq o it rfl).1
    have := hw.restart ha.1 ha.2 h.feed (hq o it rfl)
    show (s.w.step (pointOf B D.nf r base) D.nf (.restart o it)).src.events.length ≤ _
    simp only [FWorld.step, reopenF]
    split
    · exact le_refl _
    · rename_i hx
      split at hx
      · cases hx
      · split at hx
        · cases hx
        · rename_i hnew
          obtain rfl := Except.ok.inj hx
          unfold FSrc.new at hnew
          cases hsel : MV.selectBest _ (fun _ => false) o.best s.w.src.depth 0 with
          | error e => rw [hsel] at hnew; cases hnew
          | ok y =>
            rw [hsel] at hnew
            rw [← Except.ok.inj hnew]
            exact Nat.zero_le _

/-- Without a new block the queue only shrinks. -/
theorem FSInv.queue_le (hD : D.Ok) : ∀ {as : List Act} {N : List Net} {s s' : Sys}, FSInv cfg D B r pre base d N s →
    (∀ a ∈ as, a.Ok) → QuietRestarts cfg (pointOf B D.nf r base) D s as → s.run cfg (pointOf B D.nf r base) D as = some s' →
    Nodes cfg D B r pre base d (N ++ taken as) → lastNew s'.w.got = lastNew s.w.got →
    s'.w.src.events.length ≤ s.w.src.events.length
  | [], N, s, s', h, _, _, hr, _, _ => by
    obtain rfl := Option.some.inj hr
    exact le_refl _
  | a :: as, N, s, s', h, ha, hq, hr, hN, hl => by
    rw [Sys.run] at hr
    cases hs : s.step cfg (pointOf B D.nf r base) D a with
    | none => rw [hs] at hr; cases hr
    | some s1 =>
      rw [hs] at hr
      have e : N ++ taken (a :: as) = (N ++ taken [a]) ++ taken as := by
        rw [List.append_assoc, ← taken_append]
        rfl
      rw [e] at hN
      have h1 := h.step hD (ha a (by simp)) hq.1 hs hN.left
      have hmid : lastNew s1.w.got = lastNew s.w.got := by
        obtain ⟨l1, hl1⟩ := Sys.step_got cfg _ hs
        obtain ⟨l2, hl2⟩ := Sys.run_got cfg _ hr
        rw [hl2, hl1] at hl
        rw [hl1]
        cases hu : lastNew s.w.got with
        | none =>
          rw [hu] at hl
          have := lastNew_none hl
          simp only [List.append_eq_nil_iff] at this
          rw [this.2.1, this.2.2]
          rfl
        | some u =>
          rw [hu] at hl
          obtain ⟨l, G, e1, e2, e3⟩ := lastNew_split hu
          have hk : ∀ x ∈ l2 ++ l1, x ∈ s.w.got := lastNew_same (by rw [List.append_assoc]; exact hl) (lastNew_mem hu)
          rw [e1] at hk ⊢
          rw [← List.append_assoc]
          refine lastNew_append e2 (fun x hx => ?_)
          rcases List.mem_append.1 hx with hx | hx
          · rcases List.mem_append.1 (hk x (List.mem_append.2 (.inr hx))) with h2 | h2
            · exact e3 x h2
            · exact h2
          · exact e3 x hx
      exact (FSInv.queue_le hD h1 (fun a' ha' => ha a' (List.mem_cons_of_mem _ ha')) (hq.2 s1 hs) hr hN (hl.trans hmid.symm)).trans
        (h.grows hD (ha a (by simp)) hq.1 hs hN.left hmid)

theorem drop_chain {α : Type} {L : List α} {p : α} {j d : Nat} (h : d ≤ j) (hj : j ≤ L.length) :
    ((L.take j).reverse ++ [p]).drop d = (L.take (j - d)).reverse ++ [p] := by
  rw [List.drop_append_of_le_length (by simp; omega), List.drop_reverse, List.take_take, List.length_take]
  congr 3
  omega

theorem chain_suffix {α : Type} {L : List α} {p : α} {i j : Nat} (h : i ≤ j) :
    (L.take i).reverse ++ [p] <:+ (L.take j).reverse ++ [p] := by
  obtain ⟨R, hR⟩ := List.take_prefix_take_left (l := L) h
  exact ⟨R.reverse, by rw [← hR]; simp⟩

theorem lastNew_old : ∀ {l G : List Block}, (∀ x ∈ l, x ∈ G) → lastNew (l ++ G) = lastNew G
  | [], _, _ => rfl
  | y :: l, G, h => by
    rw [List.cons_append, lastNew, if_pos (List.mem_append.2 (.inr (h y (by simp)))),
      lastNew_old (fun x hx => h x (List.mem_cons_of_mem _ hx))]

/-- A consumer's chain loses at most its last `d` blocks. -/
theorem FSInv.stable (hD : D.Ok) {as : List Act} {N : List Net} {s s' : Sys} (h : FSInv cfg D B r pre base d N s)
    (ha : ∀ a ∈ as, a.Ok) (hq : QuietRestarts cfg (pointOf B D.nf r base) D s as)
    (hr : s.run cfg (pointOf B D.nf r base) D as = some s') (hN : Nodes cfg D B r pre base d (N ++ taken as))
    {c c' : List Key} (hc : s.w.chain = some c) (hc' : s'.w.chain = some c') : c.drop d <:+ c' := by
  have h' := h.run hD ha hq hr hN
  obtain ⟨l2, hl2⟩ := Sys.run_got cfg _ hr
  have hpar : ∀ {v : Block}, lastNew s'.w.got = some v → ∃ nv ∈ N ++ taken as, ∃ (m : Nat) (a : NBlock), (after pre.length nv)[m]? = some a ∧
      v = D.view a := by
    intro v hv
    obtain ⟨nv, hn, x, hx, rfl⟩ := h'.sent.from v (lastNew_mem hv)
    obtain ⟨m, hm, rfl⟩ := List.getElem_of_mem hx
    exact ⟨nv, hn, m, _, List.getElem?_eq_getElem hm, rfl⟩
  cases hu : lastNew s.w.got with
  | none =>
    have hcn := h.chain_nil (lastNew_none hu)
    rw [hc] at hcn
    rw [Option.some.inj hcn]
    cases d with
    | succ d => simp
    | zero =>
      rw [List.drop_zero]
      cases hv : lastNew s'.w.got with
      | none =>
        have := h'.chain_nil (lastNew_none hv)
        rw [hc'] at this
        rw [Option.some.inj this]
        exact List.suffix_rfl
      | some v =>
        obtain ⟨nv, hn, m, a, h1, h2⟩ := hpar hv
        obtain ⟨j, _, h3⟩ := h'.chain_at hv (hN.ok nv hn) h1 h2
        rw [hc'] at h3
        rw [Option.some.inj h3]
        exact List.suffix_append _ _
  | some u =>
    cases hv : lastNew s'.w.got with
    | none =>
      have := lastNew_none hv
      rw [hl2] at this
      have hm := lastNew_mem hu
      rw [(List.append_eq_nil_iff.1 this).2] at hm
      cases hm
    | some v =>
      by_cases hvg : v ∈ s.w.got
      · have hsame : lastNew s'.w.got = lastNew s.w.got := by
          rw [hl2] at hv ⊢
          exact lastNew_old (lastNew_same hv hvg)
        have hle := h.queue_le hD ha hq hr hN hsame
        obtain ⟨nv, hn, m, a, h1, h2⟩ := hpar hv
        obtain ⟨j', e', h3⟩ := h'.chain_at hv (hN.ok nv hn) h1 h2
        obtain ⟨j, e, h4⟩ := h.chain_at (hsame ▸ hv) (hN.ok nv hn) h1 h2
        rw [hc'] at h3
        rw [hc] at h4
        rw [Option.some.inj h3, Option.some.inj h4, List.map_take, List.map_take]
        exact (List.drop_suffix _ _).trans (chain_suffix (by omega))
      · obtain ⟨l, G, e1, e2, e3⟩ := lastNew_split hv
        obtain ⟨a', hG⟩ : ∃ a', G = a' ++ s.w.got := by
          rw [hl2] at e1
          rcases List.append_eq_append_iff.1 e1 with ⟨x, k1, k2⟩ | ⟨x, k1, k2⟩
          · exact absurd (by rw [k2]; simp) hvg
          · cases x with
            | nil =>
              rw [List.nil_append] at k2
              exact absurd (by rw [← k2]; simp) hvg
            | cons y x => exact ⟨x, (List.cons.inj k2).2⟩
        have hback := h'.back hN e1 e2 e3
        have hsent := h'.sent
        rw [e1] at hsent
        obtain ⟨N1, n1, hpre, ⟨x, hx, rfl⟩, hs1⟩ := hsent.append
        rw [hG] at hs1 hback
        obtain ⟨nu, hnu, y, hy, rfl⟩ := hs1.append.from u (lastNew_mem hu)
        have hN1 : ∀ z ∈ N1 ++ [n1], z ∈ N ++ taken as := fun z hz => hpre.subset hz
        have hag : nu = n1 ∨ Agree d nu n1 := last_related (hN.agree.sublist hpre.sublist) hnu
        have hoku := hN.ok nu (hN1 nu hnu)
        have hok1 := hN.ok n1 (hN1 n1 (by simp))
        obtain ⟨mu, hmu, rfl⟩ := List.getElem_of_mem hy
        obtain ⟨m, hm, rfl⟩ := List.getElem_of_mem hx
        have ey := List.getElem?_eq_getElem hmu
        have ex := List.getElem?_eq_getElem hm
        have numy := hoku.number ey
        have numx := hok1.number ex
        obtain ⟨j', f', h3⟩ := h'.chain_at hv hok1 ex rfl
        obtain ⟨j, f, h4⟩ := h.chain_at hu hoku ey rfl
        have hb := hback _ (List.mem_append.2 (.inr (lastNew_mem hu)))
        rw [hc'] at h3
        rw [hc] at h4
        rw [Option.some.inj h3, Option.some.inj h4, List.map_take, List.map_take]
        by_cases hd : d ≤ j
        · rw [drop_chain hd (by rw [List.length_map]; omega)]
          have : (after pre.length nu).take (j - d) = (after pre.length n1).take (j - d) := by
            refine List.ext_getElem? (fun i => ?_)
            rw [List.getElem?_take, List.getElem?_take]
            split
            · exact (agree_after hag ey (by omega)).symm
            · rfl
          rw [← List.map_take, this, List.map_take]
          exact chain_suffix (by omega)
        · rw [List.drop_of_length_le (by simp; omega)]
          exact List.nil_suffix

/-! ### Requests -/

/-- All requests were for positions of delivered blocks, or the first position. -/
def Requests (D : Decoder) (base : Point) (k : Nat) (N : List Net) (s : Sys) : Prop :=
  ∀ c < s.cs.next, Req D base k N s.w.got (s.cs.asked c)

theorem req_mono {k : Nat} {N N' : List Net} {G G' : List Block} {f : List Point} (h : Req D base k N G f)
    (hN : ∀ x ∈ N, x ∈ N') (hG : ∀ x ∈ G, x ∈ G') : Req D base k N' G' f := by
  intro p hp
  rcases h p hp with h1 | ⟨n, hn, u, hu, h1, h2⟩
  · exact .inl h1
  · exact .inr ⟨n, hN n hn, u, hu, hG _ h1, h2⟩

theorem Asked.req {k : Nat} {N : List Net} {G : List Block} {f : List Point} (h : Asked D base k d N G f) :
    Req D base k N G f := by
  intro p hp
  rcases h p hp with ⟨h1, _⟩ | ⟨n, hn, u, hu, h1, h2, _⟩
  · exact .inl h1
  · exact .inr ⟨n, hn, u, hu, h1, h2⟩

theorem FSInv.requests_step {N : List Net} {s s' : Sys} (h : FSInv cfg D B r pre base d N s)
    (hreq : Requests D base pre.length N s) {a : Act} {pt : Key → Option Point} (hs : s.step cfg pt D a = some s') :
    Requests D base pre.length (N ++ taken [a]) s' := by
  have hgot : ∀ x ∈ s.w.got, x ∈ s'.w.got := by
    obtain ⟨l, hl⟩ := Sys.step_got cfg pt hs
    intro x hx
    rw [hl]
    exact List.mem_append.2 (.inr hx)
  have hNN : ∀ x ∈ N, x ∈ N ++ taken [a] := fun x hx => List.mem_append.2 (.inl hx)
  have same : s'.cs.next = s.cs.next → s'.cs.asked = s.cs.asked → Requests D base pre.length (N ++ taken [a]) s' := by
    intro h1 h2 c hc
    rw [h1] at hc
    rw [h2]
    exact req_mono (hreq c hc) hNN hgot
  cases a with
  | pull o =>
    simp only [Sys.step] at hs
    split at hs
    · cases hs
    · split at hs
      · obtain ⟨cs', h1, rfl⟩ := Option.map_eq_some_iff.1 hs
        simp only [St.step] at h1
        split at h1
        · obtain rfl := Option.some.inj h1
          exact same rfl rfl
        · cases h1
      · obtain rfl := Option.some.inj hs
        exact same rfl rfl
  | inner a =>
    simp only [Sys.step] at hs
    split at hs
    · rename_i hgo
      obtain ⟨cs', h1, hs⟩ := Option.map_eq_some_iff.1 hs
      have hcs : s'.cs = cs' := by
        rw [← hs]
        cases resultOf s cs' <;> rfl
      rw [hcs] at same
      cases effect hgo h1 with
      | quiet results got next asked => exact same next asked
      | event c o hc results got next asked => exact same next asked
      | ended x hx results got next asked => exact same next asked
      | sent f was puller results got next asked =>
        intro c hc
        rw [hcs, next] at hc
        rw [hcs, asked]
        by_cases he : c = s.cs.next
        · rw [he, Cardano.set_eq]
          obtain ⟨h2, o, _, hne⟩ := h.pull f (.inr was)
          rw [if_neg hne]
          exact req_mono h2.req hNN hgot
        · rw [Cardano.set_ne _ _ he]
          exact req_mono (hreq c (by omega)) hNN hgot
    · cases hs
  | abandon =>
    simp only [Sys.step] at hs
    split at hs
    · cases hs
    · obtain ⟨cs', h1, rfl⟩ := Option.map_eq_some_iff.1 hs
      unfold St.abandon at h1
      split at h1
      · cases h1
      · obtain rfl := Option.some.inj h1
        exact same rfl rfl
  | restart o it =>
    obtain rfl := Option.some.inj hs
    intro c hc
    exact absurd hc (Nat.not_lt_zero _)

theorem FSInv.requests (hD : D.Ok) : ∀ {as : List Act} {N : List Net} {s s' : Sys}, FSInv cfg D B r pre base d N s →
    Requests D base pre.length N s → (∀ a ∈ as, a.Ok) → QuietRestarts cfg (pointOf B D.nf r base) D s as →
    s.run cfg (pointOf B D.nf r base) D as = some s' →
    Nodes cfg D B r pre base d (N ++ taken as) → Requests D base pre.length (N ++ taken as) s'
  | [], N, s, s', _, h, _, _, hr, _ => by
    obtain rfl := Option.some.inj hr
    simpa [taken] using h
  | a :: as, N, s, s', h, hreq, ha, hq, hr, hN => by
    rw [Sys.run] at hr
    cases hs : s.step cfg (pointOf B D.nf r base) D a with
    | none => rw [hs] at hr; cases hr
    | some s1 =>
      rw [hs] at hr
      have e : N ++ taken (a :: as) = (N ++ taken [a]) ++ taken as := by
        rw [List.append_assoc, ← taken_append]
        rfl
      rw [e] at hN ⊢
      exact FSInv.requests hD (h.step hD (ha a (by simp)) hq.1 hs hN.left) (h.requests_step hreq hs)
        (fun a' ha' => ha a' (List.mem_cons_of_mem _ ha')) (hq.2 s1 hs) hr hN

end Verif.Sources.Followed
