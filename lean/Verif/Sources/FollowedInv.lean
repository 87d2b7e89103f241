import Verif.Sources.Followed
import Verif.Sources.ConfirmedInv
import Verif.Sources.RollbackWorld

/-!
# The invariant of the fork handling source over the Cardano source
-/

namespace Verif.Sources.Followed

open Verif.Multiverse
open Verif.Sources.Cardano (Point NBlock Net Out PullRes St Config handle CInv planOf)
open Verif.Sources.Confirmed (Decoder reply going NodeOk Nodes BaseOk after Agree From Effect effect handle_seg seg_of_prefix
  after_getElem Req)

variable {cfg : Config} {D : Decoder} {B : Key → Block} {r : Key} {pre : List NBlock} {base : Point} {n : Net} {d : Nat}

/-! ### The order in which blocks are sent -/

/-- The blocks (newest first) come from the chains, the later ones from later chains. -/
def Sent (D : Decoder) (k : Nat) : List Net → List Block → Prop
  | _, [] => True
  | N, v :: G => ∃ N1 n, N1 ++ [n] <+: N ∧ (∃ x ∈ after k n, v = D.view x) ∧ Sent D k (N1 ++ [n]) G

theorem Sent.mono {k : Nat} : ∀ {G : List Block} {N N' : List Net}, Sent D k N G → N <+: N' → Sent D k N' G
  | [], _, _, _, _ => trivial
  | _ :: _, _, _, ⟨N1, n, h1, h2, h3⟩, h => ⟨N1, n, h1.trans h, h2, h3⟩

theorem Sent.append {k : Nat} : ∀ {l G : List Block} {N : List Net}, Sent D k N (l ++ G) → Sent D k N G
  | [], _, _, h => h
  | _ :: _, _, _, ⟨_, _, h1, _, h3⟩ => (Sent.append h3).mono h1

theorem Sent.from {k : Nat} : ∀ {G : List Block} {N : List Net}, Sent D k N G → From D k N G
  | [], _, _ => by simp [From]
  | v :: G, N, ⟨N1, n, h1, ⟨x, hx, h2⟩, h3⟩ => by
    intro w hw
    rcases List.mem_cons.1 hw with rfl | hw
    · exact ⟨n, h1.subset (by simp), x, hx, h2⟩
    · obtain ⟨n', hn', h4⟩ := h3.from w hw
      exact ⟨n', h1.subset hn', h4⟩

theorem lastNew_split : ∀ {G : List Block} {u : Block}, lastNew G = some u →
    ∃ l G', G = l ++ u :: G' ∧ u ∉ G' ∧ ∀ x ∈ l, x ∈ u :: G'
  | v :: G, u, h => by
    rw [lastNew] at h
    split at h
    · rename_i hv
      obtain ⟨l, G', h1, h2, h3⟩ := lastNew_split h
      refine ⟨v :: l, G', by rw [h1]; rfl, h2, fun x hx => ?_⟩
      rcases List.mem_cons.1 hx with rfl | hx
      · rw [h1] at hv
        rcases List.mem_append.1 hv with hv | hv
        · exact h3 x hv
        · exact hv
      · exact h3 x hx
    · rename_i hv
      rw [← Option.some.inj h]
      exact ⟨[], G, rfl, hv, by simp⟩

theorem shallow_last : ∀ {G : List Block} {u : Block}, Shallow B d r G → lastNew G = some u →
    ∀ x ∈ G, x.number ≤ u.number + d + 1
  | v :: G, u, hs, h => by
    rw [lastNew] at h
    split at h
    · rename_i hv
      intro x hx
      rcases List.mem_cons.1 hx with rfl | hx
      · exact shallow_last hs.1 h x hv
      · exact shallow_last hs.1 h x hx
    · rw [← Option.some.inj h]
      intro x hx
      rcases List.mem_cons.1 hx with rfl | hx
      · omega
      · exact hs.2.1 x hx

theorem last_related {α : Type} {R : α → α → Prop} {l : List α} {a x : α} (h : (l ++ [a]).Pairwise R) (hx : x ∈ l ++ [a]) :
    x = a ∨ R x a := by
  rcases List.mem_append.1 hx with hx | hx
  · exact .inr ((List.pairwise_append.1 h).2.2 x hx a (by simp))
  · exact .inl (List.mem_singleton.1 hx)

/-- Blocks of chains that agree. -/
theorem agree_after {k : Nat} {n1 n2 : Net} (h : n1 = n2 ∨ Agree d n1 n2) {mt i : Nat} {x : NBlock}
    (hx : (after k n1)[mt]? = some x) (hi : i + d ≤ mt) : (after k n2)[i]? = (after k n1)[i]? := by
  rcases h with rfl | h
  · rfl
  · have hlt := (List.getElem?_eq_some_iff.1 hx).1
    unfold after at hlt
    rw [List.length_drop] at hlt
    rw [after_getElem, after_getElem]
    exact h.getElem (by omega)

/-- An ancestor of a delivered block that is on the chain of that block has been delivered. -/
theorem delivered {N : List Net} (hN : Nodes cfg D B r pre base d N) {nt : Net} (hnt : nt ∈ N) {G : List Block}
    (hf : Feed B r G) {i mt : Nat} {x t : NBlock} (ht : (after pre.length nt)[mt]? = some t) (htG : D.view t ∈ G)
    (hx : (after pre.length nt)[i]? = some x) (hi : i ≤ mt) : D.view x ∈ G := by
  have hok := hN.ok nt hnt
  obtain ⟨a, h1, h2⟩ := hok.anc ht (i := mt - i) (by omega)
  rw [show mt - (mt - i) = i by omega, hx] at h1
  obtain rfl := Option.some.inj h1
  have hnum := hok.number ht
  obtain ⟨w, hw, h3, _⟩ := hf.anc (mt - i) htG (by omega)
  have he : w = D.view x :=
    (hf.ok w hw).1.trans ((congrArg B (h3.trans h2.symm)).trans (hok.block x (List.mem_of_getElem? hx)).1.symm)
  rw [← he]
  exact hw

/-- Where the chain of a new block leaves the chain of the last one. -/
theorem fork_at {N : List Net} (hN : Nodes cfg D B r pre base d N) {v : Block} {G : List Block}
    (hs : Sent D pre.length N (v :: G)) (hf : Feed B r (v :: G)) (hv : v ∉ G) {u : Block} (hu : lastNew G = some u) :
    ∃ i j, (B r).number + i ≤ v.number ∧ (B r).number + j ≤ u.number ∧ anc B i v.id = anc B j u.id ∧
      (∀ x ∈ v :: G, x.number + i ≤ v.number + d + 1) ∧ ∀ x ∈ G, x.number + i ≤ v.number + d := by
  obtain ⟨N1, n, hpre1, ⟨x, hx, rfl⟩, hs1⟩ := hs
  obtain ⟨l, G', rfl, huG, hl⟩ := lastNew_split hu
  obtain ⟨N2, n', hpre2, ⟨y, hy, rfl⟩, hs2⟩ := hs1.append
  have hfG := hf.tail
  have hfu : Feed B r (D.view y :: G') := hfG.append
  obtain ⟨t, htG, hmax⟩ := exists_top (D := D.view y :: G') (by simp)
  have hmaxG : ∀ z ∈ l ++ D.view y :: G', z.number ≤ t.number := by
    intro z hz
    rcases List.mem_append.1 hz with hz | hz
    · exact hmax z (hl z hz)
    · exact hmax z hz
  obtain ⟨nt, hnt, xt, hxt, rfl⟩ : ∃ nt ∈ N2 ++ [n'], ∃ xt ∈ after pre.length nt, t = D.view xt := by
    rcases List.mem_cons.1 htG with rfl | h
    · exact ⟨n', by simp, y, hy, rfl⟩
    · exact hs2.from t h
  have hN1 : ∀ z ∈ N1 ++ [n], z ∈ N := fun z hz => hpre1.subset hz
  have hN2 : ∀ z ∈ N2 ++ [n'], z ∈ N := fun z hz => hN1 z (hpre2.subset hz)
  have hag1 : nt = n ∨ Agree d nt n := last_related (hN.agree.sublist hpre1.sublist) (hpre2.subset hnt)
  have hag2 : nt = n' ∨ Agree d nt n' := last_related (hN.agree.sublist (hpre2.trans hpre1).sublist) hnt
  have hokn := hN.ok n (hN1 n (by simp))
  have hokn' := hN.ok n' (hN2 n' (by simp))
  have hokt := hN.ok nt (hN2 nt hnt)
  obtain ⟨m, hm, rfl⟩ := List.getElem_of_mem hx
  obtain ⟨mu, hmu, rfl⟩ := List.getElem_of_mem hy
  obtain ⟨mt, hmt, rfl⟩ := List.getElem_of_mem hxt
  generalize ex : (after pre.length n)[m] = x at *
  generalize ey : (after pre.length n')[mu] = y at *
  generalize et : (after pre.length nt)[mt] = xt at *
  have ex' : (after pre.length n)[m]? = some x := by rw [← ex]; exact List.getElem?_eq_getElem hm
  have ey' : (after pre.length n')[mu]? = some y := by rw [← ey]; exact List.getElem?_eq_getElem hmu
  have et' : (after pre.length nt)[mt]? = some xt := by rw [← et]; exact List.getElem?_eq_getElem hmt
  have numx := hokn.number ex'
  have numy := hokn'.number ey'
  have numt := hokt.number et'
  have htG' : D.view xt ∈ l ++ D.view y :: G' := List.mem_append.2 (.inr htG)
  have hB : mt ≤ m + d := by
    by_contra hlt
    refine hv (delivered hN (hN2 nt hnt) hfG et' htG' (i := m) ?_ (by omega))
    rw [← agree_after hag1 et' (by omega)]
    exact ex'
  have hC : mt ≤ mu + d := by
    by_contra hlt
    have h1 : (after pre.length nt)[mu]? = some y := by
      rw [← agree_after hag2 et' (by omega)]
      exact ey'
    rcases List.mem_cons.1 htG with h | h
    · rw [h, numy] at numt
      omega
    · exact huG (delivered hN (hN2 nt hnt) hfu.tail et' h h1 (by omega))
  have hmm : m ≤ mt + 1 := by
    rcases hf.order [] _ _ rfl with h | ⟨p, hp, _, h⟩
    · have := hf.number_root (by simp) h
      omega
    · have := hmaxG p hp
      omega
  refine ⟨m - (mt - d), mu - (mt - d), by omega, by omega, ?_, fun z hz => ?_, fun z hz => ?_⟩
  · obtain ⟨a, h1, h2⟩ := hokn.anc ex' (i := m - (mt - d)) (by omega)
    obtain ⟨b, h3, h4⟩ := hokn'.anc ey' (i := mu - (mt - d)) (by omega)
    rw [show m - (m - (mt - d)) = mt - d by omega] at h1
    rw [show mu - (mu - (mt - d)) = mt - d by omega] at h3
    rw [← h2, ← h4]
    by_cases hd : d ≤ mt
    · rw [agree_after hag1 et' (by omega)] at h1
      rw [agree_after hag2 et' (by omega)] at h3
      rw [h1] at h3
      rw [Option.some.inj h3]
    · have hz : mt - d = 0 := by omega
      rw [hz] at h1 h3
      have first : ∀ {n : Net} {a : NBlock}, NodeOk cfg D B r pre n → (after pre.length n)[0]? = some a → (D.view a).id = r := by
        intro n a hok h
        cases hl : after pre.length n with
        | nil => rw [hl] at h; cases h
        | cons q l =>
          rw [hl] at h
          obtain rfl : q = a := by simpa using h
          exact hok.first q l hl
      rw [first hokn h1, first hokn' h3]
  · rcases List.mem_cons.1 hz with rfl | hz
    · omega
    · have := hmaxG z hz
      omega
  · have := hmaxG z hz
    omega

theorem shallow_cons {N : List Net} (hN : Nodes cfg D B r pre base d N) {v : Block} {G : List Block}
    (hs : Sent D pre.length N (v :: G)) (hf : Feed B r (v :: G)) (hsh : Shallow B d r G)
    (ha : ∀ x ∈ G, x.number ≤ v.number + d + 1) : Shallow B d r (v :: G) := by
  refine ⟨hsh, ha, fun hv u hu => ?_⟩
  obtain ⟨i, j, h1, h2, h3, h4, _⟩ := fork_at hN hs hf hv hu
  exact ⟨i, j, h1, h2, h3, h4⟩

/-! ### Positions -/

theorem fpoints (hD : D.Ok) {N : List Net} (h : Nodes cfg D B r pre base d N) {G : List Block}
    (hG : From D pre.length N G) : FPoints D.nf base G := by
  refine ⟨fun v hv => ?_, (h.points hD hG).2⟩
  obtain ⟨n, hn, x, hx, rfl⟩ := hG v hv
  have hok := h.ok n hn
  rw [hD.point]
  refine ⟨rfl, fun he => ?_⟩
  have he' : x.point = base := Option.some.inj he
  rcases h.base n hn with ⟨b0, hb0, hbb⟩ | ⟨hbb, _⟩
  · have hnd := hok.nodup
    rw [hok.chain, List.map_append, List.nodup_append] at hnd
    exact hnd.2.2 b0.point (List.mem_map_of_mem (List.mem_of_getLast? hb0)) x.point (List.mem_map_of_mem hx)
      (by rw [he', hbb])
  · exact hok.genesis x (by rw [hok.chain]; exact List.mem_append.2 (.inr hx)) (by rw [he', hbb])

/-- The positions that are requested: where following began, if nothing has been received; or points of received blocks
that are at most `d + 1` blocks below the highest one. -/
def Asked (D : Decoder) (base : Point) (k d : Nat) (N : List Net) (G : List Block) (f : List Point) : Prop :=
  ∀ p ∈ f, (p = base ∧ G = []) ∨ ∃ n' ∈ N, ∃ u ∈ after k n', D.view u ∈ G ∧ u.point = p ∧
    ∀ x ∈ G, x.number ≤ (D.view u).number + d + 1

theorem Asked.mono {k : Nat} {N : List Net} (N' : List Net) {G : List Block} {f : List Point}
    (h : Asked D base k d N G f) : Asked D base k d (N ++ N') G f := by
  intro p hp
  rcases h p hp with h1 | ⟨n, hn, h1⟩
  · exact .inl h1
  · exact .inr ⟨n, List.mem_append.2 (.inl hn), h1⟩

theorem tipChecks_mem {P : Type} [DecidableEq P] {nf : Block → Option P} {m : MV} : ∀ {rs : List Ref} {ps : List P},
    tipChecks nf m rs = .ok ps → ∀ p ∈ ps, ∃ x ∈ rs, ∃ b, m.get x.key = some b ∧ nf b = some p
  | [], ps, h, p, hp => by
    obtain rfl := Except.ok.inj h
    cases hp
  | x :: rs, ps, h, p, hp => by
    rw [tipChecks] at h
    split at h
    · cases h
    · rename_i b hb
      split at h
      · cases h
      · rename_i q hq
        cases hrs : tipChecks nf m rs with
        | error e => rw [hrs] at h; cases h
        | ok qs =>
          rw [hrs] at h
          obtain rfl := Except.ok.inj h
          rcases List.mem_cons.1 hp with rfl | hp
          · exact ⟨x, by simp, b, hb, hq⟩
          · obtain ⟨y, hy, h1⟩ := tipChecks_mem hrs p hp
            exact ⟨y, List.mem_cons_of_mem _ hy, h1⟩

/-- What a request consists of. -/
theorem request_mem {P : Type} [DecidableEq P] {nf : Block → Option P} {s : FSrc P} {o : Orders} {from' : Option P} {ps : List P}
    (h : s.request nf o from' = .ok ps) : (∀ p ∈ ps, from' = some p ∨
      ∃ k b, (k ∈ (o.tips s.mv.tips).map Ref.key ∨ s.confirmed = some k) ∧ s.mv.get k = some b ∧ nf b = some p) ∧
    (∀ p, from' = some p → p ∈ ps) ∧ ∀ k b p, s.confirmed = some k → s.mv.get k = some b → nf b = some p → p ∈ ps := by
  unfold FSrc.request at h
  split at h
  · cases h
  · rename_i qs hq
    split at h
    · cases h
    · rename_i cs hc
      obtain rfl := Except.ok.inj h
      refine ⟨fun p hp => ?_, fun p hp => ?_, fun k b p hk hb hp => ?_⟩
      · rw [List.mem_dedup, List.mem_append, List.mem_append] at hp
        rcases hp with (hp | hp) | hp
        · obtain ⟨x, hx, b, hb, h1⟩ := tipChecks_mem hq p hp
          exact .inr ⟨x.key, b, .inl (List.mem_map_of_mem hx), hb, h1⟩
        · unfold FSrc.confirmedCheck at hc
          split at hc
          · obtain rfl := Except.ok.inj hc
            cases hp
          · rename_i k hk
            split at hc
            · cases hc
            · rename_i p' hp'
              obtain rfl := Except.ok.inj hc
              obtain ⟨b, hb, h1⟩ := Option.bind_eq_some_iff.1 hp'
              rw [List.mem_singleton.1 hp]
              exact .inr ⟨k, b, .inr hk, hb, h1⟩
        · exact .inl (by simpa using hp)
      · rw [List.mem_dedup, List.mem_append, hp]
        simp
      · rw [List.mem_dedup, List.mem_append, List.mem_append]
        refine .inl (.inr ?_)
        simp only [FSrc.confirmedCheck, hk, hb, Option.bind_some, hp] at hc
        rw [← Except.ok.inj hc]
        simp

/-! ### The invariant -/

/-- The state of the two sources and the consumer; `N` are the nodes so far. -/
structure FSInv (cfg : Config) (D : Decoder) (B : Key → Block) (r : Key) (pre : List NBlock) (base : Point) (d : Nat)
    (N : List Net) (s : Sys) : Prop where
  ci : CInv cfg s.cs
  wi : ∃ S, FInv B d r D.nf base s.w S
  sent : Sent D pre.length N s.w.got
  feed : Feed B r s.w.got
  shallow : Shallow B d r s.w.got
  nets : ∀ c n, s.cs.net c = some n → n ∈ N
  del : ∀ c b, .block b ∈ s.cs.got c → D.view b ∈ s.w.got
  cur : ∀ c, s.cs.current = some c → ∃ G, (∀ x ∈ s.w.got, x ∈ G ∨ ∃ b, .block b ∈ s.cs.got c ∧ x = D.view b) ∧
    (∀ x ∈ G, x ∈ s.w.got) ∧ Asked D base pre.length d N G (s.cs.asked c)
  last : ∀ c n, s.cs.current = some c → s.cs.net c = some n → ∃ N', N = N' ++ [n]
  pull : ∀ f, s.cs.puller = .reading f ∨ s.cs.puller = .sending f → Asked D base pre.length d N s.w.got f ∧
    ∃ o, s.w.src.request D.nf o (position (pointOf B D.nf r base) s.w.chain) = .ok f ∧ f ≠ []
  idle : s.pend = none ↔ s.cs.puller = .idle
  req : ∀ o, s.pend = some o → o.Ok ∧ s.w.src.events = [] ∧
    ∃ ps, s.w.src.request D.nf o (position (pointOf B D.nf r base) s.w.chain) = .ok ps
  cleared : ∀ c, s.cs.cleared c = false

theorem FSInv.fresh {N : List Net} {w : FWorld Point} (hw : ∃ S, FInv B d r D.nf base w S)
    (hsent : Sent D pre.length N w.got) (hfeed : Feed B r w.got) (hsh : Shallow B d r w.got) :
    FSInv cfg D B r pre base d N ⟨.start, w, none⟩ where
  ci := CInv.start cfg
  wi := hw
  sent := hsent
  feed := hfeed
  shallow := hsh
  nets := by simp [St.start]
  del := by simp [St.start]
  cur := by simp [St.start]
  last := by simp [St.start]
  pull := by simp [St.start]
  idle := by simp [St.start]
  req := by simp
  cleared := by simp [St.start]

theorem FSInv.start (cfg : Config) (D : Decoder) (B : Key → Block) (r : Key) (pre : List NBlock) (base : Point) (d : Nat) :
    FSInv cfg D B r pre base d [] (Sys.start d (B r).parent) :=
  FSInv.fresh ⟨_, FInv.start B d r D.nf base⟩ trivial
    ⟨by simp [FWorld.start], by simp [FWorld.start], fun l1 v l2 h => by simp [FWorld.start] at h⟩ trivial

/-- The position of a consumer with nothing queued. -/
theorem FSInv.pos (hD : D.Ok) {N : List Net} {s : Sys} (h : FSInv cfg D B r pre base d N s) (he : s.w.src.events = []) :
    (s.w.got = [] ∧ position (pointOf B D.nf r base) s.w.chain = some base) ∨
    ∃ n ∈ N, ∃ u ∈ after pre.length n, lastNew s.w.got = some (D.view u) ∧ D.view u ∈ s.w.got ∧
      position (pointOf B D.nf r base) s.w.chain = some u.point ∧ ∀ x ∈ s.w.got, x.number ≤ (D.view u).number + d + 1 := by
  obtain ⟨S, hw⟩ := h.wi
  obtain ⟨c, hc, hcc⟩ := hw.chain
  rw [he] at hcc
  have hce : c = chainTo B r s.w.src.last := Option.some.inj hcc
  cases hl : lastNew s.w.got with
  | none =>
    left
    have hg := lastNew_none hl
    refine ⟨hg, ?_⟩
    rw [hc, hce, hw.last, hl]
    simp [position, chainTo, pointOf]
  | some v =>
    right
    have hv := lastNew_mem hl
    obtain ⟨n, hn, u, hu, rfl⟩ := h.sent.from v hv
    refine ⟨n, hn, u, hu, rfl, hv, ?_, shallow_last h.shallow hl⟩
    obtain ⟨t, ht⟩ := chainTo_head h.feed hv
    rw [hc, hce, hw.last, hl, Option.map_some, ht]
    simp only [position, Option.bind_some, List.head?_cons]
    rw [pointOf_mem h.feed hv, hD.point]

theorem FSInv.request (hD : D.Ok) {N : List Net} {s : Sys} (h : FSInv cfg D B r pre base d N s) (he : s.w.src.events = []) {o : Orders} (ho : o.Ok) {qs : List Point}
    (hq : s.w.src.request D.nf o (position (pointOf B D.nf r base) s.w.chain) = .ok qs) :
    Asked D base pre.length d N s.w.got qs ∧ qs ≠ [] := by
  obtain ⟨S, hw⟩ := h.wi
  obtain ⟨h1, h2, _⟩ := request_mem hq
  have hpos := h.pos hD he
  refine ⟨fun p hp => ?_, ?_⟩
  · rcases h1 p hp with h3 | ⟨k, b, h3, h4, h5⟩
    · rcases hpos with ⟨h6, h7⟩ | ⟨n, hn, u, hu, _, h6, h7, h8⟩
      · rw [h7] at h3
        exact .inl ⟨(Option.some.inj h3).symm, h6⟩
      · rw [h7] at h3
        exact .inr ⟨n, hn, u, hu, h6, Option.some.inj h3, h8⟩
    · have hk : (S k).isSome := by
        rcases h3 with h3 | h3
        · obtain ⟨x, hx, rfl⟩ := List.mem_map.1 h3
          exact ((hw.rel.tips x.key).1 (List.mem_map_of_mem ((ho.1 _).mem_iff.1 hx))).1
        · exact hw.conf k h3
      rw [hw.rel.get, if_pos hk] at h4
      obtain ⟨v, hv, rfl⟩ := hw.inv.sub k hk
      have hvb : v = b := ((h.feed.ok v hv).1).trans (Option.some.inj h4)
      have hlow := hw.low v.id hk
      rw [← (h.feed.ok v hv).1] at hlow
      obtain ⟨n, hn, u, hu, rfl⟩ := h.sent.from v hv
      refine .inr ⟨n, hn, u, hu, hv, ?_, hlow⟩
      rw [← hvb, hD.point] at h5
      exact Option.some.inj h5
  · rcases hpos with ⟨_, h7⟩ | ⟨n, hn, u, hu, _, h6, h7, h8⟩
    · exact List.ne_nil_of_mem (h2 _ h7)
    · exact List.ne_nil_of_mem (h2 _ h7)

/-- What was received before a block of the segment is in the segment before it. -/
theorem seg_before {tips : List Out} (ht : ∀ o ∈ tips, ∃ p, o = Out.tip p) {seg : List NBlock} {L : List Out} {b : NBlock}
    (h : L ++ [Out.block b] <+: tips ++ seg.map Out.block) :
    ∃ s1 s2, seg = s1 ++ b :: s2 ∧ (∀ x, Out.block x ∈ L ↔ x ∈ s1) := by
  obtain ⟨R, hR⟩ := h
  rw [List.append_assoc, List.singleton_append] at hR
  rcases List.append_eq_append_iff.1 hR with ⟨a', h1, h2⟩ | ⟨c', h1, h2⟩
  · have hLtip : ∀ o ∈ L, ∃ p, o = Out.tip p := fun o ho => ht o (by rw [h1]; exact List.mem_append.2 (.inl ho))
    cases a' with
    | nil =>
      rw [List.nil_append] at h2
      cases seg with
      | nil => cases h2
      | cons x seg =>
        obtain ⟨h3, _⟩ := List.cons.inj h2
        cases h3
        refine ⟨[], seg, rfl, fun x => ⟨fun hx => ?_, fun hx => by cases hx⟩⟩
        obtain ⟨p, hp⟩ := hLtip _ hx
        cases hp
    | cons y a' =>
      obtain ⟨h3, _⟩ := List.cons.inj h2
      obtain ⟨p, hp⟩ := ht y (by rw [h1]; simp)
      rw [hp] at h3
      cases h3
  · obtain ⟨s1, s2, h3, h4, h5⟩ := List.map_eq_append_iff.1 h2
    cases s2 with
    | nil => cases h5
    | cons x s2 =>
      obtain ⟨h6, _⟩ := List.cons.inj h5
      cases h6
      refine ⟨s1, s2, h3, fun y => ?_⟩
      rw [h1, ← h4, List.mem_append]
      constructor
      · rintro (hy | hy)
        · obtain ⟨p, hp⟩ := ht _ hy
          cases hp
        · obtain ⟨z, hz, hzy⟩ := List.mem_map.1 hy
          cases hzy
          exact hz
      · exact fun hy => .inr (List.mem_map_of_mem hy)

/-- The numbers of the blocks of a chain increase. -/
theorem number_lt (h : NodeOk cfg D B r pre n) {l1 l2 l3 : List NBlock} {x y : NBlock}
    (he : after pre.length n = l1 ++ x :: l2 ++ y :: l3) : (D.view x).number < (D.view y).number := by
  have h1 : (after pre.length n)[l1.length]? = some x := by
    rw [he, List.append_assoc, List.getElem?_append_right (le_refl _)]
    simp
  have h2 : (after pre.length n)[l1.length + (l2.length + 1)]? = some y := by
    rw [he, List.getElem?_append_right (by simp; )]
    simp
  have := h.number h1
  have := h.number h2
  omega

/-- The next block received. -/
theorem FSInv.follows (hD : D.Ok) {N : List Net} {s : Sys} (h : FSInv cfg D B r pre base d N s)
    (hN : Nodes cfg D B r pre base d N) {c : Nat} (hc : s.cs.current = some c) {b : NBlock}
    (hp : s.cs.got c ++ [.block b] <+: planOf cfg (s.cs.asked c) (s.cs.net c)) :
    Sent D pre.length N (D.view b :: s.w.got) ∧ Feed B r (D.view b :: s.w.got) ∧ Shallow B d r (D.view b :: s.w.got) := by
  cases hn : s.cs.net c with
  | none =>
    rw [hn] at hp
    obtain ⟨R, hR⟩ := hp
    simp [planOf] at hR
  | some n =>
    have hnN := h.nets c n hn
    have hok := hN.ok n hnN
    obtain ⟨G, hG1, hG2, hG3⟩ := h.cur c hc
    rw [hn] at hp
    -- the blocks asked for are not low
    have hreq : Req D base pre.length N (G.filter (fun v => decide (∀ x ∈ G, x.number ≤ v.number + d + 1))) (s.cs.asked c) := by
      intro p hp
      rcases hG3 p hp with ⟨h1, _⟩ | ⟨n', hn', u, hu, h1, h2, h3⟩
      · exact .inl h1
      · exact .inr ⟨n', hn', u, hu, List.mem_filter.2 ⟨h1, by simpa using h3⟩, h2⟩
    obtain ⟨tips, l1, seg, l2, h1, h2, h3, h4⟩ := handle_seg hD hok (hN.base n hnN) hN.ok hreq
    have hp' : s.cs.got c ++ [.block b] <+: tips ++ seg.map Out.block := by rw [← h1]; exact hp
    obtain ⟨s1, s2, h5, h6⟩ := seg_before h2 hp'
    rw [h5] at h3
    have hb : b ∈ after pre.length n := by rw [h3]; simp
    have hpar : (D.view b).id = r ∨ ∃ u ∈ s.w.got, u.id = (D.view b).parent ∧ (D.view b).number = u.number + 1 := by
      have hlink : ∀ l x l', after pre.length n = l ++ x :: b :: l' → D.view x ∈ s.w.got →
          ∃ u ∈ s.w.got, u.id = (D.view b).parent ∧ (D.view b).number = u.number + 1 := by
        intro l x l' he hx
        obtain ⟨h7, h8⟩ := hok.linked l x b l' he
        exact ⟨D.view x, hx, h7.symm, h8⟩
      rcases List.eq_nil_or_concat s1 with rfl | ⟨s1', y, rfl⟩
      · rcases h4 with h4 | ⟨rfl, _⟩ | ⟨u, hu, hug⟩
        · rw [h5] at h4
          cases h4
        · left
          exact hok.first b (s2 ++ l2) (by rw [h3]; simp)
        · right
          obtain ⟨l1', rfl⟩ := List.getLast?_eq_some_iff.1 hu
          exact hlink l1' u (s2 ++ l2) (by rw [h3]; simp) (hG2 _ (List.mem_filter.1 hug).1)
      · right
        exact hlink (l1 ++ s1') y (s2 ++ l2) (by rw [h3]; simp [List.concat_eq_append])
          (h.del c y ((h6 y).2 (by simp)))
    obtain ⟨hb1, hb2, hb3⟩ := hok.block b hb
    have hfeed : Feed B r (D.view b :: s.w.got) := by
      refine ⟨fun v hv => ?_, fun v hv => ?_, fun m1 v m2 he => ?_⟩
      · rcases List.mem_cons.1 hv with rfl | hv
        · exact ⟨hb1, hb2⟩
        · exact h.feed.ok v hv
      · rcases List.mem_cons.1 hv with rfl | hv
        · exact hb3
        · exact h.feed.rootParent v hv
      · cases m1 with
        | nil =>
          obtain ⟨rfl, rfl⟩ := List.cons.inj he
          exact hpar
        | cons y m1 =>
          obtain ⟨_, h7⟩ := List.cons.inj he
          exact h.feed.order m1 v m2 h7
    obtain ⟨N', hN'⟩ := h.last c n hc hn
    have hsent : Sent D pre.length N (D.view b :: s.w.got) :=
      ⟨N', n, hN' ▸ List.prefix_refl _, ⟨b, hb, rfl⟩, by rw [← hN']; exact h.sent⟩
    refine ⟨hsent, hfeed, shallow_cons hN hsent hfeed h.shallow (fun x hx => ?_)⟩
    rcases hG1 x hx with hx | ⟨b', hb', rfl⟩
    · rcases h4 with h4 | ⟨_, h4⟩ | ⟨u, hu, hug⟩
      · rw [h5] at h4
        simp at h4
      · rcases hG3 base h4 with ⟨_, h7⟩ | ⟨n', hn', u, hu, h7, h8, h9⟩
        · rw [h7] at hx
          cases hx
        · have := (fpoints hD hN h.sent.from).1 _ (hG2 _ h7)
          rw [hD.point, h8] at this
          exact absurd rfl this.2
      · have h7 : ∀ x ∈ G, x.number ≤ (D.view u).number + d + 1 := by simpa using (List.mem_filter.1 hug).2
        have h8 := h7 x hx
        obtain ⟨l1', rfl⟩ := List.getLast?_eq_some_iff.1 hu
        have := number_lt hok (l1 := l1') (l2 := s1) (l3 := s2 ++ l2) (x := u) (y := b) (by rw [h3]; simp)
        omega
    · obtain ⟨t1, t2, rfl⟩ := List.append_of_mem ((h6 b').1 hb')
      have := number_lt hok (l1 := l1 ++ t1) (l2 := t2) (l3 := s2 ++ l2) (x := b') (y := b) (by rw [h3]; simp)
      omega

/-! ### Steps -/

/-- Hash sets are iterated in any order. -/
def Act.Ok : Act → Prop
  | .pull o => o.Ok
  | .inner _ => True
  | .abandon => True
  | .restart o it => o.Ok ∧ ∀ l, (it l).Perm l

/-- Restarts happen at quiet moments. -/
def QuietRestarts (cfg : Config) (pt : Key → Option Point) (D : Decoder) : Sys → List Act → Prop
  | _, [] => True
  | s, a :: as => (∀ o it, a = .restart o it → Sources.Quiet s.w) ∧
    ∀ s', s.step cfg pt D a = some s' → QuietRestarts cfg pt D s' as

theorem result_some {s : Sys} {cs' : St} {o : Orders} {x : PullRes} (h : resultOf s cs' = some (o, x))
    {a : Cardano.Act} (ha : going a = true) (hs : s.cs.step cfg a = some cs') :
    s.pend = some o ∧ cs'.results = s.cs.results ++ [x] := by
  unfold resultOf at h
  split at h
  · cases h
  · rename_i o' hp
    obtain ⟨x', h1, h2⟩ := Option.map_eq_some_iff.1 h
    obtain ⟨rfl, rfl⟩ := Prod.mk.inj h2
    refine ⟨hp, ?_⟩
    cases effect ha hs with
    | quiet results => rw [results] at h1; simp at h1
    | sent _ _ _ results => rw [results] at h1; simp at h1
    | ended y _ results =>
      rw [results] at h1 ⊢
      simp at h1
      rw [h1]
    | event c y _ results =>
      rw [results] at h1 ⊢
      simp at h1
      rw [h1]

theorem result_none {s : Sys} {cs' : St} (h : resultOf s cs' = none) {a : Cardano.Act} (ha : going a = true)
    (hs : s.cs.step cfg a = some cs') (hidle : s.pend = none ↔ s.cs.puller = .idle) : cs'.results = s.cs.results := by
  have hcase : cs'.results = s.cs.results ∨ s.cs.puller ≠ .idle ∧ ∃ y, cs'.results = s.cs.results ++ [y] := by
    cases effect ha hs with
    | quiet results => exact .inl results
    | sent _ _ _ results => exact .inl results
    | ended y _ results _ _ _ _ was => exact .inr ⟨was, y, results⟩
    | event c y _ results _ _ _ _ was => exact .inr ⟨was, _, results⟩
  rcases hcase with h1 | ⟨h1, y, h2⟩
  · exact h1
  · exfalso
    unfold resultOf at h
    split at h
    · rename_i hp
      exact h1 (hidle.1 hp)
    · rw [h2] at h
      simp at h

theorem FSInv.mono {N : List Net} {s : Sys} (h : FSInv cfg D B r pre base d N s) {a : Act} (ha : takenBy a = []) :
    FSInv cfg D B r pre base d (N ++ taken [a]) s := by
  rw [show taken [a] = [] by simp [taken, ha], List.append_nil]
  exact h

/-- A request that is taken is the one of the current channel. -/
theorem taken_current {s s' : St} (h : CInv cfg s) (hcl : ∀ c, s.cleared c = false) {m : Net}
    (hs : s.step cfg (.take m) = some s') : ∃ c, s.current = some c ∧ s.net c = none := by
  simp only [St.step, St.take] at hs
  split at hs
  · rename_i f c hh hq
    refine ⟨c, ?_, (h.queue f c hq).2.2.1⟩
    by_contra hc
    obtain ⟨_, h2⟩ := h.lost c (h.queue f c hq).1 hc (hcl c)
    exact (Cardano.alive_false.1 h2).1 f hq
  · cases hs

/-- An action of the Cardano source that does not end a pull. -/
theorem FSInv.silent {N : List Net} {s : Sys} (h : FSInv cfg D B r pre base d N s) {a : Cardano.Act} {cs' : St}
    (ha : going a = true) (hs : s.cs.step cfg a = some cs') (hr : cs'.results = s.cs.results) :
    FSInv cfg D B r pre base d (N ++ taken [.inner a]) ⟨cs', s.w, s.pend⟩ := by
  have hci := h.ci.step hs
  have hN' : ∀ n, a = .take n → taken [.inner a] = [n] := by
    rintro n rfl
    rfl
  have hnone : (∃ n, a = .take n) ∨ taken [.inner a] = [] := by
    cases a <;> first | exact .inl ⟨_, rfl⟩ | exact .inr rfl
  have hsent := h.sent.mono (List.prefix_append N (taken [.inner a]))
  cases effect ha hs with
  | quiet results got next asked cleared puller net current =>
    refine ⟨hci, h.wi, hsent, h.feed, h.shallow, fun c n hn => ?_, ?_, ?_, fun c n hc hn => ?_, ?_, ?_, h.req, ?_⟩
    · rcases net c n hn with h1 | h1
      · exact List.mem_append.2 (.inl (h.nets c n h1))
      · rw [hN' n h1]
        simp
    · show ∀ c b, _ ∈ cs'.got c → _
      rw [got]; exact h.del
    · show ∀ c, cs'.current = some c → ∃ G, (∀ x ∈ s.w.got, x ∈ G ∨ ∃ b, .block b ∈ cs'.got c ∧ x = D.view b) ∧
        (∀ x ∈ G, x ∈ s.w.got) ∧ Asked _ _ _ _ _ G (cs'.asked c)
      rw [current, got, asked]
      intro c hc
      obtain ⟨G, h1, h2, h3⟩ := h.cur c hc
      exact ⟨G, h1, h2, h3.mono _⟩
    · simp only at hc hn
      rw [current] at hc
      rcases net c n hn with h1 | h1
      · rcases hnone with ⟨n', rfl⟩ | h2
        · obtain ⟨c', h3, h4⟩ := taken_current h.ci h.cleared hs
          rw [hc] at h3
          obtain rfl := Option.some.inj h3
          rw [h4] at h1
          cases h1
        · rw [h2, List.append_nil]
          exact h.last c n hc h1
      · exact ⟨N, by rw [hN' n h1]⟩
    · show ∀ f, cs'.puller = _ ∨ cs'.puller = _ → _
      intro f hf
      have : s.cs.puller = .reading f ∨ s.cs.puller = .sending f := by
        rcases puller with hp | ⟨f', hp, hp'⟩
        · rw [← hp]; exact hf
        · rw [hp'] at hf
          rcases hf with hf | hf
          · cases hf
          · cases hf
            exact .inl hp
      exact ⟨(h.pull f this).1.mono _, (h.pull f this).2⟩
    · show _ ↔ cs'.puller = .idle
      rw [h.idle]
      rcases puller with hp | ⟨f', hp, hp'⟩
      · rw [hp]
      · rw [hp, hp']
        simp
    · show ∀ c, cs'.cleared c = false
      rw [cleared]; exact h.cleared
  | event c o hc results =>
    rw [results] at hr
    simp at hr
  | ended x hx results =>
    rw [results] at hr
    simp at hr
  | sent f was puller results got next asked cleared net current =>
    refine ⟨hci, h.wi, hsent, h.feed, h.shallow, ?_, ?_, fun c hc => ?_, fun c n hc hn => ?_, ?_, ?_, h.req, ?_⟩
    · show ∀ c n, cs'.net c = some n → _
      rw [net]
      exact fun c n hn => List.mem_append.2 (.inl (h.nets c n hn))
    · show ∀ c b, _ ∈ cs'.got c → _
      rw [got]; exact h.del
    · simp only at hc ⊢
      rw [current] at hc
      obtain rfl := Option.some.inj hc
      obtain ⟨h1, o, _, h2⟩ := h.pull f (.inr was)
      refine ⟨s.w.got, fun x hx => .inl hx, fun x hx => hx, ?_⟩
      rw [asked, Cardano.set_eq, if_neg h2]
      exact h1.mono _
    · simp only at hc hn
      rw [current] at hc
      obtain rfl := Option.some.inj hc
      rw [net, (h.ci.fresh _ (le_refl _)).2.1] at hn
      cases hn
    · show ∀ f, cs'.puller = _ ∨ cs'.puller = _ → _
      rw [puller]
      intro f hf
      rcases hf with hf | hf <;> cases hf
    · show _ ↔ cs'.puller = .idle
      rw [h.idle, was, puller]
      simp
    · show ∀ c, cs'.cleared c = false
      rw [cleared]; exact h.cleared

/-- What an answer delivers. -/
def answerBlock (D : Decoder) (x : PullRes) : List Block := (blockOf (reply D x)).toList

/-- An action that ends the pull: what is delivered. -/
theorem FSInv.answered (hD : D.Ok) {N : List Net} {s : Sys} (h : FSInv cfg D B r pre base d N s)
    (hN : Nodes cfg D B r pre base d N) {a : Cardano.Act} {cs' : St} (ha : going a = true) (hs : s.cs.step cfg a = some cs')
    {x : PullRes} (hr : cs'.results = s.cs.results ++ [x]) :
    s.cs.puller ≠ .idle ∧ cs'.puller = .idle ∧ cs'.asked = s.cs.asked ∧ cs'.cleared = s.cs.cleared ∧
    cs'.net = s.cs.net ∧ cs'.current = s.cs.current ∧
    Feed B r (answerBlock D x ++ s.w.got) ∧ Sent D pre.length N (answerBlock D x ++ s.w.got) ∧
    Shallow B d r (answerBlock D x ++ s.w.got) ∧
    (∀ c b, .block b ∈ cs'.got c → D.view b ∈ answerBlock D x ++ s.w.got) ∧
    (∀ c, s.cs.current = some c → (∀ v ∈ answerBlock D x, ∃ b, .block b ∈ cs'.got c ∧ v = D.view b) ∧
      ∀ b, b ∈ s.cs.got c → b ∈ cs'.got c) := by
  have hci := h.ci.step hs
  cases effect ha hs with
  | quiet results =>
    rw [results] at hr
    simp at hr
  | sent f was puller results =>
    rw [results] at hr
    simp at hr
  | ended x' hx results got next asked cleared was puller net current =>
    rw [results] at hr
    have hxx : x' = x := by simpa using hr
    subst hxx
    have hb : answerBlock D x' = [] := by
      rcases hx with rfl | rfl <;> rfl
    rw [hb, got]
    exact ⟨was, puller, asked, cleared, net, current, h.feed, h.sent, h.shallow, h.del, fun c _ => ⟨by simp, fun b hb => hb⟩⟩
  | event c o hc results got next asked cleared was puller net current =>
    rw [results] at hr
    have hxx : PullRes.event o = x := by simpa using hr
    subst hxx
    refine ⟨was, puller, asked, cleared, net, current, ?_⟩
    have hkeep : ∀ c', s.cs.current = some c' → ∀ b, b ∈ s.cs.got c' → b ∈ cs'.got c' := by
      intro c' hc' b hb
      rw [hc] at hc'
      obtain rfl := Option.some.inj hc'
      rw [got, Cardano.set_eq]
      exact List.mem_append.2 (.inl hb)
    have hold : ∀ c' b, .block b ∈ cs'.got c' → Out.block b ≠ o → .block b ∈ s.cs.got c' := by
      intro c' b hb hne
      rw [got] at hb
      by_cases he : c' = c
      · subst he
        rw [Cardano.set_eq] at hb
        rcases List.mem_append.1 hb with hb | hb
        · exact hb
        · exact absurd (List.mem_singleton.1 hb) hne
      · rw [Cardano.set_ne _ _ he] at hb
        exact hb
    cases o with
    | tip p =>
      exact ⟨h.feed, h.sent, h.shallow, fun c' b hb => h.del c' b (hold c' b hb (by simp)),
        fun c' hc' => ⟨by simp [answerBlock, reply, blockOf], hkeep c' hc'⟩⟩
    | bad =>
      exact ⟨h.feed, h.sent, h.shallow, fun c' b hb => h.del c' b (hold c' b hb (by simp)),
        fun c' hc' => ⟨by simp [answerBlock, reply, blockOf], hkeep c' hc'⟩⟩
    | block b =>
      have hp := hci.pre c
      rw [hci.plan, got, Cardano.set_eq, asked, net] at hp
      obtain ⟨h1, h2, h3⟩ := h.follows hD hN hc hp
      have hans : answerBlock D (.event (.block b)) = [D.view b] := rfl
      rw [hans]
      refine ⟨h2, h1, h3, fun c' b' hb' => ?_, fun c' hc' => ⟨fun v hv => ⟨b, ?_, List.mem_singleton.1 hv⟩, hkeep c' hc'⟩⟩
      · by_cases he : b' = b
        · rw [he]
          exact List.mem_cons_self
        · exact List.mem_cons_of_mem _ (h.del c' b' (hold c' b' hb' (by simpa using he)))
      · rw [hc] at hc'
        obtain rfl := Option.some.inj hc'
        rw [got, Cardano.set_eq]
        simp

/-- A pull that is answered. -/
theorem step_got {w : FWorld Point} {pt : Key → Option Point} {o : Orders} {ps : List Point}
    (he : w.src.events = []) (hq : w.src.request D.nf o (position pt w.chain) = .ok ps) (x : PullRes) :
    (w.step pt D.nf (.pull o (fun _ => reply D x))).got = answerBlock D x ++ w.got := by
  simp only [FWorld.step, FSrc.pull, he, hq, heard, answerBlock]

/-- A pull for which the Cardano source is not asked. -/
theorem step_got_queued {w : FWorld Point} {pt : Key → Option Point} {o : Orders}
    (h : w.src.events = [] → ∀ ps, w.src.request D.nf o (position pt w.chain) ≠ .ok ps) :
    (w.step pt D.nf (.pull o (fun _ => .error ()))).got = w.got := by
  simp only [FWorld.step, FSrc.pull]
  cases he : w.src.events with
  | cons e es => simp [heard]
  | nil =>
    cases hq : w.src.request D.nf o (position pt w.chain) with
    | error e => simp [heard]
    | ok ps => exact absurd hq (h he ps)

theorem restart_got {w : FWorld Point} {pt : Key → Option Point} {o : Orders} {it : List Ref → List Ref} :
    (w.step pt D.nf (.restart o it)).got = w.got := by
  simp only [FWorld.step]
  cases (reopenF w.src.mv w.src.depth o it : Except FErr (FSrc Point)) <;> rfl

theorem FSInv.step (hD : D.Ok) {N : List Net} {s s' : Sys} (h : FSInv cfg D B r pre base d N s) {a : Act} (ha : a.Ok)
    (hq : ∀ o it, a = .restart o it → Sources.Quiet s.w)
    (hs : s.step cfg (pointOf B D.nf r base) D a = some s')
    (hN : Nodes cfg D B r pre base d (N ++ taken [a])) : FSInv cfg D B r pre base d (N ++ taken [a]) s' := by
  obtain ⟨S, hw⟩ := h.wi
  cases a with
  | pull o =>
    have hmono := h.mono (a := .pull o) rfl
    simp only [Sys.step] at hs
    split at hs
    · cases hs
    · rename_i hpend
      have hidle := h.idle.1 hpend
      split at hs
      · rename_i qs he hqs
        obtain ⟨cs', h1, rfl⟩ := Option.map_eq_some_iff.1 hs
        obtain ⟨h2, h3⟩ := hmono.request hD he ha hqs
        have hci := h.ci.step h1
        simp only [St.step, hidle] at h1
        obtain rfl := Option.some.inj h1
        refine ⟨hci, h.wi, hmono.sent, h.feed, h.shallow, hmono.nets, h.del, hmono.cur, hmono.last, ?_, ?_, ?_, h.cleared⟩
        · intro f hf
          simp only at hf
          have : f = qs := by
            split at hf
            · rcases hf with hf | hf <;> cases hf
              rfl
            · rcases hf with hf | hf <;> cases hf
              rfl
          rw [this]
          exact ⟨h2, o, hqs, h3⟩
        · simp only [reduceCtorEq, false_iff]
          split <;> simp
        · intro o' ho'
          obtain rfl := Option.some.inj ho'
          exact ⟨ha, he, qs, hqs⟩
      · rename_i hno
        obtain rfl := Option.some.inj hs
        have hgot : (s.w.step (pointOf B D.nf r base) D.nf (.pull o (fun _ => .error ()))).got = s.w.got :=
          step_got_queued (fun he ps hps => hno ps he hps)
        have hf := h.feed
        have hse := hmono.sent
        have hsh := h.shallow
        rw [← hgot] at hf hse hsh
        refine ⟨h.ci, hw.pull (o := o) ha hf (fpoints hD hN hse.from) hsh, hse, hf, hsh, hmono.nets, ?_, ?_, hmono.last, ?_, ?_,
          by simp, h.cleared⟩
        · show ∀ c b, _ → _ ∈ (s.w.step (pointOf B D.nf r base) D.nf (.pull o (fun _ => .error ()))).got
          rw [hgot]
          exact h.del
        · show ∀ c, _ → ∃ G, (∀ x ∈ (s.w.step (pointOf B D.nf r base) D.nf (.pull o (fun _ => .error ()))).got, _) ∧
            (∀ x ∈ G, x ∈ (s.w.step (pointOf B D.nf r base) D.nf (.pull o (fun _ => .error ()))).got) ∧ _
          rw [hgot]
          exact hmono.cur
        · intro f hf'
          have hf'' : s.cs.puller = .reading f ∨ s.cs.puller = .sending f := hf'
          rw [hidle] at hf''
          rcases hf'' with hf'' | hf'' <;> cases hf''
        · simp [hidle]
  | inner a =>
    simp only [Sys.step] at hs
    split at hs
    · rename_i hgo
      obtain ⟨cs', h1, hs⟩ := Option.map_eq_some_iff.1 hs
      cases hres : resultOf s cs' with
      | none =>
        rw [hres] at hs
        subst hs
        exact h.silent hgo h1 (result_none hres hgo h1 h.idle)
      | some y =>
        obtain ⟨o, x⟩ := y
        rw [hres] at hs
        subst hs
        obtain ⟨h2, h3⟩ := result_some hres hgo h1
        obtain ⟨ho, he, ps, hps⟩ := h.req o h2
        have htk : taken [.inner a] = [] := by
          cases a with
          | take m =>
            exfalso
            simp only [St.step, St.take] at h1
            split at h1
            · split at h1
              · obtain rfl := Option.some.inj h1; simp at h3
              · obtain rfl := Option.some.inj h1; simp at h3
            · cases h1
          | _ => rfl
        rw [htk, List.append_nil] at hN ⊢
        obtain ⟨_, k2, k4, k5, k6, kc, k7, k8, ks, k9, k10⟩ := h.answered hD hN hgo h1 h3
        have hgot := step_got he hps x
        rw [← hgot] at k7 k8 ks k9
        refine ⟨h.ci.step h1, hw.pull ho k7 (fpoints hD hN k8.from) ks, k8, k7, ks, ?_, k9, ?_, ?_, ?_, by simp [k2], by simp, ?_⟩
        · show ∀ c n, cs'.net c = some n → _
          rw [k6]
          exact h.nets
        · show ∀ c, cs'.current = some c → ∃ G, (∀ v ∈ (s.w.step _ _ _).got, v ∈ G ∨ ∃ b, .block b ∈ cs'.got c ∧ v = D.view b) ∧
            (∀ v ∈ G, v ∈ (s.w.step _ _ _).got) ∧ Asked _ _ _ _ _ G (cs'.asked c)
          rw [kc, k4, hgot]
          intro c hc
          obtain ⟨G, g1, g2, g3⟩ := h.cur c hc
          refine ⟨G, fun v hv => ?_, fun v hv => List.mem_append.2 (.inr (g2 v hv)), g3⟩
          rcases List.mem_append.1 hv with hv | hv
          · exact .inr ((k10 c hc).1 v hv)
          · rcases g1 v hv with hv | ⟨b, hb, hv⟩
            · exact .inl hv
            · exact .inr ⟨b, (k10 c hc).2 _ hb, hv⟩
        · show ∀ c n, cs'.current = some c → cs'.net c = some n → _
          rw [kc, k6]
          exact h.last
        · show ∀ f, cs'.puller = _ ∨ cs'.puller = _ → _
          rw [k2]
          intro f hf
          rcases hf with hf | hf <;> cases hf
        · show ∀ c, cs'.cleared c = false
          rw [k5]
          exact h.cleared
    · cases hs
  | abandon =>
    have hmono := h.mono (a := .abandon) rfl
    simp only [Sys.step] at hs
    split at hs
    · cases hs
    · obtain ⟨cs', h1, rfl⟩ := Option.map_eq_some_iff.1 hs
      have hci := h.ci.abandon h1
      unfold St.abandon at h1
      split at h1
      · cases h1
      · obtain rfl := Option.some.inj h1
        exact ⟨hci, h.wi, hmono.sent, h.feed, h.shallow, hmono.nets, h.del, hmono.cur, hmono.last, by simp, by simp, by simp,
          h.cleared⟩
  | restart o it =>
    have hmono := h.mono (a := .restart o it) rfl
    simp only [Sys.step] at hs
    obtain rfl := Option.some.inj hs
    have hgot : (s.w.step (pointOf B D.nf r base) D.nf (.restart o it)).got = s.w.got := restart_got
    have hf := h.feed
    have hse := hmono.sent
    have hsh := h.shallow
    have hwr := hw.restart ha.1 ha.2 h.feed (hq o it rfl)
    rw [← hgot] at hf hse hsh
    exact FSInv.fresh hwr hse hf hsh

theorem taken_append (as bs : List Act) : taken (as ++ bs) = taken as ++ taken bs := List.flatMap_append

theorem FSInv.run (hD : D.Ok) : ∀ {as : List Act} {N : List Net} {s s' : Sys}, FSInv cfg D B r pre base d N s →
    (∀ a ∈ as, a.Ok) → QuietRestarts cfg (pointOf B D.nf r base) D s as → s.run cfg (pointOf B D.nf r base) D as = some s' →
    Nodes cfg D B r pre base d (N ++ taken as) → FSInv cfg D B r pre base d (N ++ taken as) s'
  | [], N, s, s', h, _, _, hr, _ => by
    obtain rfl := Option.some.inj hr
    simpa [taken] using h
  | a :: as, N, s, s', h, ha, hq, hr, hN => by
    rw [Sys.run] at hr
    cases hs : s.step cfg (pointOf B D.nf r base) D a with
    | none => rw [hs] at hr; cases hr
    | some s1 =>
      rw [hs] at hr
      have e : N ++ taken (a :: as) = (N ++ taken [a]) ++ taken as := by
        rw [List.append_assoc, ← taken_append]
        rfl
      rw [e] at hN ⊢
      exact FSInv.run hD (h.step hD (ha a (by simp)) hq.1 hs hN.left)
        (fun a' ha' => ha a' (List.mem_cons_of_mem _ ha')) (hq.2 s1 hs) hr hN

end Verif.Sources.Followed
