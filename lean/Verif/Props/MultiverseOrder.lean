import Verif.Props.Multiverse
import Mathlib.Data.List.Induction

/-!
# C116: the order in which blocks come

`l` is the list of the blocks given to a new multiverse, in the order of their arrival; a block may come more than
once. `B` gives the block of an identifier.
-/

namespace Verif.Props

open Verif.Multiverse

/-- The identifiers of the blocks. -/
def idsOf (l : List Block) : List Key := l.map Block.id

/-- The blocks are those of `B`, with numbers of 64 bits. -/
def Genuine (B : Key → Block) (l : List Block) : Prop := ∀ v ∈ l, v = B v.id ∧ v.number < 2 ^ 64

/-- `p` was there when `k` came for the first time. -/
def CameBefore (l : List Block) (p k : Key) : Prop :=
  ∃ l1 v l2, l = l1 ++ v :: l2 ∧ v.id = k ∧ k ∉ idsOf l1 ∧ p ∈ idsOf l1

/-- Parents come before their children, if they come. -/
def ParentsFirst (B : Key → Block) (l : List Block) : Prop :=
  ∀ k ∈ idsOf l, (B k).parent ∈ idsOf l → CameBefore l (B k).parent k

/-- The requests. -/
def arrive (l : List Block) : List Op := l.map Op.insert

theorem arrive_hist {B : Key → Block} {l : List Block} (h : Genuine B l) (sf : Nat) : MvHist B sf (arrive l) := by
  refine ⟨fun op hop => ?_, fair_of_noHeld fun k held hm => ?_⟩
  · obtain ⟨v, hv, rfl⟩ := List.mem_map.1 hop
    exact h v hv
  · obtain ⟨v, _, hv⟩ := List.mem_map.1 hm
    cases hv

theorem cameBefore_snoc {l : List Block} {v : Block} {p k : Key} :
    CameBefore (l ++ [v]) p k ↔ CameBefore l p k ∨ (v.id = k ∧ k ∉ idsOf l ∧ p ∈ idsOf l) := by
  constructor
  · rintro ⟨l1, w, l2, he, h1, h2, h3⟩
    rcases List.eq_nil_or_concat l2 with rfl | ⟨l3, x, rfl⟩
    · obtain ⟨rfl, hv⟩ := List.append_inj' he rfl
      cases hv
      exact .inr ⟨h1, h2, h3⟩
    · have he' : l ++ [v] = (l1 ++ w :: l3) ++ [x] := by simpa using he
      obtain ⟨rfl, _⟩ := List.append_inj' he' rfl
      exact .inl ⟨l1, w, l3, rfl, h1, h2, h3⟩
  · rintro (⟨l1, w, l2, rfl, h1, h2, h3⟩ | ⟨h1, h2, h3⟩)
    · exact ⟨l1, w, l2 ++ [v], by simp, h1, h2, h3⟩
    · exact ⟨l, v, [], rfl, h1, h2, h3⟩

theorem cameBefore_mem {l : List Block} {p k : Key} (h : CameBefore l p k) : k ∈ idsOf l ∧ p ∈ idsOf l := by
  obtain ⟨l1, v, l2, rfl, rfl, _, h3⟩ := h
  simp only [idsOf, List.map_append, List.map_cons, List.mem_append, List.mem_cons]
  exact ⟨.inr (.inl trivial), .inl h3⟩

theorem spec_arrive {B : Key → Block} (sf : Nat) {l : List Block} (h : Genuine B l) :
    (specRun B (sf, fun _ => none) (arrive l)).1 = sf ∧
    ∀ k, ((k ∈ idsOf l ↔ ((specRun B (sf, fun _ => none) (arrive l)).2 k).isSome) ∧
      ∀ b, (specRun B (sf, fun _ => none) (arrive l)).2 k = some b →
        (b.linked = true ↔ CameBefore l (B k).parent k) ∧ b.saved = decide (sf ≤ (B k).number)) := by
  induction l using List.reverseRecOn with
  | nil => exact ⟨rfl, fun k => ⟨by simp [idsOf, arrive, specRun], by simp [arrive, specRun]⟩⟩
  | append_singleton l v ih =>
    obtain ⟨ih1, ih2⟩ := ih (fun w hw => h w (List.mem_append_left _ hw))
    have hv := (h v (by simp)).1
    have e : specRun B (sf, fun _ => none) (arrive (l ++ [v])) =
        specStep B (specRun B (sf, fun _ => none) (arrive l)) (.insert v) := by
      simp [arrive, specRun]
    rw [e]
    simp only [specStep, specInsert]
    refine ⟨ih1, fun k => ?_⟩
    have hids : k ∈ idsOf (l ++ [v]) ↔ k ∈ idsOf l ∨ k = v.id := by simp [idsOf]
    rw [hids, cameBefore_snoc]
    by_cases hin : v.id ∈ idsOf l
    · rw [if_pos ((ih2 v.id).1.1 hin)]
      refine ⟨⟨?_, fun h => .inl ((ih2 k).1.2 h)⟩, fun b hb => ?_⟩
      · rintro (h | rfl)
        · exact (ih2 k).1.1 h
        · exact (ih2 _).1.1 hin
      · obtain ⟨h1, h2⟩ := (ih2 k).2 b hb
        refine ⟨h1.trans ⟨.inl, ?_⟩, h2⟩
        rintro (h | ⟨rfl, h3, _⟩)
        · exact h
        · exact absurd hin h3
    · rw [if_neg (fun hh => hin ((ih2 v.id).1.2 hh))]
      by_cases hk : k = v.id
      · subst hk
        simp only [if_true]
        refine ⟨by simp, fun b hb => ?_⟩
        rw [← Option.some.inj hb]
        simp only [ih1]
        rw [show (B v.id).number = v.number by rw [← hv], show (B v.id).parent = v.parent by rw [← hv]]
        refine ⟨(ih2 v.parent).1.symm.trans ⟨fun hp => .inr ⟨trivial, hin, hp⟩, ?_⟩, rfl⟩
        rintro (h | ⟨_, _, h3⟩)
        · exact absurd (cameBefore_mem h).1 hin
        · exact h3
      · simp only [if_neg hk]
        refine ⟨by rw [← (ih2 k).1]; simp [hk], fun b hb => ?_⟩
        obtain ⟨h1, h2⟩ := (ih2 k).2 b hb
        refine ⟨h1.trans ⟨.inl, ?_⟩, h2⟩
        rintro (h | ⟨h3, _⟩)
        · exact h
        · exact absurd h3.symm hk

/-- C116: what a multiverse shows after blocks came in any order. Every block is found. A block is a tip unless a child of
it came, for the first time, after it: a child that came before its parent is not counted. -/
theorem C116_exact {B : Key → Block} {l : List Block} (h : Genuine B l) (sf : Nat) :
    ∃ m, mvRun (MV.empty [] sf) (arrive l) = .ok m ∧
      (∀ k, m.get k = if k ∈ idsOf l then some (B k) else none) ∧
      (∀ k, k ∈ m.tips.map Ref.key ↔
        k ∈ idsOf l ∧ ∀ c ∈ idsOf l, (B c).parent = k → ¬ CameBefore l k c) ∧
      (∀ n k, (∃ s r, (n, s) ∈ m.ordered ∧ r ∈ s ∧ r.key = k) ↔ k ∈ idsOf l ∧ (B k).number = n) ∧
      ∀ k, (∃ a e r, AMap.get m.all (B k).parent = some (a, e) ∧ r ∈ e.children ∧ r.key = k) ↔
        CameBefore l (B k).parent k := by
  obtain ⟨m, h1, S, hS, h2, _, h3, h4, _⟩ := C15_refines (arrive_hist h sf)
  have hsp := (spec_arrive (B := B) sf h).2
  rw [← hS] at hsp
  have hlk := C15_links (B := B) (m := m) (S := S) ⟨arrive_hist h sf, h1, hS⟩
  refine ⟨m, h1, fun k => ?_, fun k => ?_, fun n k => ?_, fun k => ⟨?_, fun hc => ?_⟩⟩
  · rw [h2 k]
    simp only [(hsp k).1]
  · rw [h3 k, (hsp k).1]
    refine and_congr_right fun _ => ⟨fun hh c hc hp hcb => ?_, fun hh c b hb hl hp => ?_⟩
    · obtain ⟨b, hb⟩ := Option.isSome_iff_exists.1 ((hsp c).1.1 hc)
      exact hh c b hb (((hsp c).2 b hb).1.2 (hp ▸ hcb)) hp
    · exact hh c ((hsp c).1.2 (by rw [hb]; rfl)) hp (hp ▸ ((hsp c).2 b hb).1.1 hl)
  · rw [h4 n k, (hsp k).1]
  · rintro ⟨a, e, r, ha, hr, rfl⟩
    obtain ⟨b, hb, hl, _⟩ := hlk.1 _ _ _ _ ha hr
    exact ((hsp r.key).2 b hb).1.1 hl
  · obtain ⟨b, hb⟩ := Option.isSome_iff_exists.1 ((hsp k).1.1 (cameBefore_mem hc).1)
    exact hlk.2.1 k b hb (((hsp k).2 b hb).1.2 hc)

/-- With the same blocks and parents first, the specification has the same tree. -/
theorem spec_same {B : Key → Block} {l l' : List Block} (h : Genuine B l) (h' : Genuine B l')
    (hm : ∀ v, v ∈ l ↔ v ∈ l') (hp : ParentsFirst B l) (hp' : ParentsFirst B l') (sf : Nat) :
    (specRun B (sf, fun _ => none) (arrive l)).2 = (specRun B (sf, fun _ => none) (arrive l')).2 := by
  have hids : ∀ k, k ∈ idsOf l ↔ k ∈ idsOf l' := fun k => by simp only [idsOf, List.mem_map, hm]
  have s1 := (spec_arrive (B := B) sf h).2
  have s2 := (spec_arrive (B := B) sf h').2
  funext k
  cases e1 : (specRun B (sf, fun _ => none) (arrive l)).2 k with
  | none =>
    cases e2 : (specRun B (sf, fun _ => none) (arrive l')).2 k with
    | none => rfl
    | some b =>
      have := (s1 k).1.1 ((hids k).2 ((s2 k).1.2 (by rw [e2]; rfl)))
      rw [e1] at this
      cases this
  | some b =>
    have hk := (s1 k).1.2 (by rw [e1]; rfl)
    obtain ⟨b', e2⟩ := Option.isSome_iff_exists.1 ((s2 k).1.1 ((hids k).1 hk))
    rw [e2]
    obtain ⟨a1, a2⟩ := (s1 k).2 b e1
    obtain ⟨b1, b2⟩ := (s2 k).2 b' e2
    have hc : CameBefore l (B k).parent k ↔ CameBefore l' (B k).parent k :=
      ⟨fun hc => hp' k ((hids k).1 hk) ((hids _).1 (cameBefore_mem hc).2),
        fun hc => hp k hk ((hids _).2 (cameBefore_mem hc).2)⟩
    have hl : b.linked = b'.linked := Bool.eq_iff_iff.2 (a1.trans (hc.trans b1.symm))
    cases b
    cases b'
    simp only at hl a2 b2
    rw [hl, a2, b2]

/-- Two multiverses show the same: blocks, tips and order by number; and if one block has the largest number, the same block is
selected and the same blocks are discarded, whatever the orders of the hash sets. -/
structure SameShown (B : Key → Block) (m m' : MV) : Prop where
  blocks : ∀ k, m.get k = m'.get k
  tips : ∀ k, k ∈ m.tips.map Ref.key ↔ k ∈ m'.tips.map Ref.key
  ordered : ∀ n k, (∃ s r, (n, s) ∈ m.ordered ∧ r ∈ s ∧ r.key = k) ↔ ∃ s r, (n, s) ∈ m'.ordered ∧ r ∈ s ∧ r.key = k
  selects : ∀ (held held' : Nat → Bool) (order order' : List Ref → List Ref) (depth ageGap : Nat),
    NoStale m held → NoStale m' held' → (∀ x, (order x).Perm x) → (∀ x, (order' x).Perm x) →
    (∀ v w, m.get v.id = some v → m.get w.id = some w → (∀ k x, m.get k = some x → x.number ≤ v.number) →
      (∀ k x, m.get k = some x → x.number ≤ w.number) → v = w) →
    ∃ sel disc sel' disc', m.selectBest held order depth ageGap = .ok (sel, disc) ∧
      m'.selectBest held' order' depth ageGap = .ok (sel', disc') ∧
      sel.map Ref.key = sel'.map Ref.key ∧ ∀ k, k ∈ disc.map Ref.key ↔ k ∈ disc'.map Ref.key

/-- Multiverses with the same tree show the same. -/
theorem same_shown {B : Key → Block} {sf sf' : Nat} {ops ops' : List Op} {m m' : MV} {S : Tree}
    (ha : MvAfter B sf ops m S) (hb : MvAfter B sf' ops' m' S) : SameShown B m m' := by
  have ra := ha.rel.1
  have rb := hb.rel.1
  refine ⟨fun k => by rw [ra.get, rb.get], fun k => by rw [ra.tips, rb.tips], fun n k => by rw [ra.ordered, rb.ordered], ?_⟩
  intro held held' order order' depth ageGap hs hs' ho ho' hu
  obtain ⟨sel, disc, c1, _, c3⟩ := C17_selected ha hs ho depth ageGap
  obtain ⟨sel', disc', d1, _, d3⟩ := C17_selected hb hs' ho' depth ageGap
  have hget : ∀ k, (S k).isSome → m.get k = some (B k) := fun k hk => by rw [ra.get, if_pos hk]
  have hsome : ∀ k x, m.get k = some x → (S k).isSome ∧ x = B k := fun k x hx => by
    rw [ra.get] at hx
    split at hx
    · rename_i hk; exact ⟨hk, (Option.some.inj hx).symm⟩
    · cases hx
  have hid : ∀ k, (S k).isSome → (B k).id = k := fun k hk => by
    rw [← ra.get_all k] at hk
    obtain ⟨x, hx⟩ := Option.isSome_iff_exists.1 hk
    exact (ra.mem.val k x.1 x.2 hx).2.1
  have hsel : sel.map Ref.key = sel'.map Ref.key := by
    rcases c3 with ⟨rfl, c3⟩ | ⟨t, t1, t2, t3⟩ <;> rcases d3 with ⟨rfl, d3⟩ | ⟨t', t1', t2', t3'⟩
    · rfl
    · rw [c3 t'] at t1'; cases t1'
    · rw [d3 t] at t1; cases t1
    · have top : ∀ u, (∀ k, (S k).isSome → (B k).number ≤ (B u).number) →
          ∀ k x, m.get k = some x → x.number ≤ (B u).number := fun u hh k x hx => by
        obtain ⟨q1, rfl⟩ := hsome k x hx
        exact hh k q1
      have := hu (B t) (B t') (by rw [hid t t1]; exact hget t t1) (by rw [hid t' t1']; exact hget t' t1')
        (top t t2) (top t' t2')
      have ht : t = t' := by rw [← hid t t1, ← hid t' t1', this]
      rw [t3, t3', ht]
  refine ⟨sel, disc, sel', disc', c1, d1, hsel, fun k => ?_⟩
  have cd := C18_discarded ha hs ho c1
  have dd := C18_discarded hb hs' ho' d1
  cases sel with
  | none =>
    cases sel' with
    | none => rw [cd.1 rfl, dd.1 rfl]
    | some r' => cases hsel
  | some r =>
    cases sel' with
    | none => cases hsel
    | some r' =>
      have hk : r.key = r'.key := Option.some.inj hsel
      rw [cd.2 r rfl k, dd.2 r' rfl k, hk]

/-- C116: if parents come before their children, the order in which the blocks come does not matter. -/
theorem C116_order_partial {B : Key → Block} {l l' : List Block} (h : Genuine B l) (h' : Genuine B l')
    (hm : ∀ v, v ∈ l ↔ v ∈ l') (hp : ParentsFirst B l) (hp' : ParentsFirst B l') (sf : Nat) :
    ∃ m m', mvRun (MV.empty [] sf) (arrive l) = .ok m ∧ mvRun (MV.empty [] sf) (arrive l') = .ok m' ∧
      SameShown B m m' := by
  obtain ⟨m, e1, S, hS, _⟩ := C15_refines (arrive_hist h sf)
  obtain ⟨m', e1', S', hS', _⟩ := C15_refines (arrive_hist h' sf)
  have hSS : S = S' := by rw [hS, hS', spec_same h h' hm hp hp' sf]
  subst hSS
  exact ⟨m, m', e1, e1', same_shown ⟨arrive_hist h sf, e1, hS⟩ ⟨arrive_hist h' sf, e1', hS'⟩⟩

/-- C116: opening the multiverse again makes up for the order: whatever the order in which the blocks came, afterwards it
shows what one shows to which parents came first, if every block is saved and parents have smaller numbers. -/
theorem C116_reopened {B : Key → Block} {l l' : List Block} (h : Genuine B l) (h' : Genuine B l')
    (hm : ∀ v, v ∈ l ↔ v ∈ l') (hp' : ParentsFirst B l') {sf : Nat} (hsv : ∀ v ∈ l, sf ≤ v.number)
    (hnum : ∀ v ∈ l, v.parent ∈ idsOf l → (B v.parent).number < v.number) (sf' : Nat) :
    ∃ m m1 m', mvRun (MV.empty [] sf) (arrive l) = .ok m ∧ loadFrom m.db sf' = .ok m1 ∧
      mvRun (MV.empty [] sf) (arrive l') = .ok m' ∧
      (∀ k, m1.get k = m'.get k) ∧ (∀ k, k ∈ m1.tips.map Ref.key ↔ k ∈ m'.tips.map Ref.key) ∧
      (∀ n k, (∃ s r, (n, s) ∈ m1.ordered ∧ r ∈ s ∧ r.key = k) ↔ ∃ s r, (n, s) ∈ m'.ordered ∧ r ∈ s ∧ r.key = k) ∧
      ∀ k, (∃ a e r, AMap.get m1.all (B k).parent = some (a, e) ∧ r ∈ e.children ∧ r.key = k) ↔
        ∃ a e r, AMap.get m'.all (B k).parent = some (a, e) ∧ r ∈ e.children ∧ r.key = k := by
  obtain ⟨m, e1, S, hS, _⟩ := C15_refines (arrive_hist h sf)
  have ha : MvAfter B sf (arrive l) m S := ⟨arrive_hist h sf, e1, hS⟩
  have hids : ∀ k, k ∈ idsOf l ↔ k ∈ idsOf l' := fun k => by simp only [idsOf, List.mem_map, hm]
  have hsp := (spec_arrive (B := B) sf h).2
  rw [← hS] at hsp
  obtain ⟨m1, S1, f1, f2, f3, f4, f5⟩ := C21_links ha sf'
  obtain ⟨m', g1, g2, g3, g4, g5⟩ := C116_exact h' sf
  have hB : ∀ k ∈ idsOf l, ∃ v ∈ l, v.id = k ∧ v = B k := fun k hk => by
    obtain ⟨v, hv, rfl⟩ := List.mem_map.1 hk
    exact ⟨v, hv, rfl, (h v hv).1⟩
  have hsaved : ∀ k, isSaved S k = true ↔ k ∈ idsOf l := fun k => by
    rw [isSaved_iff]
    constructor
    · rintro ⟨b, hb, _⟩
      exact (hsp k).1.2 (by rw [hb]; rfl)
    · intro hk
      obtain ⟨b, hb⟩ := Option.isSome_iff_exists.1 ((hsp k).1.1 hk)
      obtain ⟨v, hv, _, hvb⟩ := hB k hk
      refine ⟨b, hb, ?_⟩
      rw [((hsp k).2 b hb).2, ← hvb]
      exact decide_eq_true (hsv v hv)
  have hbef : ∀ c ∈ idsOf l, (B c).parent ∈ idsOf l → Before (B (B c).parent) (B c) := fun c hc hpc => by
    obtain ⟨v, hv, _, hvb⟩ := hB c hc
    rw [← hvb] at hpc ⊢
    exact .inl (hnum v hv hpc)
  have hr1 := f2.rel.1
  have lk1 := C15_links f2
  refine ⟨m, m1, m', e1, f1, g1, fun k => ?_, fun k => ?_, fun n k => ?_, fun k => ?_⟩
  · rw [hr1.get k, g2 k]
    simp only [f3 k, hsaved k, hids k]
  · rw [f5 k, g3 k, hsaved k, hids k]
    refine and_congr_right fun hk => ⟨fun hh c hc hpc _ => ?_, fun hh c hc hpc _ => ?_⟩
    · have hc' := (hids c).2 hc
      refine hh c ((hsaved c).2 hc') hpc ?_
      have := hbef c hc' (by rw [hpc]; exact (hids k).2 hk)
      rwa [hpc] at this
    · have hc' := (hids c).1 ((hsaved c).1 hc)
      refine hh c hc' hpc ?_
      have := hp' c hc' (by rw [hpc]; exact hk)
      rwa [hpc] at this
  · rw [hr1.ordered n k, g4 n k, f3 k, hsaved k, hids k]
  · rw [g5 k]
    constructor
    · rintro ⟨a, e, r, q1, q2, rfl⟩
      obtain ⟨b, hb, hl, _⟩ := lk1.1 _ _ _ _ q1 q2
      have hpar := ((f4 _ b hb).1 hl).1
      exact hp' _ ((hids _).1 ((hsaved _).1 ((f3 _).1 (by rw [hb]; rfl)))) ((hids _).1 ((hsaved _).1 hpar))
    · intro hc
      obtain ⟨q1, q2⟩ := cameBefore_mem hc
      obtain ⟨b, hb⟩ := Option.isSome_iff_exists.1 ((f3 k).2 ((hsaved k).2 ((hids k).2 q1)))
      exact lk1.2.1 k b hb ((f4 k b hb).2
        ⟨(hsaved _).2 ((hids _).2 q2), hbef k ((hids k).2 q1) ((hids _).2 q2)⟩)

/-! ### Removals -/

/-- The identifiers inserted. -/
def insertedIn (ops : List Op) : List Key := ops.filterMap fun
  | .insert v => some v.id
  | _ => none

/-- The identifiers removed. -/
def removedIn (ops : List Op) : List Key := ops.filterMap fun
  | .remove k _ => some k
  | _ => none

/-- Insertions and removals in which no block comes after its removal, and none comes for the first time after a child of
it. -/
structure Orderly (B : Key → Block) (ops : List Op) : Prop where
  only : ∀ op ∈ ops, (∃ v, op = .insert v) ∨ ∃ k held, op = .remove k held
  first : ∀ before v after, ops = before ++ .insert v :: after → v.id ∉ removedIn before ∧ v.parent ≠ v.id ∧
    (v.id ∈ insertedIn before ∨ ∀ c ∈ insertedIn before, (B c).parent ≠ v.id)

theorem Orderly.init {B : Key → Block} {ops : List Op} {op : Op} (h : Orderly B (ops ++ [op])) : Orderly B ops :=
  ⟨fun o ho => h.only o (List.mem_append_left _ ho),
    fun b v a he => h.first b v (a ++ [op]) (by rw [he]; simp)⟩

theorem spec_orderly {B : Key → Block} (sf : Nat) {ops : List Op} (h : Orderly B ops) (hok : ∀ op ∈ ops, OpOk B op) :
    (specRun B (sf, fun _ => none) ops).1 = sf ∧
    ∀ k, (((specRun B (sf, fun _ => none) ops).2 k).isSome ↔ k ∈ insertedIn ops ∧ k ∉ removedIn ops) ∧
      ∀ b, (specRun B (sf, fun _ => none) ops).2 k = some b →
        (b.linked = true ↔ ((specRun B (sf, fun _ => none) ops).2 (B k).parent).isSome) ∧
        b.saved = decide (sf ≤ (B k).number) := by
  induction ops using List.reverseRecOn with
  | nil => exact ⟨rfl, fun k => ⟨by simp [specRun, insertedIn], by simp [specRun]⟩⟩
  | append_singleton ops op ih =>
    obtain ⟨ih1, ih2⟩ := ih h.init (fun o ho => hok o (List.mem_append_left _ ho))
    have e : specRun B (sf, fun _ => none) (ops ++ [op]) =
        specStep B (specRun B (sf, fun _ => none) ops) op := by simp [specRun]
    rw [e]
    rcases h.only op (by simp) with ⟨v, rfl⟩ | ⟨x, held, rfl⟩
    · obtain ⟨hv, _⟩ := hok (.insert v) (by simp)
      obtain ⟨f1, f2, f3⟩ := h.first ops v [] rfl
      have hins : ∀ k, k ∈ insertedIn (ops ++ [.insert v]) ↔ k ∈ insertedIn ops ∨ k = v.id := by simp [insertedIn]
      have hrem : removedIn (ops ++ [.insert v]) = removedIn ops := by simp [removedIn]
      simp only [specStep, specInsert, hrem]
      refine ⟨ih1, ?_⟩
      by_cases hin : v.id ∈ insertedIn ops
      · rw [if_pos ((ih2 v.id).1.2 ⟨hin, f1⟩)]
        intro k
        refine ⟨?_, (ih2 k).2⟩
        rw [(ih2 k).1, hins]
        constructor
        · rintro ⟨a, b⟩; exact ⟨.inl a, b⟩
        · rintro ⟨a | rfl, b⟩
          · exact ⟨a, b⟩
          · exact ⟨hin, b⟩
      · have hns : ¬ ((specRun B (sf, fun _ => none) ops).2 v.id).isSome = true := fun hh => hin ((ih2 v.id).1.1 hh).1
        rw [if_neg hns]
        intro k
        by_cases hk : k = v.id
        · subst hk
          simp only [if_true, hins]
          refine ⟨by simp [f1], fun b hb => ?_⟩
          rw [← Option.some.inj hb, ← hv, if_neg f2]
          exact ⟨Iff.rfl, by simp only [ih1]⟩
        · simp only [if_neg hk, hins]
          refine ⟨by rw [(ih2 k).1]; simp [hk], fun b hb => ?_⟩
          obtain ⟨g1, g2⟩ := (ih2 k).2 b hb
          have hp : (B k).parent ≠ v.id := (f3.resolve_left hin) k ((ih2 k).1.1 (by rw [hb]; rfl)).1
          rw [if_neg hp]
          exact ⟨g1, g2⟩
    · have hins : insertedIn (ops ++ [.remove x held]) = insertedIn ops := by simp [insertedIn]
      have hrem : ∀ k, k ∈ removedIn (ops ++ [.remove x held]) ↔ k ∈ removedIn ops ∨ k = x := by simp [removedIn]
      simp only [specStep, hins, hrem]
      have hiso : ∀ k, (specRemove B (specRun B (sf, fun _ => none) ops).2 x k).isSome ↔
          k ≠ x ∧ ((specRun B (sf, fun _ => none) ops).2 k).isSome := fun k => by
        unfold specRemove
        by_cases hk : k = x
        · simp [hk]
        · by_cases hp : (B k).parent = x <;> simp [hk, hp]
      refine ⟨ih1, fun k => ⟨by rw [hiso, (ih2 k).1]; tauto, fun b hb => ?_⟩⟩
      rw [hiso]
      unfold specRemove at hb
      by_cases hk : k = x
      · simp [hk] at hb
      · rw [if_neg hk] at hb
        by_cases hp : (B k).parent = x
        · rw [if_pos hp] at hb
          obtain ⟨b', h1, rfl⟩ := Option.map_eq_some_iff.1 hb
          exact ⟨by simp [hp], ((ih2 k).2 b' h1).2⟩
        · rw [if_neg hp] at hb
          obtain ⟨g1, g2⟩ := (ih2 k).2 b hb
          exact ⟨by rw [g1]; simp [hp], g2⟩

/-- C116 with removals: insertions and removals may be interleaved in any way in which no block comes after its removal or
after a child of it. What is shown depends only on which blocks came and which were removed: a block that came and was not
removed is found, and is a tip if no child of it is left. The selection is the same too, if one block has the largest
number. -/
theorem C116_history_partial {B : Key → Block} {ops ops' : List Op} {sf : Nat} (h : MvHist B sf ops)
    (h' : MvHist B sf ops') (ho : Orderly B ops) (ho' : Orderly B ops')
    (hi : ∀ k, k ∈ insertedIn ops ↔ k ∈ insertedIn ops') (hr : ∀ k, k ∈ removedIn ops ↔ k ∈ removedIn ops') :
    ∃ m m', mvRun (MV.empty [] sf) ops = .ok m ∧ mvRun (MV.empty [] sf) ops' = .ok m' ∧
      (∀ k, m.get k = if k ∈ insertedIn ops ∧ k ∉ removedIn ops then some (B k) else none) ∧
      (∀ k, k ∈ m.tips.map Ref.key ↔ (k ∈ insertedIn ops ∧ k ∉ removedIn ops) ∧
        ∀ c, c ∈ insertedIn ops → c ∉ removedIn ops → (B c).parent ≠ k) ∧
      SameShown B m m' := by
  obtain ⟨m, e1, S, hS, a2, _, a3, a4, _⟩ := C15_refines h
  obtain ⟨m', e1', S', hS', _⟩ := C15_refines h'
  have s1 := (spec_orderly sf ho h.1).2
  have s2 := (spec_orderly sf ho' h'.1).2
  rw [← hS] at s1
  rw [← hS'] at s2
  have hiso : ∀ k, (S k).isSome ↔ (S' k).isSome := fun k => by rw [(s1 k).1, (s2 k).1, hi, hr]
  have hSS : S = S' := by
    funext k
    cases f1 : S k with
    | none =>
      cases f2 : S' k with
      | none => rfl
      | some b =>
        have := (hiso k).2 (by rw [f2]; rfl)
        rw [f1] at this
        cases this
    | some b =>
      obtain ⟨b', f2⟩ := Option.isSome_iff_exists.1 ((hiso k).1 (by rw [f1]; rfl))
      rw [f2]
      obtain ⟨a1, a2⟩ := (s1 k).2 b f1
      obtain ⟨b1, b2⟩ := (s2 k).2 b' f2
      have hl : b.linked = b'.linked := Bool.eq_iff_iff.2 (a1.trans ((hiso _).trans b1.symm))
      cases b
      cases b'
      simp only at hl a2 b2
      rw [hl, a2, b2]
  subst hSS
  refine ⟨m, m', e1, e1', fun k => by rw [a2 k]; simp only [(s1 k).1], fun k => ?_,
    same_shown ⟨h, e1, hS⟩ ⟨h', e1', hS'⟩⟩
  rw [a3 k, (s1 k).1]
  refine and_congr_right fun hk => ⟨fun hh c h1 h2 hp => ?_, fun hh c b hb _ => ?_⟩
  · obtain ⟨b, hb⟩ := Option.isSome_iff_exists.1 ((s1 c).1.2 ⟨h1, h2⟩)
    exact hh c b hb (((s1 c).2 b hb).1.2 (by rw [hp]; exact (s1 k).1.2 hk)) hp
  · obtain ⟨h1, h2⟩ := (s1 c).1.1 (by rw [hb]; rfl)
    exact hh c h1 h2

/-! ### A sample: the blocks of the fork in three orders -/

/-- Parents first, in the order of `forkOps`. -/
def forkAsc : List Block := [forkB [0], forkB [1], forkB [2], forkB [3]]

/-- Parents first, in another order, with repetitions. -/
def forkOther : List Block := [forkB [0], forkB [2], forkB [0], forkB [1], forkB [3], forkB [2]]

/-- A child before its parent. -/
def forkLate : List Block := [forkB [3], forkB [0], forkB [2], forkB [1]]

theorem fork_genuine (ks : List Key) : Genuine forkB (ks.map forkB) := by
  intro v hv
  obtain ⟨k, _, rfl⟩ := List.mem_map.1 hv
  exact forkB_ok k

/-- `CameBefore`, computed. -/
def cameCheck : List Block → List Key → Key → Key → Bool
  | [], _, _, _ => false
  | v :: l, seen, p, k => if v.id = k then decide (p ∈ seen) else cameCheck l (v.id :: seen) p k

theorem cameBefore_of_check : ∀ (l : List Block) (l0 : List Block) (seen : List Key) (p k : Key),
    (∀ x ∈ seen, x ∈ idsOf l0) → k ∉ idsOf l0 → cameCheck l seen p k = true → CameBefore (l0 ++ l) p k
  | [], _, _, _, _, _, _, h => by simp [cameCheck] at h
  | v :: l, l0, seen, p, k, hs, hk, h => by
    unfold cameCheck at h
    by_cases hv : v.id = k
    · rw [if_pos hv] at h
      exact ⟨l0, v, l, rfl, hv, hk, hs p (of_decide_eq_true h)⟩
    · rw [if_neg hv] at h
      have := cameBefore_of_check l (l0 ++ [v]) (v.id :: seen) p k
        (fun x hx => by
          rcases List.mem_cons.1 hx with rfl | hx
          · simp [idsOf]
          · simpa [idsOf] using .inl (by simpa [idsOf] using hs x hx))
        (by simpa [idsOf, Ne.symm hv] using hk) h
      simpa using this

theorem parentsFirst_of_check {B : Key → Block} {l : List Block}
    (h : (idsOf l).all (fun k => !(idsOf l).contains (B k).parent || cameCheck l [] (B k).parent k) = true) :
    ParentsFirst B l := by
  intro k hk hp
  have := List.all_eq_true.1 h k hk
  rw [Bool.or_eq_true] at this
  rcases this with h1 | h1
  · simp [hp] at h1
  · simpa using cameBefore_of_check l [] [] _ k (by simp) (by simp [idsOf]) h1

theorem fork_mem {a b : List Key} (h : ∀ k, k ∈ a ↔ k ∈ b) (v : Block) : v ∈ a.map forkB ↔ v ∈ b.map forkB := by
  simp only [List.mem_map, h]

example : ∃ m, mvRun (MV.empty [] 0) (arrive forkLate) = .ok m ∧ [1] ∈ m.tips.map Ref.key ∧
    m.get [3] = some (forkB [3]) := by
  obtain ⟨m, h1, h2, h3, _⟩ := C116_exact (fork_genuine [[3], [0], [2], [1]]) 0
  refine ⟨m, h1, (h3 [1]).2 ⟨by decide +kernel, ?_⟩, by rw [h2]; decide +kernel⟩
  intro c _ hc ⟨l1, v, l2, he, hv, hn, hp⟩
  have hc3 : c = [3] := by
    by_contra hne
    unfold forkB at hc
    split at hc
    · cases hc
    · split at hc
      · cases hc
      · simp only [if_neg hne] at hc
        cases hc
  subst hc3
  cases l1 with
  | nil => simp [idsOf] at hp
  | cons x l1 =>
    have := (List.cons.inj he).1
    rw [← this] at hn
    exact hn (by simp [idsOf, forkB_id])

example : ∃ m m' sel sel' disc disc', mvRun (MV.empty [] 0) (arrive forkAsc) = .ok m ∧
    mvRun (MV.empty [] 0) (arrive forkOther) = .ok m' ∧
    m.selectBest (fun _ => false) id 1 0 = .ok (sel, disc) ∧
    m'.selectBest (fun _ => false) List.reverse 1 0 = .ok (sel', disc') ∧ sel.map Ref.key = sel'.map Ref.key := by
  obtain ⟨m, m', h1, h2, h3⟩ := C116_order_partial (B := forkB) (l := forkAsc) (l' := forkOther)
    (fork_genuine [[0], [1], [2], [3]]) (fork_genuine [[0], [2], [0], [1], [3], [2]])
    (fork_mem (a := [[0], [1], [2], [3]]) (b := [[0], [2], [0], [1], [3], [2]]) (by intro k; simp; tauto))
    (parentsFirst_of_check (by decide +kernel)) (parentsFirst_of_check (by decide +kernel)) 0
  obtain ⟨m0, g1, g2, _⟩ := C116_exact (fork_genuine [[0], [1], [2], [3]]) 0
  have hmm : m0 = m := Except.ok.inj (g1.symm.trans h1)
  subst hmm
  have hfound : ∀ v : Block, m0.get v.id = some v → v ∈ forkAsc := fun v hv => by
    rw [g2] at hv
    split at hv
    · rename_i hk
      obtain ⟨w, hw, hwi⟩ := List.mem_map.1 hk
      obtain ⟨k, _, rfl⟩ := List.mem_map.1 hw
      rw [forkB_id] at hwi
      rw [← Option.some.inj hv, ← hwi]
      exact hw
    · cases hv
  obtain ⟨s, d, s', d', a1, a2, a3, _⟩ := h3.selects (fun _ => false) (fun _ => false) id List.reverse 1 0
    (fun _ _ _ _ _ _ hf => by cases hf) (fun _ _ _ _ _ _ hf => by cases hf) (fun _ => .refl _)
    (fun l => l.reverse_perm) (by
      intro v w hv hw h4 h5
      have h36 : m0.get [3] = some (forkB [3]) := by rw [g2]; decide +kernel
      have h6 := h4 _ _ h36
      have h7 := h5 _ _ h36
      have hv := hfound v hv
      have hw := hfound w hw
      simp only [forkAsc, List.mem_cons, List.not_mem_nil, or_false] at hv hw
      rcases hv with rfl | rfl | rfl | rfl <;> rcases hw with rfl | rfl | rfl | rfl <;>
        first | rfl | (exfalso; revert h6; decide +kernel) | (exfalso; revert h7; decide +kernel))
  exact ⟨m0, m', s, s', d, d', h1, h2, a1, a2, a3⟩

example : ∃ m m1, mvRun (MV.empty [] 0) (arrive forkLate) = .ok m ∧ loadFrom m.db 0 = .ok m1 ∧
    [1] ∉ m1.tips.map Ref.key := by
  obtain ⟨m, m1, m', h1, h2, h3, _, h4, _⟩ := C116_reopened (B := forkB) (l := forkLate) (l' := forkAsc)
    (fork_genuine [[3], [0], [2], [1]]) (fork_genuine [[0], [1], [2], [3]])
    (fork_mem (a := [[3], [0], [2], [1]]) (b := [[0], [1], [2], [3]]) (by intro k; simp; tauto))
    (parentsFirst_of_check (by decide +kernel)) (sf := 0) (by intro v _; exact Nat.zero_le _)
    (by
      intro v hv hp
      simp only [forkLate, List.mem_cons, List.not_mem_nil, or_false] at hv
      rcases hv with rfl | rfl | rfl | rfl
      · decide +kernel
      · exact absurd hp (by decide +kernel)
      · decide +kernel
      · decide +kernel) 0
  refine ⟨m, m1, h1, h2, ?_⟩
  rw [h4]
  have e1 : ((mvRun (MV.empty [] 0) (arrive forkAsc)).map (fun m => m.tips.map Ref.key)).toOption =
    some [[3], [2]] := by decide +kernel
  rw [h3] at e1
  have e2 : m'.tips.map Ref.key = [[3], [2]] := Option.some.inj e1
  rw [e2]
  decide

/-- The condition on the history, computed. -/
def orderlyCheck (B : Key → Block) (ops : List Op) : Bool := (List.range ops.length).all fun i =>
  match ops[i]? with
  | some (.insert v) => decide (v.id ∉ removedIn (ops.take i) ∧ v.parent ≠ v.id ∧
      (v.id ∈ insertedIn (ops.take i) ∨ ∀ c ∈ insertedIn (ops.take i), (B c).parent ≠ v.id))
  | some (.remove _ _) => true
  | _ => false

theorem orderly_of_check {B : Key → Block} {ops : List Op} (h : orderlyCheck B ops = true) : Orderly B ops := by
  simp only [orderlyCheck, List.all_eq_true, List.mem_range] at h
  refine ⟨fun op hop => ?_, fun before v after he => ?_⟩
  · obtain ⟨i, hi, rfl⟩ := List.getElem_of_mem hop
    have := h i hi
    rw [List.getElem?_eq_getElem hi] at this
    cases hx : ops[i] with
    | insert v => exact .inl ⟨v, rfl⟩
    | remove k held => exact .inr ⟨k, held, rfl⟩
    | clear => rw [hx] at this; cases this
    | reopen n => rw [hx] at this; cases this
  · have := h before.length (by rw [he]; simp)
    rw [he] at this
    simpa using this

/-- The blocks of the fork, and the removal of the first. -/
def forkRemoved : List Op := arrive forkAsc ++ [.remove [0] fun _ => false]

/-- The same, where the first block is gone before a child of it comes. -/
def forkRemovedEarly : List Op :=
  [.insert (forkB [0]), .insert (forkB [1]), .remove [0] fun _ => false, .insert (forkB [3]), .insert (forkB [2])]

theorem forkRemoved_hist {ops : List Op} (h : ∀ op ∈ ops, (∃ k, op = .insert (forkB k)) ∨ ∃ k, op = .remove k fun _ => false) :
    MvHist forkB 0 ops := by
  refine ⟨fun op hop => ?_, fair_of_noHeld fun k held hm => ?_⟩
  · rcases h op hop with ⟨k, rfl⟩ | ⟨k, rfl⟩
    · exact forkB_ok k
    · trivial
  · rcases h _ hm with ⟨_, he⟩ | ⟨_, he⟩
    · cases he
    · cases he; rfl

example : ∃ m m', mvRun (MV.empty [] 0) forkRemoved = .ok m ∧ mvRun (MV.empty [] 0) forkRemovedEarly = .ok m' ∧
    SameShown forkB m m' ∧ [2] ∈ m'.tips.map Ref.key ∧ m'.get [1] = some (forkB [1]) ∧ m'.get [0] = none := by
  obtain ⟨m, m', h1, h2, h3, h4, h5⟩ := C116_history_partial (B := forkB) (sf := 0) (ops := forkRemoved) (ops' := forkRemovedEarly)
    (forkRemoved_hist (by
      intro op hop
      simp only [forkRemoved, arrive, forkAsc, List.map_cons, List.map_nil, List.cons_append, List.nil_append,
        List.mem_cons, List.not_mem_nil, or_false] at hop
      rcases hop with rfl | rfl | rfl | rfl | rfl <;> simp))
    (forkRemoved_hist (by
      intro op hop
      simp only [forkRemovedEarly, List.mem_cons, List.not_mem_nil, or_false] at hop
      rcases hop with rfl | rfl | rfl | rfl | rfl <;> simp))
    (orderly_of_check (by decide +kernel)) (orderly_of_check (by decide +kernel))
    (by
      have e1 : insertedIn forkRemoved = [[0], [1], [2], [3]] := by decide +kernel
      have e2 : insertedIn forkRemovedEarly = [[0], [1], [3], [2]] := by decide +kernel
      intro k; rw [e1, e2]; simp; tauto)
    (by
      have e1 : removedIn forkRemoved = removedIn forkRemovedEarly := by decide +kernel
      intro k; rw [e1])
  refine ⟨m, m', h1, h2, h5, ?_, ?_, ?_⟩
  · rw [← h5.tips, h4]
    refine ⟨by decide +kernel, fun c hc _ => ?_⟩
    have e1 : insertedIn forkRemoved = [[0], [1], [2], [3]] := by decide +kernel
    rw [e1] at hc
    simp only [List.mem_cons, List.not_mem_nil, or_false] at hc
    rcases hc with rfl | rfl | rfl | rfl <;> decide +kernel
  · rw [← h5.blocks, h3, if_pos (by decide +kernel)]
  · rw [← h5.blocks, h3, if_neg (by decide +kernel)]

/-- C116 is false without the condition: a block that comes before its parent is never linked to it, as long as the multiverse
is open. The parent counts as a tip, and no ancestor of the block can be selected. -/
theorem C116_order_false : ¬ ∀ (B : Key → Block) (l l' : List Block) (m m' : MV), Genuine B l → Genuine B l' →
    l.Perm l' → mvRun (MV.empty [] 0) (arrive l) = .ok m → mvRun (MV.empty [] 0) (arrive l') = .ok m' →
    (∀ k, k ∈ m.tips.map Ref.key ↔ k ∈ m'.tips.map Ref.key) ∨
    (m.selectBest (fun _ => false) id 1 0).map (fun x => x.1.map Ref.key) =
      (m'.selectBest (fun _ => false) id 1 0).map (fun x => x.1.map Ref.key) := by
  intro h
  obtain ⟨m, h1, _⟩ := C116_exact (fork_genuine [[0], [1], [2], [3]]) 0
  obtain ⟨m', h2, _⟩ := C116_exact (fork_genuine [[3], [0], [2], [1]]) 0
  have e1 : ((mvRun (MV.empty [] 0) (arrive ([[0], [1], [2], [3]].map forkB))).map (fun m => (m.tips.map Ref.key,
      ((m.selectBest (fun _ => false) id 1 0).map (fun x => x.1.map Ref.key)).toOption))).toOption =
    some ([[3], [2]], some (some [1])) := by decide +kernel
  have e2 : ((mvRun (MV.empty [] 0) (arrive ([[3], [0], [2], [1]].map forkB))).map (fun m => (m.tips.map Ref.key,
      ((m.selectBest (fun _ => false) id 1 0).map (fun x => x.1.map Ref.key)).toOption))).toOption =
    some ([[1], [2], [3]], some none) := by decide +kernel
  rw [h1] at e1
  rw [h2] at e2
  have f1 := Option.some.inj e1
  have f2 := Option.some.inj e2
  rcases h forkB _ _ m m' (fork_genuine [[0], [1], [2], [3]]) (fork_genuine [[3], [0], [2], [1]])
    (by decide +kernel) h1 h2 with h3 | h3
  · have h4 := (h3 [1]).2 (by rw [(Prod.mk.inj f2).1]; decide)
    rw [(Prod.mk.inj f1).1] at h4
    revert h4
    decide
  · have g1 := (Prod.mk.inj f1).2
    rw [h3, (Prod.mk.inj f2).2] at g1
    cases g1

end Verif.Props
