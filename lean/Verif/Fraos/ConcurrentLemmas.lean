import Verif.Fraos.Concurrent
import Verif.Fraos.SpecLemmas
import Mathlib.Algebra.BigOperators.Fin
import Mathlib.Algebra.Order.BigOperators.Group.Finset

/-! # The threads of the code do what the specification says -/

namespace Verif.Fraos

/-- Holds the write lock. -/
def PC.holds : PC → Bool
  | .locked _ | .began _ _ | .loaded _ _ _ | .grown _ _ _ | .stored _ _ | .numbered _ _ _
  | .idxLoaded _ _ _ _ | .idxGrown _ _ _ | .unlocking _ _ => true
  | _ => false

/-- Bytes this thread may still write to the data. -/
def PC.pend : PC → Nat
  | .start c => c.bytes
  | .locked b | .began b _ | .loaded b _ _ => (b.map List.length).sum
  | _ => 0

/-- A batch that is accepted. -/
def GoodBatch (b : List (List UInt8)) : Prop := b ≠ [] ∧ ∀ r ∈ b, r ≠ []

/-- The records of `b` are in the data from `d0` on, but not yet in the index. -/
structure Pending (db : DB) (es : List (Nat × Nat)) (C : List UInt8) (d0 : Nat) (b : List (List UInt8)) :
    Prop where
  good : GoodBatch b
  fill : ∃ C0, C = C0 ++ b.flatten ∧ C0.length = d0
  old : ∀ e ∈ es, e.1 + e.2 ≤ d0
  recs : Recs C db.data.g.bounds (entriesFrom d0 b) b

/-- A thread of the code and the same thread of the specification. -/
def PcRel (db : DB) (es : List (Nat × Nat)) (C : List UInt8) (log : List (List UInt8)) : PC → APC → Prop
  | .idle, ac => ac = .idle
  | .start c, ac => ac = .start c ∧ c.small
  | .locked b, ac => ac = .start (.append b) ∧ b ≠ []
  | .began b d0, ac => ac = .start (.append b) ∧ b ≠ [] ∧ d0 = C.length
  | .loaded b d0 sz, ac => ac = .start (.append b) ∧ GoodBatch b ∧ d0 = C.length ∧ sz = C.length
  | .grown b d0 sz, ac => ac = .start (.append b) ∧ Pending db es C d0 b ∧ sz = d0
  | .stored b d0, ac => ac = .start (.append b) ∧ Pending db es C d0 b
  | .numbered b d0 k, ac => ac = .start (.append b) ∧ Pending db es C d0 b ∧ k = log.length
  | .idxLoaded b d0 k sz, ac => ac = .start (.append b) ∧ Pending db es C d0 b ∧ k = log.length ∧
      sz = 16 * es.length
  | .idxGrown b k sz, ac => ac = .shown b k ∧ sz + 16 * b.length = 16 * es.length
  | .unlocking b r, ac => ac = .ready (.append b) (.seqno r)
  | .found i o l, ac => ∃ r, es[i]? = some (o, l) ∧ log[i]? = some r ∧
      ac = .ready (.get i) (.record (.ok (some r)))
  | .finished c r, ac => ac = .ready c r

/-- The database with both sizes as the mappings say. -/
def DB.norm (db : DB) (C : List UInt8) (es : List (Nat × Nat)) : DB :=
  ⟨⟨db.data.g, C.length⟩, ⟨db.idx.g, 16 * es.length⟩⟩

/-- The simulation. -/
structure Sim {n : Nat} (B : Nat) (s : CState n) (a : AState n) (es : List (Nat × Nat))
    (C : List UInt8) : Prop where
  inv : DBInv (s.db.norm C es) es C a.log
  room : DBRoom s.db
  wd : s.db.data.g.writable = true
  wi : s.db.idx.g.writable = true
  bytes : C.length + ∑ t, (s.pcs t).pend ≤ B
  excl : ∀ t, (s.pcs t).holds = true → s.lock = some t
  rel : ∀ t, PcRel s.db es C a.log (s.pcs t) (a.pcs t)
  dsize : s.db.data.size = C.length ∨ ∃ t b d0 sz, s.pcs t = .grown b d0 sz
  icount : s.db.idx.size = 16 * a.counted
  isize : a.counted = a.log.length ∨ ∃ t b k sz, s.pcs t = .idxGrown b k sz

theorem sum_update {n : Nat} (f : PC → Nat) (pcs : Fin n → PC) (t : Fin n) (x : PC) :
    (∑ u, f (Function.update pcs t x u)) + f (pcs t) = (∑ u, f (pcs u)) + f x := by
  rw [← Finset.add_sum_erase _ _ (Finset.mem_univ t), ← Finset.add_sum_erase _ (fun u => f (pcs u))
    (Finset.mem_univ t)]
  have : ∑ u ∈ Finset.univ.erase t, f (Function.update pcs t x u) =
      ∑ u ∈ Finset.univ.erase t, f (pcs u) := by
    apply Finset.sum_congr rfl
    intro u hu
    rw [Function.update_of_ne (Finset.ne_of_mem_erase hu)]
  rw [this, Function.update_self]
  omega

theorem pend_le {n : Nat} (pcs : Fin n → PC) (t : Fin n) : (pcs t).pend ≤ ∑ u, (pcs u).pend :=
  Finset.single_le_sum (f := fun u => (pcs u).pend) (fun _ _ => Nat.zero_le _) (Finset.mem_univ t)

/-- Threads outside the lock do not notice what the holder does. -/
theorem PcRel.mono {db db' : DB} {es es' : List (Nat × Nat)} {C C' : List UInt8}
    {log log' : List (List UInt8)} (he : es <+: es') (hl : log <+: log') {pc : PC} {ac : APC}
    (hn : pc.holds = false) (h : PcRel db es C log pc ac) : PcRel db' es' C' log' pc ac := by
  cases pc <;> first | exact h | (simp [PC.holds] at hn; done) | skip
  rename_i i o l
  obtain ⟨r, h1, h2, h3⟩ := h
  obtain ⟨x, rfl⟩ := he
  obtain ⟨y, rfl⟩ := hl
  exact ⟨r, by rw [List.getElem?_append_left]; exact h1; exact (List.getElem?_eq_some_iff.mp h1).1,
    by rw [List.getElem?_append_left]; exact h2; exact (List.getElem?_eq_some_iff.mp h2).1, h3⟩

namespace Sim

variable {p : Params} {n B : Nat} {s : CState n} {a : AState n} {es : List (Nat × Nat)} {C : List UInt8}

theorem others (h : Sim B s a es C) {t u : Fin n} (ht : (s.pcs t).holds = true) (hu : u ≠ t) :
    (s.pcs u).holds = false := by
  by_contra hc
  have h1 := h.excl t ht
  have h2 := h.excl u (by simpa using hc)
  rw [h1] at h2
  exact hu (Option.some.inj h2).symm

theorem free (h : Sim B s a es C) (hl : s.lock = none) (u : Fin n) : (s.pcs u).holds = false := by
  by_contra hc
  have h2 := h.excl u (by simpa using hc)
  rw [hl] at h2
  cases h2

/-- The data size is right when the holder is not between the two steps. -/
theorem dsize_eq (h : Sim B s a es C) {t : Fin n} (ht : (s.pcs t).holds = true)
    (hg : ∀ b d0 sz, s.pcs t ≠ .grown b d0 sz) : s.db.data.size = C.length := by
  rcases h.dsize with h1 | ⟨u, b, d0, sz, hu⟩
  · exact h1
  · by_cases htu : u = t
    · subst htu; exact absurd hu (hg b d0 sz)
    · have := h.others ht htu
      rw [hu] at this; cases this

theorem counted_eq (h : Sim B s a es C) {t : Fin n} (ht : (s.pcs t).holds = true)
    (hg : ∀ b k sz, s.pcs t ≠ .idxGrown b k sz) : a.counted = a.log.length := by
  rcases h.isize with h1 | ⟨u, b, k, sz, hu⟩
  · exact h1
  · by_cases htu : u = t
    · subst htu; exact absurd hu (hg b k sz)
    · have := h.others ht htu
      rw [hu] at this; cases this

/-- A thread moves without touching the database or the lock. -/
theorem move (h : Sim B s a es C) {t : Fin n} {pc : PC} {ac : APC} {B' : Nat}
    (hb : B + pc.pend ≤ B' + (s.pcs t).pend) (hh : pc.holds = true → s.lock = some t)
    (hg1 : ∀ b d0 sz, s.pcs t ≠ .grown b d0 sz) (hg2 : ∀ b k sz, s.pcs t ≠ .idxGrown b k sz)
    (hrel : PcRel s.db es C a.log pc ac) :
    Sim B' (s.goto t pc) { a with pcs := Function.update a.pcs t ac } es C := by
  have hsum := sum_update PC.pend s.pcs t pc
  have hle := pend_le s.pcs t
  have hbytes := h.bytes
  refine ⟨h.inv, h.room, h.wd, h.wi, ?_, ?_, ?_, ?_, h.icount, ?_⟩
  · simp only [CState.goto]; omega
  · intro u hu
    simp only [CState.goto] at hu ⊢
    by_cases htu : u = t
    · subst htu; rw [Function.update_self] at hu; exact hh hu
    · rw [Function.update_of_ne htu] at hu; exact h.excl u hu
  · intro u
    simp only [CState.goto]
    by_cases htu : u = t
    · subst htu; rw [Function.update_self, Function.update_self]; exact hrel
    · rw [Function.update_of_ne htu, Function.update_of_ne htu]; exact h.rel u
  · rcases h.dsize with h1 | ⟨u, b, d0, sz, hu⟩
    · exact .inl h1
    · right
      have htu : u ≠ t := by rintro rfl; exact hg1 _ _ _ hu
      exact ⟨u, b, d0, sz, by simp only [CState.goto]; rw [Function.update_of_ne htu]; exact hu⟩
  · rcases h.isize with h1 | ⟨u, b, k, sz, hu⟩
    · exact .inl h1
    · right
      have htu : u ≠ t := by rintro rfl; exact hg2 _ _ _ hu
      exact ⟨u, b, k, sz, by simp only [CState.goto]; rw [Function.update_of_ne htu]; exact hu⟩

/-- The same when the specification does not move. -/
theorem stay (h : Sim B s a es C) {t : Fin n} {pc : PC}
    (hb : pc.pend ≤ (s.pcs t).pend) (hh : pc.holds = true → s.lock = some t)
    (hg1 : ∀ b d0 sz, s.pcs t ≠ .grown b d0 sz) (hg2 : ∀ b k sz, s.pcs t ≠ .idxGrown b k sz)
    (hrel : PcRel s.db es C a.log pc (a.pcs t)) : Sim B (s.goto t pc) a es C := by
  have := h.move (B' := B) (by omega) hh hg1 hg2 hrel
  rwa [Function.update_eq_self] at this

theorem lockStep (h : Sim B s a es C) {t : Fin n} {b : List (List UInt8)}
    (ht : s.pcs t = .start (.append b)) (hb : b ≠ []) (hl : s.lock = none) :
    Sim B { s.goto t (.locked b) with lock := some t } a es C := by
  have hr := h.rel t
  rw [ht] at hr
  have hsum := sum_update PC.pend s.pcs t (.locked b)
  rw [ht] at hsum
  change _ + (b.map List.length).sum = _ + (b.map List.length).sum at hsum
  have hbytes := h.bytes
  refine ⟨h.inv, h.room, h.wd, h.wi, ?_, ?_, ?_, ?_, h.icount, ?_⟩
  · simp only [CState.goto]; omega
  · intro u hu
    simp only [CState.goto] at hu ⊢
    by_cases htu : u = t
    · rw [htu]
    · rw [Function.update_of_ne htu, h.free hl u] at hu; cases hu
  · intro u
    simp only [CState.goto]
    by_cases htu : u = t
    · subst htu; rw [Function.update_self]; exact ⟨hr.1, hb⟩
    · rw [Function.update_of_ne htu]; exact h.rel u
  · rcases h.dsize with h1 | ⟨u, b, d0, sz, hu⟩
    · exact .inl h1
    · have := h.free hl u; rw [hu] at this; cases this
  · rcases h.isize with h1 | ⟨u, b, k, sz, hu⟩
    · exact .inl h1
    · have := h.free hl u; rw [hu] at this; cases this

theorem unlockStep (h : Sim B s a es C) {t : Fin n} {b : List (List UInt8)}
    {r : Except Err (Option Nat)} (ht : s.pcs t = .unlocking b r) :
    Sim B { s.goto t (.finished (.append b) (.seqno r)) with lock := none } a es C := by
  have hr := h.rel t
  rw [ht] at hr
  have hsum := sum_update PC.pend s.pcs t (.finished (.append b) (.seqno r))
  rw [ht] at hsum
  change _ + 0 = _ + 0 at hsum
  have hbytes := h.bytes
  have hold : (s.pcs t).holds = true := by rw [ht]; rfl
  refine ⟨h.inv, h.room, h.wd, h.wi, ?_, ?_, ?_, ?_, h.icount, ?_⟩
  · simp only [CState.goto]; omega
  · intro u hu
    simp only [CState.goto] at hu ⊢
    by_cases htu : u = t
    · subst htu; rw [Function.update_self] at hu; cases hu
    · rw [Function.update_of_ne htu, h.others hold htu] at hu; cases hu
  · intro u
    simp only [CState.goto]
    by_cases htu : u = t
    · subst htu; rw [Function.update_self]; exact hr
    · rw [Function.update_of_ne htu]; exact h.rel u
  · exact .inl (h.dsize_eq hold (by rw [ht]; intros; simp))
  · exact .inl (h.counted_eq hold (by rw [ht]; intros; simp))

/-- The data section puts the records behind the others, or the system refuses and they are not there. -/
theorem growData (h : Sim B s a es C) {t : Fin n} {b : List (List UInt8)} {d0 sz : Nat}
    (ht : s.pcs t = .loaded b d0 sz) (hB : B < 2 ^ 60) {ft : Faults} (hft : ft.Early) :
    (∃ g, s.db.data.g.grow p ft (b.map List.length).sum (writeRecords b) = (.ok (), g) ∧
      Sim B { s.goto t (.grown b d0 sz) with db := s.db.setData g } a es (C ++ b.flatten)) ∨
    ∃ e g, s.db.data.g.grow p ft (b.map List.length).sum (writeRecords b) = (.error e, g) ∧
      (e = .extend ∨ e = .mmap) ∧ ft ≠ Faults.none ∧
      Sim B { s.goto t (.unlocking b (.error e)) with db := s.db.setData g }
        { a with pcs := Function.update a.pcs t (.ready (.append b) (.seqno (.error e))) } es C := by
  have hr := h.rel t
  rw [ht] at hr
  obtain ⟨hac, ⟨hb, hne⟩, hd0, hsz⟩ := hr
  have hold : (s.pcs t).holds = true := by rw [ht]; rfl
  have hpos : 0 < b.flatten.length := by
    cases b with
    | nil => exact absurd rfl hb
    | cons r rs =>
      have := List.length_pos_of_ne_nil (hne r (by simp))
      simp only [List.flatten_cons, List.length_append]; omega
  rw [← List.length_flatten]
  have hdok : GMOK s.db.data.g C := h.inv.dataOK
  rcases grow_spec (p := p) hdok h.room.2 hft.protect hft.flush hft.remap hpos (f := writeRecords b)
    (by intro n hn; unfold writeRecords; rw [if_pos hn]) with
    ⟨g1, e, hok, hroom, hbd, hw, fs, hs, hf⟩ | ⟨er, g1, e, hu, he⟩
  · have hsum := sum_update PC.pend s.pcs t (.grown b d0 sz)
    rw [ht] at hsum
    change _ + (b.map List.length).sum = _ + 0 at hsum
    rw [← List.length_flatten] at hsum
    have hbytes := h.bytes
    have hfile : g1.file.isSome = s.db.data.g.file.isSome := by rw [hf, Option.isSome_map, hs.isSome]
    have hrn : Recs (C ++ b.flatten) g1.bounds (entriesFrom C.length b) b := by
      apply entriesFrom_recs C b hne
      intro x hx
      rcases hbd x hx with hx | hx
      · left
        obtain ⟨c, hc, y, hy, rfl⟩ := mem_globalBounds.mp hx
        have h1 := hdok.chain.start_ge hc
        have h2 := (hdok.chain.ok hc).le_size hy
        have := c.stop_eq
        omega
      · right; omega
    have hro : Recs (C ++ b.flatten) g1.bounds es a.log := by
      apply h.inv.recs.mono
      intro x hx
      rcases hbd x hx with hx | hx
      · exact .inl hx
      · right; omega
    refine .inl ⟨g1, e, ⟨⟨h.inv.idxOK, h.inv.idxBounds, rfl, hok, rfl, hro, ?_, h.inv.tail, ?_⟩,
      ⟨h.room.1, hroom⟩, by rw [← h.wd]; exact hw, h.wi, ?_, ?_, ?_, ?_, h.icount, ?_⟩⟩
    · rw [List.length_append]; omega
    · exact hfile.trans h.inv.mode
    · simp only [CState.goto, List.length_append]; omega
    · intro u hu
      simp only [CState.goto] at hu ⊢
      by_cases htu : u = t
      · rw [htu]; exact h.excl t hold
      · rw [Function.update_of_ne htu] at hu; exact h.excl u hu
    · intro u
      simp only [CState.goto]
      by_cases htu : u = t
      · subst htu
        rw [Function.update_self]
        refine ⟨hac, ⟨⟨hb, hne⟩, ⟨C, rfl, hd0.symm⟩, ?_, ?_⟩, by omega⟩
        · intro x hx
          have := h.inv.recs.mem hx
          omega
        · rw [hd0]; exact hrn
      · rw [Function.update_of_ne htu]
        exact (h.rel u).mono (List.prefix_refl _) (List.prefix_refl _) (h.others hold htu)
    · exact .inr ⟨t, b, d0, sz, by simp only [CState.goto]; rw [Function.update_self]⟩
    · exact .inl (h.counted_eq hold (by rw [ht]; intros; simp))
  · have hsum := sum_update PC.pend s.pcs t (.unlocking b (.error er))
    rw [ht] at hsum
    change _ + (b.map List.length).sum = _ + 0 at hsum
    have hbytes := h.bytes
    refine .inr ⟨er, g1, e, ?_, ?_, ⟨⟨h.inv.idxOK, h.inv.idxBounds, rfl, hu.ok, rfl, ?_, h.inv.fits, h.inv.tail, ?_⟩,
      ⟨h.room.1, hu.room⟩, by rw [← h.wd]; exact hu.writable, h.wi, ?_, ?_, ?_, ?_, h.icount, ?_⟩⟩
    · rcases he with ⟨h1, _⟩ | ⟨h1, _⟩
      · exact .inl h1
      · exact .inr h1
    · rintro rfl
      rcases he with ⟨_, h1 | h1⟩ | ⟨_, h1⟩
      · cases h1
      · rw [h.wd] at h1; cases h1
      · cases h1
    · have hb1 : ((s.db.setData g1).norm C es).data.g.bounds = (s.db.norm C es).data.g.bounds := hu.bounds
      simp only [hb1]
      exact h.inv.recs
    · exact hu.file.isSome.trans h.inv.mode
    · simp only [CState.goto]; omega
    · intro u hu
      simp only [CState.goto] at hu ⊢
      by_cases htu : u = t
      · rw [htu]; exact h.excl t hold
      · rw [Function.update_of_ne htu] at hu; exact h.excl u hu
    · intro u
      simp only [CState.goto]
      by_cases htu : u = t
      · subst htu
        rw [Function.update_self, Function.update_self]
        rfl
      · rw [Function.update_of_ne htu, Function.update_of_ne htu]
        exact (h.rel u).mono (List.prefix_refl _) (List.prefix_refl _) (h.others hold htu)
    · exact .inl (h.dsize_eq hold (by rw [ht]; intros; simp))
    · exact .inl (h.counted_eq hold (by rw [ht]; intros; simp))

theorem storeData (h : Sim B s a es C) {t : Fin n} {b : List (List UInt8)} {d0 sz : Nat}
    (ht : s.pcs t = .grown b d0 sz) :
    Sim B { s.goto t (.stored b d0) with db := s.db.setDataSize (sz + (b.map List.length).sum) } a es C := by
  have hr := h.rel t
  rw [ht] at hr
  obtain ⟨hac, hpnd, hsz⟩ := hr
  have hold : (s.pcs t).holds = true := by rw [ht]; rfl
  have hsum := sum_update PC.pend s.pcs t (.stored b d0)
  rw [ht] at hsum
  change _ + 0 = _ + 0 at hsum
  have hbytes := h.bytes
  refine ⟨h.inv, h.room, h.wd, h.wi, ?_, ?_, ?_, ?_, h.icount, ?_⟩
  · simp only [CState.goto]; omega
  · intro u hu
    simp only [CState.goto] at hu ⊢
    by_cases htu : u = t
    · rw [htu]; exact h.excl t hold
    · rw [Function.update_of_ne htu] at hu; exact h.excl u hu
  · intro u
    simp only [CState.goto]
    by_cases htu : u = t
    · subst htu
      rw [Function.update_self]
      exact ⟨hac, ⟨hpnd.good, hpnd.fill, hpnd.old, hpnd.recs⟩⟩
    · rw [Function.update_of_ne htu]
      exact (h.rel u).mono (List.prefix_refl _) (List.prefix_refl _) (h.others hold htu)
  · left
    obtain ⟨C0, rfl, hC0⟩ := hpnd.fill
    simp only [DB.setDataSize, List.length_append]
    rw [← List.length_flatten]; omega
  · exact .inl (h.counted_eq hold (by rw [ht]; intros; simp))

/-- The index section shows the records, or the system refuses and they stay hidden. -/
theorem growIdx (h : Sim B s a es C) (hp : 16 ∣ p.minMmap) {t : Fin n} {b : List (List UInt8)}
    {d0 k sz : Nat} (ht : s.pcs t = .idxLoaded b d0 k sz) {ft : Faults} (hft : ft.Early) :
    (∃ g, s.db.idx.g.grow p ft (16 * b.length) (writeEntries (entriesFrom d0 b)) = (.ok (), g) ∧
      Sim B { s.goto t (.idxGrown b k sz) with db := s.db.setIdx g }
        { a with log := a.log ++ b, pcs := Function.update a.pcs t (.shown b a.log.length) }
        (es ++ entriesFrom d0 b) C ∧ g.file.isSome = s.db.idx.g.file.isSome ∧
      LenStep (16 * es.length + s.db.idx.g.newSize p (16 * b.length)) s.db.idx.g.file g.file) ∨
    ∃ e g, s.db.idx.g.grow p ft (16 * b.length) (writeEntries (entriesFrom d0 b)) = (.error e, g) ∧
      (e = .extend ∨ e = .mmap) ∧ ft ≠ Faults.none ∧
      Sim B { s.goto t (.unlocking b (.error e)) with db := s.db.setIdx g }
        { a with pcs := Function.update a.pcs t (.ready (.append b) (.seqno (.error e))) } es C ∧
      g.file.isSome = s.db.idx.g.file.isSome ∧
      LenStep (16 * es.length + s.db.idx.g.newSize p (16 * b.length)) s.db.idx.g.file g.file := by
  have hr := h.rel t
  rw [ht] at hr
  obtain ⟨hac, hpnd, hk, hsz⟩ := hr
  have hold : (s.pcs t).holds = true := by rw [ht]; rfl
  have hnew : entriesFrom d0 b ≠ [] := by
    intro h0
    have := entriesFrom_length d0 b
    rw [h0] at this
    have := List.length_pos_of_ne_nil hpnd.good.1
    simp_all
  have hnz : ∀ e ∈ entriesFrom d0 b, e.2 ≠ 0 := by
    intro e he
    have := hpnd.recs.mem he
    omega
  have happ : idxAppend p ⟨s.db.idx.g, 16 * es.length⟩ ft (entriesFrom d0 b) =
      match s.db.idx.g.grow p ft (16 * b.length) (writeEntries (entriesFrom d0 b)) with
      | (.error e, g) => (.error e, ⟨g, 16 * es.length⟩)
      | (.ok _, g) => (.ok (some (idxLen ⟨s.db.idx.g, 16 * es.length⟩)), ⟨g, 16 * es.length + 16 * b.length⟩) := by
    unfold idxAppend Appender.append
    have hi1 : (entriesFrom d0 b).isEmpty = false := by
      cases hx : entriesFrom d0 b with
      | nil => exact absurd hx hnew
      | cons => rfl
    have hi2 : (entriesFrom d0 b).any (fun e => e.2 == 0) = false := by
      rw [List.any_eq_false]
      intro e he
      have := hnz e he
      simpa using this
    have hi3 : ¬ 16 * (entriesFrom d0 b).length = 0 := by
      have := List.length_pos_of_ne_nil hnew; omega
    rw [hi1, hi2, if_neg hi3]
    simp only [Bool.false_eq_true, if_false]
    rw [entriesFrom_length]
    cases hg : s.db.idx.g.grow p ft (16 * b.length) (writeEntries (entriesFrom d0 b)) with
    | mk r g => cases r <;> rfl
  rcases idxAppend_spec (p := p) hp (a := ⟨s.db.idx.g, 16 * es.length⟩) h.inv.idxOK h.room.1
    h.inv.idxBounds rfl h.inv.tail hft hnew hnz with
    ⟨a1, e1, hok1, hroom1, hbd1, hsz1, ht1, hw1, hm1, hl1⟩ | ⟨er, g2, e1, hu, ht1, he⟩
  · have hgrow : s.db.idx.g.grow p ft (16 * b.length) (writeEntries (entriesFrom d0 b)) = (.ok (), a1.g) := by
      revert e1
      rw [happ]
      cases hg : s.db.idx.g.grow p ft (16 * b.length) (writeEntries (entriesFrom d0 b)) with
      | mk r g =>
        cases r with
        | error x => simp only; intro h; cases h
        | ok u =>
          simp only
          intro h
          simp only [Prod.mk.injEq] at h
          rw [← h.2]
    have hsum := sum_update PC.pend s.pcs t (.idxGrown b k sz)
    rw [ht] at hsum
    change _ + 0 = _ + 0 at hsum
    have hbytes := h.bytes
    obtain ⟨C0, hC, hC0⟩ := hpnd.fill
    have hl := h.inv.recs.length
    rw [entriesFrom_length] at hl1
    refine .inl ⟨a1.g, hgrow, ⟨⟨hok1, hbd1, rfl, h.inv.dataOK, rfl, ?_, h.inv.fits, ht1, ?_⟩,
      ⟨hroom1, h.room.2⟩, h.wd, by rw [← h.wi]; exact hw1, ?_, ?_, ?_, ?_, h.icount, ?_⟩, hm1, hl1⟩
    · subst hC
      exact h.inv.recs.append hpnd.recs (fun e he => by rw [hC0]; exact hpnd.old e he)
        (fun e he => by rw [hC0]; exact (entriesFrom_ge he).1)
    · exact h.inv.mode.trans hm1.symm
    · simp only [CState.goto]; omega
    · intro u hu
      simp only [CState.goto] at hu ⊢
      by_cases htu : u = t
      · rw [htu]; exact h.excl t hold
      · rw [Function.update_of_ne htu] at hu; exact h.excl u hu
    · intro u
      simp only [CState.goto]
      by_cases htu : u = t
      · subst htu
        rw [Function.update_self, Function.update_self]
        refine ⟨by rw [hk], ?_⟩
        rw [List.length_append, entriesFrom_length]; omega
      · rw [Function.update_of_ne htu, Function.update_of_ne htu]
        exact (h.rel u).mono (List.prefix_append _ _) (List.prefix_append _ _) (h.others hold htu)
    · exact .inl (h.dsize_eq hold (by rw [ht]; intros; simp))
    · exact .inr ⟨t, b, k, sz, by simp only [CState.goto]; rw [Function.update_self]⟩
  · have hgrow : s.db.idx.g.grow p ft (16 * b.length) (writeEntries (entriesFrom d0 b)) = (.error er, g2) := by
      revert e1
      rw [happ]
      cases hg : s.db.idx.g.grow p ft (16 * b.length) (writeEntries (entriesFrom d0 b)) with
      | mk r g =>
        cases r with
        | error x =>
          simp only
          intro h
          simp only [Prod.mk.injEq, Except.error.injEq, Appender.mk.injEq] at h
          rw [h.1, h.2.1]
        | ok u => simp only; intro h; cases h
    have hsum := sum_update PC.pend s.pcs t (.unlocking b (.error er))
    rw [ht] at hsum
    change _ + 0 = _ + 0 at hsum
    have hbytes := h.bytes
    have hlen := hu.file.lenStep
    rw [entriesBytes_length, entriesFrom_length] at hlen
    refine .inr ⟨er, g2, hgrow, ?_, ?_, ⟨⟨hu.ok, ?_, rfl, h.inv.dataOK, rfl, h.inv.recs, h.inv.fits, ht1, ?_⟩,
      ⟨hu.room, h.room.2⟩, h.wd, by rw [← h.wi]; exact hu.writable, ?_, ?_, ?_, ?_, h.icount, ?_⟩, hu.file.isSome, hlen⟩
    · rcases he with ⟨h1, _⟩ | ⟨h1, _⟩
      · exact .inl h1
      · exact .inr h1
    · rintro rfl
      rcases he with ⟨_, h1 | h1⟩ | ⟨_, h1⟩
      · cases h1
      · exact absurd h1 (by simp [h.wi])
      · cases h1
    · intro x hx
      rw [show ((s.db.setIdx g2).norm C es).idx.g = g2 from rfl, hu.bounds] at hx
      exact h.inv.idxBounds x hx
    · exact h.inv.mode.trans hu.file.isSome.symm
    · simp only [CState.goto]; omega
    · intro u hu
      simp only [CState.goto] at hu ⊢
      by_cases htu : u = t
      · rw [htu]; exact h.excl t hold
      · rw [Function.update_of_ne htu] at hu; exact h.excl u hu
    · intro u
      simp only [CState.goto]
      by_cases htu : u = t
      · subst htu
        rw [Function.update_self, Function.update_self]
        rfl
      · rw [Function.update_of_ne htu, Function.update_of_ne htu]
        exact (h.rel u).mono (List.prefix_refl _) (List.prefix_refl _) (h.others hold htu)
    · exact .inl (h.dsize_eq hold (by rw [ht]; intros; simp))
    · exact .inl (h.counted_eq hold (by rw [ht]; intros; simp))

theorem storeIdx (h : Sim B s a es C) {t : Fin n} {b : List (List UInt8)} {k sz : Nat}
    (ht : s.pcs t = .idxGrown b k sz) :
    Sim B { s.goto t (.unlocking b (.ok (some k))) with db := s.db.setIdxSize (sz + 16 * b.length) }
      { a with
        counted := a.log.length
        pcs := Function.update a.pcs t (.ready (.append b) (.seqno (.ok (some k)))) } es C := by
  have hr := h.rel t
  rw [ht] at hr
  obtain ⟨hac, hsz⟩ := hr
  have hold : (s.pcs t).holds = true := by rw [ht]; rfl
  have hsum := sum_update PC.pend s.pcs t (.unlocking b (.ok (some k)))
  rw [ht] at hsum
  change _ + 0 = _ + 0 at hsum
  have hbytes := h.bytes
  have hl := h.inv.recs.length
  refine ⟨h.inv, h.room, h.wd, h.wi, ?_, ?_, ?_, ?_, ?_, .inl rfl⟩
  · simp only [CState.goto]; omega
  · intro u hu
    simp only [CState.goto] at hu ⊢
    by_cases htu : u = t
    · rw [htu]; exact h.excl t hold
    · rw [Function.update_of_ne htu] at hu; exact h.excl u hu
  · intro u
    simp only [CState.goto]
    by_cases htu : u = t
    · subst htu
      rw [Function.update_self, Function.update_self]
      rfl
    · rw [Function.update_of_ne htu, Function.update_of_ne htu]
      exact (h.rel u).mono (List.prefix_refl _) (List.prefix_refl _) (h.others hold htu)
  · exact .inl (h.dsize_eq hold (by rw [ht]; intros; simp))
  · simp only [DB.setIdxSize]; omega

end Sim

theorem any_isEmpty_iff (b : List (List UInt8)) : b.any List.isEmpty = true ↔ [] ∈ b := by
  rw [List.any_eq_true]
  constructor
  · rintro ⟨r, hr, he⟩
    cases r with
    | nil => exact hr
    | cons => cases he
  · intro h; exact ⟨[], h, rfl⟩

theorem MayRefuse.early {sys : Bool} {ft : Faults} (h : MayRefuse sys ft) : ft.Early := by
  rcases h with rfl | ⟨_, h1, h2, h3⟩
  · exact Faults.none_early
  · exact ⟨h1, h2, h3⟩

theorem MayRefuse.sys {sys : Bool} {ft : Faults} (h : MayRefuse sys ft) (hn : ft ≠ Faults.none) : sys = true := by
  rcases h with h | h
  · exact absurd h hn
  · exact h.1

/-- One step of the code is at most one step of the specification, with the same event. -/
theorem sim_step {p : Params} {sys : Bool} (hp : 16 ∣ p.minMmap) {n B : Nat} {s s' : CState n} {a : AState n}
    {es : List (Nat × Nat)} {C : List UInt8} (h : Sim B s a es C) {ev : Option (Ev n)}
    (hs : CStep p sys s ev s') (hsm : ∀ e, ev = some e → e.small) (hB : B + (ev.map Ev.bytes).getD 0 < 2 ^ 60) :
    ∃ a' es' C', ((ev = none ∧ a' = a) ∨ AStep sys a ev a') ∧
      Sim (B + (ev.map Ev.bytes).getD 0) s' a' es' C' := by
  cases hs with
  | @invoke t c ht =>
    have hr := h.rel t
    rw [ht] at hr
    refine ⟨_, es, C, .inr (.invoke hr), ?_⟩
    refine h.move ?_ (by simp [PC.holds]) (by simp [ht]) (by simp [ht]) ⟨rfl, hsm _ rfl⟩
    simp [PC.pend, ht, Ev.bytes]
  | @empty t ht =>
    have hr := h.rel t
    rw [ht] at hr
    refine ⟨_, es, C, .inr (.none_ hr.1), ?_⟩
    exact h.move (by simp [PC.pend]) (by simp [PC.holds]) (by simp [ht]) (by simp [ht]) rfl
  | @lock t b ht hb hl =>
    exact ⟨a, es, C, .inl ⟨rfl, rfl⟩, h.lockStep ht hb hl⟩
  | @begin t b ht =>
    have hr := h.rel t
    rw [ht] at hr
    have hold : (s.pcs t).holds = true := by rw [ht]; rfl
    refine ⟨a, es, C, .inl ⟨rfl, rfl⟩, h.stay (by simp [PC.pend, ht]) (fun _ => h.excl t hold)
      (by simp [ht]) (by simp [ht]) ⟨hr.1, hr.2, h.dsize_eq hold (by simp [ht])⟩⟩
  | @refuse t b d0 ht hany =>
    have hr := h.rel t
    rw [ht] at hr
    have hold : (s.pcs t).holds = true := by rw [ht]; rfl
    refine ⟨_, es, C, .inr (.refuse hr.1 ((any_isEmpty_iff b).mp hany)), ?_⟩
    exact h.move (by simp [PC.pend]) (fun _ => h.excl t hold) (by simp [ht]) (by simp [ht]) rfl
  | @loadData t b d0 ht hany =>
    have hr := h.rel t
    rw [ht] at hr
    have hold : (s.pcs t).holds = true := by rw [ht]; rfl
    refine ⟨a, es, C, .inl ⟨rfl, rfl⟩, h.stay (by simp [PC.pend, ht]) (fun _ => h.excl t hold)
      (by simp [ht]) (by simp [ht]) ⟨hr.1, ⟨hr.2.1, ?_⟩, hr.2.2, h.dsize_eq hold (by simp [ht])⟩⟩
    rintro r hrm rfl
    rw [(any_isEmpty_iff b).mpr hrm] at hany
    cases hany
  | @growData t b d0 sz g ft ht hft hgrow =>
    rcases h.growData (p := p) ht (by simpa using hB) hft.early with ⟨g', e, hsim⟩ | ⟨_, _, e, _⟩
    · rw [hgrow] at e
      cases e
      exact ⟨a, es, _, .inl ⟨rfl, rfl⟩, hsim⟩
    · rw [hgrow] at e
      cases e
  | @failData t b d0 sz g er ft ht hft hgrow =>
    have hr := h.rel t
    rw [ht] at hr
    rcases h.growData (p := p) ht (by simpa using hB) hft.early with ⟨g', e, hsim⟩ | ⟨_, _, e, he, hn, hsim⟩
    · rw [hgrow] at e
      cases e
    · rw [hgrow] at e
      cases e
      exact ⟨_, es, C, .inr (.fail hr.1 (hft.sys hn) hr.2.1.1 (fun hm => hr.2.1.2 _ hm rfl) he), hsim⟩
  | @storeData t b d0 sz ht =>
    exact ⟨a, es, C, .inl ⟨rfl, rfl⟩, h.storeData ht⟩
  | @number t b d0 ht =>
    have hr := h.rel t
    rw [ht] at hr
    have hold : (s.pcs t).holds = true := by rw [ht]; rfl
    have hc := h.counted_eq hold (by simp [ht])
    refine ⟨a, es, C, .inl ⟨rfl, rfl⟩, h.stay (by simp [PC.pend]) (fun _ => h.excl t hold)
      (by simp [ht]) (by simp [ht]) ⟨hr.1, hr.2, ?_⟩⟩
    unfold idxLen
    rw [h.icount, hc]; omega
  | @loadIdx t b d0 k ht =>
    have hr := h.rel t
    rw [ht] at hr
    have hold : (s.pcs t).holds = true := by rw [ht]; rfl
    have hc := h.counted_eq hold (by simp [ht])
    have hl := h.inv.recs.length
    refine ⟨a, es, C, .inl ⟨rfl, rfl⟩, h.stay (by simp [PC.pend]) (fun _ => h.excl t hold)
      (by simp [ht]) (by simp [ht]) ⟨hr.1, hr.2.1, hr.2.2, ?_⟩⟩
    rw [h.icount, hc]; omega
  | @growIdx t b d0 k sz g ft ht hft hgrow =>
    have hr := h.rel t
    rw [ht] at hr
    have hold : (s.pcs t).holds = true := by rw [ht]; rfl
    rcases h.growIdx (p := p) hp ht hft.early with ⟨g', e, hsim, _⟩ | ⟨_, _, e, _⟩
    · rw [hgrow] at e
      cases e
      exact ⟨_, _, C, .inr (.put hr.1 hr.2.1.good.1 (fun hm => hr.2.1.good.2 _ hm rfl)
        (h.counted_eq hold (by simp [ht]))), hsim⟩
    · rw [hgrow] at e
      cases e
  | @failIdx t b d0 k sz g er ft ht hft hgrow =>
    have hr := h.rel t
    rw [ht] at hr
    rcases h.growIdx (p := p) hp ht hft.early with ⟨g', e, _⟩ | ⟨_, _, e, he, hn, hsim, _⟩
    · rw [hgrow] at e
      cases e
    · rw [hgrow] at e
      cases e
      exact ⟨_, es, C, .inr (.fail hr.1 (hft.sys hn) hr.2.1.good.1 (fun hm => hr.2.1.good.2 _ hm rfl) he), hsim⟩
  | @storeIdx t b k sz ht =>
    have hr := h.rel t
    rw [ht] at hr
    exact ⟨_, es, C, .inr (.count hr.1), h.storeIdx ht⟩
  | @unlock t b r ht =>
    exact ⟨a, es, C, .inl ⟨rfl, rfl⟩, h.unlockStep ht⟩
  | @findFails t i er ht hg =>
    have hr := h.rel t
    rw [ht] at hr
    have : getEntry p (s.db.norm C es).idx i = .ok es[i]? := h.inv.getEntry_ok hr.2
    rw [show getEntry p (s.db.norm C es).idx i = getEntry p s.db.idx i from rfl, hg] at this
    cases this
  | @findNone t i ht hg =>
    have hr := h.rel t
    rw [ht] at hr
    have : getEntry p (s.db.norm C es).idx i = .ok es[i]? := h.inv.getEntry_ok hr.2
    rw [show getEntry p (s.db.norm C es).idx i = getEntry p s.db.idx i from rfl, hg] at this
    have hnone : a.log[i]? = none := by
      have h1 : es[i]? = none := (Except.ok.inj this).symm
      rw [List.getElem?_eq_none_iff] at h1 ⊢
      have := h.inv.recs.length
      omega
    refine ⟨_, es, C, .inr (.read hr.1), ?_⟩
    rw [hnone]
    exact h.move (by simp [PC.pend]) (by simp [PC.holds]) (by simp [ht]) (by simp [ht]) rfl
  | @find t i o l ht hg =>
    have hr := h.rel t
    rw [ht] at hr
    have : getEntry p (s.db.norm C es).idx i = .ok es[i]? := h.inv.getEntry_ok hr.2
    rw [show getEntry p (s.db.norm C es).idx i = getEntry p s.db.idx i from rfl, hg] at this
    have he : es[i]? = some (o, l) := (Except.ok.inj this).symm
    obtain ⟨r, hlog, _⟩ := forall2_getElem h.inv.recs.each he
    refine ⟨_, es, C, .inr (.read hr.1), ?_⟩
    rw [hlog]
    exact h.move (by simp [PC.pend]) (by simp [PC.holds]) (by simp [ht]) (by simp [ht])
      ⟨r, he, hlog, rfl⟩
  | @readData t i o l ht =>
    have hr := h.rel t
    rw [ht] at hr
    obtain ⟨r, h1, h2, h3⟩ := hr
    have hrec : getRecord (s.db.norm C es).data o l = .ok a.log[i]? := h.inv.getRecord_ok h1
    rw [show getRecord (s.db.norm C es).data o l = getRecord s.db.data o l from rfl, h2] at hrec
    refine ⟨a, es, C, .inl ⟨rfl, rfl⟩, h.stay (by simp [PC.pend]) (by simp [PC.holds])
      (by simp [ht]) (by simp [ht]) ?_⟩
    rw [hrec, h3]
    rfl
  | @count t ht =>
    have hr := h.rel t
    rw [ht] at hr
    have hlen : s.db.len = a.counted := by
      unfold DB.len idxLen
      rw [h.icount]; omega
    refine ⟨_, es, C, .inr (.tally hr.1), ?_⟩
    rw [hlen]
    exact h.move (by simp [PC.pend]) (by simp [PC.holds]) (by simp [ht]) (by simp [ht]) rfl
  | @answer t c r ht =>
    have hr := h.rel t
    rw [ht] at hr
    refine ⟨_, es, C, .inr (.answer hr), ?_⟩
    exact h.move (by simp [PC.pend, Ev.bytes]) (by simp [PC.holds]) (by simp [ht]) (by simp [ht]) rfl

theorem sim_init {p : Params} {n : Nat} {onDisk : Bool} {db : DB} {log : List (List UInt8)} {used : Nat}
    (h : Good p onDisk db log used) :
    ∃ es C, Sim used (cinit n db) ⟨log, log.length, fun _ => .idle⟩ es C := by
  obtain ⟨es, C, hinv, hC⟩ := h.ex
  have hnorm : db.norm C es = db := by
    obtain ⟨⟨dg, ds⟩, ⟨ig, is⟩⟩ := db
    have h1 := hinv.dataSize
    have h2 := hinv.idxSize
    simp only at h1 h2
    subst h1 h2
    rfl
  refine ⟨es, C, ⟨?_, h.room, h.wd, h.wi, by simpa [cinit, PC.pend] using hC, ?_, fun _ => rfl,
    .inl hinv.dataSize, ?_, .inl rfl⟩⟩
  · simp only [cinit]; rw [hnorm]; exact hinv
  · intro t ht; simp [cinit, PC.holds] at ht
  · simp only [cinit]
    rw [hinv.idxSize, hinv.recs.length]

/-- Every run of the code is a run of the specification with the same calls and answers. -/
theorem sim_exec {p : Params} {sys : Bool} (hp : 16 ∣ p.minMmap) {n B : Nat} {s0 s : CState n} {a0 : AState n}
    {es0 : List (Nat × Nat)} {C0 : List UInt8} (h0 : Sim B s0 a0 es0 C0) {tr : List (Ev n)}
    (hx : Exec (CStep p sys) s0 tr s) (hsm : ∀ e ∈ tr, e.small) (hB : B + (tr.map Ev.bytes).sum < 2 ^ 60) :
    ∃ a es C, Exec (AStep sys) a0 tr a ∧ Sim (B + (tr.map Ev.bytes).sum) s a es C := by
  induction hx with
  | nil => exact ⟨a0, es0, C0, .nil, by simpa using h0⟩
  | silent _ hs ih =>
    obtain ⟨a, es, C, hax, hsim⟩ := ih hsm hB
    obtain ⟨a', es', C', hstep, hsim'⟩ := sim_step hp hsim hs (by simp) (by simpa using hB)
    refine ⟨a', es', C', ?_, by simpa using hsim'⟩
    rcases hstep with ⟨_, rfl⟩ | hstep
    · exact hax
    · exact .silent hax hstep
  | @event tr s s' e _ hs ih =>
    simp only [List.map_append, List.map_cons, List.map_nil, List.sum_append, List.sum_cons,
      List.sum_nil, Nat.add_zero] at hB ⊢
    obtain ⟨a, es, C, hax, hsim⟩ := ih (fun x hx => hsm x (by simp [hx])) (by omega)
    obtain ⟨a', es', C', hstep, hsim'⟩ := sim_step hp hsim hs
      (by intro x hx; cases hx; exact hsm e (by simp)) (by simp; omega)
    refine ⟨a', es', C', ?_, by simpa [Nat.add_assoc] using hsim'⟩
    rcases hstep with ⟨h, _⟩ | hstep
    · cases h
    · exact .event hax hstep

end Verif.Fraos
