import Verif.Fraos.ConcurrentSpec
import Verif.Fraos.Crash
import Verif.Fraos.PowerCut

/-!
# Threads, deaths of the process, power failures and reopenings, in any order

A database on disk lives through phases: calls by one thread (with reopenings), calls by threads that share it, a death of the
process or a power failure at any moment of such a phase, the same while the last handle is dropped. `Happens` are the phases of the code, `Means` the
phases of the list of records.
-/

namespace Verif.Fraos

/-- What the files may look like when the process dies while threads share the database: the thread that holds the write lock may be
in the middle of `grow_and_apply` (growable_mmap.rs:101-198) of the data or of the index; other threads only read. `j` records of
the batch that this thread brings are complete in the index, and `b` is that batch (empty when there is none). -/
inductive Dies (p : Params) {n : Nat} (s : CState n) : List (List UInt8) → Nat → Blob → Blob → Prop
  | between {fd fi : Blob} : s.db.data.g.file = some fd → s.db.idx.g.file = some fi → Dies p s [] 0 fd fi
  | data {t : Fin n} {b : List (List UInt8)} {d0 sz : Nat} {fd fi : Blob} : s.pcs t = .loaded b d0 sz →
      DataCut p s.db.data.g b.flatten fd → s.db.idx.g.file = some fi → Dies p s b 0 fd fi
  | index {t : Fin n} {b : List (List UInt8)} {d0 k sz j : Nat} {fd fi : Blob} : s.pcs t = .idxLoaded b d0 k sz →
      s.db.data.g.file = some fd → IdxCut p s.db.idx.g (entriesFrom d0 b) fi j → Dies p s b j fd fi

/-- What the files may look like when power fails while threads share the database (compare `PowerCut`): flushed bytes are on disk,
of the others any pages. The index entries of the batch in flight lie in one page (otherwise `C76_gap_false`). -/
inductive Cuts (p : Params) {n : Nat} (s : CState n) : List (List UInt8) → Blob → Blob → Prop
  | between {fd fi : Blob} : s.db.data.g.file = some fd → s.db.idx.g.file = some fi → Cuts p s [] fd fi
  | data {t : Fin n} {b : List (List UInt8)} {d0 sz : Nat} {fd fi : Blob} : s.pcs t = .loaded b d0 sz →
      DataTorn p s.db.data.g b.flatten fd → s.db.idx.g.file = some fi → Cuts p s b fd fi
  | index {t : Fin n} {b : List (List UInt8)} {d0 k sz : Nat} {fd fi : Blob} : s.pcs t = .idxLoaded b d0 k sz →
      s.db.data.g.file = some fd → IdxTorn p s.db.idx.g (entriesFrom d0 b) fi → OnePage k b.length → Cuts p s b fd fi

/-- A phase in the life of a database. -/
inductive Phase where
  | calls (ops : List Op)
  /-- threads share it, in the end all their calls are answered -/
  | shared (n : Nat) (tr : List (Ev n))
  /-- threads share it, and the process dies or power fails -/
  | died (n : Nat) (tr : List (Ev n))
  /-- the process dies or power fails while the last handle is dropped -/
  | closing

/-- Bytes brought in a phase. -/
def Phase.bytes : Phase → Nat
  | .calls ops => bytesOf ops
  | .shared _ tr => (tr.map Ev.bytes).sum
  | .died _ tr => (tr.map Ev.bytes).sum
  | .closing => 0

/-- Numbers asked for in a phase are below `2^60`. -/
def Phase.small : Phase → Prop
  | .calls ops => ∀ op ∈ ops, op.small
  | .shared _ tr => ∀ e ∈ tr, e.small
  | .died _ tr => ∀ e ∈ tr, e.small
  | .closing => True

/-- A phase of the code. After a death the database is opened again, database.rs:31-63. -/
inductive Happens (p : Params) (sys : Bool) : DB → Phase → DB → Prop
  | calls {db : DB} {ops : List Op} : Happens p sys db (.calls ops) (after p db ops)
  | shared {db : DB} {n : Nat} {tr : List (Ev n)} {s : CState n} : Exec (CStep p sys) (cinit n db) tr s →
      (∀ t, s.pcs t = .idle) → Happens p sys db (.shared n tr) s.db
  | died {db db' : DB} {n : Nat} {tr : List (Ev n)} {s : CState n} {b : List (List UInt8)} {j : Nat} {fd fi : Blob} :
      Exec (CStep p sys) (cinit n db) tr s → Dies p s b j fd fi → DB.openDB p (some fd) (some fi) true = .ok db' →
      Happens p sys db (.died n tr) db'
  | cut {db db' : DB} {n : Nat} {tr : List (Ev n)} {s : CState n} {b : List (List UInt8)} {fd fi : Blob} :
      Exec (CStep p sys) (cinit n db) tr s → Cuts p s b fd fi → DB.openDB p (some fd) (some fi) true = .ok db' →
      Happens p sys db (.died n tr) db'
  | closing {db db' : DB} {fd fi : Blob} : db.data.g.file = some fd → db.drop.idx.g.file = some fi →
      DB.openDB p (some fd) (some fi) true = .ok db' → Happens p sys db .closing db'
  | closingCut {db db' : DB} {fd fi : Blob} : PowerCut p db [] fd fi →
      DB.openDB p (some fd) (some fi) true = .ok db' → Happens p sys db .closing db'

/-- Phases of the code, one after the other. -/
inductive Life (p : Params) (sys : Bool) (db0 : DB) : List Phase → DB → Prop
  | start : Life p sys db0 [] db0
  | more {phs : List Phase} {ph : Phase} {db db' : DB} : Life p sys db0 phs db → Happens p sys db ph db' → Life p sys db0 (phs ++ [ph]) db'

/-- A phase of the list of records. When the process dies, of at most one batch that was not acknowledged the first records are
added to what threads could have read. -/
inductive Means (sys : Bool) : List (List UInt8) → Phase → List (List UInt8) → Prop
  | calls {log : List (List UInt8)} {ops : List Op} : Means sys log (.calls ops) (specAfter true log ops)
  | shared {log : List (List UInt8)} {n : Nat} {tr : List (Ev n)} {a : AState n} :
      Exec (AStep sys) ⟨log, log.length, fun _ => .idle⟩ tr a → (∀ t, a.pcs t = .idle) → Means sys log (.shared n tr) a.log
  | died {log : List (List UInt8)} {n : Nat} {tr : List (Ev n)} {a : AState n} :
      Exec (AStep sys) ⟨log, log.length, fun _ => .idle⟩ tr a → Means sys log (.died n tr) a.log
  | torn {log : List (List UInt8)} {n : Nat} {tr : List (Ev n)} {a : AState n} {t : Fin n} {b : List (List UInt8)} {j : Nat} :
      Exec (AStep sys) ⟨log, log.length, fun _ => .idle⟩ tr a → a.pcs t = .start (.append b) → [] ∉ b → j ≤ b.length →
      Means sys log (.died n tr) (a.log ++ b.take j)
  | closing {log : List (List UInt8)} : Means sys log .closing log

/-- Phases of the list of records, one after the other. -/
inductive Story (sys : Bool) : List Phase → List (List UInt8) → Prop
  | start : Story sys [] []
  | more {phs : List Phase} {ph : Phase} {log log' : List (List UInt8)} : Story sys phs log → Means sys log ph log' →
      Story sys (phs ++ [ph]) log'

/-! ### Lemmas -/

variable {sys : Bool}

/-- What `Good` says of the index file, while threads share the database. -/
structure Sized (p : Params) (onDisk : Bool) (B : Nat) {n : Nat} (s : CState n) : Prop where
  mode : s.db.idx.g.file.isSome = onDisk
  idxLen : ∀ f, s.db.idx.g.file = some f → f.len ≤ 16 * B + p.minMmap

theorem Sized.mono {p : Params} {onDisk : Bool} {B B' n : Nat} {s : CState n} (h : Sized p onDisk B s) (hB : B ≤ B') :
    Sized p onDisk B' s :=
  ⟨h.mode, fun f hf => by have := h.idxLen f hf; omega⟩

theorem sized_step {p : Params} (hp : 16 ∣ p.minMmap) {onDisk : Bool} {n B : Nat} {s s' : CState n} {a : AState n}
    {es : List (Nat × Nat)} {C : List UInt8} (hs : Sim B s a es C) (h : Sized p onDisk B s) {ev : Option (Ev n)}
    (hst : CStep p sys s ev s') : Sized p onDisk B s' := by
  cases hst with
  | @growIdx t b d0 k sz g ft ht hft hgrow =>
    rcases hs.growIdx (p := p) hp ht hft.early with ⟨g', e, hs', hm, hl⟩ | ⟨_, _, e, _⟩
    · rw [hgrow] at e
      cases e
      refine ⟨hm.trans h.mode, ?_⟩
      intro f hf
      rcases hl f hf with h1 | ⟨b0, h1, h2⟩
      · have h3 := hs'.inv.recs.count_le
        have h4 := hs'.bytes
        rw [List.length_append, entriesFrom_length] at h3
        have h5 := newSize_le p s.db.idx.g (16 * b.length)
        omega
      · have := h.idxLen b0 h1; omega
    · rw [hgrow] at e
      cases e
  | @failIdx t b d0 k sz g er ft ht hft hgrow =>
    rcases hs.growIdx (p := p) hp ht hft.early with ⟨_, e, _⟩ | ⟨_, _, e, _, _, hs', hm, hl⟩
    · rw [hgrow] at e
      cases e
    · rw [hgrow] at e
      cases e
      refine ⟨hm.trans h.mode, ?_⟩
      intro f hf
      rcases hl f hf with h1 | ⟨b0, h1, h2⟩
      · have h3 : es.length + b.length ≤ C.length := by
          -- the entries would have been there
          rcases hs.growIdx (p := p) hp ht Faults.none_early with ⟨_, _, hs2, _⟩ | ⟨_, _, _, _, hn, _⟩
          · have := hs2.inv.recs.count_le
            rw [List.length_append, entriesFrom_length] at this
            exact this
          · exact absurd rfl hn
        have h4 := hs.bytes
        have h5 := newSize_le p s.db.idx.g (16 * b.length)
        omega
      · have := h.idxLen b0 h1; omega
  | _ => exact ⟨h.mode, h.idxLen⟩

theorem sized_exec {p : Params} (hp : 16 ∣ p.minMmap) {onDisk : Bool} {n B : Nat} {s0 s : CState n} {a0 : AState n}
    {es0 : List (Nat × Nat)} {C0 : List UInt8} (h0 : Sim B s0 a0 es0 C0) (hz : Sized p onDisk B s0) {tr : List (Ev n)}
    (hx : Exec (CStep p sys) s0 tr s) (hsm : ∀ e ∈ tr, e.small) (hB : B + (tr.map Ev.bytes).sum < 2 ^ 60) :
    Sized p onDisk (B + (tr.map Ev.bytes).sum) s := by
  induction hx with
  | nil => simpa using hz
  | silent hx hs ih =>
    obtain ⟨a, es, C, _, hsim⟩ := sim_exec hp h0 hx hsm hB
    exact sized_step hp hsim (ih hsm hB) hs
  | @event tr s s' e hx hs ih =>
    simp only [List.map_append, List.map_cons, List.map_nil, List.sum_append, List.sum_cons, List.sum_nil,
      Nat.add_zero] at hB ⊢
    obtain ⟨a, es, C, _, hsim⟩ := sim_exec hp h0 hx (fun x hx => hsm x (by simp [hx])) (by omega)
    exact (sized_step hp hsim (ih (fun x hx => hsm x (by simp [hx])) (by omega)) hs).mono (by omega)

theorem sized_init {p : Params} {n : Nat} {onDisk : Bool} {db : DB} {log : List (List UInt8)} {used : Nat}
    (h : Good p onDisk db log used) : Sized p onDisk used (cinit n db) :=
  ⟨h.mode, h.idxLen⟩

/-- When all threads are idle the database is as after calls by one thread. -/
theorem Sim.good {p : Params} {onDisk : Bool} {n B : Nat} {s : CState n} {a : AState n} {es : List (Nat × Nat)}
    {C : List UInt8} (hs : Sim B s a es C) (hz : Sized p onDisk B s) (hidle : ∀ t, s.pcs t = .idle) :
    Good p onDisk s.db a.log B ∧ a.counted = a.log.length ∧ ∀ t, a.pcs t = .idle := by
  have hais : ∀ t, a.pcs t = .idle := by
    intro t
    have := hs.rel t
    rw [hidle t] at this
    exact this
  have hcount : a.counted = a.log.length := by
    rcases hs.isize with h | ⟨t, b, k, sz, h⟩
    · exact h
    · rw [hidle t] at h; cases h
  have hnorm : s.db.norm C es = s.db := by
    have h1 : s.db.data.size = C.length := by
      rcases hs.dsize with h | ⟨t, b, d, z, h⟩
      · exact h
      · rw [hidle t] at h; cases h
    have h2 := hs.icount
    have h3 := hs.inv.len_eq
    have h4 : (s.db.norm C es).len = es.length := by simp [DB.norm, DB.len, idxLen]
    have h5 : s.db.idx.size = 16 * es.length := by rw [h2, hcount, ← h3, h4]
    cases hdb : s.db with
    | mk d i =>
      cases d; cases i
      rw [hdb] at h1 h5
      simp only at h1 h5
      subst h1 h5
      rfl
  have hinv := hs.inv
  rw [hnorm] at hinv
  have := hs.bytes
  exact ⟨⟨⟨es, C, hinv, by omega⟩, hs.room, hs.wd, hs.wi, hz.mode, hz.idxLen⟩, hcount, hais⟩

/-- What a death leaves is a directory that can be opened. -/
theorem Dies.disk {p : Params} (hp : 16 ∣ p.minMmap) (hm : p.minMmap < 2 ^ 62) {n B : Nat} {s : CState n} {a : AState n}
    {es : List (Nat × Nat)} {C : List UInt8} (hs : Sim B s a es C) (hz : Sized p true B s) (hB : B < 2 ^ 59)
    {b : List (List UInt8)} {j : Nat} {fd fi : Blob} (hd : Dies p s b j fd fi) :
    (b = [] ∨ (∃ t, a.pcs t = .start (.append b)) ∧ [] ∉ b) ∧ j ≤ b.length ∧ DiskOK fd fi (a.log ++ b.take j) B ∧
      fi.len ≤ 16 * B + p.minMmap := by
  have hinv := hs.inv
  have hbytes := hs.bytes
  have hcount := hinv.recs.count_le
  cases hd with
  | between hd hi =>
    rw [List.take_zero, List.append_nil]
    have := hz.idxLen _ hi
    exact ⟨.inl rfl, le_refl _, ⟨⟨es, C, hinv.idxOK.file _ hi, (hinv.tail _ hi).1, (hinv.tail _ hi).2, hinv.dataOK.file _ hd,
      hinv.recs.bounds (by simp), hinv.fits, by omega⟩, by omega⟩, this⟩
  | @data t _ d0 sz _ _ ht hcut hi =>
    have hr := hs.rel t
    rw [ht] at hr
    rw [List.take_zero, List.append_nil]
    have hpos : 0 < b.flatten.length := by
      cases b with
      | nil => exact absurd rfl hr.2.1.1
      | cons r rs =>
        have := List.length_pos_of_ne_nil (hr.2.1.2 r (by simp))
        simp only [List.flatten_cons, List.length_append]; omega
    have := hz.idxLen _ hi
    exact ⟨.inr ⟨⟨t, hr.1⟩, fun hc => hr.2.1.2 _ hc rfl⟩, by omega,
      ⟨⟨es, C, hinv.idxOK.file _ hi, (hinv.tail _ hi).1, (hinv.tail _ hi).2,
        hcut.fileHas hinv.dataOK hs.room.2 hpos, hinv.recs.bounds (by simp), hinv.fits, by omega⟩, by omega⟩, this⟩
  | @index t _ d0 k sz _ _ _ ht hd hcut =>
    have hr := hs.rel t
    rw [ht] at hr
    obtain ⟨hac, hpnd, _, _⟩ := hr
    have hnew : entriesFrom d0 b ≠ [] := by
      intro h0
      have := entriesFrom_length d0 b
      rw [h0] at this
      have := List.length_pos_of_ne_nil hpnd.good.1
      simp_all
    obtain ⟨C0, hC, hC0⟩ := hpnd.fill
    have hrec : ∀ j, Recs C [] (es ++ (entriesFrom d0 b).take j) (a.log ++ b.take j) := by
      intro j
      have h1 := hinv.recs.bounds (bs' := []) (by simp)
      have h2 := (hpnd.recs.bounds (bs' := []) (by simp)).takeLog j
      rw [hC] at h1 h2 ⊢
      exact h1.append h2 (fun e he => by rw [hC0]; exact hpnd.old e he)
        (fun e he => by rw [hC0]; exact (entriesFrom_ge (List.mem_of_mem_take he)).1)
    have hcn := (hrec b.length).count_le
    rw [List.length_append, List.length_take, entriesFrom_length] at hcn
    obtain ⟨hj, hF, hT, h16, hlen⟩ := hcut.spec hp hinv.idxOK hs.room.1 hinv.tail hnew (B := 16 * B + p.minMmap)
      hz.idxLen (by rw [entriesFrom_length]; omega)
    rw [entriesFrom_length] at hj
    exact ⟨.inr ⟨⟨t, hac⟩, fun hc => hpnd.good.2 _ hc rfl⟩, hj,
      ⟨⟨_, C, hF, hT, h16, hinv.dataOK.file _ hd, hrec j, hinv.fits, by omega⟩, by omega⟩, hlen⟩

/-- What a power failure leaves is a directory that can be opened. -/
theorem Cuts.disk {p : Params} (hp : 16 ∣ p.minMmap) (hm : p.minMmap < 2 ^ 62) {n B : Nat} {s : CState n} {a : AState n}
    {es : List (Nat × Nat)} {C : List UInt8} (hs : Sim B s a es C) (hz : Sized p true B s) (hB : B < 2 ^ 59)
    {b : List (List UInt8)} {fd fi : Blob} (hd : Cuts p s b fd fi) :
    ∃ j, (b = [] ∨ (∃ t, a.pcs t = .start (.append b)) ∧ [] ∉ b) ∧ j ≤ b.length ∧ DiskOK fd fi (a.log ++ b.take j) B ∧
      fi.len ≤ 16 * B + p.minMmap := by
  have hinv := hs.inv
  have hbytes := hs.bytes
  have hcount := hinv.recs.count_le
  cases hd with
  | between hd hi => exact ⟨0, (Dies.between (p := p) hd hi).disk hp hm hs hz hB⟩
  | @data t _ d0 sz _ _ ht hcut hi =>
    refine ⟨0, ?_⟩
    have hr := hs.rel t
    rw [ht] at hr
    rw [List.take_zero, List.append_nil]
    have hpos : 0 < b.flatten.length := by
      cases b with
      | nil => exact absurd rfl hr.2.1.1
      | cons r rs =>
        have := List.length_pos_of_ne_nil (hr.2.1.2 r (by simp))
        simp only [List.flatten_cons, List.length_append]; omega
    have := hz.idxLen _ hi
    exact ⟨.inr ⟨⟨t, hr.1⟩, fun hc => hr.2.1.2 _ hc rfl⟩, by omega,
      ⟨⟨es, C, hinv.idxOK.file _ hi, (hinv.tail _ hi).1, (hinv.tail _ hi).2,
        hcut.fileHas hinv.dataOK hs.room.2 hpos, hinv.recs.bounds (by simp), hinv.fits, by omega⟩, by omega⟩, this⟩
  | @index t _ d0 k sz _ _ ht hd hcut hone =>
    have hr := hs.rel t
    rw [ht] at hr
    obtain ⟨hac, hpnd, hk, hk2⟩ := hr
    have hnew : entriesFrom d0 b ≠ [] := by
      intro h0
      have := entriesFrom_length d0 b
      rw [h0] at this
      have := List.length_pos_of_ne_nil hpnd.good.1
      simp_all
    obtain ⟨C0, hC, hC0⟩ := hpnd.fill
    have hrec : ∀ j, Recs C [] (es ++ (entriesFrom d0 b).take j) (a.log ++ b.take j) := by
      intro j
      have h1 := hinv.recs.bounds (bs' := []) (by simp)
      have h2 := (hpnd.recs.bounds (bs' := []) (by simp)).takeLog j
      rw [hC] at h1 h2 ⊢
      exact h1.append h2 (fun e he => by rw [hC0]; exact hpnd.old e he)
        (fun e he => by rw [hC0]; exact (entriesFrom_ge (List.mem_of_mem_take he)).1)
    have hcn := (hrec b.length).count_le
    rw [List.length_append, List.length_take, entriesFrom_length] at hcn
    obtain ⟨b0, ks, hmix, hF, hT, h16, hlen⟩ := hcut.mixed hp hinv.idxOK hs.room.1 hinv.tail hnew (B := 16 * B + p.minMmap)
      hz.idxLen (by rw [entriesFrom_length]; omega)
    obtain ⟨j, hj, h1, h2⟩ := hmix.one hF hT h16 (by
      rw [hinv.recs.length, entriesFrom_length, ← hk]; exact hone)
    have hml := hmix.len
    rw [entriesFrom_length] at hj
    exact ⟨j, .inr ⟨⟨t, hac⟩, fun hc => hpnd.good.2 _ hc rfl⟩, hj,
      ⟨⟨_, C, h1, h2, by rw [hmix.len]; exact h16, hinv.dataOK.file _ hd, hrec j, hinv.fits, by omega⟩, by omega⟩,
      by rw [hmix.len]; exact hlen⟩

/-- What was recorded stays. -/
theorem specAfter_grows (log : List (List UInt8)) (ops : List Op) : log <+: specAfter true log ops := by
  induction ops generalizing log with
  | nil => exact List.prefix_refl _
  | cons op ops ih =>
    refine List.IsPrefix.trans ?_ (ih _)
    cases op with
    | append b =>
      simp only [specStep]
      split
      · exact List.prefix_refl _
      · split
        · exact List.prefix_refl _
        · exact List.prefix_append _ _
    | putSeqno r =>
      simp only [specStep]
      split
      · exact List.prefix_refl _
      · exact List.prefix_append _ _
    | _ => exact List.prefix_refl _

theorem Means.grows {log log' : List (List UInt8)} {ph : Phase} (h : Means sys log ph log') : log <+: log' := by
  cases h with
  | calls => exact specAfter_grows _ _
  | shared hx _ => exact (hx.grows (le_refl _)).1
  | died hx => exact (hx.grows (le_refl _)).1
  | torn hx _ _ _ => exact (hx.grows (le_refl _)).1.trans (List.prefix_append _ _)
  | closing => exact List.prefix_refl _

/-- A phase of the code is a phase of the list of records, and leaves a database for the next one. -/
theorem happens_means {p : Params} (hp : 16 ∣ p.minMmap) (hm : p.minMmap < 2 ^ 62) {db db' : DB} {log : List (List UInt8)}
    {used : Nat} (h : Good p true db log used) {ph : Phase} (hh : Happens p sys db ph db') (hs : ph.small)
    (hB : used + ph.bytes < 2 ^ 59) : ∃ log', Means sys log ph log' ∧ Good p true db' log' (used + ph.bytes) := by
  cases hh with
  | @calls ops => exact ⟨_, .calls, (run_good hp ops h hs (by simp only [Phase.bytes] at hB; omega)).2⟩
  | @shared n tr s hx hidle =>
    obtain ⟨es, C, hsim⟩ := sim_init (n := n) h
    simp only [Phase.bytes] at hB ⊢
    obtain ⟨a, es', C', ha, hsim'⟩ := sim_exec hp hsim hx hs (by omega)
    obtain ⟨hg, _, hai⟩ := hsim'.good (sized_exec hp hsim (sized_init h) hx hs (by omega)) hidle
    exact ⟨_, .shared ha hai, hg⟩
  | @died _ n tr s b j fd fi hx hd ho =>
    obtain ⟨es, C, hsim⟩ := sim_init (n := n) h
    simp only [Phase.bytes] at hB ⊢
    obtain ⟨a, es', C', ha, hsim'⟩ := sim_exec hp hsim hx hs (by omega)
    obtain ⟨hb, hj, hdisk, hlen⟩ := hd.disk hp hm hsim' (sized_exec hp hsim (sized_init h) hx hs (by omega)) hB
    obtain ⟨db1, es1, C1, e, hinv, hr, hle, hwd, hwi, hfd, hfi⟩ := open_spec (p := p) hdisk true
    rw [ho] at e; cases e
    refine ⟨_, ?_, ⟨⟨es1, C1, hinv, hle⟩, hr, hwd, hwi, by simp [hfi], fun f hf => by
      rw [hfi] at hf; cases hf; exact hlen⟩⟩
    rcases hb with rfl | ⟨⟨t, ht⟩, hne⟩
    · rw [List.take_nil, List.append_nil]; exact .died ha
    · exact .torn ha ht hne hj
  | @cut _ n tr s b fd fi hx hd ho =>
    obtain ⟨es, C, hsim⟩ := sim_init (n := n) h
    simp only [Phase.bytes] at hB ⊢
    obtain ⟨a, es', C', ha, hsim'⟩ := sim_exec hp hsim hx hs (by omega)
    obtain ⟨j, hb, hj, hdisk, hlen⟩ := hd.disk hp hm hsim' (sized_exec hp hsim (sized_init h) hx hs (by omega)) hB
    obtain ⟨db1, es1, C1, e, hinv, hr, hle, hwd, hwi, hfd, hfi⟩ := open_spec (p := p) hdisk true
    rw [ho] at e; cases e
    refine ⟨_, ?_, ⟨⟨es1, C1, hinv, hle⟩, hr, hwd, hwi, by simp [hfi], fun f hf => by
      rw [hfi] at hf; cases hf; exact hlen⟩⟩
    rcases hb with rfl | ⟨⟨t, ht⟩, hne⟩
    · rw [List.take_nil, List.append_nil]; exact .died ha
    · exact .torn ha ht hne hj
  | @closingCut _ fd fi hc ho =>
    simp only [Phase.bytes, Nat.add_zero] at hB ⊢
    obtain ⟨j, _, hdisk, hlen⟩ := hc.disk hp hm h (by simpa using hB) (by intro i k h1 h2; simp at h2; omega)
    simp only [List.map_nil, List.sum_nil, Nat.add_zero, List.take_nil, List.append_nil] at hdisk hlen
    obtain ⟨db1, es1, C1, e, hinv, hr, hle, hwd, hwi, hfd, hfi⟩ := open_spec (p := p) hdisk true
    rw [ho] at e; cases e
    exact ⟨log, .closing, ⟨⟨es1, C1, hinv, hle⟩, hr, hwd, hwi, by simp [hfi], fun f hf => by
      rw [hfi] at hf; cases hf; exact hlen⟩⟩
  | @closing _ fd fi hd hi ho =>
    simp only [Phase.bytes, Nat.add_zero] at hB ⊢
    obtain ⟨hdisk, hlen⟩ := (Crash.closing (p := p) (batch := []) hd hi).disk hp hm h (by simpa using hB)
    simp only [List.map_nil, List.sum_nil, Nat.add_zero, List.take_nil, List.append_nil] at hdisk hlen
    obtain ⟨db1, es1, C1, e, hinv, hr, hle, hwd, hwi, hfd, hfi⟩ := open_spec (p := p) hdisk true
    rw [ho] at e; cases e
    exact ⟨log, .closing, ⟨⟨es1, C1, hinv, hle⟩, hr, hwd, hwi, by simp [hfi], fun f hf => by
      rw [hfi] at hf; cases hf; exact hlen⟩⟩

theorem life_story {p : Params} (hp : 16 ∣ p.minMmap) (hm : p.minMmap < 2 ^ 62) {db0 db : DB} (h0 : fresh p true = .ok db0)
    {phs : List Phase} (hl : Life p sys db0 phs db) (hs : ∀ ph ∈ phs, ph.small) (hB : (phs.map Phase.bytes).sum < 2 ^ 59) :
    ∃ log, Story sys phs log ∧ Good p true db log (phs.map Phase.bytes).sum := by
  induction hl with
  | start =>
    obtain ⟨db', e, hg⟩ := fresh_good p true
    rw [h0] at e; cases e
    exact ⟨[], .start, hg⟩
  | @more phs ph db db' _ hh ih =>
    simp only [List.map_append, List.map_cons, List.map_nil, List.sum_append, List.sum_cons, List.sum_nil, Nat.add_zero] at hB ⊢
    obtain ⟨log, hst, hg⟩ := ih (fun x hx => hs x (by simp [hx])) (by omega)
    obtain ⟨log', hm', hg'⟩ := happens_means hp hm hg hh (hs ph (by simp)) hB
    exact ⟨log', .more hst hm', hg'⟩

/-- The answers of threads that share a database with records in it: the same as after one append of all of them. -/
theorem AInv.from {n : Nat} {log : List (List UInt8)} (hne : [] ∉ log) {tr : List (Ev n)} {a : AState n}
    (hx : Exec (AStep sys) ⟨log, log.length, fun _ => .idle⟩ tr a) (hn : Nonempty (Fin n)) (hl : log ≠ []) :
    ∃ t : Fin n, AInv sys ([.inv t (.append log), .ret t (.append log) (.seqno (.ok (some 0)))] ++ tr) a := by
  obtain ⟨t⟩ := hn
  refine ⟨t, AInv.exec (Exec.append ?_ hx)⟩
  have h1 : Exec (AStep sys) (ainit n) [] _ := .nil
  have h2 := h1.event (.invoke (t := t) (c := .append log) rfl)
  have h3 := h2.silent (.put (t := t) (b := log) (by simp) hl hne rfl)
  have h4 := h3.silent (.count (t := t) (b := log) (k := 0) (by simp [ainit]))
  have h5 := h4.event (.answer (t := t) (c := .append log) (r := .seqno (.ok (some 0))) (by simp))
  have he : Function.update (fun _ : Fin n => APC.idle) t APC.idle = fun _ => .idle := Function.update_eq_self _ _
  simpa [ainit, he] using h5

end Verif.Fraos
