import Verif.Fraos.Beside

/-! # Lemmas on a reader beside a writer -/

namespace Verif.Fraos

theorem prefix_get {α : Type} {a b : List α} (h : a <+: b) {i : Nat} {x : α} (hx : a[i]? = some x) :
    b[i]? = some x := by
  obtain ⟨c, rfl⟩ := h
  have hi : i < a.length := by
    by_contra hc
    rw [List.getElem?_eq_none (by omega)] at hx; cases hx
  rw [List.getElem?_append_left hi, hx]

/-! ### What the files hold at a moment of the writer -/

/-- The files hold the records `log` with the index entries `es`. -/
structure Stage (fd fi : Blob) (log : List (List UInt8)) (es : List (Nat × Nat)) : Prop where
  idx : FileHas fi (entriesBytes es)
  tail : TailZ fi (16 * es.length)
  div : 16 ∣ fi.len
  fits : fi.len < 2 ^ 64
  data : ∃ C, FileHas fd C ∧ Recs C [] es log ∧ C.length < 2 ^ 60

theorem DBInv.stage {db : DB} {es : List (Nat × Nat)} {C : List UInt8} {log : List (List UInt8)}
    (h : DBInv db es C log) {fd fi : Blob} (hd : db.data.g.file = some fd) (hi : db.idx.g.file = some fi)
    (hlt : fi.len < 2 ^ 64) : Stage fd fi log es :=
  ⟨h.idxOK.file fi hi, (h.tail fi hi).1, (h.tail fi hi).2, hlt, C, h.dataOK.file fd hd,
    h.recs.bounds (by simp), h.fits⟩

theorem Crash.stage {p : Params} (hp : 16 ∣ p.minMmap) (hm : p.minMmap < 2 ^ 62) {db : DB}
    {log batch : List (List UInt8)} {used : Nat} (h : Good p true db log used)
    {es : List (Nat × Nat)} {C : List UInt8} (hinv : DBInv db es C log) (hC : C.length ≤ used)
    (hfit : used + (batch.map List.length).sum < 2 ^ 59) {fd fi : Blob} {j : Nat}
    (hc : Crash p db batch fd fi j) :
    Stage fd fi (log ++ batch.take j) (es ++ (entriesFrom C.length batch).take j) := by
  have hlen := (hc.disk hp hm h hfit).2
  rw [← List.length_flatten] at hfit hlen
  have hcount := hinv.recs.count_le
  cases hc with
  | idle hd hi =>
    rw [List.take_zero, List.take_zero, List.append_nil, List.append_nil]
    exact hinv.stage hd hi (by omega)
  | closing hd hi =>
    rw [List.take_zero, List.take_zero, List.append_nil, List.append_nil]
    obtain ⟨f0, hf0⟩ := Option.isSome_iff_exists.mp h.mode
    obtain ⟨_, e2, hdisk⟩ := hinv.disk_closed hd hf0 h.wd h.wi
    rw [e2] at hi; cases hi
    refine ⟨(hinv.idxOK.file _ hf0).setLen (by simp), (hinv.tail _ hf0).1.setLen _, by simp, ?_, C,
      hinv.dataOK.file _ hd, hinv.recs.bounds (by simp), hinv.fits⟩
    simp only [Blob.setLen_len]; omega
  | data hb hne hcut hi =>
    rw [List.take_zero, List.take_zero, List.append_nil, List.append_nil]
    have hpos : 0 < batch.flatten.length := by
      cases batch with
      | nil => exact absurd rfl hb
      | cons r rs =>
        have := List.length_pos_of_ne_nil (hne r (by simp))
        simp only [List.flatten_cons, List.length_append]; omega
    exact ⟨hinv.idxOK.file _ hi, (hinv.tail _ hi).1, (hinv.tail _ hi).2, by omega, C,
      hcut.fileHas hinv.dataOK h.room.2 hpos, hinv.recs.bounds (by simp), hinv.fits⟩
  | @index d _ _ _ hb hne hflat hd hcut =>
    rcases flatAppend_spec (p := p) hinv.dataOK h.room.2 Faults.none_early hb hne with
      ⟨g1, e, hok, hroom, hbd, hw, hmode⟩ | ⟨er, g1, e, hu, he⟩
    · rw [hflat] at e
      simp only [Prod.mk.injEq, true_and] at e
      subst e
      have hrn : Recs (C ++ batch.flatten) [] (entriesFrom C.length batch) batch :=
        entriesFrom_recs C batch hne (by simp)
      have hro : Recs (C ++ batch.flatten) [] es log := hinv.recs.mono _ (by simp)
      have hnew : entriesFrom db.data.size batch ≠ [] := by
        intro h0
        have := entriesFrom_length db.data.size batch
        rw [h0] at this
        have := List.length_pos_of_ne_nil hb
        simp_all
      have hcn := (hro.append hrn (fun e he => (hinv.recs.mem he).2)
        (fun e he => (entriesFrom_ge he).1)).count_le
      rw [List.length_append, List.length_append, entriesFrom_length] at hcn
      rw [hinv.dataSize] at hcut hnew
      obtain ⟨hj, hF, hT, h16, _⟩ := hcut.spec hp hinv.idxOK h.room.1 hinv.tail hnew
        (B := 16 * (used + batch.flatten.length) + p.minMmap)
        (fun f hf => by have := h.idxLen f hf; omega) (by rw [entriesFrom_length]; omega)
      refine ⟨hF, hT, h16, by omega, C ++ batch.flatten, hok.file _ hd, ?_, ?_⟩
      · exact hro.append (hrn.takeLog j) (fun e he => (hinv.recs.mem he).2)
          (fun e he => (entriesFrom_ge (List.mem_of_mem_take he)).1)
      · rw [List.length_append]; omega
    · rw [hflat] at e; cases e

theorem Stage.entry_lt {fd fi : Blob} {log : List (List UInt8)} {es : List (Nat × Nat)}
    (h : Stage fd fi log es) {e : Nat × Nat} (he : e ∈ es) : 0 < e.2 ∧ e.1 < 2 ^ 64 ∧ e.2 < 2 ^ 64 := by
  obtain ⟨C, _, hr, hC⟩ := h.data
  have := hr.mem he
  omega

theorem Stage.length {fd fi : Blob} {log : List (List UInt8)} {es : List (Nat × Nat)}
    (h : Stage fd fi log es) : es.length = log.length := by
  obtain ⟨C, _, hr, _⟩ := h.data
  exact hr.length

/-- The entry of a complete record. -/
theorem Stage.entry {fd fi : Blob} {log : List (List UInt8)} {es : List (Nat × Nat)}
    (h : Stage fd fi log es) {i : Nat} {e : Nat × Nat} (he : es[i]? = some e) :
    fromLe (fi.read (16 * i) 8) = e.1 ∧ fromLe (fi.read (16 * i + 8) 8) = e.2 := by
  have hm := h.entry_lt (List.mem_of_getElem? he)
  have hi : i < es.length := by
    by_contra hc
    rw [List.getElem?_eq_none (by omega)] at he; cases he
  have h1 := h.idx.entryAt (i := i) (by rw [entriesBytes_length]; omega)
  rw [entryAt_entries he hm.2.1 hm.2.2] at h1
  exact ⟨by rw [h1], by rw [h1]⟩

/-- Entries that are not complete have length zero. -/
theorem Stage.zero {fd fi : Blob} {log : List (List UInt8)} {es : List (Nat × Nat)}
    (h : Stage fd fi log es) {i : Nat} (hi : es.length ≤ i) : fromLe (fi.read (16 * i + 8) 8) = 0 := by
  have : fi.read (16 * i + 8) 8 = (List.range 8).map (fun _ => (0 : UInt8)) := by
    unfold Blob.read
    apply List.map_congr_left
    intro k hk
    rw [List.mem_range] at hk
    split
    · exact h.tail _ (by omega) (by omega) (by omega)
    · rfl
  rw [this]; rfl

/-- The index file says which entries there are. -/
theorem Stage.unique {fd fd' fi : Blob} {log log' : List (List UInt8)} {es es' : List (Nat × Nat)}
    (h : Stage fd fi log es) (h' : Stage fd' fi log' es') : es = es' := by
  have hl : es.length = es'.length := by
    rcases lt_trichotomy es.length es'.length with hc | hc | hc
    · exfalso
      have h1 := h.zero (le_refl es.length)
      have he := List.getElem?_eq_getElem hc
      have h2 := (h'.entry he).2
      have h3 := (h'.entry_lt (List.getElem_mem hc)).1
      omega
    · exact hc
    · exfalso
      have h1 := h'.zero (le_refl es'.length)
      have he := List.getElem?_eq_getElem hc
      have h2 := (h.entry he).2
      have h3 := (h.entry_lt (List.getElem_mem hc)).1
      omega
  apply List.ext_getElem hl
  intro i h1 h2
  have a := h.entry (List.getElem?_eq_getElem h1)
  have b := h'.entry (List.getElem?_eq_getElem h2)
  exact Prod.ext (by rw [← a.1, ← b.1]) (by rw [← a.2, ← b.2])

/-! ### The files from one moment to the next -/

/-- What is known of every moment. -/
structure Known (p : Params) (m : Moment) : Prop where
  reached : Reached p m.db m.log m.used
  now : Crash p m.db m.op.batch m.fd m.fi m.j
  fits : m.bytes < 2 ^ 59

theorem Known.stage {p : Params} (hp : 16 ∣ p.minMmap) (hm : p.minMmap < 2 ^ 62) {m : Moment}
    (h : Known p m) : ∃ es, Stage m.fd m.fi m.recs es := by
  have hf := h.fits
  unfold Moment.bytes at hf
  have hg := h.reached.good hp hm (by omega)
  obtain ⟨es, C, hinv, hC⟩ := hg.ex
  exact ⟨_, h.now.stage hp hm hg hinv hC hf⟩

theorem crash_nothing {p : Params} {db : DB} {batch : List (List UInt8)} {fd fi : Blob} {j : Nat}
    (h : Crash p db batch fd fi j) (hb : batch = [] ∨ [] ∈ batch) : j = 0 := by
  cases h with
  | idle => rfl
  | closing => rfl
  | data => rfl
  | index h1 h2 =>
    rcases hb with rfl | hb
    · exact absurd rfl h1
    · exact absurd rfl (h2 [] hb)

theorem batch_bytes (op : Op) : (op.batch.map List.length).sum = op.bytes := by
  cases op <;> simp [Op.batch, Op.bytes]

/-- The end of a call. -/
theorem ends_stage {p : Params} (hp : 16 ∣ p.minMmap) (hm : p.minMmap < 2 ^ 62) {db : DB}
    {log : List (List UInt8)} {used : Nat} (hg : Good p true db log used)
    {es : List (Nat × Nat)} {C : List UInt8} (hinv : DBInv db es C log) (hC : C.length ≤ used) {op : Op}
    (hs : op.small) (hfit : used + op.bytes < 2 ^ 59) {fd fi : Blob}
    (hd : (step p db op).2.data.g.file = some fd) (hi : (step p db op).2.idx.g.file = some fi) (j : Nat)
    (hj : op.batch = [] ∨ [] ∈ op.batch → j = 0) :
    ∃ es', Stage fd fi (specStep true log op).2 es' ∧
      es ++ (entriesFrom C.length op.batch).take j <+: es' ∧
      log ++ op.batch.take j <+: (specStep true log op).2 := by
  have hg' := (step_good hp hg hs (by omega)).2
  have hlt : fi.len < 2 ^ 64 := by
    have := hg'.idxLen _ hi; omega
  have same : (step p db op).2 = db → (specStep true log op).2 = log → (op.batch = [] ∨ [] ∈ op.batch) →
      ∃ es', Stage fd fi (specStep true log op).2 es' ∧
        es ++ (entriesFrom C.length op.batch).take j <+: es' ∧
        log ++ op.batch.take j <+: (specStep true log op).2 := by
    intro h1 h2 h3
    rw [h1] at hd hi
    rw [h2, hj h3]
    simp only [List.take_zero, List.append_nil]
    exact ⟨es, hinv.stage hd hi hlt, List.prefix_refl _, List.prefix_refl _⟩
  have big : ∀ batch : List (List UInt8), batch ≠ [] → [] ∉ batch → op.batch = batch →
      (step p db op).2 = (db.append p Faults.none Faults.none batch).2 →
      (specStep true log op).2 = log ++ batch →
      ∃ es', Stage fd fi (specStep true log op).2 es' ∧
        es ++ (entriesFrom C.length op.batch).take j <+: es' ∧
        log ++ op.batch.take j <+: (specStep true log op).2 := by
    intro batch hb hn hob h1 h2
    have hfl : batch.flatten.length = op.bytes := by
      rw [List.length_flatten, ← batch_bytes, hob]
    rcases append_spec (p := p) hp hinv hg.room Faults.none_early Faults.none_early hb
      (fun r hr hc => hn (hc ▸ hr)) (by omega) with
      ⟨db1, e, hinv1, _⟩ | ⟨er, db1, D, e, _, _, _, _, _, _, _, he⟩
    · rw [h1, e] at hd hi
      rw [h2, hob]
      exact ⟨_, hinv1.stage hd hi hlt,
        (List.prefix_append_right_inj _).mpr (List.take_prefix _ _),
        (List.prefix_append_right_inj _).mpr (List.take_prefix _ _)⟩
    · exfalso
      rcases he with ⟨_, h1 | h1 | h1 | h1⟩ | ⟨_, h1 | h1⟩
      · cases h1
      · cases h1
      · rw [hg.wd] at h1; cases h1
      · rw [hg.wi] at h1; cases h1
      · cases h1
      · cases h1
  cases op with
  | append batch =>
    by_cases hb : batch = []
    · subst hb
      exact same rfl rfl (.inl rfl)
    · by_cases he : [] ∈ batch
      · refine same ?_ ?_ (.inr he)
        · simp only [step]; rw [append_rejects db _ _ he]
        · simp only [specStep]; rw [if_neg hb, if_pos he]
      · refine big batch hb he rfl rfl ?_
        simp only [specStep]; rw [if_neg hb, if_neg he]
  | putSeqno r =>
    by_cases hr : r = []
    · subst hr
      refine same ?_ rfl (.inr (by simp [Op.batch]))
      simp only [step, DB.putSeqno]; rw [append_rejects db _ _ (by simp)]
    · refine big [r] (by simp) (by simpa using Ne.symm hr) rfl ?_ ?_
      · simp only [step, DB.putSeqno]
        rcases db.append p Faults.none Faults.none [r] with ⟨(_ | _ | _), _⟩ <;> rfl
      · simp only [specStep]; rw [if_neg hr]
  | get i => exact same rfl rfl (.inl rfl)
  | len => exact same rfl rfl (.inl rfl)
  | isEmpty => exact same rfl rfl (.inl rfl)
  | last => exact same rfl rfl (.inl rfl)
  | reopen =>
    rw [hj (.inl rfl)]
    simp only [Op.batch, List.take_zero, List.append_nil, specStep, if_true]
    refine ⟨es, ?_, List.prefix_refl _, List.prefix_refl _⟩
    obtain ⟨f0, hf0⟩ := Option.isSome_iff_exists.mp hg.mode
    have hmode := hinv.mode
    rw [hg.mode] at hmode
    obtain ⟨d0, hd0⟩ := Option.isSome_iff_exists.mp hmode
    obtain ⟨e1, e2, hdisk⟩ := hinv.disk_closed hd0 hf0 hg.wd hg.wi
    obtain ⟨db1, es1, C1, e, _, _, _, _, _, hfd1, hfi1⟩ := open_spec (p := p) hdisk true
    have e' : db.reopen p true = .ok db1 := by
      unfold DB.reopen; rw [e1, e2]; exact e
    simp only [step, e'] at hd hi
    rw [hfd1] at hd; rw [hfi1] at hi
    cases hd; cases hi
    refine ⟨(hinv.idxOK.file _ hf0).setLen (by simp), (hinv.tail _ hf0).1.setLen _, by simp, hlt, C,
      (hinv.dataOK.file _ hd0).setLen (le_refl _), hinv.recs.bounds (by simp), hinv.fits⟩

theorem Next.keeps {p : Params} (hp : 16 ∣ p.minMmap) (hm : p.minMmap < 2 ^ 62) {m m' : Moment}
    (h : Known p m) (hn : Next p m m') (hb : m'.bytes < 2 ^ 59) :
    Known p m' ∧ m.recs <+: m'.recs ∧
      ∃ es es', Stage m.fd m.fi m.recs es ∧ Stage m'.fd m'.fi m'.recs es' ∧ es <+: es' := by
  have hf := h.fits
  unfold Moment.bytes at hf
  have hg := h.reached.good hp hm (by omega)
  obtain ⟨es, C, hinv, hC⟩ := hg.ex
  have hst := h.now.stage hp hm hg hinv hC hf
  cases hn with
  | on hc hj =>
    refine ⟨⟨h.reached, hc, hb⟩, ?_, _, _, hst, hc.stage hp hm hg hinv hC hb, ?_⟩
    · exact (List.prefix_append_right_inj _).mpr (List.take_prefix_take_left hj)
    · exact (List.prefix_append_right_inj _).mpr (List.take_prefix_take_left hj)
  | @ends db log used op op' fd fi fd' fi' j hs hd hi =>
    have hk : Known p ⟨(step p db op).2, (specStep true log op).2, used + op.bytes, op', fd', fi', 0⟩ :=
      ⟨.call op h.reached hs, .idle hd hi, hb⟩
    simp only [batch_bytes] at hf
    obtain ⟨es', h1, h2, h3⟩ := ends_stage hp hm hg hinv hC hs hf hd hi j (fun hx => crash_nothing h.now hx)
    refine ⟨hk, ?_, _, es', hst, ?_, h2⟩
    · simpa [Moment.recs] using h3
    · simpa [Moment.recs] using h1
  | @dies db db' log used op op' fd fi j ho =>
    obtain ⟨hdisk, hlen⟩ := h.now.disk hp hm hg hf
    obtain ⟨db1, es1, C1, e, _, _, _, _, _, hfd1, hfi1⟩ := open_spec (p := p) hdisk true
    rw [ho] at e; cases e
    refine ⟨⟨.crash h.reached h.now ho, .idle hfd1 hfi1, hb⟩, ?_, _, _, hst, ?_, List.prefix_refl _⟩
    · simp [Moment.recs]
    · simpa [Moment.recs] using hst

theorem keeps_trans {p : Params} (hp : 16 ∣ p.minMmap) (hm : p.minMmap < 2 ^ 62) {m m' : Moment}
    (h : Known p m) (hn : Relation.ReflTransGen (fun a b => Next p a b ∧ b.bytes < 2 ^ 59) m m') :
    Known p m' ∧ m.recs <+: m'.recs ∧
      ∃ es es', Stage m.fd m.fi m.recs es ∧ Stage m'.fd m'.fi m'.recs es' ∧ es <+: es' := by
  induction hn with
  | refl =>
    obtain ⟨es, hs⟩ := h.stage hp hm
    exact ⟨h, List.prefix_refl _, es, es, hs, hs, List.prefix_refl _⟩
  | tail _ hb ih =>
    obtain ⟨h1, h2, es, es', h3, h4, h5⟩ := ih
    obtain ⟨k1, k2, fs, fs', k3, k4, k5⟩ := hb.1.keeps hp hm h1 hb.2
    have := h4.unique k3
    subst this
    exact ⟨k1, h2.trans k2, es, fs', h3, k4, h5.trans k5⟩

/-- The files a reader sees. -/
structure Grows (w d : Nat → Blob) (recs : Nat → List (List UInt8)) (es : Nat → List (Nat × Nat)) : Prop where
  stage : ∀ t, Stage (d t) (w t) (recs t) (es t)
  es : ∀ s t, s ≤ t → es s <+: es t
  recs : ∀ s t, s ≤ t → recs s <+: recs t

theorem Watched.known {p : Params} (hp : 16 ∣ p.minMmap) (hm : p.minMmap < 2 ^ 62) {m : Nat → Moment}
    (h : Watched p m) (t : Nat) : Known p (m t) := by
  induction t with
  | zero => exact ⟨h.begins, h.now, h.fits⟩
  | succ t ih => exact (keeps_trans hp hm ih (h.goes t)).1

theorem Watched.grows {p : Params} (hp : 16 ∣ p.minMmap) (hm : p.minMmap < 2 ^ 62) {m : Nat → Moment}
    (h : Watched p m) : ∃ es, Grows (fun t => (m t).fi) (fun t => (m t).fd) (fun t => (m t).recs) es := by
  choose es hes using fun t => (h.known hp hm t).stage hp hm
  refine ⟨es, hes, ?_, ?_⟩
  · intro s t hst
    induction t, hst using Nat.le_induction with
    | base => exact List.prefix_refl _
    | succ t _ ih =>
      obtain ⟨_, _, a, b, h1, h2, h3⟩ := keeps_trans hp hm (h.known hp hm t) (h.goes t)
      have e1 := (hes t).unique h1
      have e2 := (hes (t + 1)).unique h2
      subst e1; subst e2
      exact ih.trans h3
  · intro s t hst
    induction t, hst using Nat.le_induction with
    | base => exact List.prefix_refl _
    | succ t _ ih =>
      exact ih.trans (keeps_trans hp hm (h.known hp hm t) (h.goes t)).2.1

/-! ### One mapping of a file that changes -/

/-- A read-only handle: one mapping of the first `cap` bytes. -/
def flat (cap : Nat) (f : Blob) : Appender :=
  ⟨if cap > 0 then ⟨some f, false, [⟨0, [cap]⟩], [⟨.file 0, 0, cap⟩], none⟩
    else ⟨some f, false, [], [], none⟩, cap⟩

theorem new_flat (f : Blob) (ex : Option Nat) (h : ex.getD 0 ≤ f.len) :
    Appender.new (some f) false ex = .ok (flat (ex.getD f.len) f) := by
  unfold Appender.new GM.new flat
  simp only
  rw [if_neg (by omega)]
  by_cases hc : ex.getD f.len > 0
  · simp only [if_pos hc]
    simp [GM.len, Index.total, Chunk.stop]
  · simp only [if_neg hc]
    have : ex.getD f.len = 0 := by omega
    rw [this]; rfl

theorem flat_file (cap : Nat) (f : Blob) : (flat cap f).g.file = some f := by
  unfold flat
  by_cases hc : cap > 0
  · simp only [if_pos hc]
  · simp only [if_neg hc]

theorem flat_over (cap : Nat) (f f' : Blob) : (flat cap f).over f' = flat cap f' := by
  unfold flat Appender.over
  by_cases hc : cap > 0
  · simp only [if_pos hc]
  · simp only [if_neg hc]

theorem flat_getRef {cap : Nat} (f : Blob) {a : Nat} (ha : a < cap) :
    (flat cap f).g.getRef a = .ok (some ⟨.file 0, a, cap - a⟩) := by
  have hc : cap > 0 := by omega
  unfold flat
  simp only [if_pos hc]
  have hch : Chain 0 [Chunk.mk 0 [cap]] cap := ⟨rfl, Chunk.single_ok 0 hc, by simp [Chain, Chunk.stop]⟩
  obtain ⟨n, c, l, e, hn, h1, h2, h3, h4, h5, h6⟩ := hch.find_spec ha
  have hn0 : n = 0 ∧ c = ⟨0, [cap]⟩ := by
    cases n with
    | zero => simp only [List.getElem?_cons_zero, Option.some.injEq] at hn; exact ⟨rfl, hn.symm⟩
    | succ n => simp at hn
  obtain ⟨rfl, rfl⟩ := hn0
  have hl : a + l = cap := by simpa [globalBounds] using h5
  unfold GM.getRef
  have htot : Index.total [Chunk.mk 0 [cap]] = cap := by simp [Index.total, Chunk.stop]
  simp only
  rw [htot, if_pos ha]
  simp only [e, List.getElem?_cons_zero, Nat.sub_zero]
  rw [View.slice_ok h3 (by simp only; omega)]
  simp only [Nat.zero_add]
  rw [show l = cap - a by omega]

theorem flat_getRef_none {cap : Nat} (f : Blob) {a : Nat} (ha : cap ≤ a) :
    (flat cap f).g.getRef a = .ok none := by
  unfold flat GM.getRef
  by_cases hc : cap > 0
  · simp only [if_pos hc]
    have htot : Index.total [Chunk.mk 0 [cap]] = cap := by simp [Index.total, Chunk.stop]
    rw [htot, if_neg (by omega)]
  · simp only [if_neg hc]
    rw [if_neg (by simp [Index.total])]

theorem flat_load {cap : Nat} (f : Blob) {a n : Nat} (v : View) (hv : v = ⟨.file 0, a, cap - a⟩) :
    (flat cap f).g.readView v n =
      if n = 0 ∨ a + n ≤ pageEnd f.len then .ok (f.read a n) else .error .fault := by
  subst hv
  have hf : (flat cap f).g.fileBlob = f := by
    unfold flat GM.fileBlob
    by_cases hc : cap > 0
    · simp [if_pos hc]
    · simp [if_neg hc]
  unfold GM.readView GM.load
  simp only [hf, Nat.zero_add]

/-- Loading an entry of the mapping. -/
theorem flat_entry (p : Params) {q : Nat} (f : Blob) {i : Nat} (hi : i < q) (hq : 16 * q < 2 ^ 64) :
    getEntry p (flat (16 * q) f) i =
      if 16 * i + 16 ≤ pageEnd f.len then
        .ok (some (fromLe (f.read (16 * i) 8), fromLe (f.read (16 * i + 8) 8)))
      else .error .fault := by
  unfold getEntry
  rw [usize_ok (by omega)]
  simp only
  rw [flat_getRef f (a := 16 * i) (by omega)]
  simp only
  rw [if_neg (by omega), flat_load f _ rfl]
  by_cases hc : 16 * i + 16 ≤ pageEnd f.len
  · rw [if_pos (.inr hc), if_pos hc]
    simp only
    have e1 : (f.read (16 * i) 16).take 8 = f.read (16 * i) 8 := by
      unfold Blob.read
      rw [← List.map_take]; rfl
    have e2 : (f.read (16 * i) 16).drop 8 = f.read (16 * i + 8) 8 := by
      unfold Blob.read
      rw [← List.map_drop]
      show List.map _ [8, 9, 10, 11, 12, 13, 14, 15] = List.map _ [0, 1, 2, 3, 4, 5, 6, 7]
      simp only [List.map_cons, List.map_nil, Nat.add_zero, Nat.add_assoc, Nat.reduceAdd]
    rw [e1, e2]
  · rw [if_neg (by omega), if_neg hc]

theorem flat_entry_none (p : Params) {q : Nat} (f : Blob) {i : Nat} (hi : q ≤ i) (hi2 : i < 2 ^ 60) :
    getEntry p (flat (16 * q) f) i = .ok none := by
  unfold getEntry
  rw [usize_ok (by omega)]
  simp only
  rw [flat_getRef_none f (by omega)]

/-- Loading a record. -/
theorem flat_record {cap : Nat} (f : Blob) {o l : Nat} (hl : 0 < l) (h : o + l ≤ cap) (hf : cap ≤ f.len) :
    getRecord (flat cap f) o l = .ok (some (f.read o l)) := by
  unfold getRecord
  rw [flat_getRef f (by omega)]
  simp only
  rw [if_neg (by omega), flat_load f _ rfl, if_pos]
  right
  have := le_pageEnd f.len
  omega

/-! ### Opening -/

theorem getEntryB_flat (p : Params) {q : Nat} (f0 f f' : Blob) {i : Nat} (hi : i < q) (hq : 16 * q < 2 ^ 64) :
    getEntryB p (flat (16 * q) f0) f f' i =
      if 16 * i + 16 ≤ pageEnd f.len ∧ 16 * i + 16 ≤ pageEnd f'.len then
        .ok (some (fromLe (f.read (16 * i) 8), fromLe (f'.read (16 * i + 8) 8)))
      else .error .fault := by
  unfold getEntryB
  rw [flat_over, flat_over, flat_entry p f hi hq, flat_entry p f' hi hq]
  by_cases h1 : 16 * i + 16 ≤ pageEnd f.len
  · rw [if_pos h1]
    by_cases h2 : 16 * i + 16 ≤ pageEnd f'.len
    · rw [if_pos h2, if_pos ⟨h1, h2⟩]
    · rw [if_neg h2, if_neg (fun h => h2 h.2)]
  · simp only [if_neg h1]
    rw [if_neg (fun h => h1 h.1)]

theorem getEntryB_none (p : Params) {q : Nat} (f0 f f' : Blob) {i : Nat} (hi : q ≤ i) (hi2 : i < 2 ^ 60) :
    getEntryB p (flat (16 * q) f0) f f' i = .ok none := by
  unfold getEntryB
  rw [flat_over, flat_entry_none p f hi hi2]

section

variable {p : Params} {w d : Nat → Blob} {recs : Nat → List (List UInt8)} {es : Nat → List (Nat × Nat)}

theorem Grows.mono (h : Grows w d recs es) {s t : Nat} (hst : s ≤ t) : (es s).length ≤ (es t).length :=
  (h.es s t hst).length_le

theorem Grows.bound (h : Grows w d recs es) (t : Nat) :
    16 * (es t).length ≤ (w t).len ∧ 16 * (es t).length < 2 ^ 64 := by
  have h1 := (h.stage t).idx.1
  rw [entriesBytes_length] at h1
  have := (h.stage t).fits
  omega

/-- What the reader makes of a length. -/
structure Tells (at_ : Nat → Nat → Except Err Nat) (len : Nat) (N : Nat → Nat) : Prop where
  tells : ∀ k i l, i < len → at_ k i = .ok l → (l = 0 → N (k + 1) ≤ i) ∧ (l ≠ 0 → i < N (k + 1))
  mono : ∀ s t, s ≤ t → N s ≤ N t

theorem Grows.tells (h : Grows w d recs es) {q : Nat} (f0 : Blob) (hq : 16 * q < 2 ^ 64) :
    Tells (lengthB p (flat (16 * q) f0) w) q (fun t => (es t).length) := by
  refine ⟨?_, fun s t hst => h.mono hst⟩
  intro k i l hi hl
  unfold lengthB at hl
  rw [getEntryB_flat p f0 _ _ hi hq] at hl
  split at hl
  · cases hl
  · cases hl
  · next o l' e =>
    simp only [Except.ok.injEq] at hl
    subst hl
    split at e
    · simp only [Except.ok.injEq, Option.some.injEq, Prod.mk.injEq] at e
      obtain ⟨_, e⟩ := e
      rw [← e]
      constructor
      · intro h0
        by_contra hc
        have hi' : i < (es (k + 1)).length := by simpa using hc
        have h1 := ((h.stage (k + 1)).entry (List.getElem?_eq_getElem hi')).2
        have h2 := ((h.stage (k + 1)).entry_lt (List.getElem_mem hi')).1
        omega
      · intro h0
        by_contra hc
        exact h0 ((h.stage (k + 1)).zero (by simpa using hc))
    · cases e

theorem huntLoop_ok {at_ : Nat → Nat → Except Err Nat} {len : Nat} {N : Nat → Nat} (h : Tells at_ len N)
    (fuel k start stop : Nat) {n k' : Nat} (he : huntLoop at_ len fuel k start stop = .ok (n, k'))
    (h0 : start < N k) (hstop : stop ≤ len) : N 0 ≤ n ∧ n ≤ N k' ∧ k ≤ k' ∧ n ≤ len := by
  induction fuel generalizing k start stop with
  | zero => cases he
  | succ fuel ih =>
    unfold huntLoop at he
    split at he
    · next hlt =>
      split at he
      · cases he
      · next e =>
        have hs := (h.tells _ _ _ (by omega) e).1 rfl
        simp only [Except.ok.injEq, Prod.mk.injEq] at he
        obtain ⟨rfl, rfl⟩ := he
        have h1 := h.mono 0 (k + 1) (by omega)
        have h2 := h.mono k (k + 2) (by omega)
        exact ⟨by omega, by omega, by omega, by omega⟩
      · next l e =>
        split at he
        · cases he
        · obtain ⟨a, b, c, d⟩ := ih _ _ _ he (by have := h.mono k (k + 4) (by omega); omega) (by omega)
          exact ⟨a, b, by omega, d⟩
        · next l' e' =>
          have hs := (h.tells _ _ _ (by omega) e').2 (by omega)
          have := h.mono (k + 2 + 1) (k + 4) (by omega)
          obtain ⟨a, b, c, d⟩ := ih _ _ _ he (by omega) hstop
          exact ⟨a, b, by omega, d⟩
    · cases he

theorem hunt_ok {at_ : Nat → Nat → Except Err Nat} {len : Nat} {N : Nat → Nat} (h : Tells at_ len N)
    (hpos : 0 < len) (h0 : N 0 ≤ len) {fuel k n k' : Nat} (he : hunt at_ len fuel k = .ok (n, k')) :
    N 0 ≤ n ∧ n ≤ N k' ∧ k ≤ k' ∧ n ≤ len := by
  unfold hunt at he
  split at he
  · cases he
  · next l0 e0 =>
    have hs0 := h.tells _ _ _ hpos e0
    split at he
    · next hc =>
      simp only [Except.ok.injEq, Prod.mk.injEq] at he
      obtain ⟨rfl, rfl⟩ := he
      have h1 := hs0.1 (by omega)
      have h2 := h.mono 0 (k + 1) (by omega)
      exact ⟨by omega, by omega, by omega, by omega⟩
    · next hc =>
      have h1 := hs0.2 (by omega)
      split at he
      · cases he
      · next l1 e1 =>
        have hs1 := h.tells _ _ _ (by omega) e1
        split at he
        · next hl =>
          simp only [Except.ok.injEq, Prod.mk.injEq] at he
          obtain ⟨rfl, rfl⟩ := he
          have h2 := hs1.2 hl
          have h3 := h.mono (k + 2 + 1) (k + 4) (by omega)
          exact ⟨h0, by omega, by omega, le_refl _⟩
        · have h3 := h.mono (k + 1) (k + 4) (by omega)
          obtain ⟨a, b, c, d⟩ := huntLoop_ok h _ _ _ _ he (by omega) (le_refl _)
          exact ⟨a, b, by omega, d⟩

/-- The first mapping covers the index file as it was when it was opened. -/
theorem Grows.whole (h : Grows w d recs es) : ∃ q, (w 0).len = 16 * q ∧ 16 * q < 2 ^ 64 ∧ (es 0).length ≤ q ∧
    Appender.new (some (w 0)) false none = .ok (flat (16 * q) (w 0)) ∧ idxLen (flat (16 * q) (w 0)) = q := by
  obtain ⟨q, hq⟩ := (h.stage 0).div
  have h1 := (h.stage 0).fits
  have h2 := h.bound 0
  refine ⟨q, hq, by omega, by omega, ?_, ?_⟩
  · rw [new_flat (w 0) none (by simp)]
    simp [hq]
  · unfold idxLen flat; simp

theorem idxOpenB_ok (h : Grows w d recs es) {fuel : Nat} {a : Appender} {k : Nat}
    (he : idxOpenB p w fuel = .ok (a, k)) :
    ∃ n f, a = flat (16 * n) f ∧ (es 0).length ≤ n ∧ n ≤ (es k).length := by
  obtain ⟨q, hlen, hq, h0, hnew, hil⟩ := h.whole
  unfold idxOpenB at he
  rw [hnew] at he
  simp only [hil] at he
  by_cases hq0 : q = 0
  · rw [if_pos hq0] at he
    simp only [Except.ok.injEq, Prod.mk.injEq] at he
    obtain ⟨rfl, rfl⟩ := he
    exact ⟨q, _, rfl, h0, by omega⟩
  · rw [if_neg hq0, getEntryB_flat p _ _ _ (by omega) hq] at he
    by_cases hp : 16 * (q - 1) + 16 ≤ pageEnd (w 1).len ∧ 16 * (q - 1) + 16 ≤ pageEnd (w 2).len
    · rw [if_pos hp] at he
      simp only at he
      by_cases hl : fromLe ((w 2).read (16 * (q - 1) + 8) 8) = 0
      · rw [if_pos hl] at he
        split at he
        · cases he
        · next n k' e =>
          obtain ⟨h1, h2, h3, h4⟩ := hunt_ok (h.tells (p := p) (w 0) hq) (by omega) h0 e
          have hb := h.bound k'
          rw [new_flat (w k') (some (16 * n)) (by simp only [Option.getD_some]; omega)] at he
          simp only [Option.getD_some, Except.ok.injEq, Prod.mk.injEq] at he
          obtain ⟨rfl, rfl⟩ := he
          have := h.mono (s := k') (t := k' + 1) (by omega)
          exact ⟨n, _, rfl, h1, by omega⟩
      · rw [if_neg hl] at he
        simp only [Except.ok.injEq, Prod.mk.injEq] at he
        obtain ⟨rfl, rfl⟩ := he
        refine ⟨q, _, rfl, h0, ?_⟩
        by_contra hc
        have := h.mono (s := 2) (t := 3) (by omega)
        exact hl ((h.stage 2).zero (by omega))
    · rw [if_neg hp] at he
      cases he

/-- The handle of a reader: `n` entries, and the data up to the end of the last of them. -/
structure Handle (es : Nat → List (Nat × Nat)) (ro : DB) (k n : Nat) : Prop where
  le : n ≤ (es k).length
  idx : ∃ f, ro.idx = flat (16 * n) f
  data : ∃ ex f, ro.data = flat ex f ∧
    ((n = 0 ∧ ex = 0) ∨ ∃ e, (es k)[n - 1]? = some e ∧ 0 < n ∧ ex = e.1 + e.2)

/-- Once the index is open, so is the database. -/
theorem openB_after (h : Grows w d recs es) {fuel : Nat} {a : Appender} {k n : Nat} {f : Blob}
    (he : idxOpenB p w fuel = .ok (a, k)) (ha : a = flat (16 * n) f) (hn : n ≤ (es k).length) :
    ∃ ro, openB p w d fuel = .ok (ro, k + 3) ∧ Handle es ro k n := by
  subst ha
  have hb := h.bound k
  have hil : idxLen (flat (16 * n) f) = n := by unfold idxLen flat; simp
  have hsz : (flat (16 * n) f).size = 16 * n := rfl
  unfold openB
  rw [he]
  simp only [hil, hsz]
  rw [if_neg (by omega)]
  by_cases hn0 : n = 0
  · subst hn0
    simp only [if_true, Option.map_none, Option.getD_none]
    rw [usize_ok (by norm_num)]
    simp only
    rw [new_flat _ _ (by simp)]
    exact ⟨_, rfl, hn, ⟨_, rfl⟩, _, _, rfl, .inl ⟨rfl, rfl⟩⟩
  · rw [if_neg hn0, getEntryB_flat p _ _ _ (by omega) (by omega)]
    have hlt : n - 1 < (es k).length := by omega
    have hek := List.getElem?_eq_getElem hlt
    have hek1 : (es (k + 1))[n - 1]? = some (es k)[n - 1] := prefix_get (h.es k (k + 1) (by omega)) hek
    have hek2 : (es (k + 2))[n - 1]? = some (es k)[n - 1] := prefix_get (h.es k (k + 2) (by omega)) hek
    have hb1 := h.bound (k + 1)
    have hm1 := h.mono (s := k) (t := k + 1) (by omega)
    have p0 := le_pageEnd (w k).len
    have p1 := le_pageEnd (w (k + 1)).len
    rw [if_pos ⟨by omega, by omega⟩]
    simp only
    rw [((h.stage k).entry hek).1, ((h.stage (k + 1)).entry hek1).2]
    simp only [Option.map_some, Option.getD_some]
    obtain ⟨C, hC1, hC2, hC3⟩ := (h.stage (k + 2)).data
    have hmem := hC2.mem (List.mem_of_getElem? hek2)
    have := hC1.1
    rw [usize_ok (by omega)]
    simp only
    rw [new_flat _ _ (by simp only [Option.getD_some]; omega)]
    exact ⟨_, rfl, hn, ⟨_, rfl⟩, _, _, rfl, .inr ⟨_, hek, by omega, rfl⟩⟩

theorem openB_ok (h : Grows w d recs es) {fuel : Nat} {ro : DB} {k : Nat}
    (he : openB p w d fuel = .ok (ro, k)) :
    ∃ n j, k = j + 3 ∧ (es 0).length ≤ n ∧ Handle es ro j n := by
  cases hi : idxOpenB p w fuel with
  | error e => unfold openB at he; rw [hi] at he; cases he
  | ok r =>
    obtain ⟨a, j⟩ := r
    obtain ⟨n, f, ha, h1, h2⟩ := idxOpenB_ok h hi
    obtain ⟨ro', e, hh⟩ := openB_after h hi ha h2
    rw [he] at e
    simp only [Except.ok.injEq, Prod.mk.injEq] at e
    obtain ⟨rfl, rfl⟩ := e
    exact ⟨n, j, rfl, h1, hh⟩

/-! ### Reading -/

theorem Handle.get (h : Grows w d recs es) {ro : DB} {k n : Nat} (hh : Handle es ro k n) {t t1 t2 : Nat}
    (ht : k ≤ t) (ht1 : k ≤ t1) (ht2 : k ≤ t2) {i : Nat} (hi : i < 2 ^ 60) :
    getB p ro (w t) (w t1) (d t2) i = .ok ((recs k).take n)[i]? := by
  obtain ⟨fi, hidx⟩ := hh.idx
  obtain ⟨ex, fd, hdata, hex⟩ := hh.data
  have hle := hh.le
  have hb := h.bound k
  unfold getB
  rw [hidx]
  by_cases hin : i < n
  · have hlt : i < (es k).length := by omega
    have hek := List.getElem?_eq_getElem hlt
    have he0 := prefix_get (h.es k t ht) hek
    have he1 := prefix_get (h.es k t1 ht1) hek
    have he2 := prefix_get (h.es k t2 ht2) hek
    have hb0 := h.bound t
    have hb1 := h.bound t1
    have hm0 := h.mono ht
    have hm1 := h.mono ht1
    have p0 := le_pageEnd (w t).len
    have p1 := le_pageEnd (w t1).len
    rw [getEntryB_flat p _ _ _ hin (by omega), if_pos ⟨by omega, by omega⟩]
    simp only
    rw [((h.stage t).entry he0).1, ((h.stage t1).entry he1).2, hdata, flat_over]
    obtain ⟨C, hC1, hC2, hC3⟩ := (h.stage t2).data
    obtain ⟨r, hr, _, hpos, hend, hread, _⟩ := forall2_getElem hC2.each he2
    rcases hex with ⟨h0, _⟩ | ⟨l, hl, hnpos, rfl⟩
    · omega
    · have hl2 := prefix_get (h.es k t2 ht2) hl
      have hlm := hC2.mem (List.mem_of_getElem? hl2)
      have hord : (es k)[i].1 + (es k)[i].2 ≤ l.1 + l.2 := by
        rcases Nat.eq_or_lt_of_le (show i ≤ n - 1 by omega) with hc | hc
        · subst hc
          rw [hek] at hl
          cases hl
          exact le_refl _
        · have ho := List.pairwise_iff_getElem.mp hC2.order i (n - 1) (by
            by_contra hx; rw [List.getElem?_eq_none (by omega)] at he2; cases he2) (by
            by_contra hx; rw [List.getElem?_eq_none (by omega)] at hl2; cases hl2) hc
          rw [List.getElem?_eq_getElem (by
            by_contra hx; rw [List.getElem?_eq_none (by omega)] at he2; cases he2)] at he2
          rw [List.getElem?_eq_getElem (by
            by_contra hx; rw [List.getElem?_eq_none (by omega)] at hl2; cases hl2)] at hl2
          rw [Option.some.inj he2, Option.some.inj hl2] at ho
          omega
      have := hC1.1
      rw [flat_record _ hpos hord (by omega), hC1.read (by omega), hread]
      rw [List.getElem?_take_of_lt hin]
      have hri : i < (recs k).length := by rw [← (h.stage k).length]; exact hlt
      have hrk := List.getElem?_eq_getElem hri
      have hrt := prefix_get (h.recs k t2 ht2) hrk
      rw [hr] at hrt
      rw [hrk, Option.some.inj hrt]
  · rw [getEntryB_none p _ _ _ (by omega) hi, List.getElem?_eq_none (by simp; omega)]

/-! ### When the writer leaves the index alone -/

theorem huntLoop_quiet {at_ : Nat → Nat → Except Err Nat} {len N : Nat}
    (hat : ∀ k i, i < len → ∃ l, at_ k i = .ok l ∧ (l = 0 ↔ N ≤ i)) (hN : N < len)
    (fuel k start stop : Nat) (hfuel : stop - start < fuel) (hs : start < N) (hstop : stop ≤ len) (hz : N ≤ stop) :
    ∃ r, huntLoop at_ len fuel k start stop = .ok r := by
  induction fuel generalizing k start stop with
  | zero => omega
  | succ fuel ih =>
    unfold huntLoop
    rw [if_pos (by omega)]
    obtain ⟨l, e, hl⟩ := hat k (start + 1) (by omega)
    rw [e]
    cases l with
    | zero => exact ⟨_, rfl⟩
    | succ l =>
      have h1 : ¬ N ≤ start + 1 := fun hc => absurd (hl.mpr hc) (by omega)
      obtain ⟨l', e', hl'⟩ := hat (k + 2) ((start + stop) / 2) (by omega)
      simp only [e']
      cases l' with
      | zero =>
        have h2 : N ≤ (start + stop) / 2 := hl'.mp rfl
        exact ih _ _ _ (by omega) hs (by omega) h2
      | succ l' =>
        have h2 : ¬ N ≤ (start + stop) / 2 := fun hc => absurd (hl'.mpr hc) (by omega)
        exact ih _ _ _ (by omega) (by omega) hstop hz

theorem hunt_quiet {at_ : Nat → Nat → Except Err Nat} {len N : Nat}
    (hat : ∀ k i, i < len → ∃ l, at_ k i = .ok l ∧ (l = 0 ↔ N ≤ i)) (hpos : 0 < len) (fuel k : Nat)
    (hfuel : len < fuel) : ∃ r, hunt at_ len fuel k = .ok r := by
  unfold hunt
  obtain ⟨l, e, hl⟩ := hat k 0 hpos
  rw [e]
  simp only
  by_cases h0 : l = 0 ∨ len = 0
  · rw [if_pos h0]; exact ⟨_, rfl⟩
  · rw [if_neg h0]
    obtain ⟨l1, e1, hl1⟩ := hat (k + 2) (len - 1) (by omega)
    rw [e1]
    simp only
    by_cases h1 : l1 ≠ 0
    · rw [if_pos h1]; exact ⟨_, rfl⟩
    · rw [if_neg h1]
      have h2 : N ≤ len - 1 := hl1.mp (by omega)
      have h3 : ¬ N ≤ 0 := fun hc => h0 (.inl (hl.mpr hc))
      exact huntLoop_quiet hat (by omega) _ _ _ _ (by omega) (by omega) (le_refl _) (by omega)

theorem idxOpenB_quiet (h : Grows w d recs es) (hN : ∀ t, (es t).length = (es 0).length)
    (hl : ∀ t, (w 0).len ≤ (w t).len) {fuel : Nat} (hfuel : (w 0).len < fuel) :
    ∃ r, idxOpenB p w fuel = .ok r := by
  obtain ⟨q, hlen, hq, h0, hnew, hil⟩ := h.whole
  have hp : ∀ i t, i < q → 16 * i + 16 ≤ pageEnd (w t).len := by
    intro i t hi
    have := hl t
    have := le_pageEnd (w t).len
    omega
  unfold idxOpenB
  rw [hnew]
  simp only [hil]
  by_cases hq0 : q = 0
  · rw [if_pos hq0]; exact ⟨_, rfl⟩
  · rw [if_neg hq0, getEntryB_flat p _ _ _ (by omega) hq, if_pos ⟨hp _ _ (by omega), hp _ _ (by omega)⟩]
    simp only
    by_cases hz : fromLe ((w 2).read (16 * (q - 1) + 8) 8) = 0
    · rw [if_pos hz]
      have hat : ∀ k i, i < q → ∃ l, lengthB p (flat (16 * q) (w 0)) w k i = .ok l ∧
          (l = 0 ↔ (es 0).length ≤ i) := by
        intro k i hi
        refine ⟨fromLe ((w (k + 1)).read (16 * i + 8) 8), ?_, ?_⟩
        · unfold lengthB
          rw [getEntryB_flat p _ _ _ hi hq, if_pos ⟨hp _ _ hi, hp _ _ hi⟩]
        · rw [← hN (k + 1)]
          constructor
          · intro hx
            by_contra hc
            have hi' : i < (es (k + 1)).length := by omega
            have h1 := ((h.stage (k + 1)).entry (List.getElem?_eq_getElem hi')).2
            have h2 := ((h.stage (k + 1)).entry_lt (List.getElem_mem hi')).1
            omega
          · intro hx
            exact (h.stage (k + 1)).zero hx
      obtain ⟨⟨n, k⟩, e⟩ := hunt_quiet hat (by omega) fuel 3 (by omega)
      rw [e]
      obtain ⟨h1, h2, h3, h4⟩ := hunt_ok (h.tells (p := p) (w 0) hq) (by omega) h0 e
      simp only
      have hb := h.bound k
      rw [new_flat (w k) (some (16 * n)) (by simp only [Option.getD_some]; omega)]
      exact ⟨_, rfl⟩
    · rw [if_neg hz]; exact ⟨_, rfl⟩

/-! ### A reader changes nothing -/

theorem flat_append (p : Params) (cap : Nat) (f : Blob) (ft : Faults) {inc : Nat} (hinc : inc ≠ 0)
    (g : Nat → List UInt8 × Option Err) : (flat cap f).append p ft inc g = (.error .extend, flat cap f) := by
  unfold Appender.append
  rw [if_neg hinc]
  unfold GM.grow
  rw [if_neg hinc]
  unfold flat
  by_cases hc : cap > 0
  · simp [if_pos hc, GM.makeRoom, GM.createMmap]
  · simp [if_neg hc, GM.makeRoom, GM.createMmap]

theorem flat_shrink (cap : Nat) (f : Blob) : (flat cap f).g.shrink = (flat cap f).g := by
  unfold flat
  by_cases hc : cap > 0
  · simp [if_pos hc, GM.shrink]
  · simp [if_neg hc, GM.shrink]

end

/-! ### A second handle for writing -/

theorem Stage.disk {fd fi : Blob} {log : List (List UInt8)} {es : List (Nat × Nat)} (h : Stage fd fi log es) :
    ∃ used, DiskOK fd fi log used := by
  obtain ⟨C, h1, h2, h3⟩ := h.data
  exact ⟨C.length, ⟨es, C, h.idx, h.tail, h.div, h1, h2, h3, le_refl _⟩, h.fits⟩

/-- Closing a handle cuts the files, as they are now, to what the handle knows. -/
theorem DBInv.drop_over {db : DB} {es : List (Nat × Nat)} {C : List UInt8} {log : List (List UInt8)}
    (h : DBInv db es C log) (hwd : db.data.g.writable = true) (hwi : db.idx.g.writable = true) (gd gi : Blob) :
    (db.over gd gi).drop.data.g.file = some (gd.setLen C.length) ∧
    (db.over gd gi).drop.idx.g.file = some (gi.setLen (16 * es.length)) := by
  have l1 : db.data.g.len = C.length := h.dataOK.len_eq
  have l2 : db.idx.g.len = 16 * es.length := by rw [h.idxOK.len_eq]; simp
  constructor
  · show (GM.shrink { db.data.g with file := some gd }).file = _
    unfold GM.shrink
    simp only [hwd, if_true]
    show some (gd.setLen db.data.g.len) = _
    rw [l1]
  · show (GM.shrink { db.idx.g with file := some gi }).file = _
    unfold GM.shrink
    simp only [hwi, if_true]
    show some (gi.setLen db.idx.g.len) = _
    rw [l2]

/-- Files that begin with the records `log`, cut behind their entries. -/
theorem Stage.cut {fd fi : Blob} {log log' : List (List UInt8)} {es es' : List (Nat × Nat)}
    (h : Stage fd fi log' es') (he : es <+: es') (hl : log <+: log') (hlen : es.length = log.length) {n : Nat}
    (hn : ∀ e ∈ es, e.1 + e.2 ≤ n) :
    (∃ used, DiskOK (fd.setLen n) (fi.setLen (16 * es.length)) log used) ∧
      ∀ a b, (∀ e ∈ es, e.1 + e.2 ≤ a) → 16 ∣ b → 16 * es.length ≤ b → b < 2 ^ 64 →
        ∃ used, DiskOK ((fd.setLen n).setLen a) ((fi.setLen (16 * es.length)).setLen b) log used := by
  obtain ⟨C, hC, hr, hfit⟩ := h.data
  have hr1 := hr.takeLog es.length
  rw [← List.prefix_iff_eq_take.mp he, hlen, ← List.prefix_iff_eq_take.mp hl] at hr1
  have hd : FileHas (fd.setLen n) (C.take n) := (hC.take n).setLen (by simp)
  have hi : FileHas (fi.setLen (16 * es.length)) (entriesBytes es) := by
    have h1 := h.idx.take (16 * es.length)
    obtain ⟨c, rfl⟩ := he
    have h2 : (entriesBytes (es ++ c)).take (16 * es.length) = entriesBytes es := by
      have : entriesBytes (es ++ c) = entriesBytes es ++ entriesBytes c := by simp [entriesBytes]
      rw [this, List.take_left' (by simp)]
    rw [h2] at h1
    exact h1.setLen (by simp)
  have ht : TailZ (fi.setLen (16 * es.length)) (16 * es.length) := by
    intro i h1 h2 _
    simp only [Blob.setLen_len] at h2
    omega
  have hl := h.idx.1
  have hlt := h.fits
  rw [entriesBytes_length] at hl
  have hle : es.length ≤ es'.length := he.length_le
  refine ⟨⟨(C.take n).length, ⟨es, C.take n, hi, ht, by simp, hd, hr1.take hn,
    by simp only [List.length_take]; omega, le_refl _⟩, by simp only [Blob.setLen_len]; omega⟩, ?_⟩
  intro a b ha hb1 hb2 hb3
  have hmin : ∀ e ∈ es, e.1 + e.2 ≤ min n a := fun e h' => le_min (hn e h') (ha e h')
  refine ⟨(C.take (min n a)).length, ⟨es, C.take (min n a), hi.setLen (by simpa using hb2), ht.setLen b,
    by simpa using hb1, ?_, hr1.take hmin, by simp only [List.length_take]; omega, le_refl _⟩, by simpa using hb3⟩
  refine ((hC.take (min n a)).setLen ?_).setLen ?_ <;> (simp only [List.length_take]; omega)

end Verif.Fraos
