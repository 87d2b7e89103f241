import Verif.Fraos.PowerCut

/-!
# C76: power failures

`PowerCut p db batch fd fi` (`Verif/Fraos/PowerCut.lean`) says that power may fail while `batch` is
appended to `db` (or between calls, or while the handle is dropped) leaving the data file `fd` and the
index file `fi` on disk: flushed bytes are there, of the others any pages, in any order. `Endured`
collects the states of all histories of calls, deaths of the process and power failures in which the
index entries of the batch that power failed on lay in one page.
-/

namespace Verif.Props

open Verif.Fraos

/-- **C76.** Whenever power fails, opening the directory again succeeds and every acknowledged record is
there unchanged; a record of the batch in flight is there unchanged, or there is an empty record or none
in its place; the last record is never such a gap. -/
theorem C76_acknowledged (p : Params) (hp : 16 ∣ p.minMmap) (hm : p.minMmap < 2 ^ 62) (db : DB)
    (log batch : List (List UInt8)) (used : Nat) (h : Endured p db log used) (fd fi : Blob)
    (hc : PowerCut p db batch fd fi) (hbytes : used + (batch.map List.length).sum < 2 ^ 59) :
    ∃ db', DB.openDB p (some fd) (some fi) true = .ok db' ∧
      log.length ≤ db'.len ∧ db'.len ≤ log.length + batch.length ∧
      (∀ i, i < log.length → db'.get p i = db.get p i ∧ db.get p i = .ok log[i]?) ∧
      (∀ i, log.length ≤ i → i < db'.len → db'.get p i = .ok batch[i - log.length]? ∨
        db'.get p i = .ok (some []) ∨ db'.get p i = .ok none) ∧
      (log.length < db'.len → db'.get p (db'.len - 1) = .ok batch[db'.len - 1 - log.length]?) := by
  have hg := h.good hp hm (by omega)
  obtain ⟨es0, C0, hinv, _⟩ := hg.ex
  have hlog := hinv.log_lt
  obtain ⟨es, new, C, log', batch', b, ks, rfl, hll, hnb, hmix, hF, hT, h16, hlen, hD, hR, hCl⟩ :=
    hc.spec hp hm hg hbytes
  have hlt : ∀ e ∈ es ++ new, e.1 < 2 ^ 64 ∧ e.2 < 2 ^ 64 := by
    intro e he
    have := hR.mem he
    omega
  have ht : Torn fi es new := hmix.torn hF hT h16 (fun e he => hlt e (List.mem_append_left _ he))
    (fun e he => hlt e (List.mem_append_right _ he))
  obtain ⟨db', r, n, ho, h1, h2, hop, _, hnz⟩ := open_torn (p := p) ht (by omega) hD hR hll (by omega)
  have hbl : batch'.length ≤ batch.length := by
    rcases hnb with ⟨_, rfl⟩ | ⟨_, rfl⟩
    · simp
    · exact le_refl _
  have hbe : r ≤ log'.length ∨ batch' = batch := by
    rcases hnb with ⟨_, rfl⟩ | ⟨_, h⟩
    · left; simpa using h2
    · exact .inr h
  rw [← hop.len] at h1 h2 hbe
  refine ⟨db', ho, h1, by omega, ?_, ?_, ?_⟩
  · intro i hi
    rw [hop.there i (by rw [← hop.len]; omega) (hnz i hi), hinv.get_ok (by omega),
      List.getElem?_append_left hi]
    exact ⟨rfl, rfl⟩
  · intro i hi hi2
    rcases hbe with hbe | rfl
    · omega
    · by_cases hz : (fileEntry fi i).2 = 0
      · exact .inr (hop.gone i (by rw [← hop.len]; exact hi2) hz)
      · left
        rw [hop.there i (by rw [← hop.len]; exact hi2) hz, List.getElem?_append_right hi]
  · intro hl
    rcases hbe with hbe | rfl
    · omega
    · have hz := hop.last (by rw [← hop.len]; omega)
      rw [← hop.len] at hz
      rw [hop.there _ (by rw [← hop.len]; omega) hz, List.getElem?_append_right (by omega)]

/-- **C76.** When the index entries of the batch lie in one page (always so for a single record), the
database opened after a power failure answers every later history as one that holds all earlier records
unchanged, followed by the first few of the batch, and nothing else. -/
theorem C76_one_page_partial (p : Params) (hp : 16 ∣ p.minMmap) (hm : p.minMmap < 2 ^ 62) (db : DB)
    (log batch : List (List UInt8)) (used : Nat) (h : Endured p db log used) (fd fi : Blob)
    (hc : PowerCut p db batch fd fi) (hone : OnePage log.length batch.length) (later : List Op)
    (hbytes : used + (batch.map List.length).sum + bytesOf later < 2 ^ 59)
    (hsmall : ∀ op ∈ later, op.small) :
    ∃ j db', j ≤ batch.length ∧ DB.openDB p (some fd) (some fi) true = .ok db' ∧
      run p db' later = specRun true (log ++ batch.take j) later := by
  have hg := h.good hp hm (by omega)
  obtain ⟨j, hj, hdisk, hlen⟩ := hc.disk hp hm hg (by omega) hone
  obtain ⟨db1, es, C, e, hinv, _⟩ := open_spec (p := p) hdisk true
  have hlj : db1.len - log.length = j := by
    rw [hinv.len_eq, List.length_append, List.length_take]; omega
  have hg1 := (Endured.power h hc hone e).good hp hm (by omega)
  rw [hlj] at hg1
  exact ⟨j, db1, hj, e, (run_good hp later hg1 hsmall (by omega)).1⟩

/-- **C76.** Between such failures every call is answered as by the list of records. -/
theorem C76_answers_partial (p : Params) (hp : 16 ∣ p.minMmap) (hm : p.minMmap < 2 ^ 62) (db : DB)
    (log : List (List UInt8)) (used : Nat) (h : Endured p db log used) (ops : List Op)
    (hbytes : used + bytesOf ops < 2 ^ 59) (hsmall : ∀ op ∈ ops, op.small) :
    run p db ops = specRun true log ops :=
  (run_good hp ops (h.good hp hm (by omega)) hsmall (by omega)).1

/-- A single record has its entry in one page. -/
theorem onePage_single (n : Nat) : OnePage n 1 := by
  intro i j h1 h2 h3 h4
  have : i = j := by omega
  rw [this]

/-- Power fails when three of the four words of two index entries are on disk. -/
example : ∃ db fd fi, Endured { Params.code with minMmap := 32 } db [] 0 ∧
    PowerCut { Params.code with minMmap := 32 } db [[1], [2, 3]] fd fi ∧ OnePage 0 2 :=
  ⟨_, _, (Blob.empty.setLen 32).write 0 ((entriesBytes [(0, 1), (1, 2)]).take 24), .fresh rfl,
    .index (by decide) (by decide) rfl rfl
    (.storing (ks := fun _ => 3) rfl rfl rfl rfl rfl (fun _ _ => rfl)), by
      intro i j h1 h2 h3 h4; omega⟩

/-! ### A gap -/

theorem ones_entry (n off i : Nat) (h : i < n) :
    (entriesFrom off (List.replicate n [1]))[i]? = some (off + i, 1) := by
  induction n generalizing off i with
  | zero => omega
  | succ n ih =>
    rw [List.replicate_succ, entriesFrom]
    cases i with
    | zero => simp
    | succ i =>
      rw [List.getElem?_cons_succ, List.length_singleton, ih _ _ (by omega)]
      congr 2; omega

theorem ones_flatten (n : Nat) : (List.replicate n [(1 : UInt8)]).flatten.length = n := by
  induction n with
  | zero => rfl
  | succ n ih => rw [List.replicate_succ, List.flatten_cons, List.length_append, ih]; simp; omega

/-- Which pages have been written: all but page 129. -/
def gapPages (q : Nat) : Nat := if q = 129 then 0 else 67072

/-- The lengths found afterwards. -/
def gapLen (i : Nat) : Nat := if i / 256 = 129 then 0 else if i < 33536 then 1 else 0

theorem gap_exists (N : Nat) (hN : N = 33536) : ∃ db fd fi, Endured Params.code db [] 0 ∧
    PowerCut Params.code db (List.replicate N [1]) fd fi ∧ fi.len = 16 * 33536 ∧
    (∀ i, i < 33536 → (fileEntry fi i).2 = gapLen i ∧
      ((fileEntry fi i).2 ≠ 0 → fileEntry fi i = (i, 1))) ∧
    FileHas fd (List.replicate N [1]).flatten := by
  obtain ⟨db, e, hg⟩ := fresh_good Params.code true
  obtain ⟨es, C, hinv, hC⟩ := hg.ex
  have hes : es = [] := List.length_eq_zero_iff.mp (by rw [hinv.recs.length]; rfl)
  have hCn : C = [] := List.length_eq_zero_iff.mp (by omega)
  subst hes; subst hCn
  generalize hbatch : List.replicate N [(1 : UInt8)] = batch
  have hbl : batch.length = 33536 := by rw [← hbatch, List.length_replicate, hN]
  have hfl : batch.flatten.length = 33536 := by rw [← hbatch, ones_flatten, hN]
  have hb : batch ≠ [] := by intro h; rw [h] at hbl; simp at hbl
  have hne : ∀ r ∈ batch, r ≠ [] := by
    rw [← hbatch]
    intro r hr
    rw [(List.mem_replicate.mp hr).2]; simp
  have hds : db.data.size = 0 := by rw [hinv.dataSize]; rfl
  generalize hnew : entriesFrom db.data.size batch = new
  have hnl : new.length = 33536 := by rw [← hnew, entriesFrom_length, hbl]
  have hent : ∀ i, i < 33536 → new[i]? = some (i, 1) := by
    intro i hi
    rw [← hnew, ← hbatch, hds, ones_entry _ _ _ (by omega)]; simp
  have hnlt : ∀ e ∈ new, e.1 < 2 ^ 64 ∧ e.2 < 2 ^ 64 := by
    intro e he
    obtain ⟨i, hi, rfl⟩ := List.getElem_of_mem he
    have h1 := hent i (by omega)
    rw [List.getElem?_eq_getElem hi] at h1
    rw [Option.some.inj h1]
    simp only; omega
  -- the data
  rcases flatAppend_spec (p := Params.code) hinv.dataOK hg.room.2 Faults.none_early hb hne with
    ⟨g1, e1, hok, hroom, hbd, hw, hmode⟩ | ⟨er, g1, e1, hu, he⟩
  swap
  · rcases he with ⟨_, h | h⟩ | ⟨_, h⟩
    · cases h
    · rw [hg.wd] at h; cases h
    · cases h
  obtain ⟨fd, hfd⟩ : ∃ fd, g1.file = some fd :=
    Option.isSome_iff_exists.mp (by rw [hmode, hinv.mode, hg.mode])
  -- the index
  rcases makeRoom_spec (p := Params.code) hinv.idxOK hg.room.1 (ft := Faults.none) rfl
    (ext := 16 * new.length) (by omega) with ⟨at_, g2, e2, hrd⟩ | ⟨er, g2, e2, _, he⟩
  swap
  · rcases he with ⟨_, h | h⟩ | ⟨_, h⟩
    · cases h
    · rw [hg.wi] at h; cases h
    · cases h
  obtain ⟨a, ha, hst, _, hal, hmo, _⟩ := hrd.ex
  obtain ⟨f0, hf0⟩ := Option.isSome_iff_exists.mp hg.mode
  obtain ⟨f1, hf1⟩ : ∃ f1, g2.file = some f1 :=
    Option.isSome_iff_exists.mp (by rw [hrd.file.isSome, hg.mode])
  have hle0 : (entriesBytes []).length = 0 := rfl
  have hroom2 := hrd.room a f1 ha hf1
  have hf0l := hg.idxLen f0 hf0
  have hmin : Params.code.minMmap = 524288 := rfl
  have hns : db.idx.g.newSize Params.code (16 * new.length) = 16 * 33536 := by
    unfold GM.newSize
    rw [hf0, hnl, hmin]
    rfl
  have hf1l : f1.len = 16 * 33536 := by
    rcases hrd.file.lenStep f1 hf1 with h | ⟨x, hx, h⟩
    · rw [h, hns, hle0]
    · rw [hf0] at hx; cases hx
      omega
  have htail := hrd.file.tail (by rw [hle0]; exact ⟨0, rfl⟩) (by rw [hns]; exact ⟨33536, rfl⟩)
    (by rw [hle0]; exact hinv.tail) f1 hf1
  cases hmem : a.mem with
  | anon x =>
    rw [hmem] at hmo
    have := hmo.1
    rw [hf1] at this
    cases this
  | file o =>
    rw [hmem] at hmo
    have ho : o + at_ = 16 * 0 := by have := hmo.2; omega
    obtain ⟨fi, hfi⟩ : ∃ fi : Blob, fi = ⟨f1.len, fun i =>
      (f1.write (o + at_) ((entriesBytes new).take (8 * gapPages (i / 4096)))).get i⟩ := ⟨_, rfl⟩
    have hlen : fi.len = f1.len := by rw [hfi]
    have hget : ∀ i, i < fi.len →
        fi.get i = (f1.write (o + at_) ((entriesBytes new).take (8 * gapPages (i / 4096)))).get i := by
      intro i _; rw [hfi]
    have hmix : Mixed f1 fi 0 new gapPages := ⟨hlen, by rw [← ho]; exact hget⟩
    refine ⟨db, fd, fi, .fresh e, .index hb hne e1 hfd (.storing (at_ := at_) (ks := gapPages) ?_ ha hmem hf1 hlen ?_),
      by omega, ?_, ?_⟩
    · rw [hnew]; exact e2
    · rw [hnew]; exact hget
    · intro i hi
      by_cases hc : i / 256 = 129
      · have := hmix.hole htail.1 (i := i) (by omega) (by unfold gapPages; rw [if_pos hc]; omega)
        rw [this]
        refine ⟨by unfold gapLen; rw [if_pos hc], fun h => absurd rfl h⟩
      · have h1 := hmix.full hnlt (i := i) (by omega) (by omega)
          (by unfold gapPages; rw [if_neg hc]; omega) (by omega)
        rw [Nat.sub_zero, hent i hi] at h1
        rw [← Option.some.inj h1]
        exact ⟨by unfold gapLen; rw [if_neg hc, if_pos hi], fun _ => rfl⟩
    · have := hok.file _ hfd
      simpa using this

theorem ones_recs (n : Nat) (rest : List (List UInt8)) (hne : ∀ r ∈ rest, r ≠ []) :
    Recs (List.replicate n [1] ++ rest).flatten [] (entriesFrom 0 (List.replicate n [1] ++ rest))
      (List.replicate n [1] ++ rest) := by
  have := entriesFrom_recs [] (List.replicate n [1] ++ rest) (by
    intro r hr
    rcases List.mem_append.mp hr with hr | hr
    · rw [(List.mem_replicate.mp hr).2]; simp
    · exact hne r hr) (bs := []) (by simp)
  simpa using this

/-- The database opened after the failure, and the entry that is appended then. -/
theorem gap_opened (N : Nat) (hN : N = 33536) : ∃ db fd fi db' n, Endured Params.code db [] 0 ∧
    PowerCut Params.code db (List.replicate N [1]) fd fi ∧
    DB.openDB Params.code (some fd) (some fi) true = .ok db' ∧
    Opened Params.code db' fd fi (List.replicate N [1]).flatten (List.replicate N [1]) 33536 n ∧
    n = 33536 ∧ fi.len = 16 * 33536 ∧
    (∀ i, i < 33536 → (fileEntry fi i).2 = gapLen i ∧
      ((fileEntry fi i).2 ≠ 0 → fileEntry fi i = (i, 1))) := by
  obtain ⟨db, fd, fi, he, hc, hl, hent, hd⟩ := gap_exists N hN
  have hrec := ones_recs N [] (by simp)
  rw [List.append_nil] at hrec
  have hlen : (entriesFrom 0 (List.replicate N [(1 : UInt8)])).length = 33536 := by
    rw [entriesFrom_length, List.length_replicate, hN]
  have ht : Torn fi [] (entriesFrom 0 (List.replicate N [1])) := by
    refine ⟨by simp, by intro i h; simp at h, by rw [hl]; exact ⟨_, rfl⟩, ?_⟩
    intro i _ hi
    have h1 := hent i (by omega)
    by_cases hz : (fileEntry fi i).2 = 0
    · exact .inl hz
    · right
      rw [List.length_nil, Nat.sub_zero, ones_entry _ _ _ (by omega), h1.2 hz, Nat.zero_add]
  obtain ⟨db', r, n, ho, h1, h2, hop, hn, _⟩ := open_torn (p := Params.code) (log := []) ht (by omega) hd
    (by simpa using hrec) rfl (by rw [ones_flatten]; omega)
  rw [List.nil_append] at hop
  have hr : r = 33536 := by
    rcases hop.stop with h | h
    · omega
    · have hz : (fileEntry fi 33535).2 ≠ 0 := by
        rw [(hent 33535 (by omega)).1]; decide
      have h0 : (fileEntry fi 0).2 ≠ 0 := by
        rw [(hent 0 (by omega)).1]; decide
      rw [hl] at h
      unfold findEnd at h
      simp only [h0, false_or] at h
      rw [if_neg (by omega), if_pos (by exact hz)] at h
      cases h; rfl
  subst hr
  refine ⟨db, fd, fi, db', n, he, hc, ho, hop, ?_, hl, hent⟩
  have := hn (33535, 1) (by
    rw [List.nil_append, ones_entry _ _ _ (by omega)]) (by omega)
  exact this

/-- **C76, the other case.** With entries in several pages a power failure can leave a gap: the opened
database has 33536 records, all of a batch that was never acknowledged, but those in the page that had
not been written are not what was appended. -/
theorem C76_gap_false : ∃ db batch fd fi db', Endured Params.code db [] 0 ∧
    PowerCut Params.code db batch fd fi ∧ DB.openDB Params.code (some fd) (some fi) true = .ok db' ∧
    db'.len = batch.length ∧
    (∀ i, i < batch.length → i / 256 = 129 → db'.get Params.code i ≠ .ok batch[i]?) ∧
    (∀ i, i < batch.length → i / 256 ≠ 129 → db'.get Params.code i = .ok batch[i]?) := by
  obtain ⟨N, hN⟩ : ∃ N, N = 33536 := ⟨_, rfl⟩
  obtain ⟨db, fd, fi, db', n, he, hc, ho, hop, _, hl, hent⟩ := gap_opened N hN
  refine ⟨db, _, fd, fi, db', he, hc, ho, by rw [hop.len, List.length_replicate, hN], ?_, ?_⟩
  · intro i hi hp
    rw [List.length_replicate, hN] at hi
    have hg : (List.replicate N [(1 : UInt8)])[i]? = some [1] := by
      rw [List.getElem?_replicate, if_pos (by omega)]
    have := (hent i hi).1
    unfold gapLen at this
    rw [if_pos hp] at this
    rw [hg]
    rcases hop.gone i hi this with h | h <;> rw [h] <;> simp
  · intro i hi hp
    rw [List.length_replicate, hN] at hi
    refine hop.there i hi ?_
    rw [(hent i hi).1]
    unfold gapLen
    rw [if_neg hp, if_pos hi]; simp

/-- The lengths after one more record. -/
def gapLen2 (i : Nat) : Nat := if i / 256 = 129 then 0 else if i < 33537 then 1 else 0

theorem gap_search : findEnd (fun i => .ok (gapLen2 i)) 66304 = .ok 33024 := by decide +kernel

theorem read_same {a b : Blob} {o n : Nat} (h : ∀ k, k < n → o + k < a.len ∧ o + k < b.len ∧
    a.get (o + k) = b.get (o + k)) : a.read o n = b.read o n := by
  unfold Blob.read
  apply List.map_congr_left
  intro k hk
  rw [List.mem_range] at hk
  obtain ⟨h1, h2, h3⟩ := h k hk
  rw [if_pos h1, if_pos h2, h3]

theorem entryAt_append {D : List UInt8} (W : List UInt8) {m : Nat} (h : D.length = 16 * m) :
    entryAt (D ++ W) m = entryAt W 0 := by
  unfold entryAt
  have e1 : (D ++ W).drop (16 * m) = W.drop (16 * 0) := by
    rw [← h, List.drop_left]; rfl
  have e2 : (D ++ W).drop (16 * m + 8) = W.drop (16 * 0 + 8) := by
    rw [← List.drop_drop, e1]; rfl
  rw [e1, e2]

/-- **C76, the other case.** After such a gap the database accepts another record and answers with its
number; when the process dies later, the search for the end of the index stops at the gap, and the
acknowledged record is gone. -/
theorem C76_lost_false : ∃ db batch fd fi db1 db2 fd2 fi2 db3, Endured Params.code db [] 0 ∧
    PowerCut Params.code db batch fd fi ∧ DB.openDB Params.code (some fd) (some fi) true = .ok db1 ∧
    db1.append Params.code Faults.none Faults.none [[7]] = (.ok (some batch.length), db2) ∧
    Crash Params.code db2 [] fd2 fi2 0 ∧
    DB.openDB Params.code (some fd2) (some fi2) true = .ok db3 ∧
    db3.len < batch.length ∧ db3.get Params.code batch.length = .ok none := by
  obtain ⟨N, hN⟩ : ∃ N, N = 33536 := ⟨_, rfl⟩
  obtain ⟨db, fd, fi, db1, n, he, hc, ho, hop, hn, hl, hent⟩ := gap_opened N hN
  have hmin : Params.code.minMmap = 524288 := rfl
  -- the data
  have hCn : (List.replicate N [(1 : UInt8)]).flatten.take n = (List.replicate N [1]).flatten := by
    rw [List.take_of_length_le]; rw [ones_flatten]; omega
  have hdata := hop.dataOK
  rw [hCn] at hdata
  rcases flatAppend_spec (p := Params.code) hdata hop.room.2 Faults.none_early (batch := [[7]])
    (by simp) (by simp) with ⟨g1, e1, hok, _, _, _, hmode⟩ | ⟨er, g1, e1, hu, he⟩
  swap
  · rcases he with ⟨_, h | h⟩ | ⟨_, h⟩
    · cases h
    · rw [hop.wd] at h; cases h
    · cases h
  -- the index
  have hnew : entriesFrom db1.data.size [[(7 : UInt8)]] = [(33536, 1)] := by
    rw [hop.dataSize, hn]; rfl
  obtain ⟨a1, f1, e2, hf2, hfl, hF⟩ := idxAppend_any (p := Params.code) (m := 33536) hop.idxOK hop.room.1
    (by simp) hop.idxSize hop.wi hop.file (new := [(33536, 1)]) (by simp) (by simp)
  have hblen : (entriesBytes [((33536 : Nat), 1)]).length = 16 := by rw [entriesBytes_length]; rfl
  have hf1 : f1 = fi.setLen (16 * 33536 + 524288) := by
    rcases hfl with h | h
    · have := hF.1
      rw [List.length_append, Blob.read_length, hblen, Blob.write_len, h, hl] at this
      omega
    · rw [h, hmin]; rfl
  generalize hfi2 : f1.write (16 * 33536) (entriesBytes [(33536, 1)]) = fi2 at hf2 hF
  have hl2 : fi2.len = 16 * 66304 := by rw [← hfi2, Blob.write_len, hf1, Blob.setLen_len]
  have hlow : ∀ i, i < 33536 → fileEntry fi2 i = fileEntry fi i := by
    intro i hi
    have hb : ∀ k, k < 16 → 16 * i + k < fi2.len ∧ 16 * i + k < fi.len ∧
        fi2.get (16 * i + k) = fi.get (16 * i + k) := by
      intro k hk
      refine ⟨by omega, by omega, ?_⟩
      rw [← hfi2, Blob.write_get_lt (by omega), hf1, Blob.setLen_get_lt (by omega) (by omega)]
    have r1 : fi2.read (16 * i) 8 = fi.read (16 * i) 8 := read_same (fun k hk => hb k (by omega))
    have r2 : fi2.read (16 * i + 8) 8 = fi.read (16 * i + 8) 8 := read_same (fun k hk => by
      have := hb (8 + k) (by omega)
      rw [← Nat.add_assoc] at this; exact this)
    unfold fileEntry
    rw [r1, r2]
  have hmid : fileEntry fi2 33536 = (33536, 1) := by
    have h1 := hF.entryAt (i := 33536) (by rw [List.length_append, Blob.read_length, hblen])
    unfold fileEntry
    rw [← h1, entryAt_append _ (Blob.read_length _ _ _),
      entryAt_entries (e := (33536, 1)) rfl (by omega) (by omega)]
  have hhigh : ∀ i, 33536 < i → (fileEntry fi2 i).2 = 0 := by
    intro i hi
    refine fromLe_zero (f := fi2) ?_
    intro k hk _
    rw [← hfi2, Blob.write_get_ge (by rw [hblen]; omega), hf1]
    unfold Blob.setLen
    simp only
    rw [if_neg (by omega)]
  have hL : ∀ i, i < 66304 → (fileEntry fi2 i).2 = gapLen2 i := by
    intro i _
    unfold gapLen2
    rcases Nat.lt_trichotomy i 33536 with h | h | h
    · rw [hlow i h, (hent i h).1]
      unfold gapLen
      rw [if_pos h, if_pos (show i < 33537 by omega)]
    · rw [h, hmid]; rfl
    · rw [hhigh i h]
      split
      · rfl
      · rw [if_neg (by omega)]
  -- opening once more
  generalize hall : entriesFrom 0 (List.replicate N [(1 : UInt8)] ++ [[7]]) = all
  have halll : all.length = 33537 := by
    rw [← hall, entriesFrom_length, List.length_append, List.length_replicate, hN]; rfl
  have hat : ∀ i, i < 33537 → all[i]? = some (i, 1) := by
    intro i hi
    have key : ∀ (m off : Nat) (i : Nat), i ≤ m →
        (entriesFrom off (List.replicate m [(1 : UInt8)] ++ [[7]]))[i]? = some (off + i, 1) := by
      intro m
      induction m with
      | zero => intro off i hi; rw [show i = 0 by omega]; simp [entriesFrom]
      | succ m ih =>
        intro off i hi
        rw [List.replicate_succ, List.cons_append, entriesFrom]
        cases i with
        | zero => simp
        | succ i =>
          rw [List.getElem?_cons_succ, List.length_singleton, ih _ _ (by omega)]
          congr 2; omega
    rw [← hall, key N 0 i (by omega), Nat.zero_add]
  have hrec := ones_recs N [[7]] (by simp)
  rw [hall] at hrec
  have hfile : ∀ i, i < 33537 → (fileEntry fi2 i).2 ≠ 0 → fileEntry fi2 i = (i, 1) := by
    intro i hi hz
    by_cases h : i = 33536
    · rw [h, hmid]
    · rw [hlow i (by omega)] at hz ⊢
      exact (hent i (by omega)).2 hz
  have ht : Torn fi2 [] all := by
    refine ⟨by simp, by intro i h; simp at h, by rw [hl2]; exact ⟨_, rfl⟩, ?_⟩
    intro i _ hi
    by_cases hz : (fileEntry fi2 i).2 = 0
    · exact .inl hz
    · right
      have hi2 : i < 33537 := by
        by_contra hcon
        exact hz (hhigh i (by omega))
      rw [List.length_nil, Nat.sub_zero, hat i hi2, hfile i hi2 hz]
  obtain ⟨fd2, hfd2⟩ : ∃ fd2, g1.file = some fd2 := Option.isSome_iff_exists.mp (by
    rw [hmode]
    have h0 : db1.data.g.file.isSome = true := by
      obtain ⟨db1', e', h'⟩ : ∃ db1', DB.openDB Params.code (some fd) (some fi) true = .ok db1' ∧
          db1'.data.g.file.isSome = true := ⟨db1, ho, by
        unfold DB.openDB at ho
        split at ho
        · cases ho
        · split at ho
          · cases ho
          · split at ho
            · cases ho
            · split at ho
              · cases ho
              · split at ho
                · cases ho
                · rename_i d hd
                  cases ho
                  unfold Appender.new GM.new at hd
                  simp only at hd
                  split at hd
                  · cases hd
                  · rename_i hg
                    split at hg
                    · cases hg
                    · split at hg
                      · cases hg; cases hd; rfl
                      · cases hg; cases hd; rfl⟩
      rw [ho] at e'; cases e'
      exact h'
    exact h0)
  have hF2 := hok.file _ hfd2
  rw [← List.flatten_append] at hF2
  obtain ⟨db3, r, n3, ho3, _, _, hop3, _⟩ := open_torn (p := Params.code) (log := []) ht (by omega) hF2
    (by rw [List.nil_append, List.nil_append]; exact hrec) rfl
    (by rw [List.flatten_append, List.length_append, ones_flatten]; simp; omega)
  have hr : r = 33024 := by
    rcases hop3.stop with h | h
    · exfalso
      have := hop3.last (by omega)
      rw [hhigh (r - 1) (by omega)] at this
      exact this rfl
    · rw [hl2, show 16 * 66304 / 16 = 66304 by omega,
        findEnd_congr (at2 := fun i => .ok (gapLen2 i)) (fun i hi => by rw [hL i hi]) (by omega),
        gap_search] at h
      cases h; rfl
  refine ⟨db, _, fd, fi, db1, ⟨⟨g1, db1.data.size + [[(7 : UInt8)]].flatten.length⟩, a1⟩, fd2, fi2, db3, he,
    hc, ho, ?_, .idle hfd2 hf2, ho3, ?_, ?_⟩
  · unfold DB.append
    rw [show ([[(7 : UInt8)]] : List (List UInt8)).isEmpty = false from rfl]
    simp only [Bool.false_eq_true, if_false, e1, hnew, e2, List.length_replicate, hN]
  · rw [hop3.len, hr, List.length_replicate, hN]; omega
  · rw [List.length_replicate, hN]
    exact hop3.none_ _ (by omega) (by omega)

end Verif.Props
