import Verif.Fraos.SpecLemmas

/-!
# What a database costs

Bytes of the files, mappings and file extensions over a history of calls (`Verif/Fraos/Spec.lean`).
-/

namespace Verif.Fraos

/-- Bytes of the records. -/
def dataBytes (log : List (List UInt8)) : Nat := (log.map List.length).sum

/-- Length of a file, nothing in memory. -/
def fileLen (f : Option Blob) : Nat := (f.map Blob.len).getD 0

/-- Number of calls of a history, other than closing and opening again, during which the length of the file
`sel` changes. -/
def extensions (p : Params) (sel : DB → Option Blob) : DB → List Op → Nat
  | _, [] => 0
  | db, .reopen :: ops => extensions p sel (step p db .reopen).2 ops
  | db, op :: ops =>
    (if fileLen (sel (step p db op).2) = fileLen (sel db) then 0 else 1) + extensions p sel (step p db op).2 ops

/-- Number of times a history closes the database and opens it again. -/
def reopens (ops : List Op) : Nat := ops.countP (fun op => op matches .reopen)

namespace GM

/-- Bytes used of the active mapping. -/
def used (g : GM) : Nat := (g.active.map (·.bounds.size)).getD 0

/-- One if there is an active mapping. -/
def hasActive (g : GM) : Nat := if g.active.isSome then 1 else 0

/-- The cost of a mapped file with `n` bytes of content that was extended `k` times and reopened `r` times. -/
structure Cost (p : Params) (g : GM) (n k r : Nat) : Prop where
  isFile : g.file.isSome = true
  len : g.len = n
  file : fileLen g.file ≤ n + p.minMmap
  maps : g.maps.length ≤ p.maxMaps
  active : ∀ a, g.active = some a → p.minMmap ≤ a.len
  pays : k * p.minMmap + g.used ≤ 2 * n + (r + g.hasActive) * p.minMmap

theorem newSize_file {p : Params} {g : GM} (h : g.file.isSome = true) (n : Nat) :
    g.newSize p n = max n p.minMmap := by
  unfold newSize
  cases hf : g.file with
  | none => simp [hf] at h
  | some f => rfl

/-- What making room costs. -/
structure Room1 (p : Params) (g g1 : GM) (n ext k r : Nat) : Prop where
  isFile : g1.file.isSome = true
  len : g1.len = n + ext
  file : fileLen g1.file ≤ n + ext + p.minMmap
  maps : g1.maps.length ≤ g.maps.length + 1
  active : ∀ a, g1.active = some a → p.minMmap ≤ a.len
  pays : (k + if fileLen g1.file = fileLen g.file then 0 else 1) * p.minMmap + g1.used ≤
    2 * (n + ext) + (r + g1.hasActive) * p.minMmap
  some : g1.hasActive = 1

theorem appendRelative_eq {c c1 : Chunk} {e : Nat} (h : c.appendRelative e = .ok c1) :
    c1 = ⟨c.start, c.bounds ++ [e]⟩ := by
  unfold Chunk.appendRelative at h
  split_ifs at h
  all_goals cases h; rfl

theorem createMmap_eq {g g1 : GM} {size off : Nat} {m : Mem} (hf : g.file.isSome = true)
    (h : g.createMmap Faults.none size off = (.ok m, g1)) :
    ∃ f, g.file = some f ∧ g1 = { g with file := some (f.setLen (off + size)) } := by
  unfold createMmap at h
  cases hg : g.file with
  | none => simp [hg] at hf
  | some f =>
    simp only [hg] at h
    split_ifs at h <;> first | (cases h; exact ⟨f, rfl, rfl⟩) | (cases h)

theorem makeRoom_cost {p : Params} {g g1 : GM} {n k r ext at_ : Nat} (h : Cost p g n k r)
    (e : g.makeRoom p Faults.none ext = (.ok at_, g1)) : Room1 p g g1 n ext k r := by
  obtain ⟨hf, hlen, hfile, hmaps, hact, hpay⟩ := h
  have hk : ∀ c : Nat, (k + if c = 0 then 0 else 1) * p.minMmap ≤ k * p.minMmap + p.minMmap := by
    intro c; rw [Nat.add_mul]; split_ifs <;> omega
  unfold makeRoom at e
  cases ha : g.active with
  | none =>
    simp only [ha] at e
    simp only [GM.len, ha] at hlen
    simp only [used, hasActive, ha] at hpay
    split at e
    · cases e
    rename_i m g2 hc
    obtain ⟨f, hgf, rfl⟩ := createMmap_eq hf hc
    split at e
    · cases e
    rename_i c hcc
    have := appendRelative_eq hcc
    subst this
    cases e
    rw [newSize_file hf]
    refine ⟨rfl, by simp [GM.len, Chunk.stop_eq, Chunk.size, hlen], ?_, by simp, ?_, ?_, by simp [hasActive]⟩
    · simp only [fileLen, Option.map_some, Option.getD_some, Blob.setLen_len, hlen]; omega
    · intro a h1; cases h1; simp
    · simp only [used, hasActive, Option.map_some, Option.getD_some, Option.isSome_some, if_true,
        Nat.add_mul, Nat.one_mul, Chunk.size, List.nil_append, List.getLastD] at hpay ⊢
      simp at hpay ⊢
      split_ifs <;> omega
  | some a =>
    simp only [ha] at e
    have hal := hact a ha
    simp only [GM.len, ha, Chunk.stop_eq] at hlen
    simp only [used, hasActive, ha, Option.map_some, Option.getD_some, Option.isSome_some, if_true] at hpay
    by_cases hfit : a.bounds.size + ext < a.len
    · rw [if_pos hfit] at e
      split at e
      · cases e
      rename_i c hcc
      have := appendRelative_eq hcc
      subst this
      cases e
      refine ⟨hf, ?_, by simp only; omega, by simp, ?_, ?_, by simp [hasActive]⟩
      · simp only [GM.len, Chunk.stop_eq, Chunk.size_append]; omega
      · intro a' h1; cases h1; exact hal
      · simp only [used, hasActive, Option.map_some, Option.getD_some, Option.isSome_some, if_true,
          Chunk.size_append]
        simp only [Nat.add_zero]
        omega
    · rw [if_neg hfit] at e
      split at e
      · cases e
      rename_i m g2 hc
      obtain ⟨f, hgf, rfl⟩ := createMmap_eq hf hc
      split at e
      · cases e
      rename_i c hcc
      have := appendRelative_eq hcc
      subst this
      split at e
      · cases e
      rename_i ix hix
      split at e
      · cases e
      cases e
      rw [newSize_file hf]
      refine ⟨rfl, ?_, ?_, by simp, ?_, ?_, by simp [hasActive]⟩
      · simp [GM.len, Chunk.stop_eq, Chunk.size] at hlen ⊢; omega
      · simp only [fileLen, Option.map_some, Option.getD_some, Blob.setLen_len, Chunk.stop_eq]; omega
      · intro a h1; cases h1; simp
      · have hs : (Chunk.mk a.bounds.stop ([] ++ [ext])).size = ext := Chunk.size_append _ _ _
        simp only [used, hasActive, Option.map_some, Option.getD_some, Option.isSome_some, if_true, hs]
        simp only [Nat.add_mul, Nat.one_mul] at hpay ⊢
        split_ifs <;> omega

theorem rearrange_cost {p : Params} (hm : 1 ≤ p.maxMaps) {g g1 : GM} (hf : g.file.isSome = true)
    (e : g.rearrange p Faults.none = (.ok (), g1)) :
    g1.file = g.file ∧ g1.active = g.active ∧ g1.maps.length ≤ p.maxMaps := by
  unfold rearrange at e
  by_cases hc : g.maps.length ≤ p.maxMaps
  · rw [if_pos hc] at e
    cases e; exact ⟨rfl, rfl, hc⟩
  · rw [if_neg hc] at e
    cases hg : g.file with
    | none => simp [hg] at hf
    | some f =>
      simp only [hg, Faults.none] at e
      simp only [Bool.false_eq_true, if_false] at e
      split at e
      · cases e
      split at e
      · cases e
      cases e
      exact ⟨rfl, rfl, by simpa using hm⟩

theorem store_cost {g g1 : GM} {a : Active} {o : Nat} {bs : List UInt8} (ha : g.active = some a)
    (e : g.store a o bs = (.ok (), g1)) :
    fileLen g1.file = fileLen g.file ∧ g1.file.isSome = g.file.isSome ∧ g1.maps = g.maps ∧
      ∃ a1, g1.active = some a1 ∧ a1.len = a.len ∧ a1.bounds = a.bounds := by
  unfold store at e
  split at e
  · cases e
    exact ⟨rfl, rfl, rfl, _, rfl, rfl, rfl⟩
  · split at e
    swap
    · cases e
    cases e
    refine ⟨?_, ?_, rfl, a, ha, rfl, rfl⟩
    · simp only [fileLen]; cases g.file <;> rfl
    · simp

/-- What one append costs. -/
theorem grow_cost {p : Params} (hm : 1 ≤ p.maxMaps) {g g1 : GM} {n k r ext : Nat} (h : Cost p g n k r)
    {f : Nat → List UInt8 × Option Err} (e : g.grow p Faults.none ext f = (.ok (), g1)) :
    Cost p g1 (n + ext) (k + if fileLen g1.file = fileLen g.file then 0 else 1) r := by
  unfold grow at e
  split at e
  · cases e
  split at e
  · cases e
  rename_i at_ g2 hroom
  have h2 := makeRoom_cost h hroom
  unfold writeOut at e
  cases ha : g2.active with
  | none => simp only [ha] at e; cases e
  | some a =>
    simp only [ha] at e
    split at e
    · cases e
    split at e
    · cases e
    rename_i g3 hst
    split at e
    · cases e
    simp only [Faults.none, Bool.false_eq_true, if_false] at e
    obtain ⟨hs1, hs2, hs3, a1, hs4, hs5, hs6⟩ := store_cost ha hst
    obtain ⟨hr1, hr2, hr3⟩ := rearrange_cost hm (by rw [hs2]; exact h2.isFile) e
    have hfl : fileLen g1.file = fileLen g2.file := by rw [hr1, hs1]
    have hact1 : g1.active = some a1 := by rw [hr2, hs4]
    have hu : g1.used = g2.used := by simp [used, hact1, ha, hs6]
    have hh : g1.hasActive = g2.hasActive := by simp [hasActive, hact1, ha]
    refine ⟨by rw [hr1, hs2]; exact h2.isFile, ?_, by rw [hfl]; exact h2.file, hr3, ?_, ?_⟩
    · rw [← h2.len]; simp [GM.len, hact1, ha, hs6]
    · intro b hb
      rw [hact1] at hb; cases hb
      rw [hs5]; exact h2.active a ha
    · rw [hfl, hu, hh]; exact h2.pays

/-- A file opened again: one mapping for its content, none active. -/
theorem new_cost {p : Params} (hm : 1 ≤ p.maxMaps) {f : Blob} {w : Bool} {ex : Option Nat} {g : GM}
    (e : GM.new (some f) w ex = .ok g) (hl : f.len = g.len) {k r n : Nat} (hn : k * p.minMmap ≤ 2 * f.len + r * p.minMmap)
    (hf : f.len = n) : Cost p g n k r := by
  subst hf
  unfold GM.new at e
  simp only at e
  split_ifs at e
  · cases e
    refine ⟨rfl, hl.symm, by simp [fileLen], by simpa using hm, ?_, by simpa [used, hasActive] using hn⟩
    intro a h; cases h
  · cases e
    refine ⟨rfl, hl.symm, by simp [fileLen], by simp, ?_, by simpa [used, hasActive] using hn⟩
    intro a h; cases h

end GM

/-! ### The database -/

theorem openDB_new {p : Params} {fd fi : Option Blob} {w : Bool} {db : DB} (e : DB.openDB p fd fi w = .ok db) :
    (∃ ex, GM.new fd w ex = .ok db.data.g) ∧ ∃ ex, GM.new fi w ex = .ok db.idx.g := by
  have hnew : ∀ {f : Option Blob} {ex : Option Nat} {a : Appender}, Appender.new f w ex = .ok a →
      GM.new f w ex = .ok a.g := by
    intro f ex a h
    unfold Appender.new at h
    split at h
    · cases h
    · rename_i g hg; cases h; exact hg
  unfold DB.openDB at e
  split at e
  · cases e
  rename_i i hi
  split at e
  · cases e
  split at e
  · cases e
  split at e
  · cases e
  split at e
  · cases e
  rename_i d hd
  cases e
  refine ⟨⟨_, hnew hd⟩, ?_⟩
  unfold idxOpen at hi
  split at hi
  · cases hi
  rename_i a ha
  split at hi
  · cases hi
  · cases hi; exact ⟨_, hnew ha⟩
  · split at hi
    · split at hi
      · cases hi
      · exact ⟨_, hnew hi⟩
    · cases hi; exact ⟨_, hnew ha⟩

theorem append_grow {p : Params} {db db1 : DB} {batch : List (List UInt8)} (hb : batch ≠ [])
    (hne : ∀ r ∈ batch, r ≠ []) {s : Option Nat}
    (e : db.append p Faults.none Faults.none batch = (.ok s, db1)) :
    db.data.g.grow p Faults.none (dataBytes batch) (writeRecords batch) = (.ok (), db1.data.g) ∧
    ∃ f, db.idx.g.grow p Faults.none (16 * batch.length) f = (.ok (), db1.idx.g) := by
  have hbe : batch.isEmpty = false := by cases batch with
    | nil => exact absurd rfl hb
    | cons => rfl
  have happ : ∀ {a a1 : Appender} {n : Nat} {f : Nat → List UInt8 × Option Err}, n ≠ 0 →
      a.append p Faults.none n f = (.ok (), a1) → a.g.grow p Faults.none n f = (.ok (), a1.g) := by
    intro a a1 n f hn h
    unfold Appender.append at h
    rw [if_neg hn] at h
    split at h
    · cases h
    · rename_i g hg; cases h; exact hg
  have hpos : dataBytes batch ≠ 0 := by
    cases batch with
    | nil => exact absurd rfl hb
    | cons r rs =>
      have := List.length_pos_of_ne_nil (hne r (by simp))
      simp only [dataBytes, List.map_cons, List.sum_cons]; omega
  unfold DB.append at e
  rw [hbe] at e
  simp only [Bool.false_eq_true, if_false] at e
  split at e
  · cases e
  rename_i d hd
  unfold flatAppend at hd
  rw [hbe, any_isEmpty_false hne] at hd
  simp only [Bool.false_eq_true, if_false] at hd
  have h1 := happ hpos hd
  cases hi : idxAppend p db.idx Faults.none (entriesFrom db.data.size batch) with
  | mk r i =>
    rw [hi] at e
    simp only [Prod.mk.injEq] at e
    obtain ⟨rfl, rfl⟩ := e
    refine ⟨h1, ?_⟩
    unfold idxAppend at hi
    split at hi
    · rename_i h0
      have := entriesFrom_length db.data.size batch
      rw [List.isEmpty_iff.mp h0] at this
      have := List.length_pos_of_ne_nil hb
      simp_all
    split at hi
    · cases hi
    split at hi
    · cases hi
    rename_i a1 ha
    cases hi
    rw [entriesFrom_length] at ha
    exact ⟨_, happ (by have := List.length_pos_of_ne_nil hb; omega) ha⟩

theorem Recs.bytes_le {C : List UInt8} {bs : List Nat} {es : List (Nat × Nat)} {log : List (List UInt8)}
    (h : Recs C bs es log) : dataBytes log ≤ C.length := by
  have key : ∀ (es : List (Nat × Nat)) (log : List (List UInt8)) (lo : Nat), lo ≤ C.length →
      List.Forall₂ (fun e r => e.2 = List.length r ∧ e.1 + e.2 ≤ C.length) es log →
      es.Pairwise (fun a b => a.1 + a.2 ≤ b.1) → (∀ e ∈ es, lo ≤ e.1) → lo + dataBytes log ≤ C.length := by
    intro es log lo hlo hf
    induction hf generalizing lo with
    | nil => intro _ _; simpa [dataBytes] using hlo
    | cons hx hf ih =>
      intro hp hl
      rw [List.pairwise_cons] at hp
      have h1 := ih _ hx.2 hp.2 (fun e he => hp.1 e he)
      have h2 := hl _ (List.mem_cons_self ..)
      simp only [dataBytes, List.map_cons, List.sum_cons] at h1 ⊢
      omega
  have := key es log 0 (by omega) (h.each.imp (fun _ _ h => ⟨h.1, h.2.2.1⟩)) h.order (by simp)
  omega

theorem dataBytes_append (a b : List (List UInt8)) : dataBytes (a ++ b) = dataBytes a + dataBytes b := by
  simp [dataBytes]

/-- The cost of a database on disk that holds `log`. -/
structure DBCost (p : Params) (db : DB) (log : List (List UInt8)) (kd ki r : Nat) : Prop where
  good : Good p true db log (dataBytes log)
  data : GM.Cost p db.data.g (dataBytes log) kd r
  idx : GM.Cost p db.idx.g (16 * log.length) ki r

theorem Good.exact {p : Params} {onDisk : Bool} {db : DB} {log : List (List UInt8)}
    (h : Good p onDisk db log (dataBytes log)) :
    ∃ es C, DBInv db es C log ∧ C.length = dataBytes log ∧ es.length = log.length ∧
      db.data.g.len = dataBytes log ∧ db.idx.g.len = 16 * log.length := by
  obtain ⟨es, C, hinv, hC⟩ := h.ex
  have h1 := hinv.recs.bytes_le
  have h2 := hinv.recs.length
  refine ⟨es, C, hinv, by omega, h2, ?_, ?_⟩
  · rw [hinv.dataOK.len_eq]; omega
  · rw [hinv.idxOK.len_eq, entriesBytes_length, h2]

theorem fresh_cost {p : Params} (hm : 1 ≤ p.maxMaps) {db : DB} (e : fresh p true = .ok db) :
    DBCost p db [] 0 0 0 := by
  obtain ⟨db', e', hg⟩ := fresh_good p true
  rw [e] at e'; cases e'
  obtain ⟨es, C, hinv, _, _, h1, h2⟩ := Good.exact (log := []) hg
  unfold fresh at e
  rw [if_pos rfl] at e
  obtain ⟨⟨x, hx⟩, ⟨y, hy⟩⟩ := openDB_new e
  exact ⟨hg, GM.new_cost hm hx (by rw [h1]; rfl) (by simp) rfl, GM.new_cost hm hy (by rw [h2]; rfl) (by simp) rfl⟩

/-- A clean close cuts both files to their content. -/
theorem DBCost.closed {p : Params} {db : DB} {log : List (List UInt8)} {kd ki r : Nat} (h : DBCost p db log kd ki r) :
    ∃ fd fi, db.drop.data.g.file = some fd ∧ db.drop.idx.g.file = some fi ∧ fd.len = dataBytes log ∧
      fi.len = 16 * log.length := by
  obtain ⟨es, C, hinv, hC, hes, _, _⟩ := h.good.exact
  obtain ⟨fi, hfi⟩ := Option.isSome_iff_exists.mp h.idx.isFile
  obtain ⟨fd, hfd⟩ := Option.isSome_iff_exists.mp h.data.isFile
  obtain ⟨e1, e2, _⟩ := hinv.disk_closed hfd hfi h.good.wd h.good.wi
  exact ⟨_, _, e1, e2, by simpa using hC, by simp [hes]⟩

theorem GM.Cost.reopened {p : Params} {g : GM} {n k r : Nat} (h : GM.Cost p g n k r) :
    k * p.minMmap ≤ 2 * n + (r + 1) * p.minMmap := by
  have h1 := h.pays
  have h2 : g.hasActive * p.minMmap ≤ p.minMmap := by
    unfold GM.hasActive; split_ifs <;> simp
  rw [Nat.add_mul] at h1 ⊢
  omega

theorem DBCost.reopen {p : Params} (hm : 1 ≤ p.maxMaps) {db : DB} {log : List (List UInt8)} {kd ki r : Nat}
    (h : DBCost p db log kd ki r) : DBCost p (step p db .reopen).2 log kd ki (r + 1) := by
  obtain ⟨db1, e, hg⟩ := good_reopen (p := p) h.good
  simp only [if_true] at hg
  have hs : (step p db .reopen).2 = db1 := by simp only [step, e]
  rw [hs]
  obtain ⟨es, C, hinv, _, _, h1, h2⟩ := hg.exact
  obtain ⟨fd, fi, e1, e2, hl1, hl2⟩ := h.closed
  unfold DB.reopen at e
  rw [e1, e2] at e
  obtain ⟨⟨x, hx⟩, ⟨y, hy⟩⟩ := openDB_new e
  refine ⟨hg, GM.new_cost hm hx (by omega) ?_ hl1, GM.new_cost hm hy (by omega) ?_ hl2⟩
  · rw [hl1]; exact h.data.reopened
  · rw [hl2]; exact h.idx.reopened

/-- One more extension if the length changed. -/
def moved (f f1 : Option Blob) : Nat := if fileLen f1 = fileLen f then 0 else 1

theorem DBCost.append {p : Params} (hp : 16 ∣ p.minMmap) (hm : 1 ≤ p.maxMaps) {db : DB} {log : List (List UInt8)}
    {kd ki r : Nat} (h : DBCost p db log kd ki r) {batch : List (List UInt8)} (hb : batch ≠ [])
    (hne : ∀ x ∈ batch, x ≠ []) (hfit : dataBytes log + dataBytes batch < 2 ^ 60) :
    ∃ db1 s, db.append p Faults.none Faults.none batch = (.ok (some s), db1) ∧
      DBCost p db1 (log ++ batch) (kd + moved db.data.g.file db1.data.g.file)
        (ki + moved db.idx.g.file db1.idx.g.file) r := by
  obtain ⟨db1, e, hg⟩ := good_append hp h.good hb hne hfit
  obtain ⟨h1, f, h2⟩ := append_grow hb hne e
  refine ⟨db1, _, e, ?_, ?_, ?_⟩
  · rw [dataBytes_append]; exact hg
  · rw [dataBytes_append]; exact GM.grow_cost hm h.data h1
  · rw [List.length_append, Nat.mul_add]; exact GM.grow_cost hm h.idx h2

theorem moved_self (f : Option Blob) : moved f f = 0 := by simp [moved]

/-- What a call adds to the number of extensions. -/
def Op.extends (p : Params) (sel : DB → Option Blob) (db : DB) (op : Op) : Nat :=
  match op with
  | .reopen => 0
  | op => moved (sel db) (sel (step p db op).2)

theorem extensions_cons (p : Params) (sel : DB → Option Blob) (db : DB) (op : Op) (ops : List Op) :
    extensions p sel db (op :: ops) = op.extends p sel db + extensions p sel (step p db op).2 ops := by
  cases op <;> simp [extensions, Op.extends, moved]

theorem DBCost.step {p : Params} (hp : 16 ∣ p.minMmap) (hm : 1 ≤ p.maxMaps) {db : DB} {log : List (List UInt8)}
    {kd ki r : Nat} (h : DBCost p db log kd ki r) (op : Op) (hfit : dataBytes log + op.bytes < 2 ^ 60) :
    DBCost p (step p db op).2 (specStep true log op).2 (kd + op.extends p (·.data.g.file) db)
      (ki + op.extends p (·.idx.g.file) db) (r + reopens [op]) := by
  cases op with
  | append batch =>
    simp only [Fraos.step, specStep, Op.bytes, Op.extends, reopens] at hfit ⊢
    by_cases hb : batch = []
    · subst hb
      simpa [append_empty, moved_self] using h
    · rw [if_neg hb]
      by_cases he : [] ∈ batch
      · rw [if_pos he, append_rejects db _ _ he]
        simpa [moved_self] using h
      · rw [if_neg he]
        obtain ⟨db1, s, e, h1⟩ := h.append hp hm hb (fun r hr hc => he (hc ▸ hr)) hfit
        simpa [e] using h1
  | putSeqno x =>
    simp only [Fraos.step, specStep, Op.bytes, Op.extends, reopens, DB.putSeqno] at hfit ⊢
    by_cases hx : x = []
    · subst hx
      rw [if_pos rfl, append_rejects db _ _ (by simp)]
      simpa [moved_self] using h
    · rw [if_neg hx]
      obtain ⟨db1, s, e, h1⟩ := h.append hp hm (batch := [x]) (by simp) (by simpa using hx)
        (by simpa [dataBytes] using hfit)
      simpa [e] using h1
  | get i => simpa [Fraos.step, specStep, Op.extends, moved_self, reopens] using h
  | len => simpa [Fraos.step, specStep, Op.extends, moved_self, reopens] using h
  | isEmpty => simpa [Fraos.step, specStep, Op.extends, moved_self, reopens] using h
  | last => simpa [Fraos.step, specStep, Op.extends, moved_self, reopens] using h
  | reopen => simpa [specStep, Op.extends, reopens] using h.reopen hm

theorem spec_bytes (onDisk : Bool) (log : List (List UInt8)) (op : Op) :
    dataBytes (specStep onDisk log op).2 ≤ dataBytes log + op.bytes := by
  cases op <;> simp only [specStep, Op.bytes] <;> (try split_ifs) <;> simp [dataBytes]

/-- A history. -/
theorem DBCost.run {p : Params} (hp : 16 ∣ p.minMmap) (hm : 1 ≤ p.maxMaps) (ops : List Op) {db : DB}
    {log : List (List UInt8)} {kd ki r : Nat} (h : DBCost p db log kd ki r)
    (hfit : dataBytes log + bytesOf ops < 2 ^ 60) :
    DBCost p (after p db ops) (specAfter true log ops) (kd + extensions p (·.data.g.file) db ops)
      (ki + extensions p (·.idx.g.file) db ops) (r + reopens ops) := by
  induction ops generalizing db log kd ki r with
  | nil => simpa [after, specAfter, extensions, reopens] using h
  | cons op ops ih =>
    rw [bytesOf_cons] at hfit
    have h1 := h.step hp hm op (by omega)
    have h2 := ih h1 (by have := spec_bytes true log op; omega)
    simp only [extensions_cons, after, specAfter, List.foldl_cons] at h2 ⊢
    have hr : reopens (op :: ops) = reopens [op] + reopens ops := by
      simp only [reopens]
      rw [← List.countP_append]; rfl
    rw [hr, ← Nat.add_assoc, ← Nat.add_assoc, ← Nat.add_assoc]
    exact h2

/-! ### In memory -/

/-- Counts the batches that are stored, from the last `reopen` on. -/
def countBatch (n : Nat) : Op → Nat
  | .append b => if b = [] ∨ [] ∈ b then n else n + 1
  | .putSeqno r => if r = [] then n else n + 1
  | .reopen => 0
  | _ => n

/-- Number of batches a history stores after its last `reopen`. -/
def batches (ops : List Op) : Nat := ops.foldl countBatch 0

namespace GM

/-- In memory the active mapping is always full. -/
structure Full (g : GM) (n : Nat) : Prop where
  file : g.file = none
  active : ∀ a, g.active = some a → a.len ≤ a.bounds.size
  count : g.count = n

theorem grow_full {p : Params} {g g1 : GM} {n ext : Nat} (h : Full g n) {f : Nat → List UInt8 × Option Err}
    (e : g.grow p Faults.none ext f = (.ok (), g1)) : Full g1 (n + 1) := by
  obtain ⟨hf, hact, hc⟩ := h
  unfold grow at e
  split at e
  · cases e
  rename_i hext
  split at e
  · cases e
  rename_i at_ g2 hroom
  have h2 : Full g2 (n + 1) := by
    have hcm : ∀ {size off : Nat} {m : Mem} {g3 : GM}, g.createMmap Faults.none size off = (.ok m, g3) → g3 = g := by
      intro size off m g3 h
      unfold createMmap at h
      simp only [hf, Faults.none, Bool.false_eq_true, if_false] at h
      cases h; rfl
    unfold makeRoom at hroom
    cases ha : g.active with
    | none =>
      simp only [ha] at hroom
      split at hroom
      · cases hroom
      rename_i m g3 hcr
      have := hcm hcr
      subst this
      split at hroom
      · cases hroom
      rename_i c hcc
      have := appendRelative_eq hcc
      subst this
      cases hroom
      refine ⟨hf, ?_, ?_⟩
      · intro a h; cases h
        simp [newSize, hf, Chunk.size]
      · simp only [count, ha] at hc ⊢
        simpa using hc
    | some a =>
      simp only [ha] at hroom
      have := hact a ha
      rw [if_neg (by omega)] at hroom
      split at hroom
      · cases hroom
      rename_i m g3 hcr
      have := hcm hcr
      subst this
      split at hroom
      · cases hroom
      rename_i c hcc
      have := appendRelative_eq hcc
      subst this
      split at hroom
      · cases hroom
      split at hroom
      · cases hroom
      cases hroom
      refine ⟨hf, ?_, ?_⟩
      · intro a h; cases h
        simp [newSize, hf, Chunk.size]
      · simp only [count, ha] at hc ⊢
        simpa using hc
  unfold writeOut at e
  cases ha : g2.active with
  | none => simp only [ha] at e; cases e
  | some a =>
    simp only [ha] at e
    split at e
    · cases e
    split at e
    · cases e
    rename_i g3 hst
    split at e
    · cases e
    simp only [Faults.none, Bool.false_eq_true, if_false] at e
    obtain ⟨_, hs2, hs3, a1, hs4, hs5, hs6⟩ := store_cost ha hst
    have hf3 : g3.file = none := by
      rw [h2.file] at hs2; simpa using hs2
    have hg : g1 = g3 := by
      unfold rearrange at e
      simp only [hf3] at e
      split at e <;> (cases e; rfl)
    subst hg
    refine ⟨hf3, ?_, ?_⟩
    · intro b hb
      rw [hs4] at hb; cases hb
      rw [hs5, hs6]; exact h2.active a ha
    · rw [← h2.count]; simp [count, hs3, hs4, ha]

end GM

/-- A memory database with `n` mappings for the data and `n` for the index. -/
structure MemCost (p : Params) (db : DB) (log : List (List UInt8)) (used n : Nat) : Prop where
  good : Good p false db log used
  data : GM.Full db.data.g n
  idx : GM.Full db.idx.g n

theorem memory_cost {p : Params} {db : DB} (e : DB.memory p = .ok db) : MemCost p db [] 0 0 := by
  have hg : Good p false db [] 0 := by
    obtain ⟨db', e', hg⟩ := fresh_good p false
    have : fresh p false = DB.memory p := rfl
    rw [this, e] at e'; cases e'; exact hg
  have e2 : DB.memory p = .ok ⟨⟨⟨none, true, [], [], none⟩, 0⟩, ⟨⟨none, true, [], [], none⟩, 0⟩⟩ := rfl
  rw [e2] at e
  cases e
  refine ⟨hg, ⟨rfl, ?_, rfl⟩, ⟨rfl, ?_, rfl⟩⟩ <;> (intro a h; cases h)

theorem MemCost.run {p : Params} (hp : 16 ∣ p.minMmap) (ops : List Op) {db : DB}
    {log : List (List UInt8)} {used n : Nat} (h : MemCost p db log used n) (hfit : used + bytesOf ops < 2 ^ 60) :
    MemCost p (after p db ops) (specAfter false log ops) (used + bytesOf ops)
      (ops.foldl countBatch n) := by
  induction ops generalizing db log used n with
  | nil => simpa [bytesOf, after, specAfter] using h
  | cons op ops ih =>
    rw [bytesOf_cons] at hfit
    have hmore : ∀ {db log n m}, MemCost p db log used n → used ≤ m → MemCost p db log m n :=
      fun h hm => ⟨h.good.more hm, h.data, h.idx⟩
    have happ : ∀ {batch : List (List UInt8)}, batch ≠ [] → (∀ r ∈ batch, r ≠ []) →
        used + (batch.map List.length).sum < 2 ^ 60 →
        ∃ db1 s, db.append p Faults.none Faults.none batch = (.ok (some s), db1) ∧
          MemCost p db1 (log ++ batch) (used + (batch.map List.length).sum) (n + 1) := by
      intro batch hb hne hf
      obtain ⟨db1, e, hg⟩ := good_append hp h.good hb hne hf
      obtain ⟨h1, f, h2⟩ := append_grow hb hne e
      exact ⟨db1, _, e, hg, GM.grow_full h.data h1, GM.grow_full h.idx h2⟩
    have h1 : MemCost p (step p db op).2 (specStep false log op).2 (used + op.bytes) (countBatch n op) := by
      cases op with
      | append batch =>
        simp only [countBatch, step, specStep, Op.bytes] at hfit ⊢
        by_cases hb : batch = []
        · subst hb
          simpa [append_empty] using h
        · by_cases he : [] ∈ batch
          · rw [if_neg hb, if_pos he, append_rejects db _ _ he, if_pos (.inr he)]
            exact hmore h (by omega)
          · rw [if_neg hb, if_neg he, if_neg (by simp [hb, he])]
            obtain ⟨db1, s, e, h1⟩ := happ hb (fun r hr hc => he (hc ▸ hr)) (by omega)
            simpa [e] using h1
      | putSeqno x =>
        simp only [countBatch, step, specStep, Op.bytes, DB.putSeqno] at hfit ⊢
        by_cases hx : x = []
        · subst hx
          rw [if_pos rfl, append_rejects db _ _ (by simp)]
          simpa using h
        · rw [if_neg hx, if_neg hx]
          obtain ⟨db1, s, e, h1⟩ := happ (batch := [x]) (by simp) (by simpa using hx) (by simp; omega)
          simpa [e] using h1
      | get i => simpa [countBatch, step, specStep, Op.bytes] using h
      | len => simpa [countBatch, step, specStep, Op.bytes] using h
      | isEmpty => simpa [countBatch, step, specStep, Op.bytes] using h
      | last => simpa [countBatch, step, specStep, Op.bytes] using h
      | reopen =>
        have hd : db.reopen p true = DB.memory p := by
          unfold DB.reopen DB.memory DB.drop GM.shrink
          simp only [h.data.file, h.idx.file]
        obtain ⟨db1, e, _⟩ := memory_spec p
        simp only [countBatch, step, specStep, Op.bytes, hd, e]
        have h0 := memory_cost e
        exact ⟨by simpa using h0.good.more (Nat.zero_le used), h0.data, h0.idx⟩
    have h2 := ih h1 (by omega)
    simp only [after, specAfter, List.foldl_cons] at h2 ⊢
    rw [bytesOf_cons, ← Nat.add_assoc]
    exact h2

end Verif.Fraos
