import Verif.Fraos.Handles

/-!
# C106: an append fails only for a reason
-/

namespace Verif.Props

open Verif.Fraos

/-! ### Specification -/

/-- What may be wrong with an append: a record is empty, the files were opened read-only, or the operating
system refused a call (for the data or for the index). No other error is explained; in particular no panic, no
bus error, and no complaint about the bookkeeping of the mappings. -/
def Explained (writable : Bool) (fd fi : Faults) (batch : List (List UInt8)) : Err → Prop
  | .emptyRecord => [] ∈ batch
  | .extend => writable = false ∨ fd.setLen = true ∨ fi.setLen = true
  | .mmap => fd.map = true ∨ fi.map = true ∨ fd.remap = true ∨ fi.remap = true
  | .protect => fd.protect = true ∨ fi.protect = true
  | .flush => fd.flush = true ∨ fi.flush = true
  | _ => False

/-- The state after a history of calls and of appends during which the operating system fails as given. -/
def stateAfter (p : Params) (db : DB) (ops : List FOp) : DB := ops.foldl (fun d op => (fStep p d op).2) db

/-! ### The invariant -/

/-- The address index ends where the active mapping begins, the active mapping has room for what was written,
and lies in the file. -/
structure Able (g : GM) : Prop where
  total : ∀ a, g.active = some a → a.bounds.start = g.index.total
  pos : ∀ a, g.active = some a → 0 < a.bounds.size
  fits : ∀ a, g.active = some a → a.bounds.size ≤ a.len
  inFile : ∀ a o, g.active = some a → a.mem = .file o →
    o = a.bounds.start ∧ ∃ f, g.file = some f ∧ o + a.len ≤ f.len
  kept : g.maps ≠ [] → 0 < g.index.total

/-- The errors one mapped file explains. -/
def Cause (w : Bool) (ft : Faults) : Err → Prop
  | .extend => w = false ∨ ft.setLen = true
  | .mmap => ft.map = true ∨ ft.remap = true
  | .protect => ft.protect = true
  | .flush => ft.flush = true
  | _ => False

theorem able_none {g : GM} (h : g.active = none) (hk : g.maps ≠ [] → 0 < g.index.total) : Able g where
  total := by intro a ha; rw [h] at ha; cases ha
  pos := by intro a ha; rw [h] at ha; cases ha
  fits := by intro a ha; rw [h] at ha; cases ha
  inFile := by intro a o ha; rw [h] at ha; cases ha
  kept := hk

theorem able_new {file : Option Blob} {w : Bool} {ex : Option Nat} {g : GM} (h : GM.new file w ex = .ok g) :
    Able g ∧ g.writable = w := by
  unfold GM.new at h
  cases file with
  | none => cases h; exact ⟨able_none rfl (by simp), rfl⟩
  | some f =>
    simp only at h
    split at h
    · cases h
    · split at h
      · rename_i hc
        cases h
        exact ⟨able_none rfl (by simpa [Index.total, Chunk.stop] using hc), rfl⟩
      · cases h; exact ⟨able_none rfl (by simp), rfl⟩

theorem able_file {g : GM} (h : Able g) {f : Blob} {n : Nat}
    (hn : ∀ a o, g.active = some a → a.mem = .file o → o + a.len ≤ n) :
    Able { g with file := some (f.setLen n) } where
  total := h.total
  pos := h.pos
  fits := h.fits
  inFile := fun a o ha ho => ⟨(h.inFile a o ha ho).1, _, rfl, by simpa using hn a o ha ho⟩
  kept := h.kept

/-- What making room leaves: a state in which the writer is given at least `ext` bytes. -/
theorem able_makeRoom {p : Params} {g : GM} (h : Able g) (ft : Faults) {ext : Nat} (he : 0 < ext) :
    Able (g.makeRoom p ft ext).2 ∧ (g.makeRoom p ft ext).2.writable = g.writable ∧
    (∀ e, (g.makeRoom p ft ext).1 = .error e → Cause g.writable ft e) ∧
    ∀ n, (g.makeRoom p ft ext).1 = .ok n →
      ∃ a, (g.makeRoom p ft ext).2.active = some a ∧ n + ext = a.bounds.size := by
  have hsz := newSize_ge p g ext
  unfold GM.makeRoom
  cases ha : g.active with
  | none =>
    simp only
    rcases createMmap_spec g ft (g.newSize p ext) g.index.total with
      ⟨hf, hm, e⟩ | ⟨f, hf, hs, hm, hw, e⟩ | ⟨er, g1, e, hg1, her⟩
    · rw [e]
      simp only [Chunk.appendRelative_ok (c := ⟨g.index.total, []⟩) (e := ext) (by simpa using he),
        List.nil_append]
      refine ⟨⟨?_, ?_, ?_, ?_, h.kept⟩, by simp, by simp, ?_⟩
      · intro a hh; cases hh; rfl
      · intro a hh; cases hh; simpa using he
      · intro a hh; cases hh; simpa using hsz
      · intro a o hh ho; cases hh; cases ho
      · intro n hn; cases hn; exact ⟨_, rfl, by simp⟩
    · rw [e]
      simp only [Chunk.appendRelative_ok (c := ⟨g.index.total, []⟩) (e := ext) (by simpa using he),
        List.nil_append]
      refine ⟨⟨?_, ?_, ?_, ?_, h.kept⟩, by simp, by simp, ?_⟩
      · intro a hh; cases hh; rfl
      · intro a hh; cases hh; simpa using he
      · intro a hh; cases hh; simpa using hsz
      · intro a o hh ho; cases hh; cases ho; exact ⟨rfl, _, rfl, by simp⟩
      · intro n hn; cases hn; exact ⟨_, rfl, by simp⟩
    · rw [e]
      simp only
      refine ⟨?_, ?_, ?_, by simp⟩
      · rcases hg1 with rfl | ⟨f, hf, rfl⟩
        · exact h
        · exact able_file h (by intro a o hh; rw [ha] at hh; cases hh)
      · rcases hg1 with rfl | ⟨f, hf, rfl⟩ <;> rfl
      · intro e' he'; cases he'
        rcases her with ⟨rfl, hc⟩ | ⟨rfl, hc⟩
        · exact hc.elim (fun x => .inr x) (fun x => .inl x)
        · exact .inl hc
  | some a =>
    simp only
    have htot := h.total a ha
    have hpos := h.pos a ha
    have hfits := h.fits a ha
    have hstop : a.bounds.stop = a.bounds.start + a.bounds.size := rfl
    by_cases hc : a.bounds.size + ext < a.len
    · rw [if_pos hc, Chunk.appendRelative_ok (by omega)]
      simp only
      have hs := Chunk.size_append a.bounds.start a.bounds.bounds (a.bounds.size + ext)
      refine ⟨⟨?_, ?_, ?_, ?_, h.kept⟩, by simp, by simp, ?_⟩
      · intro b hh; cases hh; exact htot
      · intro b hh; cases hh; simp only [hs]; omega
      · intro b hh; cases hh; simp only [hs]; omega
      · intro b o hh ho; cases hh; exact h.inFile a o ha ho
      · intro n hn; cases hn; exact ⟨_, rfl, hs.symm⟩
    · rw [if_neg hc]
      have hix : Index.append g.index a.bounds = .ok (g.index ++ [a.bounds]) := by
        unfold Index.append
        rw [if_neg (by simp [Chunk.isEmpty]; omega), if_neg (by omega)]
      have htot' : Index.total (g.index ++ [a.bounds]) = a.bounds.stop := by simp [Index.total]
      rcases createMmap_spec g ft (g.newSize p ext) a.bounds.stop with
        ⟨hf, hm, e⟩ | ⟨f, hf, hs, hm, hw, e⟩ | ⟨er, g1, e, hg1, her⟩
      · rw [e]
        simp only [Chunk.appendRelative_ok (c := ⟨a.bounds.stop, []⟩) (e := ext) (by simpa using he),
          List.nil_append, hix]
        have key : ∀ ms : List View, Able { g with
            index := g.index ++ [a.bounds]
            maps := ms
            active := some ⟨g.newSize p ext, .anon ⟨g.newSize p ext, fun _ => 0⟩, ⟨a.bounds.stop, [ext]⟩⟩ } := by
          intro ms
          refine ⟨?_, ?_, ?_, ?_, fun _ => ?_⟩
          · intro b hh; cases hh; exact htot'.symm
          · intro b hh; cases hh; simpa using he
          · intro b hh; cases hh; simpa using hsz
          · intro b o hh ho; cases hh; cases ho
          · simp only [htot']; omega
        by_cases hp : ft.protect = true
        · rw [if_pos hp]
          exact ⟨key _, rfl, by intro e' he'; cases he'; exact hp, by simp⟩
        · rw [if_neg hp]
          exact ⟨key _, rfl, by simp, by intro n hn; cases hn; exact ⟨_, rfl, by simp⟩⟩
      · rw [e]
        simp only [Chunk.appendRelative_ok (c := ⟨a.bounds.stop, []⟩) (e := ext) (by simpa using he),
          List.nil_append, hix]
        have key : ∀ ms : List View, Able { g with
            file := some (f.setLen (a.bounds.stop + g.newSize p ext))
            index := g.index ++ [a.bounds]
            maps := ms
            active := some ⟨g.newSize p ext, .file a.bounds.stop, ⟨a.bounds.stop, [ext]⟩⟩ } := by
          intro ms
          refine ⟨?_, ?_, ?_, ?_, fun _ => ?_⟩
          · intro b hh; cases hh; exact htot'.symm
          · intro b hh; cases hh; simpa using he
          · intro b hh; cases hh; simpa using hsz
          · intro b o hh ho; cases hh; cases ho; exact ⟨rfl, _, rfl, by simp⟩
          · simp only [htot']; omega
        by_cases hp : ft.protect = true
        · rw [if_pos hp]
          exact ⟨key _, rfl, by intro e' he'; cases he'; exact hp, by simp⟩
        · rw [if_neg hp]
          exact ⟨key _, rfl, by simp, by intro n hn; cases hn; exact ⟨_, rfl, by simp⟩⟩
      · rw [e]
        simp only
        refine ⟨?_, ?_, ?_, by simp⟩
        · rcases hg1 with rfl | ⟨f, hf, rfl⟩
          · exact h
          · refine able_file h ?_
            intro b o hb ho
            rw [ha] at hb; cases hb
            have := (h.inFile a o ha ho).1
            omega
        · rcases hg1 with rfl | ⟨f, hf, rfl⟩ <;> rfl
        · intro e' he'; cases he'
          rcases her with ⟨rfl, hc⟩ | ⟨rfl, hc⟩
          · exact hc.elim (fun x => .inr x) (fun x => .inl x)
          · exact .inl hc

theorem able_rearrange {p : Params} {g : GM} (h : Able g) (ft : Faults) :
    Able (g.rearrange p ft).2 ∧ (g.rearrange p ft).2.writable = g.writable ∧
    ∀ e, (g.rearrange p ft).1 = .error e → Cause g.writable ft e := by
  unfold GM.rearrange
  by_cases hm : g.maps.length ≤ p.maxMaps
  · rw [if_pos hm]; exact ⟨h, rfl, by simp⟩
  · rw [if_neg hm]
    have hpos : 0 < g.index.total := h.kept (by intro hh; rw [hh] at hm; simp at hm)
    cases hf : g.file with
    | none => exact ⟨h, rfl, by simp⟩
    | some f =>
      simp only
      by_cases hr : ft.remap = true
      · rw [if_pos hr]
        exact ⟨h, rfl, by intro e he; cases he; exact .inr hr⟩
      · rw [if_neg hr]
        have hix : Index.append [] ⟨0, [g.index.total]⟩ = .ok [⟨0, [g.index.total]⟩] := by
          unfold Index.append
          rw [if_neg (by simp [Chunk.isEmpty]; omega), if_neg (by simp [Index.total])]
          rfl
        simp only [Chunk.appendRelative_ok (c := ⟨0, []⟩) (e := g.index.total) (by simpa using hpos),
          List.nil_append, hix]
        have ht : Index.total [⟨0, [g.index.total]⟩] = g.index.total := by simp [Index.total]
        refine ⟨⟨?_, h.pos, h.fits, ?_, fun _ => ?_⟩, by simp, by simp⟩
        · intro a ha; simp only [ht]; exact h.total a ha
        · intro a o ha ho
          obtain ⟨e1, fb, e2, e3⟩ := h.inFile a o ha ho
          exact ⟨e1, fb, hf ▸ e2, e3⟩
        · simp only [ht]; exact hpos

/-- A writer that is content with `ext` bytes and then writes exactly so many. -/
def Writes (ext : Nat) (f : Nat → List UInt8 × Option Err) : Prop :=
  ∀ n, ext ≤ n → (f n).1.length = ext ∧ (f n).2 = none

theorem able_grow {p : Params} {g : GM} (h : Able g) (ft : Faults) {ext : Nat} (he : 0 < ext)
    {f : Nat → List UInt8 × Option Err} (hf : Writes ext f) :
    Able (g.grow p ft ext f).2 ∧ (g.grow p ft ext f).2.writable = g.writable ∧
    ∀ e, (g.grow p ft ext f).1 = .error e → Cause g.writable ft e := by
  unfold GM.grow
  rw [if_neg (by omega)]
  obtain ⟨h1, hw1, herr, hok⟩ := able_makeRoom (p := p) h ft he
  cases hm : g.makeRoom p ft ext with
  | mk r g1 =>
    rw [hm] at h1 hw1 herr hok
    simp only at h1 hw1 herr hok
    cases r with
    | error e =>
      simp only
      exact ⟨h1, hw1, fun e' he' => by cases he'; exact herr e rfl⟩
    | ok at_ =>
      simp only
      obtain ⟨a, ha, hn⟩ := hok at_ rfl
      have hfit := h1.fits a ha
      unfold GM.writeOut
      rw [ha]
      simp only
      rw [if_neg (by omega)]
      obtain ⟨hlen, hend⟩ := hf (a.len - at_) (by omega)
      have hstore : ∃ g2, g1.store a at_ (f (a.len - at_)).1 = (.ok (), g2) ∧ Able g2 ∧
          g2.writable = g1.writable := by
        unfold GM.store
        cases hmem : a.mem with
        | anon b =>
          refine ⟨_, rfl, ?_, rfl⟩
          refine ⟨?_, ?_, ?_, ?_, h1.kept⟩
          · intro b' hb; cases hb; exact h1.total a ha
          · intro b' hb; cases hb; exact h1.pos a ha
          · intro b' hb; cases hb; exact h1.fits a ha
          · intro b' o hb ho; cases hb; cases ho
        | file o =>
          obtain ⟨ho, fb, hfb, hin⟩ := h1.inFile a o ha hmem
          have hpe := le_pageEnd fb.len
          have hcond : (f (a.len - at_)).1.length = 0 ∨
              o + at_ + (f (a.len - at_)).1.length ≤ pageEnd g1.fileBlob.len := by
            right
            have : g1.fileBlob = fb := by unfold GM.fileBlob; rw [hfb]; rfl
            rw [this]; omega
          simp only
          rw [if_pos hcond]
          refine ⟨_, rfl, ?_, rfl⟩
          refine ⟨h1.total, h1.pos, h1.fits, ?_, h1.kept⟩
          intro b o' hb ho'
          obtain ⟨e1, fb', hfb', hin'⟩ := h1.inFile b o' hb ho'
          exact ⟨e1, fb'.write (o + at_) (f (a.len - at_)).1, by simp [hfb'], by simpa using hin'⟩
      obtain ⟨g2, hs, h2, hw2⟩ := hstore
      rw [hs]
      simp only [hend]
      by_cases hfl : ft.flush = true
      · rw [if_pos hfl]
        exact ⟨h2, hw2.trans hw1, fun e he => by cases he; exact hfl⟩
      · rw [if_neg hfl]
        obtain ⟨h3, hw3, herr3⟩ := able_rearrange (p := p) h2 ft
        refine ⟨h3, hw3.trans (hw2.trans hw1), fun e he => ?_⟩
        have := herr3 e he
        rwa [hw2, hw1] at this

theorem able_append {p : Params} {a : Appender} (h : Able a.g) (ft : Faults) {inc : Nat} (he : 0 < inc)
    {f : Nat → List UInt8 × Option Err} (hf : Writes inc f) :
    Able (a.append p ft inc f).2.g ∧ (a.append p ft inc f).2.g.writable = a.g.writable ∧
    ∀ e, (a.append p ft inc f).1 = .error e → Cause a.g.writable ft e := by
  obtain ⟨h1, h2, h3⟩ := able_grow (p := p) h ft he hf
  unfold Appender.append
  rw [if_neg (by omega)]
  cases hg : a.g.grow p ft inc f with
  | mk r g1 =>
    rw [hg] at h1 h2 h3
    simp only at h1 h2 h3
    cases r with
    | error e => exact ⟨h1, h2, fun e' he' => by cases he'; exact h3 e rfl⟩
    | ok u => exact ⟨h1, h2, by simp⟩

theorem writes_records (records : List (List UInt8)) :
    Writes (records.map List.length).sum (writeRecords records) := by
  intro n hn
  have : records.flatten.length = (records.map List.length).sum := List.length_flatten
  unfold writeRecords
  rw [if_pos (by omega)]
  exact ⟨this, rfl⟩

theorem writes_entries (es : List (Nat × Nat)) : Writes (16 * es.length) (writeEntries es) := by
  intro n hn
  unfold writeEntries
  rw [if_neg (by omega)]
  exact ⟨entriesBytes_length es, rfl⟩

/-- Both files of a database. -/
def AbleDB (w : Bool) (db : DB) : Prop :=
  Able db.data.g ∧ Able db.idx.g ∧ (db.data.g.writable = false → w = false) ∧
    (db.idx.g.writable = false → w = false)

theorem entriesFrom_nonzero {l : List (List UInt8)} (h : ∀ r ∈ l, r ≠ []) (off : Nat) :
    ∀ e ∈ entriesFrom off l, e.2 ≠ 0 := by
  induction l generalizing off with
  | nil => intro e he; cases he
  | cons r l ih =>
    intro e he
    simp only [entriesFrom, List.mem_cons] at he
    rcases he with rfl | he
    · simpa using h r (by simp)
    · exact ih (fun r hr => h r (by simp [hr])) _ e he

/-- Every append, whatever fails: the invariant is kept and every error is explained. -/
theorem able_db_append {p : Params} {w : Bool} {db : DB} (h : AbleDB w db) (fd fi : Faults)
    (batch : List (List UInt8)) :
    AbleDB w (db.append p fd fi batch).2 ∧
    (∀ e, (db.append p fd fi batch).1 = .error e → Explained w fd fi batch e) ∧
    ∀ r, (db.append p fd fi batch).1 = .ok r → r = if batch = [] then none else some db.len := by
  obtain ⟨hd, hi, hwd, hwi⟩ := h
  unfold DB.append
  by_cases hb : batch.isEmpty = true
  · rw [if_pos hb]
    have : batch = [] := by simpa using hb
    exact ⟨⟨hd, hi, hwd, hwi⟩, by simp, by intro r hr; cases hr; simp [this]⟩
  rw [if_neg hb]
  have hb' : batch ≠ [] := by simpa using hb
  unfold flatAppend
  rw [if_neg hb]
  by_cases hany : batch.any List.isEmpty = true
  · rw [if_pos hany]
    refine ⟨⟨hd, hi, hwd, hwi⟩, ?_, by simp⟩
    intro e he; cases he
    obtain ⟨r, hr, hre⟩ := List.any_eq_true.mp hany
    have : r = [] := by simpa using hre
    show [] ∈ batch
    exact this ▸ hr
  rw [if_neg hany]
  have hne : ∀ r ∈ batch, r ≠ [] := by
    intro r hr hre
    exact hany (List.any_eq_true.mpr ⟨r, hr, by simp [hre]⟩)
  have hsum : 0 < (batch.map List.length).sum := by
    obtain ⟨r, l, rfl⟩ := List.exists_cons_of_ne_nil hb'
    have := List.length_pos_of_ne_nil (hne r (by simp))
    simp only [List.map_cons, List.sum_cons]; omega
  obtain ⟨h1, hw1, he1⟩ := able_append (p := p) hd fd hsum (writes_records batch)
  cases hA : db.data.append p fd (batch.map List.length).sum (writeRecords batch) with
  | mk r d =>
    rw [hA] at h1 hw1 he1
    simp only at h1 hw1 he1
    have cause : ∀ {w' : Bool} {ft : Faults} {e : Err}, Cause w' ft e → (w' = false → w = false) →
        (ft = fd ∨ ft = fi) → Explained w fd fi batch e := by
      intro w' ft e hc hw hft
      cases e <;> simp only [Cause] at hc <;> simp only [Explained] <;> rcases hft with rfl | rfl <;>
        first
        | exact .inl hc
        | exact .inr hc
        | (rcases hc with hc | hc <;> simp [hc, hw])
    cases r with
    | error e =>
      simp only
      refine ⟨⟨h1, hi, by rw [hw1]; exact hwd, hwi⟩, ?_, by simp⟩
      intro e' he'; cases he'
      exact cause (he1 e rfl) hwd (.inl rfl)
    | ok u =>
      simp only
      unfold idxAppend
      have hes : (entriesFrom db.data.size batch) ≠ [] := by
        intro hh
        have := entriesFrom_length db.data.size batch
        rw [hh] at this
        exact hb' (List.length_eq_zero_iff.mp this.symm)
      rw [if_neg (by simpa using hes), if_neg (by
        intro hh
        obtain ⟨x, hx, hx0⟩ := List.any_eq_true.mp hh
        exact entriesFrom_nonzero hne _ x hx (by simpa using hx0))]
      have hpos : 0 < 16 * (entriesFrom db.data.size batch).length := by
        have := List.length_pos_of_ne_nil hes
        omega
      obtain ⟨h2, hw2, he2⟩ := able_append (p := p) hi fi hpos (writes_entries _)
      cases hB : db.idx.append p fi (16 * (entriesFrom db.data.size batch).length)
          (writeEntries (entriesFrom db.data.size batch)) with
      | mk r2 i =>
        rw [hB] at h2 hw2 he2
        simp only at h2 hw2 he2
        cases r2 with
        | error e =>
          simp only
          refine ⟨⟨h1, h2, by rw [hw1]; exact hwd, by rw [hw2]; exact hwi⟩, ?_, by simp⟩
          intro e' he'; cases he'
          exact cause (he2 e rfl) hwi (.inr rfl)
        | ok u2 =>
          simp only
          refine ⟨⟨h1, h2, by rw [hw1]; exact hwd, by rw [hw2]; exact hwi⟩, by simp, ?_⟩
          intro r hr; cases hr
          rw [if_neg hb']; rfl

theorem able_appender {file : Option Blob} {w : Bool} {ex : Option Nat} {a : Appender}
    (h : Appender.new file w ex = .ok a) : Able a.g ∧ a.g.writable = w := by
  unfold Appender.new at h
  cases hg : GM.new file w ex with
  | error e => rw [hg] at h; cases h
  | ok g => rw [hg] at h; cases h; exact able_new hg

theorem able_open {p : Params} {data idx : Option Blob} {w : Bool} {db : DB}
    (h : DB.openDB p data idx w = .ok db) : AbleDB w db := by
  unfold DB.openDB at h
  cases hi : idxOpen p idx w with
  | error e => rw [hi] at h; cases h
  | ok i =>
    rw [hi] at h
    have hable : Able i.g ∧ i.g.writable = w := by
      unfold idxOpen at hi
      cases ha : Appender.new idx w none with
      | error e => rw [ha] at hi; cases hi
      | ok a =>
        rw [ha] at hi
        simp only at hi
        split at hi
        · cases hi
        · cases hi; exact able_appender ha
        · split at hi
          · split at hi
            · cases hi
            · exact able_appender hi
          · cases hi; exact able_appender ha
    simp only at h
    split at h
    · cases h
    · split at h
      · cases h
      · split at h
        · cases h
        · cases hd : Appender.new data w (some _) with
          | error e => rw [hd] at h; cases h
          | ok d =>
            rw [hd] at h; cases h
            obtain ⟨h1, h2⟩ := able_appender hd
            exact ⟨h1, hable.1, by simp [h2], by simp [hable.2]⟩

theorem able_step {p : Params} {w : Bool} {db : DB} (h : AbleDB w db) (op : FOp) :
    AbleDB w (fStep p db op).2 := by
  cases op with
  | failing fd fi batch => exact (able_db_append h fd fi batch).1
  | call op =>
    cases op with
    | append batch => exact (able_db_append h _ _ batch).1
    | putSeqno r =>
      have h1 := (able_db_append (p := p) h Faults.none Faults.none [r]).1
      have e : (fStep p db (.call (.putSeqno r))).2 = (db.append p Faults.none Faults.none [r]).2 := by
        show (db.putSeqno p Faults.none Faults.none r).2 = _
        unfold DB.putSeqno
        split <;> (rename_i hA; rw [hA])
      rw [e]; exact h1
    | get i => exact h
    | len => exact h
    | isEmpty => exact h
    | last => exact h
    | reopen =>
      unfold fStep step
      cases hr : db.reopen p true with
      | error e => exact h
      | ok d =>
        have h1 := able_open hr
        exact ⟨h1.1, h1.2.1, fun x => absurd (h1.2.2.1 x) (by simp), fun x => absurd (h1.2.2.2 x) (by simp)⟩

theorem able_after {p : Params} {w : Bool} {db : DB} (h : AbleDB w db) (ops : List FOp) :
    AbleDB w (stateAfter p db ops) := by
  induction ops generalizing db with
  | nil => exact h
  | cons op ops ih => exact ih (able_step h op)

/-! ### The property -/

/-- **C106.** Whatever the files held when the database was opened, whatever was called before and whatever
the operating system refused then: an append answers the number of records held before it, or an error that
something named in the call or in the world explains. It never panics and never touches memory outside a file. -/
theorem C106_reason (p : Params) (data idx : Option Blob) (w : Bool) (db : DB)
    (hopen : DB.openDB p data idx w = .ok db) (before : List FOp) (fd fi : Faults)
    (batch : List (List UInt8)) :
    match ((stateAfter p db before).append p fd fi batch).1 with
    | .ok r => r = if batch = [] then none else some (stateAfter p db before).len
    | .error e => Explained w fd fi batch e := by
  obtain ⟨-, herr, hok⟩ := able_db_append (p := p) (able_after (able_open hopen) before) fd fi batch
  split
  · rename_i r hr; exact hok r hr
  · rename_i e he; exact herr e he

/-- **C106.** The same for a single record: its number, or an explained error. -/
theorem C106_put (p : Params) (data idx : Option Blob) (w : Bool) (db : DB)
    (hopen : DB.openDB p data idx w = .ok db) (before : List FOp) (fd fi : Faults) (record : List UInt8) :
    match ((stateAfter p db before).putSeqno p fd fi record).1 with
    | .ok n => n = (stateAfter p db before).len
    | .error e => Explained w fd fi [record] e := by
  have h := C106_reason p data idx w db hopen before fd fi [record]
  unfold DB.putSeqno
  cases hA : (stateAfter p db before).append p fd fi [record] with
  | mk r d =>
    rw [hA] at h
    rcases r with e | _ | n
    · exact h
    · simp at h
    · simpa using h

/-- **C106.** After any history of refusals an append of non-empty records, during which nothing is refused,
is acknowledged: no failure leaves the database unable to take further records. -/
theorem C106_goes_on (p : Params) (data idx : Option Blob) (db : DB)
    (hopen : DB.openDB p data idx true = .ok db) (before : List FOp) (batch : List (List UInt8))
    (hb : batch ≠ []) (hne : [] ∉ batch) :
    ((stateAfter p db before).append p Faults.none Faults.none batch).1 =
      .ok (some (stateAfter p db before).len) := by
  have h := C106_reason p data idx true db hopen before Faults.none Faults.none batch
  cases hA : ((stateAfter p db before).append p Faults.none Faults.none batch).1 with
  | ok r => rw [hA] at h; simp only at h; rw [h, if_neg hb]
  | error e =>
    rw [hA] at h
    exfalso
    cases e <;> simp [Explained, Faults.none] at h
    exact hne h

/-- Refusals of every kind, on the data and on the index. -/
def refusals : List FOp :=
  [.failing { setLen := true } {} [[1]], .failing {} { map := true } [[2], [3]], .call (.append [[4]]),
    .failing { flush := true } {} [[5]], .failing { protect := true } {} [[6, 6]], .call (.get 0),
    .failing {} { protect := true } [[7]], .failing {} { setLen := true } [[7], []]]

/-- Files left by a crash: one entry, then zeros; more data than the index knows of. -/
def leftData : Blob := ⟨100, fun i => UInt8.ofNat (i + 1)⟩
def leftIndex : Blob := ⟨64, fun i => if i = 8 then 3 else 0⟩

/-- In memory, where mappings are retired by every append: after the refusals an append is acknowledged, one
whose flush fails is answered with that. -/
example : ∃ db, DB.openDB Params.code none none true = .ok db ∧
    (fTrace Params.code db refusals).map (·.2) =
      [.seqno (.ok (some 0)), .seqno (.error .mmap), .seqno (.ok (some 1)), .seqno (.error .flush),
        .seqno (.error .protect), .record (.ok (some [1])), .seqno (.error .protect),
        .seqno (.error .emptyRecord)] ∧
    ((stateAfter Params.code db refusals).append Params.code {} {} [[8], [9]]).1 = .ok (some 2) ∧
    ((stateAfter Params.code db refusals).append Params.code { flush := true } {} [[8], [9]]).1 =
      .error .flush := by
  refine ⟨_, rfl, ?_, ?_, ?_⟩ <;> decide +kernel

/-- On files left by a crash. -/
example : ∃ db, DB.openDB Params.code (some leftData) (some leftIndex) true = .ok db ∧ db.len = 1 ∧
    ((stateAfter Params.code db refusals).append Params.code {} {} [[8], [9]]).1 =
      .ok (some (stateAfter Params.code db refusals).len) := by
  refine ⟨_, rfl, by decide +kernel, ?_⟩
  exact C106_goes_on Params.code (some leftData) (some leftIndex) _ rfl refusals [[8], [9]] (by simp) (by simp)

end Verif.Props
