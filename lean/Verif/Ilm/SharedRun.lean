import Verif.Ilm.SharedSim

/-! # Runs of the code that exist: a call of the log made while the lock is free -/

namespace Verif.Ilm

open Verif.Fraos

variable {K V : Type} {sys : Bool}

/-- Thread `t` at another place, the log as it is. -/
def SState.at_ {n : Nat} (s : SState n K V) (t : Fin n) (pc : SPC K V) (db : DB) : SState n K V :=
  ⟨⟨db, s.cs.lock, s.cs.pcs⟩, s.journal, Function.update s.pcs t pc⟩

/-- A thread that appends to the log, without being interrupted. -/
theorem run_append {p : Params} {c : Codec K V} {indexed : Bool} {n : Nat} {s : SState n K V} {t : Fin n} {cl : SCall K V}
    {b : List (List UInt8)} {next : Resp → Prog (SResp V)} (ht : s.pcs t = .at_ cl (.log (.append b) next))
    (hc : s.cs.pcs t = .idle) (hl : s.cs.lock = none) (hb : b ≠ []) (hne : b.any List.isEmpty = false) {gd gi : GM}
    (hd : s.cs.db.data.g.grow p Faults.none (b.map List.length).sum (writeRecords b) = (.ok (), gd))
    (hi : s.cs.db.idx.g.grow p Faults.none (16 * b.length) (writeEntries (entriesFrom s.cs.db.data.size b)) = (.ok (), gi)) :
    Exec (SStep p c sys indexed) s []
      (s.at_ t (.at_ cl (next (.seqno (.ok (some (idxLen s.cs.db.idx)))))) ⟨⟨gd, s.cs.db.data.size + (b.map List.length).sum⟩, ⟨gi, s.cs.db.idx.size + 16 * b.length⟩⟩) := by
  obtain ⟨⟨⟨⟨dg, ds⟩, ⟨ig, is⟩⟩, lock, pcs⟩, j, q⟩ := s
  simp only at ht hc hl hd hi
  subst hl
  have h0 : Exec (SStep p c sys indexed) (⟨⟨⟨⟨dg, ds⟩, ⟨ig, is⟩⟩, none, pcs⟩, j, q⟩ : SState n K V) [] _ := .nil
  have h1 := h0.silent (.enter ht (.invoke (c := .append b) hc))
  have h2 := h1.silent (.work (.lock (t := t) (b := b) (by simp [CState.goto, SState.goto]) hb rfl))
  have h3 := h2.silent (.work (.begin (t := t) (b := b) (by simp [CState.goto])))
  have h4 := h3.silent (.work (.loadData (t := t) (b := b) (d0 := ds) (by simp [CState.goto]) hne))
  have h5 := h4.silent (.work (.growData (t := t) (b := b) (d0 := ds) (sz := ds) (by simp [CState.goto]) (.inl rfl) hd))
  have h6 := h5.silent (.work (.storeData (t := t) (b := b) (d0 := ds) (sz := ds) (by simp [CState.goto])))
  have h7 := h6.silent (.work (.number (t := t) (b := b) (d0 := ds) (by simp [CState.goto])))
  have h8 := h7.silent (.work (.loadIdx (t := t) (b := b) (d0 := ds) (k := idxLen ⟨ig, is⟩)
    (by simp [CState.goto, DB.setData, DB.setDataSize])))
  have h9 := h8.silent (.work (.growIdx (t := t) (b := b) (d0 := ds) (k := idxLen ⟨ig, is⟩) (sz := is)
    (by simp [CState.goto, DB.setData, DB.setDataSize]) (.inl rfl) hi))
  have h10 := h9.silent (.work (.storeIdx (t := t) (b := b) (k := idxLen ⟨ig, is⟩) (sz := is) (by simp [CState.goto])))
  have h11 := h10.silent (.work (.unlock (t := t) (b := b) (r := .ok (some (idxLen ⟨ig, is⟩))) (by simp [CState.goto])))
  have h12 := h11.silent (.leave (t := t) (cl := cl) (next := next) (by simp [SState.goto])
    (.answer (t := t) (c := .append b) (r := .seqno (.ok (some (idxLen ⟨ig, is⟩)))) (by simp [CState.goto])))
  have hu : Function.update pcs t .idle = pcs := by rw [← hc]; exact Function.update_eq_self _ _
  simpa [SState.at_, CState.goto, SState.goto, DB.setData, DB.setDataSize, DB.setIdx, DB.setIdxSize, Function.update_idem, hu]
    using h12

/-- A thread that is refused an append because its record could not be stored, without being interrupted. -/
theorem run_refused {p : Params} {c : Codec K V} {indexed : Bool} {n : Nat} {s : SState n K V} {t : Fin n} {cl : SCall K V}
    {b : List (List UInt8)} {next : Resp → Prog (SResp V)} (ht : s.pcs t = .at_ cl (.log (.append b) next))
    (hc : s.cs.pcs t = .idle) (hl : s.cs.lock = none) (hb : b ≠ []) (hne : b.any List.isEmpty = false) {gd : GM} {e : Err}
    {ft : Faults} (hft : MayRefuse sys ft)
    (hd : s.cs.db.data.g.grow p ft (b.map List.length).sum (writeRecords b) = (.error e, gd)) :
    Exec (SStep p c sys indexed) s []
      (s.at_ t (.at_ cl (next (.seqno (.error e)))) ⟨⟨gd, s.cs.db.data.size⟩, s.cs.db.idx⟩) := by
  obtain ⟨⟨⟨⟨dg, ds⟩, ⟨ig, is⟩⟩, lock, pcs⟩, j, q⟩ := s
  simp only at ht hc hl hd
  subst hl
  have h0 : Exec (SStep p c sys indexed) (⟨⟨⟨⟨dg, ds⟩, ⟨ig, is⟩⟩, none, pcs⟩, j, q⟩ : SState n K V) [] _ := .nil
  have h1 := h0.silent (.enter ht (.invoke (c := .append b) hc))
  have h2 := h1.silent (.work (.lock (t := t) (b := b) (by simp [CState.goto, SState.goto]) hb rfl))
  have h3 := h2.silent (.work (.begin (t := t) (b := b) (by simp [CState.goto])))
  have h4 := h3.silent (.work (.loadData (t := t) (b := b) (d0 := ds) (by simp [CState.goto]) hne))
  have h5 := h4.silent (.work (.failData (t := t) (b := b) (d0 := ds) (sz := ds) (by simp [CState.goto]) hft hd))
  have h6 := h5.silent (.work (.unlock (t := t) (b := b) (r := .error e) (by simp [CState.goto])))
  have h7 := h6.silent (.leave (t := t) (cl := cl) (next := next) (by simp [SState.goto])
    (.answer (t := t) (c := .append b) (r := .seqno (.error e)) (by simp [CState.goto])))
  have hu : Function.update pcs t .idle = pcs := by rw [← hc]; exact Function.update_eq_self _ _
  simpa [SState.at_, CState.goto, SState.goto, DB.setData, Function.update_idem, hu] using h7

/-- A thread that reads a record of the log, without being interrupted. -/
theorem run_get {p : Params} {c : Codec K V} {indexed : Bool} {n : Nat} {s : SState n K V} {t : Fin n} {cl : SCall K V}
    {i : Nat} {next : Resp → Prog (SResp V)} (ht : s.pcs t = .at_ cl (.log (.get i) next)) (hc : s.cs.pcs t = .idle) :
    Exec (SStep p c sys indexed) s [] (s.at_ t (.at_ cl (next (.record (s.cs.db.get p i)))) s.cs.db) := by
  obtain ⟨⟨db, lock, pcs⟩, j, q⟩ := s
  simp only at ht hc
  have h0 : Exec (SStep p c sys indexed) (⟨⟨db, lock, pcs⟩, j, q⟩ : SState n K V) [] _ := .nil
  have h1 := h0.silent (.enter ht (.invoke (c := .get i) hc))
  have hu : Function.update pcs t .idle = pcs := by rw [← hc]; exact Function.update_eq_self _ _
  unfold DB.get
  cases he : getEntry p db.idx i with
  | error e =>
    have h2 := h1.silent (.work (.findFails (t := t) (i := i) (by simp [CState.goto, SState.goto]) he))
    have h3 := h2.silent (.leave (t := t) (cl := cl) (next := next) (by simp [SState.goto])
      (.answer (t := t) (c := .get i) (by simp [CState.goto]; rfl)))
    simpa [SState.at_, CState.goto, SState.goto, Function.update_idem, hu, he] using h3
  | ok o =>
    cases o with
    | none =>
      have h2 := h1.silent (.work (.findNone (t := t) (i := i) (by simp [CState.goto, SState.goto]) he))
      have h3 := h2.silent (.leave (t := t) (cl := cl) (next := next) (by simp [SState.goto])
        (.answer (t := t) (c := .get i) (by simp [CState.goto]; rfl)))
      simpa [SState.at_, CState.goto, SState.goto, Function.update_idem, hu, he] using h3
    | some x =>
      have h2 := h1.silent (.work (.find (t := t) (i := i) (o := x.1) (l := x.2) (by simp [CState.goto, SState.goto]) he))
      have h3 := h2.silent (.work (.readData (t := t) (i := i) (o := x.1) (l := x.2) (by simp [CState.goto])))
      have h4 := h3.silent (.leave (t := t) (cl := cl) (next := next) (by simp [SState.goto])
        (.answer (t := t) (c := .get i) (by simp [CState.goto]; rfl)))
      simpa [SState.at_, CState.goto, SState.goto, Function.update_idem, hu, he] using h4

/-- A thread that asks for the length of the log, without being interrupted. -/
theorem run_len {p : Params} {c : Codec K V} {indexed : Bool} {n : Nat} {s : SState n K V} {t : Fin n} {cl : SCall K V}
    {next : Resp → Prog (SResp V)} (ht : s.pcs t = .at_ cl (.log .len next)) (hc : s.cs.pcs t = .idle) :
    Exec (SStep p c sys indexed) s [] (s.at_ t (.at_ cl (next (.number s.cs.db.len))) s.cs.db) := by
  obtain ⟨⟨db, lock, pcs⟩, j, q⟩ := s
  simp only at ht hc
  have h0 : Exec (SStep p c sys indexed) (⟨⟨db, lock, pcs⟩, j, q⟩ : SState n K V) [] _ := .nil
  have h1 := h0.silent (.enter ht (.invoke (c := .len) hc))
  have hu : Function.update pcs t .idle = pcs := by rw [← hc]; exact Function.update_eq_self _ _
  have h2 := h1.silent (.work (.count (t := t) (by simp [CState.goto, SState.goto])))
  have h3 := h2.silent (.leave (t := t) (cl := cl) (next := next) (by simp [SState.goto])
    (.answer (t := t) (c := .len) (r := .number db.len) (by simp [CState.goto])))
  simpa [SState.at_, CState.goto, SState.goto, Function.update_idem, hu] using h3

end Verif.Ilm
