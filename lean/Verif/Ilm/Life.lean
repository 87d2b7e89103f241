import Verif.Ilm.Lemmas
import Verif.Fraos.PowerCut
import Mathlib.Logic.Relation

/-!
# Threads, deaths of the process and power failures

The life of the directory of a map (`/repo/indexed-log-map/src/storage.rs`) with everything that can happen to it: appends of
any number of threads, which add a record to the log and later its position to the key index, deaths of the process and
power failures at any moment. The log after a power failure is as in `Verif/Fraos/PowerCut.lean`. The key index (`sled`) is
recovered as it was at an earlier time.
-/

namespace Verif.Ilm

open Verif.Fraos

variable {K V : Type}

/-- A map; all that was ever stored in its log and recorded in its index (newest first); the records stored but not yet
recorded, by appends still running; the bytes used. -/
structure Life (K V : Type) where
  m : ILM
  log : List (K × V)
  journal : List (K × Nat)
  waiting : List (K × Nat)
  used : Nat

/-- Records of pairs in flight. -/
def flightBytes (c : Codec K V) (l : List (K × V)) : List (List UInt8) := l.map (fun x => (c.encV x.2).getD [])

/-- What can be in flight in the log when the process dies or power fails: the record of one append, because appends to the
log exclude each other (fraos database.rs:80-102). -/
def InFlight (c : Codec K V) (m : ILM) (l : List (K × V)) : Prop :=
  l.length ≤ 1 ∧ ∀ x ∈ l, m.indexed = true ∧ (c.encK x.1).isSome ∧ (c.encV x.2).isSome

/-- What can happen; `true` when the process dies. -/
inductive LifeStep [DecidableEq K] (p : Params) (c : Codec K V) : Bool → Life K V → Life K V → Prop
  /-- the first half of `append`, storage.rs:62-76 -/
  | store {s : Life K V} {k : K} {v : V} {kb vb : List UInt8} {pos : Nat} {db : DB} : s.m.indexed = true →
      c.encK k = some kb → c.encV v = some vb →
      s.m.db.append p Faults.none Faults.none [vb] = (.ok (some pos), db) →
      LifeStep p c false s ⟨{ s.m with db := db }, s.log ++ [(k, v)], s.journal, (k, pos) :: s.waiting, s.used + vb.length⟩
  /-- the second half, storage.rs:77-92 -/
  | index {s : Life K V} {k : K} {kb : List UInt8} {pos : Nat} : (k, pos) ∈ s.waiting → c.encK k = some kb →
      LifeStep p c false s ⟨{ s.m with journal := (kb, posEnc pos) :: s.m.journal }, s.log, (k, pos) :: s.journal,
        s.waiting.erase (k, pos), s.used⟩
  /-- the map is dropped and opened again -/
  | reopen {s : Life K V} {indexed : Bool} {m : ILM} : s.waiting = [] → Ilm.reopen p s.m true indexed = .ok m →
      LifeStep p c false s ⟨m, s.log, s.journal, [], s.used⟩
  /-- the process dies and the map is opened again -/
  | kill {s : Life K V} {fl : List (K × V)} {fd fi : Blob} {j lost : Nat} {indexed : Bool} {db : DB} :
      InFlight c s.m fl → Crash p s.m.db (flightBytes c fl) fd fi j → DB.openDB p (some fd) (some fi) true = .ok db →
      LifeStep p c true s ⟨⟨db, s.m.journal.drop lost, indexed⟩, s.log ++ fl.take j, s.journal.drop lost, [],
        s.used + ((flightBytes c fl).map List.length).sum⟩
  /-- power fails and the map is opened again -/
  | power {s : Life K V} {fl : List (K × V)} {fd fi : Blob} {lost : Nat} {indexed : Bool} {db : DB} :
      InFlight c s.m fl → PowerCut p s.m.db (flightBytes c fl) fd fi → DB.openDB p (some fd) (some fi) true = .ok db →
      LifeStep p c true s ⟨⟨db, s.m.journal.drop lost, indexed⟩, s.log ++ fl.take (db.len - s.log.length), s.journal.drop lost, [],
        s.used + ((flightBytes c fl).map List.length).sum⟩

/-- Any number of such things. -/
def Lives [DecidableEq K] (p : Params) (c : Codec K V) : Life K V → Life K V → Prop := 
  Relation.ReflTransGen (fun s s' => ∃ dead, LifeStep p c dead s s')

/-- Any number of such things, none a death. -/
def Calm [DecidableEq K] (p : Params) (c : Codec K V) : Life K V → Life K V → Prop :=
  Relation.ReflTransGen (LifeStep p c false)

/-- A new map. -/
def Life.Fresh (p : Params) (s : Life K V) : Prop :=
  ∃ indexed m, Ilm.fresh p true indexed = .ok m ∧ s = ⟨m, [], [], [], 0⟩

/-- The state as one of the specification, without iterators. -/
def Life.spec (s : Life K V) : MSpec K V := ⟨s.log, s.journal, s.m.indexed, []⟩

/-- Invariant. -/
structure LifeOK (p : Params) (c : Codec K V) (s : Life K V) : Prop where
  rel : MRel p c true s.m s.spec s.used
  wait : ∀ x ∈ s.waiting, (c.encK x.1).isSome ∧ ∃ v, s.log[x.2]? = some (x.1, v)

theorem LifeStep.used [DecidableEq K] {p : Params} {c : Codec K V} {dead : Bool} {s s' : Life K V} (h : LifeStep p c dead s s') :
    s.used ≤ s'.used ∧ s.log <+: s'.log := by
  cases h with
  | store => exact ⟨Nat.le_add_right _ _, List.prefix_append _ _⟩
  | index => exact ⟨Nat.le_refl _, List.prefix_refl _⟩
  | reopen => exact ⟨Nat.le_refl _, List.prefix_refl _⟩
  | kill => exact ⟨Nat.le_add_right _ _, List.prefix_append _ _⟩
  | power => exact ⟨Nat.le_add_right _ _, List.prefix_append _ _⟩

theorem Lives.used [DecidableEq K] {p : Params} {c : Codec K V} {s s' : Life K V} (h : Lives p c s s') :
    s.used ≤ s'.used ∧ s.log <+: s'.log := by
  induction h with
  | refl => exact ⟨Nat.le_refl _, List.prefix_refl _⟩
  | tail _ h ih =>
    obtain ⟨_, h⟩ := h
    obtain ⟨h1, h2⟩ := h.used
    exact ⟨by omega, ih.2.trans h2⟩

theorem inFlight_onePage {c : Codec K V} {m : ILM} {fl : List (K × V)} (h : InFlight c m fl) (n : Nat) :
    OnePage n (flightBytes c fl).length := by
  intro i j h1 h2 h3 h4
  have := h.1
  simp only [flightBytes, List.length_map] at h2 h4
  have : i = j := by omega
  rw [this]

/-- What is opened after a death or a power failure that has left `fl'` of what was in flight. -/
theorem LifeOK.opened {p : Params} {c : Codec K V} {s : Life K V} (h : LifeOK p c s) {fl : List (K × V)}
    (hfl : InFlight c s.m fl) {j lost used' : Nat} {indexed : Bool} {db : DB} {es : List (Nat × Nat)} {C : List UInt8} {fi : Blob}
    (hinv : DBInv db es C (records c s.log ++ (flightBytes c fl).take j)) (hle : C.length ≤ used') (hr : DBRoom db)
    (hwd : db.data.g.writable = true) (hwi : db.idx.g.writable = true) (hfi : db.idx.g.file = some fi)
    (hlen : fi.len ≤ 16 * used' + p.minMmap) :
    LifeOK p c ⟨⟨db, s.m.journal.drop lost, indexed⟩, s.log ++ fl.take j, s.journal.drop lost, [], used'⟩ := by
  have htake : records c (s.log ++ fl.take j) = records c s.log ++ (flightBytes c fl).take j := by
    simp [records, flightBytes, List.map_take]
  refine ⟨⟨?_, ?_, ?_, ?_, ?_, rfl, by simp [Life.spec]⟩, by simp⟩
  · simp only [Life.spec]
    rw [htake]
    exact ⟨⟨es, C, hinv, hle⟩, hr, hwd, hwi, by simp [hfi], fun f hf => by rw [hfi] at hf; cases hf; exact hlen⟩
  · intro x hx
    rcases List.mem_append.mp hx with hx | hx
    · exact h.rel.encV x hx
    · exact (hfl.2 x (List.mem_of_mem_take hx)).2.2
  · simp only [Life.spec, h.rel.jr, List.map_drop]
  · intro x hx
    exact h.rel.encK x (List.mem_of_mem_drop hx)
  · intro x hx
    obtain ⟨v, hv⟩ := h.rel.ok x (List.mem_of_mem_drop hx)
    refine ⟨v, ?_⟩
    simp only [Life.spec] at hv ⊢
    rw [List.getElem?_append_left (List.getElem?_eq_some_iff.mp hv).1]; exact hv

/-- A power failure: the directory can be opened. -/
theorem LifeOK.cut {p : Params} {c : Codec K V} (hp : 16 ∣ p.minMmap) (hm : p.minMmap < 2 ^ 62) {s : Life K V}
    (h : LifeOK p c s) {fl : List (K × V)} (hfl : InFlight c s.m fl) {fd fi : Blob}
    (hc : PowerCut p s.m.db (flightBytes c fl) fd fi) (lost : Nat) (indexed : Bool)
    (hfit : s.used + ((flightBytes c fl).map List.length).sum < 2 ^ 59) :
    ∃ db, DB.openDB p (some fd) (some fi) true = .ok db ∧
      LifeOK p c ⟨⟨db, s.m.journal.drop lost, indexed⟩, s.log ++ fl.take (db.len - s.log.length), s.journal.drop lost, [],
        s.used + ((flightBytes c fl).map List.length).sum⟩ := by
  obtain ⟨j, hj, hdisk, hlen⟩ := hc.disk hp hm h.rel.good hfit (inFlight_onePage hfl _)
  obtain ⟨db, es, C, e, hinv, hr, hle, hwd, hwi, hfd, hfi⟩ := open_spec (p := p) hdisk true
  have hlj : db.len - s.log.length = j := by
    rw [hinv.len_eq]
    simp only [records, Life.spec, flightBytes, List.length_append, List.length_take, List.length_map] at hj ⊢
    omega
  refine ⟨db, e, ?_⟩
  rw [hlj]
  exact h.opened hfl hinv hle hr hwd hwi hfi hlen

theorem LifeStep.ok [DecidableEq K] {p : Params} {c : Codec K V} (hp : 16 ∣ p.minMmap) (hm : p.minMmap < 2 ^ 62)
    (hc : c.Lawful) {dead : Bool} {s s' : Life K V} (h : LifeStep p c dead s s') (hs : LifeOK p c s) (hfit : s'.used < 2 ^ 59) :
    LifeOK p c s' := by
  cases h with
  | @store _ k v kb vb pos db hi hk hv ha =>
    have hne : vb ≠ [] := by rintro rfl; exact hc.some_ v hv
    simp only at hfit
    obtain ⟨db1, e, hg⟩ := good_append hp hs.rel.good (batch := [vb]) (by simp) (by simpa using hne) (by simp; omega)
    rw [ha] at e
    simp only [Prod.mk.injEq, Except.ok.injEq, Option.some.injEq] at e
    obtain ⟨rfl, rfl⟩ := e
    have hgrow : ∀ {i : Nat} {x : K × V}, s.log[i]? = some x → (s.log ++ [(k, v)])[i]? = some x := by
      intro i x hx
      rw [List.getElem?_append_left (List.getElem?_eq_some_iff.mp hx).1]; exact hx
    refine ⟨⟨?_, ?_, hs.rel.jr, hs.rel.encK, ?_, rfl, by simp [Life.spec]⟩, ?_⟩
    · have : records c (s.log ++ [(k, v)]) = records c s.log ++ [vb] := by simp [records, hv]
      simp only [Life.spec]
      rw [this]
      simpa [Life.spec] using hg
    · intro x hx
      rcases List.mem_append.mp hx with hx | hx
      · exact hs.rel.encV x hx
      · simp only [List.mem_singleton] at hx; subst hx; simp [hv]
    · intro x hx
      obtain ⟨w, hw⟩ := hs.rel.ok x hx
      exact ⟨w, hgrow hw⟩
    · intro x hx
      rcases List.mem_cons.mp hx with rfl | hx
      · exact ⟨by simp [hk], v, by simp [records, Life.spec]⟩
      · obtain ⟨h1, w, hw⟩ := hs.wait x hx
        exact ⟨h1, w, hgrow hw⟩
  | @index _ k kb pos hw hk =>
    refine ⟨⟨hs.rel.good, hs.rel.encV, ?_, ?_, ?_, rfl, by simp [Life.spec]⟩, fun x hx => hs.wait x (List.mem_of_mem_erase hx)⟩
    · have := hs.rel.jr
      simp only [Life.spec, List.map_cons, hk, Option.getD_some] at this ⊢
      rw [this]
    · intro x hx
      rcases List.mem_cons.mp hx with rfl | hx
      · simp [hk]
      · exact hs.rel.encK x hx
    · intro x hx
      rcases List.mem_cons.mp hx with rfl | hx
      · exact (hs.wait _ hw).2
      · exact hs.rel.ok x hx
  | @reopen _ indexed m hw hr =>
    unfold Ilm.reopen at hr
    obtain ⟨db1, e, hg⟩ := good_reopen (p := p) hs.rel.good
    rw [e] at hr
    cases hr
    exact ⟨⟨by simpa [Life.spec] using hg, hs.rel.encV, by simpa [Life.spec] using hs.rel.jr, hs.rel.encK, hs.rel.ok, rfl,
      by simp [Life.spec]⟩, by simp⟩
  | @kill _ fl fd fi j lost indexed db hfl hcr ho =>
    obtain ⟨hdisk, hlen⟩ := hcr.disk hp hm hs.rel.good hfit
    obtain ⟨db1, es, C, e, hinv, hr, hle, hwd, hwi, hfd, hfi⟩ := open_spec (p := p) hdisk true
    rw [ho] at e; cases e
    exact hs.opened hfl hinv hle hr hwd hwi hfi hlen
  | @power _ fl fd fi lost indexed db hfl hcut ho =>
    obtain ⟨db1, e, h1⟩ := hs.cut hp hm hfl hcut lost indexed hfit
    rw [ho] at e; cases e
    exact h1

theorem Life.Fresh.ok {p : Params} {c : Codec K V} {s : Life K V} (h : s.Fresh p) : LifeOK p c s := by
  obtain ⟨indexed, m, hm, rfl⟩ := h
  obtain ⟨m', e, hr⟩ := fresh_rel p c true indexed
  rw [hm] at e; cases e
  have hi := hr.indexed
  simp only at hi
  exact ⟨by simpa [Life.spec, hi] using hr, by simp⟩

theorem Lives.ok [DecidableEq K] {p : Params} {c : Codec K V} (hp : 16 ∣ p.minMmap) (hm : p.minMmap < 2 ^ 62)
    (hc : c.Lawful) {s s' : Life K V} (h : Lives p c s s') (hs : LifeOK p c s) (hfit : s'.used < 2 ^ 59) : LifeOK p c s' := by
  induction h with
  | refl => exact hs
  | tail _ h ih =>
    obtain ⟨_, h⟩ := h
    exact h.ok hp hm hc (ih (by have := h.used.1; omega)) hfit

theorem Calm.lives [DecidableEq K] {p : Params} {c : Codec K V} {s s' : Life K V} (h : Calm p c s s') : Lives p c s s' := by
  induction h with
  | refl => exact .refl
  | tail _ h ih => exact .tail ih ⟨false, h⟩

/-- Records stored since `n` are in the index, or about to be. -/
def Covered (s : Life K V) (n : Nat) : Prop :=
  ∀ i x, n ≤ i → s.log[i]? = some x → (x.1, i) ∈ s.journal ∨ (x.1, i) ∈ s.waiting

theorem LifeStep.covered [DecidableEq K] {p : Params} {c : Codec K V} (hp : 16 ∣ p.minMmap) (hc : c.Lawful) {s s' : Life K V}
    (h : LifeStep p c false s s') (hs : LifeOK p c s) (hfit : s'.used < 2 ^ 59) {n : Nat} (hn : Covered s n) :
    Covered s' n := by
  cases h with
  | @store _ k v kb vb pos db hi hk hv ha =>
    have hne : vb ≠ [] := by rintro rfl; exact hc.some_ v hv
    simp only at hfit
    obtain ⟨db1, e, hg⟩ := good_append hp hs.rel.good (batch := [vb]) (by simp) (by simpa using hne) (by simp; omega)
    rw [ha] at e
    simp only [Prod.mk.injEq, Except.ok.injEq, Option.some.injEq] at e
    have hpos : pos = s.log.length := by simpa [records, Life.spec] using e.1
    intro i x hi hx
    simp only at hx ⊢
    by_cases hlt : i < s.log.length
    · rw [List.getElem?_append_left hlt] at hx
      rcases hn i x hi hx with h1 | h1
      · exact .inl h1
      · exact .inr (List.mem_cons_of_mem _ h1)
    · rw [List.getElem?_append_right (by omega)] at hx
      have hi' : i - s.log.length = 0 := by
        by_contra hne
        obtain ⟨j, hj⟩ := Nat.exists_eq_succ_of_ne_zero hne
        rw [hj] at hx
        simp at hx
      rw [hi'] at hx
      simp only [List.getElem?_cons_zero, Option.some.injEq] at hx
      subst hx
      right
      have : i = pos := by omega
      simp [this]
  | @index _ k kb pos hw hk =>
    intro i x hi hx
    rcases hn i x hi hx with h1 | h1
    · exact .inl (List.mem_cons_of_mem _ h1)
    · by_cases he : (x.1, i) = (k, pos)
      · left; simp [he]
      · exact .inr ((List.mem_erase_of_ne he).mpr h1)
  | @reopen _ indexed m hw hr =>
    intro i x hi hx
    rcases hn i x hi hx with h1 | h1
    · exact .inl h1
    · rw [hw] at h1; cases h1

theorem LifeStep.journal [DecidableEq K] {p : Params} {c : Codec K V} {s s' : Life K V} (h : LifeStep p c false s s') :
    s.journal <:+ s'.journal := by
  cases h with
  | store => exact List.suffix_refl _
  | index => exact List.suffix_cons _ _
  | reopen => exact List.suffix_refl _

theorem Calm.spec [DecidableEq K] {p : Params} {c : Codec K V} (hp : 16 ∣ p.minMmap) (hm : p.minMmap < 2 ^ 62)
    (hc : c.Lawful) {s s' : Life K V} (h : Calm p c s s') (hs : LifeOK p c s) (hfit : s'.used < 2 ^ 59) {n : Nat}
    (hn : Covered s n) : Covered s' n ∧ s.journal <:+ s'.journal := by
  induction h with
  | refl => exact ⟨hn, List.suffix_refl _⟩
  | @tail b d hcalm h ih =>
    have hu := h.used.1
    have h1 : LifeOK p c b := (Calm.lives hcalm).ok hp hm hc hs (by omega)
    obtain ⟨h2, h3⟩ := ih (by omega)
    exact ⟨h.covered hp hc h1 hfit h2, h3.trans h.journal⟩

/-- An append of one thread is the two steps. -/
theorem append_lives [DecidableEq K] {p : Params} {c : Codec K V} {s : Life K V} {k : K} {v : V} {vb : List UInt8}
    (hv : c.encV v = some vb) {m : ILM} (h : Ilm.append p c s.m k v = (.ok (), m)) :
    ∃ pos, Calm p c s ⟨m, s.log ++ [(k, v)], (k, pos) :: s.journal, s.waiting, s.used + vb.length⟩ := by
  unfold Ilm.append Ilm.appendWith at h
  split at h
  · rename_i hi
    split at h
    · cases h
    · rename_i kb hk
      rw [hv] at h
      simp only at h
      split at h
      · cases h
      · cases h
      · rename_i pos db ha
        simp only [Bool.false_eq_true, if_false, Prod.mk.injEq, true_and] at h
        subst h
        refine ⟨pos, ?_⟩
        have h1 := LifeStep.store (p := p) (c := c) (s := s) hi hk hv ha
        have h2 := LifeStep.index (p := p) (c := c) (s := ⟨{ s.m with db := db }, s.log ++ [(k, v)], s.journal,
          (k, pos) :: s.waiting, s.used + vb.length⟩) (k := k) (pos := pos) (by simp) hk
        simp only [List.erase_cons_head] at h2
        exact (Relation.ReflTransGen.single h1).tail h2
  · cases h

end Verif.Ilm
