import Verif.Ilm.Life
import Verif.Props.Ilm

/-!
# C83: the log with a key index, under threads, deaths and power failures

`LifeStep` (`Verif/Ilm/Life.lean`) says what can happen to the directory of a map: some thread stores the record of its
append, or records its position in the key index; the map is dropped and opened; the process dies or power fails at any
moment, and the map is opened again. `Lives` is any number of these, `Calm` any number without death or power failure.
-/

namespace Verif.Props

open Verif.Fraos Verif.Ilm

variable {K V : Type} [DecidableEq K]

omit [DecidableEq K] in
theorem life_record {p : Params} {c : Codec K V} {s : Life K V} (h : LifeOK p c s) {i : Nat} {k : K} {v : V}
    (hx : s.log[i]? = some (k, v)) : ∃ vb, c.encV v = some vb ∧ s.m.db.get p i = .ok (some vb) := by
  obtain ⟨vb, hvb⟩ := Option.isSome_iff_exists.mp (h.rel.encV _ (List.mem_of_getElem? hx))
  simp only at hvb
  obtain ⟨es, C, hinv, _⟩ := h.rel.good.ex
  have h1 := (List.getElem?_eq_some_iff.mp hx).1
  have h2 := h.rel.view.length_lt
  simp only [Life.spec] at h2
  refine ⟨vb, hvb, ?_⟩
  rw [hinv.get_ok (by omega), records_getElem?]
  simp only [Life.spec, hx, Option.map_some, hvb, Option.getD_some]

/-- **C83.** Whenever power fails, in the middle of an append of any thread or between calls, the map can be opened again. Its
log has all values it had and possibly the one in flight, its key index is an earlier one, and all later calls are answered
accordingly. -/
theorem C83_recovers (p : Params) (hp : 16 ∣ p.minMmap) (hm : p.minMmap < 2 ^ 62) (c : Codec K V) (hc : c.Lawful)
    (s0 s : Life K V) (h0 : s0.Fresh p) (h : Lives p c s0 s) (fl : List (K × V)) (hfl : InFlight c s.m fl) (fd fi : Blob)
    (hcut : PowerCut p s.m.db (flightBytes c fl) fd fi) (lost : Nat) (indexed : Bool) (later : List (MOp K V))
    (hbytes : s.used + ((flightBytes c fl).map List.length).sum + mBytes c later < 2 ^ 59) :
    ∃ db log', DB.openDB p (some fd) (some fi) true = .ok db ∧ (log' = s.log ∨ log' = s.log ++ fl) ∧
      mRun p c true ⟨db, s.m.journal.drop lost, indexed⟩ [] later =
        mSpecRun c true ⟨log', s.journal.drop lost, indexed, []⟩ later := by
  have hs := h.ok hp hm hc h0.ok (by omega)
  obtain ⟨db, e, h1⟩ := hs.cut hp hm hfl hcut lost indexed (by omega)
  refine ⟨db, _, e, ?_, (h1.rel.run hp hc later (by simp only; omega)).1⟩
  have hone := hfl.1
  match fl, hone with
  | [], _ => left; simp
  | [x], _ =>
    cases db.len - s.log.length with
    | zero => left; simp
    | succ n => right; simp

/-- **C83.** At every moment, with any appends still running, calls of one thread are answered as by the specification from
all that is stored in the log and recorded in the index. -/
theorem C83_calls (p : Params) (hp : 16 ∣ p.minMmap) (hm : p.minMmap < 2 ^ 62) (c : Codec K V) (hc : c.Lawful)
    (s0 s : Life K V) (h0 : s0.Fresh p) (h : Lives p c s0 s) (later : List (MOp K V))
    (hbytes : s.used + mBytes c later < 2 ^ 59) :
    mRun p c true s.m [] later = mSpecRun c true ⟨s.log, s.journal, s.m.indexed, []⟩ later := by
  have hs := h.ok hp hm hc h0.ok (by omega)
  exact (hs.rel.run hp hc later (by omega)).1

/-- **C83.** A record that is in the log stays there unchanged, at its position, whatever happens. -/
theorem C83_kept (p : Params) (hp : 16 ∣ p.minMmap) (hm : p.minMmap < 2 ^ 62) (c : Codec K V) (hc : c.Lawful)
    (s0 s s' : Life K V) (h0 : s0.Fresh p) (h : Lives p c s0 s) (h' : Lives p c s s') (hu : s'.used < 2 ^ 59) :
    s.log <+: s'.log ∧ ∀ i k v, s.log[i]? = some (k, v) → ∃ vb, c.encV v = some vb ∧ c.decV vb = some v ∧
      s.m.db.get p i = .ok (some vb) ∧ s'.m.db.get p i = .ok (some vb) := by
  obtain ⟨h1, h2⟩ := h'.used
  have hs := h.ok hp hm hc h0.ok (by omega)
  have hs' := h'.ok hp hm hc hs hu
  refine ⟨h2, ?_⟩
  intro i k v hx
  obtain ⟨vb, hvb, hg⟩ := life_record hs hx
  have hx' : s'.log[i]? = some (k, v) := by
    obtain ⟨t, ht⟩ := h2
    rw [← ht, List.getElem?_append_left (List.getElem?_eq_some_iff.mp hx).1]
    exact hx
  obtain ⟨vb', hvb', hg'⟩ := life_record hs' hx'
  rw [hvb] at hvb'
  cases hvb'
  exact ⟨vb, hvb, hc.back _ _ hvb, hg, hg'⟩

/-- **C83.** At every moment each entry of the key index is the encoding of a key and of the position of a record appended
under that key. -/
theorem C83_keys_designate (p : Params) (hp : 16 ∣ p.minMmap) (hm : p.minMmap < 2 ^ 62) (c : Codec K V) (hc : c.Lawful)
    (s0 s : Life K V) (h0 : s0.Fresh p) (h : Lives p c s0 s) (hu : s.used < 2 ^ 59) (kb pb : List UInt8)
    (he : (kb, pb) ∈ s.m.journal) :
    ∃ k i v, c.encK k = some kb ∧ posDec pb = some i ∧ s.log[i]? = some (k, v) ∧
      ∃ vb, c.encV v = some vb ∧ s.m.db.get p i = .ok (some vb) := by
  have hs := h.ok hp hm hc h0.ok hu
  rw [hs.rel.jr] at he
  obtain ⟨⟨k, i⟩, hx, e⟩ := List.mem_map.mp he
  simp only [Prod.mk.injEq] at e
  obtain ⟨rfl, rfl⟩ := e
  obtain ⟨kb, hkb⟩ := Option.isSome_iff_exists.mp (hs.rel.encK _ hx)
  obtain ⟨v, hv⟩ := hs.rel.ok _ hx
  simp only at hkb
  exact ⟨k, i, v, by rw [hkb]; rfl, posDec_posEnc i, hv, life_record hs hv⟩

/-- **C83.** At every moment `get` never fails on a key that can be encoded, and only returns values appended under the key
asked for; it returns one when the index has the key. -/
theorem C83_get (p : Params) (hp : 16 ∣ p.minMmap) (hm : p.minMmap < 2 ^ 62) (c : Codec K V) (hc : c.Lawful)
    (s0 s : Life K V) (h0 : s0.Fresh p) (h : Lives p c s0 s) (hu : s.used < 2 ^ 59) (hidx : s.m.indexed = true) (k : K)
    (hk : (c.encK k).isSome) :
    ((∀ i, (k, i) ∉ s.journal) ∧ Ilm.get p c s.m k = .ok none) ∨
    ∃ i v, (k, i) ∈ s.journal ∧ s.log[i]? = some (k, v) ∧ Ilm.get p c s.m k = .ok (some v) := by
  have hs := h.ok hp hm hc h0.ok hu
  rw [hs.rel.get_eq hc (by omega) k]
  simp only [Life.spec, MSpec.keyed, hidx, if_true, hk]
  cases hl : s.journal.lookup k with
  | none =>
    refine .inl ⟨?_, rfl⟩
    intro i hi
    have h1 := List.lookup_eq_none_iff.mp hl (k, i) hi
    simp at h1
  | some i =>
    right
    obtain ⟨v, hv⟩ := hs.rel.ok _ (lookup_mem hl)
    simp only [Life.spec] at hv
    exact ⟨i, v, lookup_mem hl, hv, by simp [MSpec.at_, hv]⟩

/-- **C83.** At every moment `iter()` shows all values of the log, also those whose key is not in the index. -/
theorem C83_iter (p : Params) (hp : 16 ∣ p.minMmap) (hm : p.minMmap < 2 ^ 62) (c : Codec K V) (hc : c.Lawful)
    (s0 s : Life K V) (h0 : s0.Fresh p) (h : Lives p c s0 s) (hu : s.used < 2 ^ 59) (n : Nat) :
    items p c s.m n 0 = valuesThenEnd s.log n := by
  have hs := h.ok hp hm hc h0.ok hu
  simpa [Life.spec] using items_eq hc hs.rel (by omega) n 0 (Nat.zero_le _)

/-- **C83.** While nothing dies, no key is lost: a key whose append has finished since some moment, or that was found at that
moment, is found. -/
theorem C83_found (p : Params) (hp : 16 ∣ p.minMmap) (hm : p.minMmap < 2 ^ 62) (c : Codec K V) (hc : c.Lawful)
    (s0 s s' : Life K V) (h0 : s0.Fresh p) (h : Lives p c s0 s) (h' : Calm p c s s') (hu : s'.used < 2 ^ 59)
    (hidx : s'.m.indexed = true) (k : K) (hk : (c.encK k).isSome)
    (hadd : (∃ i, (k, i) ∈ s.journal) ∨
      ∃ (i : Nat) (v : V), s.log.length ≤ i ∧ s'.log[i]? = some (k, v) ∧ (k, i) ∉ s'.waiting) :
    ∃ (i : Nat) (v : V), s'.log[i]? = some (k, v) ∧ Ilm.get p c s'.m k = .ok (some v) ∧ Ilm.contains p c s'.m k = .ok true := by
  have hs := h.ok hp hm hc h0.ok (by have := h'.lives.used.1; omega)
  obtain ⟨h1, h2⟩ := h'.spec hp hm hc hs hu (n := s.log.length)
    (by intro i x hi hx; rw [List.getElem?_eq_none hi] at hx; cases hx)
  rcases C83_get p hp hm c hc s0 s' h0 (h.trans h'.lives) hu hidx k hk with ⟨hno, _⟩ | ⟨i, v, _, hv, hg⟩
  · exfalso
    rcases hadd with ⟨i, hi⟩ | ⟨i, v, hi, hx, hw⟩
    · exact hno i (h2.subset hi)
    · rcases h1 i _ hi hx with h3 | h3
      · exact hno i h3
      · exact hw h3
  · refine ⟨i, v, hv, hg, ?_⟩
    unfold Ilm.contains
    rw [hg]
    rfl

/-- **C83.** An append that returns is what the steps say: its record is stored and its position recorded, and its key is
found with its value. -/
theorem C83_append (p : Params) (hp : 16 ∣ p.minMmap) (hm : p.minMmap < 2 ^ 62) (c : Codec K V) (hc : c.Lawful)
    (s0 s : Life K V) (h0 : s0.Fresh p) (h : Lives p c s0 s) (hidx : s.m.indexed = true) (k : K) (v : V) (kb vb : List UInt8)
    (hk : c.encK k = some kb) (hv : c.encV v = some vb) (hu : s.used + vb.length < 2 ^ 59) :
    ∃ m pos, Ilm.append p c s.m k v = (.ok (), m) ∧
      Calm p c s ⟨m, s.log ++ [(k, v)], (k, pos) :: s.journal, s.waiting, s.used + vb.length⟩ ∧
      m.indexed = true ∧ Ilm.get p c m k = .ok (some v) := by
  have hs := h.ok hp hm hc h0.ok (by omega)
  have hb : (MOp.append k v : MOp K V).bytes c = vb.length := by simp [MOp.bytes, hv]
  obtain ⟨h1, _, h3⟩ := hs.rel.step hp hc (.append k v) (by rw [hb]; omega)
  have hr1 : (mStep p c true s.m s.spec.its (.append k v)).1 = .done (Ilm.append p c s.m k v).1 := rfl
  have hr2 : (mStep p c true s.m s.spec.its (.append k v)).2.1 = (Ilm.append p c s.m k v).2 := rfl
  rw [hr1] at h1
  rw [hr2] at h3
  have hsp : mSpecStep c true s.spec (.append k v) =
      (.done (.ok ()), ⟨s.log ++ [(k, v)], (k, s.log.length) :: s.journal, true, []⟩) := by
    simp [mSpecStep, Life.spec, hidx, hk, hv]
  rw [hsp] at h1 h3
  simp only [MResp.done.injEq] at h1
  have happ : Ilm.append p c s.m k v = (.ok (), (Ilm.append p c s.m k v).2) := Prod.ext h1 rfl
  obtain ⟨pos, hl⟩ := append_lives hv happ
  refine ⟨_, pos, happ, hl, h3.indexed, ?_⟩
  rw [h3.get_eq hc (by rw [hb]; omega) k]
  simp [MSpec.keyed, hk, MSpec.at_]

omit [DecidableEq K] in
/-- Power may fail while nothing runs, leaving the files as they are. -/
theorem idle_cut {p : Params} {c : Codec K V} {s : Life K V} (h : LifeOK p c s) :
    ∃ fd fi, s.m.db.data.g.file = some fd ∧ s.m.db.idx.g.file = some fi ∧ PowerCut p s.m.db (flightBytes c []) fd fi := by
  obtain ⟨fi, hfi⟩ := Option.isSome_iff_exists.mp h.rel.good.mode
  obtain ⟨es, C, hinv, _⟩ := h.rel.good.ex
  obtain ⟨fd, hfd⟩ := Option.isSome_iff_exists.mp (hinv.mode.trans h.rel.good.mode)
  exact ⟨fd, fi, hfd, hfi, .idle (.inl hfd) (.inl hfi)⟩

/-- What does not survive a power failure: a key. `append(1, 10)` has returned, then power fails and the insertion into the
key index is lost; `append(2, 20)` follows. Both values are in the log, but `get(1)` finds nothing, and `get_next(1)` says
that nothing follows. -/
theorem C83_key_after_power_false :
    ∃ (s0 s1 s2 s3 : Life Nat Nat) (m1 m3 : ILM), s0.Fresh Params.code ∧
      Ilm.append Params.code cborCodec s0.m 1 10 = (.ok (), m1) ∧ s1.m = m1 ∧ Calm Params.code cborCodec s0 s1 ∧
      LifeStep Params.code cborCodec true s1 s2 ∧
      Ilm.append Params.code cborCodec s2.m 2 20 = (.ok (), m3) ∧ s3.m = m3 ∧ Calm Params.code cborCodec s2 s3 ∧
      s3.used < 2 ^ 59 ∧ s3.log = [(1, 10), (2, 20)] ∧
      Ilm.get Params.code cborCodec m3 1 = .ok none ∧ Ilm.getNext Params.code cborCodec m3 (some 1) = .ok none ∧
      Ilm.get Params.code cborCodec m3 2 = .ok (some 20) := by
  have hp : 16 ∣ Params.code.minMmap := by decide
  have hmin : Params.code.minMmap < 2 ^ 62 := by decide
  have hc := cborCodec_lawful
  obtain ⟨m, e, hr⟩ := fresh_rel Params.code cborCodec true true
  have h0 : Life.Fresh (K := Nat) (V := Nat) Params.code ⟨m, [], [], [], 0⟩ := ⟨true, m, e, rfl⟩
  obtain ⟨m1, pos, ha, hl, _⟩ := C83_append Params.code hp hmin cborCodec hc _ _ h0 .refl hr.indexed 1 10 _ _ rfl rfl (by simp)
  have ho1 := hl.lives.ok hp hmin hc h0.ok (by simp)
  obtain ⟨fd, fi, _, _, hcut⟩ := idle_cut ho1
  have hfl : InFlight cborCodec m1 ([] : List (Nat × Nat)) := ⟨by simp, by simp⟩
  obtain ⟨db, ho, ho2⟩ := ho1.cut hp hmin hfl hcut 1 true (by simp [flightBytes])
  have hpow := LifeStep.power (lost := 1) (indexed := true) hfl hcut ho
  have hl2 := hl.lives.tail ⟨true, hpow⟩
  obtain ⟨m3, pos3, ha3, hl3, hi3, hg3⟩ := C83_append Params.code hp hmin cborCodec hc _ _ h0 hl2 rfl 2 20 _ _ rfl rfl (by simp [flightBytes])
  have ho3 := Lives.ok hp hmin hc (hl2.trans hl3.lives) h0.ok (by simp [flightBytes])
  refine ⟨_, _, _, _, m1, m3, h0, ha, rfl, hl, hpow, ha3, rfl, hl3, by simp [flightBytes], by simp, ?_, ?_, hg3⟩
  · have := ho3.rel.get_eq hc (by simp [flightBytes]) 1
    rw [this]
    simp only [Life.spec]
    have hk : (cborCodec.encK 1).isSome = true := rfl
    simp [MSpec.keyed, hk, hi3, List.lookup_cons]
  · have := ho3.rel.getNext_eq hc (by simp [flightBytes]) 1
    rw [this]
    simp only [Life.spec]
    have hk : (cborCodec.encK 1).isSome = true := rfl
    simp [MSpec.keyed, hk, hi3, List.lookup_cons]

/-- The hypotheses of `C83_recovers` are met: one append has returned and another is running when power fails. -/
example : ∃ (s0 s : Life Nat Nat) (fd fi : Blob), s0.Fresh Params.code ∧ Lives Params.code cborCodec s0 s ∧
    s.log = [(1, 10)] ∧ InFlight cborCodec s.m [(3, 30)] ∧
    PowerCut Params.code s.m.db (flightBytes cborCodec [(3, 30)]) fd fi ∧
    s.used + ((flightBytes cborCodec [(3, 30)]).map List.length).sum + mBytes cborCodec sampleMap < 2 ^ 59 := by
  have hp : 16 ∣ Params.code.minMmap := by decide
  have hmin : Params.code.minMmap < 2 ^ 62 := by decide
  have hc := cborCodec_lawful
  obtain ⟨m, e, hr⟩ := fresh_rel Params.code cborCodec true true
  have h0 : Life.Fresh (K := Nat) (V := Nat) Params.code ⟨m, [], [], [], 0⟩ := ⟨true, m, e, rfl⟩
  obtain ⟨m1, pos, ha, hl, hi, _⟩ := C83_append Params.code hp hmin cborCodec hc _ _ h0 .refl hr.indexed 1 10 _ _ rfl rfl (by simp)
  obtain ⟨fd, fi, hfd, hfi, _⟩ := idle_cut (hl.lives.ok hp hmin hc h0.ok (by simp))
  refine ⟨_, _, fd, fi, h0, hl.lives, rfl, ⟨by simp, ?_⟩, .idle (.inl hfd) (.inl hfi), ?_⟩
  · intro x hx
    simp only [List.mem_singleton] at hx
    subst hx
    exact ⟨hi, rfl, rfl⟩
  · have h1 : ((flightBytes cborCodec [(3, 30)]).map List.length).sum = 2 := by decide
    have h2 : mBytes cborCodec sampleMap < 2 ^ 58 := by decide
    rw [h1]
    simp only [List.length_cons, List.length_nil]
    omega

end Verif.Props
