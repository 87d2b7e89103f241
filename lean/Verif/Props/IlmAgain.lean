import Verif.Ilm.Again
import Verif.Ilm.Cbor
import Verif.Props.Ilm
import Verif.Props.FraosHandles

/-!
# C110: an opening that is refused

The key index can be held by one map at a time, so a second map on the directory is refused. The log was opened
before that and is closed again, which cuts its files.
-/

namespace Verif.Props

open Verif.Fraos Verif.Ilm

variable {K V : Type} [DecidableEq K]

omit [DecidableEq K] in
theorem wary_readonly (ops : List (OpenOp K V)) (h : ∀ op ∈ ops, op ≠ .again false) (wet : Bool) :
    Wary wet false ops := by
  induction ops generalizing wet with
  | nil => trivial
  | cons op ops ih =>
    have ih' := ih (fun o ho => h o (by simp [ho]))
    cases op with
    | again readonly =>
      cases readonly with
      | true => exact ih' _
      | false => exact absurd rfl (h _ (by simp))
    | call op =>
      cases op with
      | append k v => exact ⟨rfl, ih' _⟩
      | _ => exact ih' _

/-- **C110.** Openings for reading: each is refused, and whatever calls come before, between and after them are
answered as if nobody had tried. -/
theorem C110_readonly (p : Params) (hp : 16 ∣ p.minMmap) (hmin : p.minMmap < 2 ^ 62) (c : Codec K V) (hc : c.Lawful)
    (indexed : Bool) (ops : List (OpenOp K V)) (hr : ∀ op ∈ ops, op ≠ .again false) (hh : Held indexed ops)
    (hbytes : openBytes c ops < 2 ^ 59) :
    ∃ m, Ilm.fresh p true indexed = .ok m ∧ openRun p c m [] ops = openSpecRun c ⟨[], [], indexed, []⟩ ops := by
  obtain ⟨m, e, h⟩ := fresh_openRel p c indexed
  exact ⟨m, e, h.run hp hmin hc ops (wary_readonly ops hr false) hh (by omega)⟩

/-- **C110**, the part that holds of openings for writing. Each is refused. As long as nothing is appended between an
opening that was refused after an append of the same session, and the next reopening, all calls are answered as if
nobody had tried; so nothing that was there is lost, and a map that is reopened is as good as before. -/
theorem C110_prudent_partial (p : Params) (hp : 16 ∣ p.minMmap) (hmin : p.minMmap < 2 ^ 62) (c : Codec K V)
    (hc : c.Lawful) (indexed : Bool) (ops : List (OpenOp K V)) (hpr : Wary false false ops) (hh : Held indexed ops)
    (hbytes : openBytes c ops < 2 ^ 59) :
    ∃ m, Ilm.fresh p true indexed = .ok m ∧ openRun p c m [] ops = openSpecRun c ⟨[], [], indexed, []⟩ ops := by
  obtain ⟨m, e, h⟩ := fresh_openRel p c indexed
  exact ⟨m, e, h.run hp hmin hc ops hpr hh (by omega)⟩

omit [DecidableEq K] in
theorem items_same {p : Params} {c : Codec K V} (hc : c.Lawful) {m m' : ILM} {s : MSpec K V} (h : MView c m s)
    (h' : MView c m' s) (n i : Nat) (hi : i ≤ s.log.length) : items p c m n i = items p c m' n i := by
  have hlt := h.length_lt
  induction n generalizing i with
  | zero => rfl
  | succ n ih =>
    simp only [items]
    rw [h.next_eq hc (by omega), h'.next_eq hc (by omega)]
    simp only
    rw [ih _ (by split <;> omega)]

/-- **C110.** After any history of calls, an opening of either kind is refused, and leaves what the map gives out as it
was: under every key, the latest value, and the values from the first on or from a key on. -/
theorem C110_reads (p : Params) (hp : 16 ∣ p.minMmap) (hmin : p.minMmap < 2 ^ 62) (c : Codec K V) (hc : c.Lawful)
    (ops : List (MOp K V)) (hk : ∀ op ∈ ops, Kept true op) (hbytes : mBytes c ops < 2 ^ 59) (m m' m'' : ILM)
    (hm : Ilm.fresh p true true = .ok m) (hm' : (mAfter p c true m [] ops).1 = m') (readonly : Bool)
    (hm'' : (openAgain p m' readonly).2 = m'') :
    (openAgain p m' readonly).1 = .error .index ∧
    (∀ k, Ilm.get p c m'' k = Ilm.get p c m' k ∧ Ilm.contains p c m'' k = Ilm.contains p c m' k ∧
      Ilm.iterFrom c m'' k = Ilm.iterFrom c m' k) ∧
    (∀ k, Ilm.getNext p c m'' k = Ilm.getNext p c m' k) ∧
    Ilm.last p c m'' = Ilm.last p c m' ∧ Ilm.isEmpty m'' = Ilm.isEmpty m' ∧
    ∀ n i, i ≤ (appended c ops).length → items p c m'' n i = items p c m' n i := by
  obtain ⟨m1, e, h⟩ := fresh_openRel p c true
  rw [hm] at e
  cases e
  obtain ⟨w, h1⟩ := h.calls hp hmin hc ops (by omega)
  obtain ⟨its, h4⟩ := specAfter_kept c true ops hk [] []
  have h5 : mSpecAfter c true (⟨[], [], true, []⟩ : MSpec K V) ops =
      ⟨appended c ops, numbered (appended c ops), true, its⟩ := h4
  rw [h5] at h1
  have h6 : (mAfter p c true m (⟨[], [], true, []⟩ : MSpec K V).its ops).1 = m' := hm'
  rw [h6] at h1
  have hv := h1.view
  have key : (openAgain p m' readonly).1 = .error .index ∧
      MView c m'' ⟨appended c ops, numbered (appended c ops), true, its⟩ := by
    cases readonly with
    | true =>
      rw [h1.again_readonly hmin (by omega) rfl] at hm'' ⊢
      exact ⟨rfl, by rw [← hm'']; exact hv⟩
    | false =>
      rw [h1.again_writing hmin (by omega) rfl] at hm'' ⊢
      exact ⟨rfl, by rw [← hm'']; exact h1.dropped.view⟩
  obtain ⟨k1, k2⟩ := key
  have hget : ∀ k, Ilm.get p c m'' k = Ilm.get p c m' k := fun k => by rw [k2.get_eq hc k, hv.get_eq hc k]
  have hst : ∀ op : MOp K V, op.Reads → (mStep p c true m'' its op).1 = (mStep p c true m' its op).1 := fun op ho => by
    have a := (k2.step (p := p) hc true op ho).1
    have b := (hv.step (p := p) hc true op ho).1
    exact a.trans b.symm
  refine ⟨k1, fun k => ⟨hget k, ?_, ?_⟩, ?_, ?_, ?_, fun n i hi => items_same hc k2 hv n i hi⟩
  · unfold Ilm.contains
    rw [hget k]
  · rw [k2.iterFrom_eq hc k, hv.iterFrom_eq hc k]
  · intro k
    simpa [mStep] using hst (.getNext k) trivial
  · simpa [mStep] using hst .last trivial
  · simpa [mStep] using hst .isEmpty trivial

/-- A map opened on a new directory, with the key index. -/
def newMap : ILM := ⟨freshDisk, [], true⟩

/-- **C110** is false. Somebody tries to open the directory for writing and is refused; the map that is open then
appends under a new key and is told that it worked. After it was closed in the usual way and opened again, the key is
not there, and the latest value is the one from before. -/
theorem C110_lost_false :
    Ilm.fresh Params.code true true = .ok newMap ∧
    openRun Params.code cborCodec newMap [] [.call (.append 1 10), .again false, .call (.append 2 20), .call (.reopen true),
      .call (.get 1), .call (.get 2), .call .last] =
    [.done (.ok ()), .done (.error .index), .done (.ok ()), .opened (.ok ()), .value (.ok (some 10)), .value (.ok none),
      .value (.ok (some 10))] ∧
    openSpecRun cborCodec ⟨[], [], true, []⟩ [.call (.append 1 10), .again false, .call (.append 2 20),
      .call (.reopen true), .call (.get 1), .call (.get 2), .call .last] =
    [.done (.ok ()), .done (.error .index), .done (.ok ()), .opened (.ok ()), .value (.ok (some 10)),
      .value (.ok (some 20)), .value (.ok (some 20))] :=
  ⟨rfl, by decide +kernel, by decide +kernel⟩

/-- Values encoded as they are, behind a byte that tells that they are bytes. -/
def bytesCodec : Codec Nat (List UInt8) := ⟨cborEnc, fun v => some (0x59 :: v), fun bs => some bs.tail⟩

theorem bytesCodec_lawful : bytesCodec.Lawful := by
  refine ⟨?_, ?_, cborCodec_lawful.inj⟩
  · rintro v bs h
    cases h
    rfl
  · intro v h
    cases h

/-- **C110** is false. After an opening that was refused, an append of a value longer than a page faults: the process
that holds the map is killed by what somebody else tried. -/
theorem C110_fault_false :
    bytesCodec.Lawful ∧ Ilm.fresh Params.code true true = .ok newMap ∧
    openRun Params.code bytesCodec newMap [] [.call (.append 1 [10]), .again false,
      .call (.append 2 (List.replicate 5000 7))] =
    [.done (.ok ()), .done (.error .index), .done (.error (.storage .fault))] ∧
    openSpecRun bytesCodec ⟨[], [], true, []⟩ [.call (.append 1 [10]), .again false,
      .call (.append 2 (List.replicate 5000 7))] =
    [.done (.ok ()), .done (.error .index), .done (.ok ())] :=
  ⟨bytesCodec_lawful, rfl, by decide +kernel, by decide +kernel⟩

/-- A prudent history with three openings that are refused, one of them for reading. -/
def besieged : List (OpenOp Nat Nat) :=
  [.again false, .call (.append 1 10), .call (.append 2 300), .again true, .call (.append 1 20), .again false,
    .call (.get 1), .call .iter, .call (.next 0), .call (.reopen true), .call (.append 3 4), .call (.get 3), .call .last]

/-- Its answers. -/
example : ∃ m, Ilm.fresh Params.code true true = .ok m ∧
    openRun Params.code cborCodec m [] besieged = [.done (.error .index), .done (.ok ()), .done (.ok ()),
      .done (.error .index), .done (.ok ()), .done (.error .index), .value (.ok (some 20)), .started (.ok true),
      .item (some (.ok 10)), .opened (.ok ()), .done (.ok ()), .value (.ok (some 4)), .value (.ok (some 4))] := by
  obtain ⟨m, h1, h2⟩ := C110_prudent_partial Params.code (by decide) (by decide) cborCodec cborCodec_lawful true besieged
    (by simp [besieged, Wary]) (by simp [besieged, Held]) (by decide)
  exact ⟨m, h1, h2.trans (by decide +kernel)⟩

/-- Somebody looks for a chance to read, again and again. -/
example : ∃ m, Ilm.fresh Params.code true true = .ok m ∧
    openRun Params.code cborCodec m [] [.call (.append 1 10), .again true, .call (.append 2 20), .again true,
      .call (.reopen true), .call (.get 2)] = [.done (.ok ()), .done (.error .index), .done (.ok ()),
      .done (.error .index), .opened (.ok ()), .value (.ok (some 20))] := by
  obtain ⟨m, h1, h2⟩ := C110_readonly Params.code (by decide) (by decide) cborCodec cborCodec_lawful true
    [.call (.append 1 10), .again true, .call (.append 2 20), .again true, .call (.reopen true), .call (.get 2)]
    (by simp) (by simp [Held]) (by decide)
  exact ⟨m, h1, h2.trans (by decide +kernel)⟩

/-- The sample history of `Verif/Props/Ilm.lean`, then an opening for writing. -/
example : (openAgain Params.code (mAfter Params.code cborCodec true newMap [] sampleMap).1 false).1 = .error .index ∧
    Ilm.get Params.code cborCodec (openAgain Params.code (mAfter Params.code cborCodec true newMap [] sampleMap).1 false).2 1 =
      .ok (some 70000) := by
  have hk : ∀ op ∈ sampleMap, Kept true op := by
    intro op hop
    simp only [sampleMap, List.mem_cons, List.not_mem_nil, or_false] at hop
    rcases hop with rfl | rfl | rfl | rfl | rfl | rfl | rfl <;> simp [Kept]
  obtain ⟨h1, h2, _⟩ := C110_reads Params.code (by decide) (by decide) cborCodec cborCodec_lawful sampleMap hk (by decide)
    newMap _ _ rfl rfl false rfl
  refine ⟨h1, ?_⟩
  rw [(h2 1).1]
  rw [((C12_latest_wins Params.code (by decide) cborCodec cborCodec_lawful true sampleMap hk (by decide) newMap _ rfl rfl).1 1
    rfl).1]
  rfl

end Verif.Props
