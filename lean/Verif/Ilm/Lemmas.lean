import Verif.Ilm.Spec

/-! # The map meets its specification -/

namespace Verif.Ilm

open Verif.Fraos

variable {K V : Type}

theorem digit_toNat {d : Nat} (h : d < 10) : (UInt8.ofNat (48 + d)).toNat = 48 + d := by
  rw [UInt8.toNat_ofNat']
  omega

theorem undigits_digits (n : Nat) : undigits (digits n) = some n := by
  induction n using digits.induct with
  | case1 n h =>
    rw [digits, dif_pos h]
    simp only [undigits, digit_toNat h]
    rw [if_pos (by omega)]
    simp
  | case2 n h ih =>
    rw [digits, dif_neg h]
    have hd : n % 10 < 10 := Nat.mod_lt _ (by decide)
    simp only [undigits, digit_toNat hd, ih]
    rw [if_pos (by omega)]
    simp only [Option.map_some, Option.some.injEq]
    omega

theorem digits_ne_nil (n : Nat) : digits n ≠ [] := by
  rw [digits]
  split <;> simp

theorem posDec_posEnc (n : Nat) : posDec (posEnc n) = some n := by
  unfold posDec posEnc
  rw [if_neg (by simpa using digits_ne_nil n), List.reverse_reverse, undigits_digits]

/-- Bytes of the values of the log. -/
def records (c : Codec K V) (log : List (K × V)) : List (List UInt8) :=
  log.map (fun x => (c.encV x.2).getD [])

/-- The code and the specification. -/
structure MRel (p : Params) (c : Codec K V) (onDisk : Bool) (m : ILM) (s : MSpec K V) (used : Nat) :
    Prop where
  good : Good p onDisk m.db (records c s.log) used
  encV : ∀ x ∈ s.log, (c.encV x.2).isSome
  jr : m.journal = s.journal.map (fun x => ((c.encK x.1).getD [], posEnc x.2))
  encK : ∀ x ∈ s.journal, (c.encK x.1).isSome
  ok : ∀ x ∈ s.journal, ∃ v, s.log[x.2]? = some (x.1, v)
  indexed : m.indexed = s.indexed
  its : ∀ i ∈ s.its, i ≤ s.log.length

theorem lookup_enc [DecidableEq K] {c : Codec K V} (hc : c.Lawful) {journal : List (K × Nat)}
    (he : ∀ x ∈ journal, (c.encK x.1).isSome) {k : K} {kb : List UInt8} (hk : c.encK k = some kb) :
    (journal.map (fun x => ((c.encK x.1).getD [], posEnc x.2))).lookup kb =
      (journal.lookup k).map posEnc := by
  induction journal with
  | nil => rfl
  | cons x xs ih =>
    obtain ⟨k', i⟩ := x
    obtain ⟨kb', hkb'⟩ := Option.isSome_iff_exists.mp (he (k', i) (by simp))
    simp only at hkb'
    rw [List.map_cons]
    simp only [hkb', Option.getD_some, List.lookup_cons]
    by_cases h : k = k'
    · subst h
      rw [hk] at hkb'; cases hkb'
      simp
    · have hne : (kb == kb') = false := by
        rw [beq_eq_false_iff_ne]
        rintro rfl
        exact h (hc.inj _ _ _ hk hkb')
      have hne' : (k == k') = false := by rw [beq_eq_false_iff_ne]; exact h
      simp only [hne, hne']
      exact ih (fun x hx => he x (by simp [hx]))

theorem lookup_mem [DecidableEq K] {journal : List (K × Nat)} {k : K} {i : Nat}
    (h : journal.lookup k = some i) : (k, i) ∈ journal := by
  induction journal with
  | nil => cases h
  | cons x xs ih =>
    obtain ⟨k', j⟩ := x
    rw [List.lookup_cons] at h
    by_cases hk : k = k'
    · subst hk
      simp only [beq_self_eq_true, Option.some.injEq] at h
      subst h; simp
    · have : (k == k') = false := by rw [beq_eq_false_iff_ne]; exact hk
      rw [this] at h
      simp [ih h]

theorem records_getElem? (c : Codec K V) (log : List (K × V)) (i : Nat) :
    (records c log)[i]? = log[i]?.map (fun x => (c.encV x.2).getD []) := by
  simp [records]

/-- What the map shows is what the specification says, whatever can be written to it. -/
structure MView (c : Codec K V) (m : ILM) (s : MSpec K V) : Prop where
  inv : ∃ es C, DBInv m.db es C (records c s.log)
  encV : ∀ x ∈ s.log, (c.encV x.2).isSome
  jr : m.journal = s.journal.map (fun x => ((c.encK x.1).getD [], posEnc x.2))
  encK : ∀ x ∈ s.journal, (c.encK x.1).isSome
  ok : ∀ x ∈ s.journal, ∃ v, s.log[x.2]? = some (x.1, v)
  indexed : m.indexed = s.indexed
  its : ∀ i ∈ s.its, i ≤ s.log.length

namespace MView

variable {p : Params} {c : Codec K V} {m : ILM} {s : MSpec K V}

theorem length_lt (h : MView c m s) : s.log.length < 2 ^ 60 := by
  obtain ⟨es, C, hinv⟩ := h.inv
  have := hinv.log_lt
  simp only [records, List.length_map] at this
  omega

theorem dec (hc : c.Lawful) (h : MView c m s) {i : Nat} {x : K × V} (hx : s.log[i]? = some x) :
    c.decV ((c.encV x.2).getD []) = some x.2 := by
  obtain ⟨bs, hbs⟩ := Option.isSome_iff_exists.mp (h.encV x (List.mem_of_getElem? hx))
  rw [hbs]
  exact hc.back _ _ hbs

/-- An iterator reads the value at its position and moves on. -/
theorem next_eq (hc : c.Lawful) (h : MView c m s) {i : Nat} (hi : i < 2 ^ 60) :
    next p c m i = (s.item i, if i < s.log.length then i + 1 else i) := by
  obtain ⟨es, C, hinv⟩ := h.inv
  unfold next
  rw [hinv.next_ok hi, records_getElem?]
  simp only [records, List.length_map, MSpec.item, MSpec.at_]
  congr 1
  cases hx : s.log[i]? with
  | none => rfl
  | some x =>
    simp only [Option.map_some, item, h.dec hc hx]

theorem item_result (s : MSpec K V) (i : Nat) : itemResult (s.item i) = .ok (s.at_ i) := by
  unfold MSpec.item
  cases s.at_ i <;> rfl

theorem iterFrom_eq [DecidableEq K] (hc : c.Lawful) (h : MView c m s) (k : K) :
    iterFrom c m k = s.keyed c k (s.journal.lookup k) := by
  unfold iterFrom MSpec.keyed
  rw [h.indexed]
  cases s.indexed with
  | false => rfl
  | true =>
    simp only [if_true]
    cases hk : c.encK k with
    | none => rfl
    | some kb =>
      simp only [Option.isSome_some, if_true]
      rw [h.jr, lookup_enc hc h.encK hk]
      cases hl : s.journal.lookup k with
      | none => rfl
      | some i => simp only [Option.map_some, posDec_posEnc]

theorem get_eq [DecidableEq K] (hc : c.Lawful) (h : MView c m s) (k : K) :
    get p c m k = s.keyed c k ((s.journal.lookup k).bind s.at_) := by
  unfold get
  rw [h.iterFrom_eq hc k]
  unfold MSpec.keyed
  cases s.indexed with
  | false => rfl
  | true =>
    simp only [if_true]
    cases hk : c.encK k with
    | none => rfl
    | some kb =>
      simp only [Option.isSome_some, if_true]
      cases hl : s.journal.lookup k with
      | none => rfl
      | some i =>
        obtain ⟨v, hv⟩ := h.ok _ (lookup_mem hl)
        have := (List.getElem?_eq_some_iff.mp hv).1
        have := h.length_lt
        simp only at *
        rw [h.next_eq hc (by omega)]
        simp only [item_result, Option.bind_some]

theorem getNext_eq [DecidableEq K] (hc : c.Lawful) (h : MView c m s) (k : K) :
    getNext p c m (some k) = s.keyed c k ((s.journal.lookup k).bind (fun i => s.at_ (i + 1))) := by
  unfold getNext
  simp only
  rw [h.iterFrom_eq hc k]
  unfold MSpec.keyed
  cases s.indexed with
  | false => rfl
  | true =>
    simp only [if_true]
    cases hk : c.encK k with
    | none => rfl
    | some kb =>
      simp only [Option.isSome_some, if_true]
      cases hl : s.journal.lookup k with
      | none => rfl
      | some i =>
        obtain ⟨v, hv⟩ := h.ok _ (lookup_mem hl)
        have h1 := (List.getElem?_eq_some_iff.mp hv).1
        have := h.length_lt
        simp only at *
        rw [h.next_eq hc (by omega), if_pos h1]
        have : s.item i = some (.ok v) := by simp [MSpec.item, MSpec.at_, hv]
        rw [this]
        simp only
        rw [h.next_eq hc (by omega)]
        simp only [item_result, Option.bind_some]

end MView

/-- A call that is not an append nor a reopening. -/
def MOp.Reads : MOp K V → Prop
  | .append _ _ => False
  | .reopen _ => False
  | _ => True

/-- One such call: answered as by the specification, and nothing but iterators changes. -/
theorem MView.step [DecidableEq K] {p : Params} {c : Codec K V} (hc : c.Lawful) {m : ILM} {s : MSpec K V}
    (h : MView c m s) (onDisk : Bool) (op : MOp K V) (hop : op.Reads) :
    (mStep p c onDisk m s.its op).1 = (mSpecStep c onDisk s op).1 ∧
    (mStep p c onDisk m s.its op).2.1 = m ∧
    (mStep p c onDisk m s.its op).2.2 = (mSpecStep c onDisk s op).2.its ∧
    (mSpecStep c onDisk s op).2.log = s.log ∧
    MView c m (mSpecStep c onDisk s op).2 := by
  have hlt := h.length_lt
  obtain ⟨es, C, hinv⟩ := h.inv
  cases op with
  | append k v => exact hop.elim
  | reopen indexed => exact hop.elim
  | get k =>
    simp only [mStep, mSpecStep]
    rw [h.get_eq hc k]
    exact ⟨rfl, trivial, trivial, trivial, h⟩
  | contains k =>
    simp only [mStep, mSpecStep, contains]
    rw [h.get_eq hc k]
    refine ⟨?_, trivial, trivial, trivial, h⟩
    unfold MSpec.keyed
    split <;> rename_i he <;> split at he
    · split at he
      · cases he
      · cases he; rename_i h1 h2; simp [h1, h2]
    · cases he; rename_i h1; simp [h1]
    · split at he
      · cases he; rename_i h1 h2; simp [h1, h2]
      · cases he
    · cases he
  | isEmpty =>
    simp only [mStep, mSpecStep, isEmpty]
    rw [h.indexed]
    refine ⟨?_, trivial, trivial, trivial, h⟩
    rw [h.jr]
    cases s.journal <;> simp
  | last =>
    simp only [mStep, mSpecStep, last]
    rw [hinv.last_ok]
    refine ⟨?_, trivial, trivial, trivial, h⟩
    have : (records c s.log).getLast? = s.log.getLast?.map (fun x => (c.encV x.2).getD []) := by
      simp [records]
    rw [this]
    cases hx : s.log.getLast? with
    | none => rfl
    | some x =>
      have hx' : s.log[s.log.length - 1]? = some x := by rw [← hx, List.getLast?_eq_getElem?]
      simp only [Option.map_some, h.dec hc hx']
  | iter =>
    simp only [mStep, mSpecStep]
    refine ⟨trivial, trivial, trivial, trivial, ⟨h.inv, h.encV, h.jr, h.encK, h.ok, h.indexed, ?_⟩⟩
    intro i hi
    rcases List.mem_append.mp hi with hi | hi
    · exact h.its i hi
    · simp only [List.mem_singleton] at hi; omega
  | iterFrom k =>
    simp only [mStep, mSpecStep]
    rw [h.iterFrom_eq hc k]
    unfold MSpec.keyed
    cases s.indexed with
    | false => exact ⟨rfl, rfl, rfl, rfl, h⟩
    | true =>
      simp only [if_true]
      cases hk : c.encK k with
      | none => exact ⟨rfl, rfl, rfl, rfl, h⟩
      | some kb =>
        simp only [Option.isSome_some, if_true]
        cases hl : s.journal.lookup k with
        | none => exact ⟨rfl, rfl, rfl, rfl, h⟩
        | some i =>
          refine ⟨rfl, rfl, rfl, rfl, ⟨h.inv, h.encV, h.jr, h.encK, h.ok, h.indexed, ?_⟩⟩
          intro j hj
          rcases List.mem_append.mp hj with hj | hj
          · exact h.its j hj
          · simp only [List.mem_singleton] at hj
            obtain ⟨v, hv⟩ := h.ok _ (lookup_mem hl)
            have := (List.getElem?_eq_some_iff.mp hv).1
            simp only at this
            simp only [MSpec.start]
            omega
  | next it =>
    simp only [mStep, mSpecStep]
    cases hi : s.its[it]? with
    | none => exact ⟨rfl, rfl, rfl, rfl, h⟩
    | some i =>
      have hil := h.its i (List.mem_of_getElem? hi)
      simp only
      rw [h.next_eq hc (by omega)]
      refine ⟨rfl, trivial, rfl, trivial, ⟨h.inv, h.encV, h.jr, h.encK, h.ok, h.indexed, ?_⟩⟩
      intro j hj
      rcases List.mem_or_eq_of_mem_set hj with h1 | h1
      · exact h.its j h1
      · simp only at h1 ⊢
        split at h1 <;> omega
  | getNext k =>
    cases k with
    | none =>
      simp only [mStep, mSpecStep, getNext]
      rw [h.next_eq hc (by decide)]
      simp only [MView.item_result]
      exact ⟨trivial, trivial, trivial, trivial, h⟩
    | some k =>
      simp only [mStep, mSpecStep]
      rw [h.getNext_eq hc k]
      exact ⟨rfl, trivial, trivial, trivial, h⟩

namespace MRel

variable {p : Params} {c : Codec K V} {onDisk : Bool} {m : ILM} {s : MSpec K V} {used : Nat}

theorem view (h : MRel p c onDisk m s used) : MView c m s := by
  obtain ⟨es, C, hinv, _⟩ := h.good.ex
  exact ⟨⟨es, C, hinv⟩, h.encV, h.jr, h.encK, h.ok, h.indexed, h.its⟩

theorem length_lt (h : MRel p c onDisk m s used) (_ : used < 2 ^ 60) : s.log.length < 2 ^ 60 := h.view.length_lt

theorem next_eq (hc : c.Lawful) (h : MRel p c onDisk m s used) {i : Nat} (hi : i < 2 ^ 60) :
    next p c m i = (s.item i, if i < s.log.length then i + 1 else i) := h.view.next_eq hc hi

theorem iterFrom_eq [DecidableEq K] (hc : c.Lawful) (h : MRel p c onDisk m s used) (k : K) :
    iterFrom c m k = s.keyed c k (s.journal.lookup k) := h.view.iterFrom_eq hc k

theorem get_eq [DecidableEq K] (hc : c.Lawful) (h : MRel p c onDisk m s used) (_ : used < 2 ^ 60) (k : K) :
    get p c m k = s.keyed c k ((s.journal.lookup k).bind s.at_) := h.view.get_eq hc k

theorem getNext_eq [DecidableEq K] (hc : c.Lawful) (h : MRel p c onDisk m s used) (_ : used < 2 ^ 60) (k : K) :
    getNext p c m (some k) = s.keyed c k ((s.journal.lookup k).bind (fun i => s.at_ (i + 1))) :=
  h.view.getNext_eq hc k

/-- A call that reads. -/
theorem read [DecidableEq K] (hc : c.Lawful) (h : MRel p c onDisk m s used) (op : MOp K V) (hop : op.Reads) {used' : Nat}
    (hu : used ≤ used') :
    (mStep p c onDisk m s.its op).1 = (mSpecStep c onDisk s op).1 ∧
    (mStep p c onDisk m s.its op).2.2 = (mSpecStep c onDisk s op).2.its ∧
    MRel p c onDisk (mStep p c onDisk m s.its op).2.1 (mSpecStep c onDisk s op).2 used' := by
  obtain ⟨h1, h2, h3, h4, h5⟩ := h.view.step (p := p) hc onDisk op hop
  refine ⟨h1, h3, ?_⟩
  rw [h2]
  exact ⟨by rw [h4]; exact h.good.more hu, h5.encV, h5.jr, h5.encK, h5.ok, h5.indexed, h5.its⟩

/-- One call. -/
theorem step [DecidableEq K] (hp : 16 ∣ p.minMmap) (hc : c.Lawful) (h : MRel p c onDisk m s used)
    (op : MOp K V) (hfit : used + op.bytes c < 2 ^ 60) :
    (mStep p c onDisk m s.its op).1 = (mSpecStep c onDisk s op).1 ∧
    (mStep p c onDisk m s.its op).2.2 = (mSpecStep c onDisk s op).2.its ∧
    MRel p c onDisk (mStep p c onDisk m s.its op).2.1 (mSpecStep c onDisk s op).2 (used + op.bytes c) := by
  have hu : used < 2 ^ 60 := by omega
  have hlt := h.length_lt hu
  obtain ⟨es, C, hinv, _⟩ := h.good.ex
  have hmore : MRel p c onDisk m s (used + op.bytes c) :=
    ⟨h.good.more (by omega), h.encV, h.jr, h.encK, h.ok, h.indexed, h.its⟩
  cases op with
  | append k v =>
    simp only [mStep, mSpecStep, append, appendWith]
    rw [h.indexed]
    cases hidx : s.indexed with
    | false => exact ⟨rfl, rfl, hmore⟩
    | true =>
      simp only [if_true]
      cases hk : c.encK k with
      | none => simp only [Option.isSome_none, Bool.false_eq_true, false_and, if_false]; exact ⟨trivial, trivial, hmore⟩
      | some kb =>
        cases hv : c.encV v with
        | none => simp only [Option.isSome_none, Bool.false_eq_true, and_false, if_false]; exact ⟨trivial, trivial, hmore⟩
        | some vb =>
          have hne : vb ≠ [] := by rintro rfl; exact hc.some_ v hv
          simp only [MOp.bytes, hv, Option.getD_some] at hfit ⊢
          obtain ⟨db1, e, hg⟩ := good_append hp h.good (batch := [vb]) (by simp) (by simpa using hne)
            (by simpa using hfit)
          simp only [e, Option.isSome_some, and_self, if_true, Bool.false_eq_true, if_false]
          refine ⟨trivial, trivial, ?_⟩
          refine ⟨?_, ?_, ?_, ?_, ?_, by simp, ?_⟩
          · have : records c (s.log ++ [(k, v)]) = records c s.log ++ [vb] := by simp [records, hv]
            simp only
            rw [this]
            simpa using hg
          · intro x hx
            rcases List.mem_append.mp hx with hx | hx
            · exact h.encV x hx
            · simp only [List.mem_singleton] at hx; subst hx; simp [hv]
          · simp only [List.map_cons, hk, Option.getD_some, h.jr, records, List.length_map]
          · intro x hx
            rcases List.mem_cons.mp hx with hx | hx
            · subst hx; simp [hk]
            · exact h.encK x hx
          · intro x hx
            rcases List.mem_cons.mp hx with hx | hx
            · subst hx; exact ⟨v, by simp⟩
            · obtain ⟨w, hw⟩ := h.ok x hx
              exact ⟨w, by
                simp only
                rw [List.getElem?_append_left (List.getElem?_eq_some_iff.mp hw).1]; exact hw⟩
          · intro i hi
            have := h.its i hi
            simp only [List.length_append, List.length_singleton]; omega
  | get k => exact h.read hc (.get k) trivial (by omega)
  | contains k => exact h.read hc (.contains k) trivial (by omega)
  | isEmpty => exact h.read hc (.isEmpty) trivial (by omega)
  | last => exact h.read hc (.last) trivial (by omega)
  | iter => exact h.read hc (.iter) trivial (by omega)
  | iterFrom k => exact h.read hc (.iterFrom k) trivial (by omega)
  | next it => exact h.read hc (.next it) trivial (by omega)
  | getNext k => exact h.read hc (.getNext k) trivial (by omega)
  | reopen indexed =>
    simp only [mStep, mSpecStep, reopen]
    obtain ⟨db1, e, hg⟩ := good_reopen (p := p) h.good
    simp only [e]
    refine ⟨trivial, trivial, ?_⟩
    cases onDisk with
    | true => exact ⟨by simpa using hg.more (by omega), h.encV, h.jr, h.encK, h.ok, rfl, by simp⟩
    | false =>
      exact ⟨by simpa [records] using hg.more (by omega), by simp, by simp, by simp, by simp, rfl, by simp⟩

end MRel

theorem mBytes_cons (c : Codec K V) (op : MOp K V) (ops : List (MOp K V)) :
    mBytes c (op :: ops) = op.bytes c + mBytes c ops := by simp [mBytes]

/-- A history. -/
theorem MRel.run [DecidableEq K] {p : Params} {c : Codec K V} {onDisk : Bool} (hp : 16 ∣ p.minMmap)
    (hc : c.Lawful) (ops : List (MOp K V)) {m : ILM} {s : MSpec K V} {used : Nat}
    (h : MRel p c onDisk m s used) (hfit : used + mBytes c ops < 2 ^ 60) :
    mRun p c onDisk m s.its ops = mSpecRun c onDisk s ops ∧
    (mAfter p c onDisk m s.its ops).2 = (mSpecAfter c onDisk s ops).its ∧
    MRel p c onDisk (mAfter p c onDisk m s.its ops).1 (mSpecAfter c onDisk s ops) (used + mBytes c ops) := by
  induction ops generalizing m s used with
  | nil => exact ⟨rfl, rfl, by simpa [mBytes, mAfter, mSpecAfter] using h⟩
  | cons op ops ih =>
    rw [mBytes_cons] at hfit ⊢
    obtain ⟨h1, h2, h3⟩ := h.step hp hc op (by omega)
    obtain ⟨h4, h5, h6⟩ := ih h3 (by omega)
    rw [← Nat.add_assoc]
    simp only [mRun, mSpecRun, mAfter, mSpecAfter, List.foldl_cons] at h4 h5 h6 ⊢
    rw [← h2] at h4 h5 h6
    exact ⟨by rw [h1, h4], h5, h6⟩

theorem fresh_rel (p : Params) (c : Codec K V) (onDisk indexed : Bool) :
    ∃ m, fresh p onDisk indexed = .ok m ∧ MRel p c onDisk m ⟨[], [], indexed, []⟩ 0 := by
  obtain ⟨db, e, hg⟩ := fresh_good p onDisk
  exact ⟨⟨db, [], indexed⟩, by unfold fresh; rw [e], ⟨by simpa [records] using hg, by simp, by simp, by simp,
    by simp, rfl, by simp⟩⟩

/-- Histories with crashes. -/
theorem MReached.rel [DecidableEq K] {p : Params} {c : Codec K V} (hp : 16 ∣ p.minMmap)
    (hm : p.minMmap < 2 ^ 62) (hc : c.Lawful) {m : ILM} {s : MSpec K V} {used : Nat}
    (h : MReached p c m s used) (hfit : used < 2 ^ 59) : MRel p c true m s used := by
  induction h with
  | @fresh m indexed h =>
    obtain ⟨m', e, hr⟩ := fresh_rel p c true indexed
    rw [h] at e; cases e
    exact hr
  | call op _ ih => exact (ih (by omega)).step hp hc op (by omega) |>.2.2
  | @crash m s used j lost indexed fd fi db inFlight _ hlen hok hcr hop ih =>
    have hr := ih (by omega)
    have hsum : ((inFlight.map (fun x => (c.encV x.2).getD [])).map List.length).sum =
        (inFlight.map (fun x => ((c.encV x.2).getD []).length)).sum := by
      rw [List.map_map]; rfl
    rw [← hsum] at hfit ⊢
    obtain ⟨hdisk, hfl⟩ := hcr.disk hp hm hr.good hfit
    obtain ⟨db1, es, C, e, hinv, hrm, hle, hwd, hwi, hfd, hfi⟩ := open_spec (p := p) hdisk true
    rw [hop] at e; cases e
    have htake : records c (s.log ++ inFlight.take j) =
        records c s.log ++ (inFlight.map (fun x => (c.encV x.2).getD [])).take j := by
      simp [records, List.map_take]
    refine ⟨?_, ?_, ?_, ?_, ?_, rfl, by simp⟩
    · simp only
      rw [htake]
      exact ⟨⟨es, C, hinv, hle⟩, hrm, hwd, hwi, by simp [hfi], fun f hf => by
        rw [hfi] at hf; cases hf; exact hfl⟩
    · intro x hx
      rcases List.mem_append.mp hx with hx | hx
      · exact hr.encV x hx
      · exact (hok x (List.mem_of_mem_take hx)).2.2
    · simp only [hr.jr, List.map_drop]
    · intro x hx
      exact hr.encK x (List.mem_of_mem_drop hx)
    · intro x hx
      obtain ⟨v, hv⟩ := hr.ok x (List.mem_of_mem_drop hx)
      exact ⟨v, by
        simp only
        rw [List.getElem?_append_left (List.getElem?_eq_some_iff.mp hv).1]; exact hv⟩

end Verif.Ilm
