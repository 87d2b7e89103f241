import Verif.Ilm.Shared

/-! # The threads of the code do what the specification says -/

namespace Verif.Ilm

open Verif.Fraos

variable {K V : Type} {sys : Bool} [DecidableEq K]

/-! ### One thread alone -/

/-- Programs run by one thread alone are the sequential functions. -/
def soleAnswer (p : Params) (c : Codec K V) (m : ILM) : SCall K V → SResp V × ILM
  | .append k v => (.done (append p c m k v).1, (append p c m k v).2)
  | .get k => (.value (get p c m k), m)
  | .contains k => (.flag (contains p c m k), m)
  | .isEmpty => (.flag (isEmpty m), m)
  | .last => (.value (last p c m), m)
  | .iterFrom k => (.start (iterFrom c m k), m)
  | .item i => (.item (next p c m i).1, m)
  | .getNext k => (.value (getNext p c m k), m)

omit [DecidableEq K] in
theorem next_get (p : Params) (db : DB) (i : Nat) : (db.next p i).1 = db.get p i := by
  unfold DB.next DB.get
  cases getEntry p db.idx i with
  | error e => rfl
  | ok o =>
    cases o with
    | none => rfl
    | some x =>
      obtain ⟨o, l⟩ := x
      cases h : getRecord db.data o l <;> simp [h]

omit [DecidableEq K] in
theorem next_moved (p : Params) (db : DB) (i : Nat) : (db.next p i).2 = moved i (.record (db.get p i)) ∨
    (db.next p i).1 = .ok none := by
  unfold DB.next DB.get
  cases getEntry p db.idx i with
  | error e => exact .inl rfl
  | ok o =>
    cases o with
    | none => exact .inr rfl
    | some x =>
      obtain ⟨o, l⟩ := x
      cases h : getRecord db.data o l <;> simp [h, moved]

omit [DecidableEq K] in
theorem locate_run {R : Type} (p : Params) (c : Codec K V) (m : ILM) (k : K) (f : Except MErr (Option Nat) → Prog R) :
    (locate c m.indexed k f).run p m = (f (iterFrom c m k)).run p m := by
  unfold locate iterFrom
  split
  · cases c.encK k with
    | none => rfl
    | some kb =>
      simp only [Prog.run]
      cases m.journal.lookup kb with
      | none => rfl
      | some bs => simp only; cases posDec bs <;> rfl
  · rfl

omit [DecidableEq K] in
theorem getProg_run {R : Type} (p : Params) (c : Codec K V) (m : ILM) (k : K) (f : Except MErr (Option V) → R) :
    (getProg c m.indexed k f).run p m = (f (get p c m k), m) := by
  unfold getProg get
  rw [locate_run]
  cases iterFrom c m k with
  | error e => rfl
  | ok o =>
    cases o with
    | none => rfl
    | some i => simp [Prog.run, next, recordOf, next_get]

omit [DecidableEq K] in
/-- A call made by one thread alone is the call of the sequential model. -/
theorem prog_run (p : Params) (c : Codec K V) (m : ILM) (cl : SCall K V) :
    (prog c m.indexed cl).run p m = soleAnswer p c m cl := by
  cases cl with
  | append k v =>
    simp only [prog, soleAnswer, append, appendWith]
    split
    · cases c.encK k with
      | none => rfl
      | some kb =>
        cases c.encV v with
        | none => rfl
        | some vb =>
          simp only [Prog.run]
          rcases h : m.db.append p Faults.none Faults.none [vb] with ⟨r, db⟩
          simp only
          rcases r with e | o
          · rfl
          · cases o <;> rfl
    · rfl
  | get k => exact getProg_run ..
  | contains k =>
    simp only [prog, soleAnswer, contains, getProg_run]
    cases get p c m k <;> rfl
  | isEmpty =>
    simp only [prog, soleAnswer, isEmpty]
    split <;> rfl
  | last =>
    simp only [prog, soleAnswer, last, DB.last, Prog.run]
    by_cases h : m.db.len = 0
    · rw [if_pos (show numberOf (.number m.db.len) = 0 from h), if_pos (show m.db.isEmpty = true by simp [DB.isEmpty, h])]; rfl
    · rw [if_neg (show ¬ numberOf (.number m.db.len) = 0 from h), if_neg (show ¬ m.db.isEmpty = true by simp [DB.isEmpty, h])]
      simp only [Prog.run, recordOf]
      change (SResp.value (itemResult (item c (m.db.get p (m.db.len - 1)))), m) = _
      cases m.db.get p (m.db.len - 1) with
      | error e => rfl
      | ok o =>
        cases o with
        | none => rfl
        | some bs => simp only [item]; cases c.decV bs <;> rfl
  | iterFrom k => simp only [prog, soleAnswer, locate_run]; rfl
  | item i => simp [prog, soleAnswer, Prog.run, next, recordOf, next_get]
  | getNext k =>
    cases k with
    | none => simp [prog, soleAnswer, getNext, Prog.run, next, recordOf, next_get]
    | some k =>
      simp only [prog, soleAnswer, getNext, locate_run]
      cases iterFrom c m k with
      | error e => rfl
      | ok o =>
        cases o with
        | none => rfl
        | some i =>
          simp only [Prog.run, recordOf, next, next_get]
          have hm := next_moved p m.db i
          rw [next_get] at hm
          rcases hm with hm | hm
          · rw [hm]
            cases item c (m.db.get p i) with
            | none => rfl
            | some x => rfl
          · rw [hm]; rfl

/-! ### The relation -/

/-- The key index of the code. -/
def encKeys (c : Codec K V) (keys : List (K × Nat)) : List (List UInt8 × List UInt8) :=
  keys.map (fun x => ((c.encK x.1).getD [], posEnc x.2))

/-- What is shared is consistent. -/
structure Shared.WF (c : Codec K V) (S : Shared K V) : Prop where
  le : S.counted ≤ S.log.length
  encV : ∀ x ∈ S.log, (c.encV x.2).isSome
  encK : ∀ x ∈ S.keys, (c.encK x.1).isSome
  ok : ∀ x ∈ S.keys, ∃ v, S.log[x.2]? = some (x.1, v)
  len : S.log.length < 2 ^ 60

/-- `S'` comes after `S`. -/
structure Shared.Later (c : Codec K V) (S S' : Shared K V) : Prop where
  wf : S'.WF c
  log : S.log <+: S'.log
  keys : S.keys <:+ S'.keys
  counted : S.counted ≤ S'.counted

omit [DecidableEq K] in
theorem Shared.WF.refl {c : Codec K V} {S : Shared K V} (h : S.WF c) : S.Later c S :=
  ⟨h, List.prefix_refl _, List.suffix_refl _, le_refl _⟩

omit [DecidableEq K] in
theorem Shared.Later.trans {c : Codec K V} {S S' S'' : Shared K V} (h : S.Later c S') (h' : S'.Later c S'') : S.Later c S'' :=
  ⟨h'.wf, h.log.trans h'.log, h.keys.trans h'.keys, le_trans h.counted h'.counted⟩

/-- At most one step of a thread that does not change what is shared. -/
inductive Local (c : Codec K V) (indexed : Bool) (S : Shared K V) : SpPC K V → SpPC K V → Prop
  | stay {sp : SpPC K V} : Local c indexed S sp sp
  | look {cl : SCall K V} {r : SResp V} : look c indexed S cl = some r → Local c indexed S (.called cl) (.ready cl r)
  | pass {k : K} {i : Nat} : indexed = true → (c.encK k).isSome → S.keys.lookup k = some i →
      Local c indexed S (.called (.getNext (some k))) (.passed k i)
  | follow {k : K} {i : Nat} :
      Local c indexed S (.passed k i) (.ready (.getNext (some k)) (.value (.ok (S.log[i + 1]?.map Prod.snd))))

theorem Local.step {c : Codec K V} {indexed : Bool} {n : Nat} {s : SpState n K V} {t : Fin n} {sp : SpPC K V}
    (h : Local c indexed s.sh (s.pcs t) sp) :
    sp = s.pcs t ∨ SpStep c sys indexed s none ⟨s.sh, Function.update s.pcs t sp⟩ := by
  generalize hx : s.pcs t = x at h
  cases h with
  | stay => exact .inl rfl
  | look h => exact .inr (.look hx h)
  | pass h1 h2 h3 => exact .inr (.pass hx h1 h2 h3)
  | follow => exact .inr (.follow hx)

/-- What is left of a call of the code, for a thread that the specification has at `sp`: whatever the stores are when the program
goes on, the specification can follow. -/
def Ok (c : Codec K V) (indexed : Bool) (cl : SCall K V) : Prog (SResp V) → Shared K V → SpPC K V → Prop
  | .done r, _, sp => sp = .ready cl r ∨ sp = .called cl ∧ ∀ S, look c indexed S cl = some r
  | .log (.append b) next, _, sp => ∃ k v kb vb, cl = .append k v ∧ sp = .called (.append k v) ∧ indexed = true ∧
      c.encK k = some kb ∧ c.encV v = some vb ∧ b = [vb] ∧ vb ≠ [] ∧
      (∀ i, next (.seqno (.ok (some i))) = .insert kb (posEnc i) (.done (.done (.ok ())))) ∧
      ∀ e, next (.seqno (.error e)) = .done (.done (.error (.storage e)))
  | .log (.get i) next, S, sp => (∀ k v, cl ≠ .append k v) ∧ i < 2 ^ 60 ∧ ∀ S', S.Later c S' →
      ∃ sp', Local c indexed S' sp sp' ∧
        Ok c indexed cl (next (.record (.ok (S'.log[i]?.map (fun x => (c.encV x.2).getD []))))) S' sp'
  | .log .len next, S, sp => (∀ k v, cl ≠ .append k v) ∧ ∀ S', S.Later c S' →
      ∃ sp', Local c indexed S' sp sp' ∧ Ok c indexed cl (next (.number S'.counted)) S' sp'
  | .lookup kb next, S, sp => (∀ k v, cl ≠ .append k v) ∧ ∀ S', S.Later c S' →
      ∃ sp', Local c indexed S' sp sp' ∧ Ok c indexed cl (next ((encKeys c S'.keys).lookup kb)) S' sp'
  | .insert kb pb q, S, sp => ∃ k v i, cl = .append k v ∧ sp = .counted k v i ∧ c.encK k = some kb ∧ pb = posEnc i ∧
      S.log[i]? = some (k, v) ∧ q = .done (.done (.ok ()))
  | .vacant next, S, sp => (∀ k v, cl ≠ .append k v) ∧ ∀ S', S.Later c S' →
      ∃ sp', Local c indexed S' sp sp' ∧ Ok c indexed cl (next S'.keys.isEmpty) S' sp'

theorem Ok.later {c : Codec K V} {indexed : Bool} {cl : SCall K V} {q : Prog (SResp V)} {S S' : Shared K V} {sp : SpPC K V}
    (h : Ok c indexed cl q S sp) (hl : S.Later c S') : Ok c indexed cl q S' sp := by
  cases q with
  | done r => exact h
  | log call next =>
    cases call with
    | append b => exact h
    | get i => exact ⟨h.1, h.2.1, fun S'' h' => h.2.2 S'' (hl.trans h')⟩
    | len => exact ⟨h.1, fun S'' h' => h.2 S'' (hl.trans h')⟩
  | lookup kb next => exact ⟨h.1, fun S'' h' => h.2 S'' (hl.trans h')⟩
  | insert kb pb q =>
    obtain ⟨k, v, i, h1, h2, h3, h4, h5, h6⟩ := h
    exact ⟨k, v, i, h1, h2, h3, h4, prefix_get hl.log h5, h6⟩
  | vacant next => exact ⟨h.1, fun S'' h' => h.2 S'' (hl.trans h')⟩

/-! ### Every call -/

omit [DecidableEq K] in
theorem item_enc {c : Codec K V} (hc : c.Lawful) {S : Shared K V} (hS : S.WF c) (i : Nat) :
    item c (recordOf (.record (.ok (S.log[i]?.map (fun x => (c.encV x.2).getD []))))) =
      S.log[i]?.map (fun x => .ok x.2) := by
  simp only [recordOf]
  cases hx : S.log[i]? with
  | none => rfl
  | some x =>
    obtain ⟨bs, hbs⟩ := Option.isSome_iff_exists.mp (hS.encV x (List.mem_of_getElem? hx))
    simp [item, hbs, hc.back _ _ hbs]

/-- A program that looks for a key. -/
theorem locate_ok {c : Codec K V} (hc : c.Lawful) {indexed : Bool} {cl : SCall K V} (hcl : ∀ k v, cl ≠ .append k v) {k : K}
    {f : Except MErr (Option Nat) → Prog (SResp V)} {S : Shared K V} {sp : SpPC K V}
    (he : ∀ e S, S.WF c → keyed c indexed k () = .error e → Ok c indexed cl (f (.error e)) S sp)
    (hf : ∀ S', S.Later c S' → keyed c indexed k () = .ok () → ∃ sp', Local c indexed S' sp sp' ∧
      Ok c indexed cl (f (.ok (S'.keys.lookup k))) S' sp') (hS : S.WF c) :
    Ok c indexed cl (locate c indexed k f) S sp := by
  unfold locate
  cases hi : indexed with
  | false =>
    subst hi
    exact he _ S hS rfl
  | true =>
    subst hi
    simp only [if_true]
    cases hk : c.encK k with
    | none => exact he _ S hS (by simp [keyed, hk])
    | some kb =>
      refine ⟨hcl, fun S' hl => ?_⟩
      obtain ⟨sp', h1, h2⟩ := hf S' hl (by simp [keyed, hk])
      refine ⟨sp', h1, ?_⟩
      rw [encKeys, lookup_enc hc hl.wf.encK hk]
      cases hx : S'.keys.lookup k with
      | none => rw [hx] at h2; exact h2
      | some i => rw [hx] at h2; simpa [posDec_posEnc] using h2

theorem Shared.Later.value {c : Codec K V} {S S' : Shared K V} (hS : S.WF c) (hl : S.Later c S') {k : K} {i : Nat}
    (h : S.keys.lookup k = some i) : ∃ v, S.log[i]? = some (k, v) ∧ S'.log[i]? = some (k, v) ∧ i + 1 < 2 ^ 60 ∧
      S.value k = some v := by
  obtain ⟨v, hv⟩ := hS.ok _ (lookup_mem h)
  have hlt := (List.getElem?_eq_some_iff.mp hv).1
  have := hS.len
  exact ⟨v, hv, prefix_get hl.log hv, by simp only at hlt; omega, by simp [Shared.value, h, hv]⟩

theorem getProg_ok {c : Codec K V} (hc : c.Lawful) {indexed : Bool} {cl : SCall K V} (hcl : ∀ k v, cl ≠ .append k v) {k : K}
    {f : Except MErr (Option V) → SResp V} {S : Shared K V} (hS : S.WF c)
    (hlook : ∀ S, look c indexed S cl = some (f (keyed c indexed k (S.value k)))) :
    Ok c indexed cl (getProg c indexed k f) S (.called cl) := by
  refine locate_ok hc hcl ?_ ?_ hS
  · intro e S _ he
    refine .inr ⟨rfl, fun S' => ?_⟩
    rw [hlook]
    revert he
    unfold keyed
    split
    · split
      · intro h; cases h
      · intro h; cases h; rfl
    · intro h; cases h; rfl
  · intro S' hl hk
    have hk' : keyed c indexed k (S'.value k) = .ok (S'.value k) := by
      revert hk
      unfold keyed
      split
      · split
        · intro _; rfl
        · intro h; cases h
      · intro h; cases h
    refine ⟨_, .look (hlook S'), ?_⟩
    cases hx : S'.keys.lookup k with
    | none =>
      refine .inl ?_
      rw [hk']
      simp [Shared.value, hx]
    | some i =>
      obtain ⟨v, h1, _, h3, h4⟩ := hl.wf.refl.value hl.wf hx
      refine ⟨hcl, by omega, fun S'' hl' => ⟨_, .stay, .inl ?_⟩⟩
      rw [item_enc hc hl'.wf, prefix_get hl'.log h1, hk', h4]
      rfl

/-- Every call of the code can be followed. -/
theorem prog_ok {c : Codec K V} (hc : c.Lawful) {indexed : Bool} {cl : SCall K V} (hsm : cl.small) {S : Shared K V}
    (hS : S.WF c) : Ok c indexed cl (prog c indexed cl) S (.called cl) := by
  cases cl with
  | append k v =>
    simp only [prog]
    cases hi : indexed with
    | false => exact .inr ⟨rfl, fun S => rfl⟩
    | true =>
      simp only [if_true]
      cases hk : c.encK k with
      | none => exact .inr ⟨rfl, fun S => by simp [look, hk]⟩
      | some kb =>
        cases hv : c.encV v with
        | none => exact .inr ⟨rfl, fun S => by simp [look, hv]⟩
        | some vb =>
          exact ⟨k, v, kb, vb, rfl, rfl, rfl, hk, hv, rfl, by rintro rfl; exact hc.some_ v hv, fun i => rfl, fun e => rfl⟩
  | get k => exact getProg_ok hc (by intro k v h; cases h) hS (fun S => rfl)
  | contains k =>
    unfold prog
    refine getProg_ok hc (by intro k v h; cases h) hS (fun S => ?_)
    simp only [look, keyed]
    split
    · split <;> rfl
    · rfl
  | isEmpty =>
    simp only [prog]
    cases hi : indexed with
    | false => exact .inr ⟨rfl, fun S => by simp [look]⟩
    | true => exact ⟨by simp, fun S' hl => ⟨_, .look (by simp [look]), .inl rfl⟩⟩
  | last =>
    refine ⟨by simp, fun S' hl => ?_⟩
    by_cases h0 : S'.counted = 0
    · refine ⟨_, .look rfl, ?_⟩
      beta_reduce
      rw [if_pos (show numberOf (.number S'.counted) = 0 from h0)]
      exact .inl (by simp [h0])
    · refine ⟨_, .stay, ?_⟩
      beta_reduce
      rw [if_neg (show ¬ numberOf (.number S'.counted) = 0 from h0)]
      refine ⟨by simp, fun S'' hl' => ⟨_, .look rfl, ?_⟩⟩
      have h1 := hl'.counted
      have h2 := hl'.wf.le
      have h3 := hl'.wf.len
      simp only [numberOf]
      refine ⟨by simp, by omega, fun S3 hl3 => ⟨_, .stay, .inl ?_⟩⟩
      have hx : S''.log[S''.counted - 1]? = some (S''.log[S''.counted - 1]'(by omega)) := List.getElem?_eq_getElem _
      rw [item_enc hc hl3.wf, prefix_get hl3.log hx]
      have : (S''.log.take S''.counted).getLast? = some (S''.log[S''.counted - 1]'(by omega)) := by
        rw [List.getLast?_eq_getElem?, List.length_take, Nat.min_eq_left h2, List.getElem?_take_of_lt (by omega), hx]
      rw [this]
      rfl
  | iterFrom k =>
    unfold prog
    refine locate_ok hc (by intro k v h; cases h) ?_ ?_ hS
    · intro e S _ he
      refine .inr ⟨rfl, fun S' => ?_⟩
      revert he
      simp only [look, keyed]
      split
      · split
        · intro h; cases h
        · intro h; cases h; rfl
      · intro h; cases h; rfl
    · intro S' hl hk
      refine ⟨_, .look rfl, .inl ?_⟩
      revert hk
      simp only [keyed]
      split
      · split
        · intro _; rfl
        · intro h; cases h
      · intro h; cases h
  | item i =>
    refine ⟨by simp, hsm, fun S' hl => ⟨_, .look rfl, .inl ?_⟩⟩
    rw [item_enc hc hl.wf]
  | getNext k =>
    cases k with
    | none =>
      refine ⟨by simp, by norm_num, fun S' hl => ⟨_, .look rfl, .inl ?_⟩⟩
      rw [item_enc hc hl.wf]
      cases S'.log[0]? <;> rfl
    | some k =>
      unfold prog
      refine locate_ok hc (by intro k v h; cases h) ?_ ?_ hS
      · intro e S _ he
        refine .inr ⟨rfl, fun S' => ?_⟩
        revert he
        simp only [look, keyed]
        split
        · split
          · intro h; cases h
          · intro h; cases h; rfl
        · intro h; cases h; rfl
      · intro S' hl hk
        have hk' : indexed = true ∧ (c.encK k).isSome := by
          revert hk
          unfold keyed
          split
          · split
            · intro _; exact ⟨by assumption, by assumption⟩
            · intro h; cases h
          · intro h; cases h
        cases hx : S'.keys.lookup k with
        | none =>
          refine ⟨_, .look (r := .value (.ok none)) ?_, .inl rfl⟩
          simp [look, keyed, hk'.1, hk'.2, hx]
        | some i =>
          refine ⟨_, .pass hk'.1 hk'.2 hx, ?_⟩
          obtain ⟨v, h1, _, h3, h4⟩ := hl.wf.refl.value hl.wf hx
          refine ⟨by simp, by omega, fun S'' hl' => ⟨_, .stay, ?_⟩⟩
          beta_reduce
          rw [item_enc hc hl'.wf, prefix_get hl'.log h1]
          refine ⟨by simp, by simpa [moved] using h3, fun S3 hl3 => ⟨_, .follow, .inl ?_⟩⟩
          simp only [moved]
          rw [item_enc hc hl3.wf]
          cases S3.log[i + 1]? <;> rfl

end Verif.Ilm
