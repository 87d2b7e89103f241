import Verif.Json.Config
import Verif.Props.JsonDocs
import Verif.Props.Multisig
import Verif.Props.CoreNumbers
import Verif.Props.Time
import Verif.Props.Thermostat

/-!
# Configuration documents (C80)

`Member m k d` says that `d` is the one member named `k` of an object.
-/

namespace Verif.Props

open Verif.Core Verif.Json

/-- The object with the members `m` has exactly one member named `k`, and it is `d`. -/
def Member (m : List (Str × Doc)) (k : Str) (d : Doc) : Prop := m.filter (fun p => p.1 == k) = [(k, d)]

/-- The object has no member named `k`. -/
def Absent (m : List (Str × Doc)) (k : Str) : Prop := ∀ p ∈ m, p.1 ≠ k

theorem filter_key {m : List (Str × Doc)} {k : Str} {p : Str × Doc}
    (h : p ∈ m.filter (fun p => p.1 == k)) : p.1 = k := by
  simpa using (List.mem_filter.mp h).2

/-- What the members of an object say about one field. -/
theorem field_cases (m : List (Str × Doc)) (k : Str)
    (h : ¬ 1 < (m.filter (fun p => p.1 == k)).length) (o : Option Doc) :
    (m.find? (fun p => p.1 == k)).map (·.2) = o ↔
      match o with
      | none => Absent m k
      | some d => Member m k d := by
  rw [← List.head?_filter]
  unfold Absent Member
  cases hf : m.filter (fun p => p.1 == k) with
  | nil =>
    have hn : ∀ p ∈ m, p.1 ≠ k := by
      intro p hp he
      have : p ∈ m.filter (fun p => p.1 == k) := List.mem_filter.mpr ⟨hp, by simpa using he⟩
      rw [hf] at this
      simp at this
    cases o <;> simp
    exact fun a b hm => hn (a, b) hm
  | cons x xs =>
    rw [hf] at h
    have hxs : xs = [] := by simpa using h
    subst hxs
    have hx : x.1 = k := filter_key (m := m) (by rw [hf]; simp)
    have hmem : x ∈ m := (List.mem_filter.mp (by rw [hf]; simp : x ∈ m.filter (fun p => p.1 == k))).1
    cases o with
    | none =>
      simp only [List.head?_cons, Option.map_some, reduceCtorEq, false_iff]
      intro hall
      exact hall x hmem hx
    | some d =>
      simp only [List.head?_cons, Option.map_some, Option.some.injEq, List.cons.injEq, and_true]
      constructor
      · intro he; rw [← hx, ← he]
      · intro he; rw [he]

/-- The fields found in an object: each once or not at all, and no others if others are refused. -/
theorem fieldsOf_obj (deny : Bool) (names : List Str) (m : List (Str × Doc)) (b : Bool) (ds : List (Option Doc)) :
    fieldsOf deny names (.obj m) = some (b, ds) ↔
      b = true ∧ (deny = true → ∀ p ∈ m, p.1 ∈ names) ∧
        List.Forall₂ (fun k o => match o with
          | none => Absent m k
          | some d => Member m k d) names ds := by
  simp only [fieldsOf]
  by_cases h1 : (deny : Prop) ∧ m.any (fun p => !names.contains p.1) = true
  · rw [if_pos h1]
    constructor
    · intro h; cases h
    · rintro ⟨_, h, _⟩
      obtain ⟨hd, ha⟩ := h1
      obtain ⟨p, hp, hn⟩ := List.any_eq_true.mp ha
      have := h hd p hp
      simp [this] at hn
  · rw [if_neg h1]
    have hin : deny = true → ∀ p ∈ m, p.1 ∈ names := by
      intro hd p hp
      by_contra hn
      exact h1 ⟨hd, List.any_eq_true.mpr ⟨p, hp, by simpa using hn⟩⟩
    by_cases h2 : names.any (fun k => decide (1 < (m.filter (fun p => p.1 == k)).length)) = true
    · rw [if_pos h2]
      constructor
      · intro h; cases h
      · rintro ⟨_, -, h⟩
        obtain ⟨k, hk, hl⟩ := List.any_eq_true.mp h2
        exfalso
        have hl : 1 < (m.filter (fun p => p.1 == k)).length := by simpa using hl
        clear h1 h2 hin
        induction h with
        | nil => cases hk
        | @cons k' o ks os ho _ ih =>
          rcases List.mem_cons.mp hk with rfl | hk
          · cases o with
            | none =>
              have : m.filter (fun p => p.1 == k) = [] := by
                rw [List.filter_eq_nil_iff]
                intro p hp
                simpa using ho p hp
              rw [this] at hl; simp at hl
            | some d =>
              have : m.filter (fun p => p.1 == k) = [(k, d)] := ho
              rw [this] at hl; simp at hl
          · exact ih hk
    · rw [if_neg h2]
      have hone : ∀ k ∈ names, ¬ 1 < (m.filter (fun p => p.1 == k)).length := by
        intro k hk hl
        exact h2 (List.any_eq_true.mpr ⟨k, hk, by simpa using hl⟩)
      simp only [Option.some.injEq, Prod.mk.injEq]
      constructor
      · rintro ⟨rfl, rfl⟩
        refine ⟨rfl, hin, ?_⟩
        clear h1 h2 hin
        induction names with
        | nil => simp
        | cons k ks ih =>
          rw [List.map_cons]
          exact .cons ((field_cases m k (hone k (by simp)) _).mp rfl) (ih (fun k' hk' => hone k' (by simp [hk'])))
      · rintro ⟨rfl, -, h⟩
        refine ⟨rfl, ?_⟩
        clear h1 h2 hin
        induction h with
        | nil => rfl
        | @cons k o ks os ho _ ih =>
          rw [List.map_cons, ih (fun k' hk' => hone k' (by simp [hk'])),
            (field_cases m k (hone k (by simp)) o).mpr ho]

/-! ## Readers of the values -/

theorem readU32_iff (d : Doc) (n : Nat) : readU32 d = some n ↔ d = .int n ∧ n < 2 ^ 32 := by
  unfold readU32
  split
  · rename_i k
    split
    · simp only [Option.some.injEq, Doc.int.injEq]
      constructor
      · rintro rfl; exact ⟨rfl, by assumption⟩
      · rintro ⟨h, _⟩; exact Int.ofNat.inj h
    · simp only [reduceCtorEq, Doc.int.injEq, false_iff]
      rintro ⟨h, hn⟩
      have := Int.ofNat.inj h
      omega
  · rename_i h
    simp only [reduceCtorEq, false_iff]
    rintro ⟨rfl, _⟩
    exact h n rfl

theorem readU64_iff (d : Doc) (n : U64) : readU64 d = some n ↔ d = .int n.val := by
  unfold readU64
  split
  · rename_i k
    unfold mkU64
    split
    · simp only [Option.some.injEq, Doc.int.injEq]
      constructor
      · rintro rfl; rfl
      · intro h; cases n; simp only [U64.mk.injEq]; exact Int.ofNat.inj h
    · simp only [reduceCtorEq, Doc.int.injEq, false_iff]
      intro h
      have h' := Int.ofNat.inj h
      have := n.lt
      omega
  · rename_i h
    simp only [reduceCtorEq, false_iff]
    rintro rfl
    exact h n.val rfl

theorem readU8_iff (d : Doc) (n : UInt8) : readU8 d = some n ↔ d = .int n.toNat := by
  unfold readU8
  split
  · rename_i k
    simp only [Doc.int.injEq]
    split
    · rename_i h
      simp only [Option.some.injEq]
      constructor
      · rintro rfl
        have : k.toNat < 256 := by omega
        simp [UInt8.toNat_ofNat', Nat.mod_eq_of_lt this]
        omega
      · intro h; rw [h]; simp
    · rename_i h
      simp only [reduceCtorEq, false_iff]
      intro hk
      have := n.toNat_lt
      omega
  · rename_i h
    simp only [reduceCtorEq, false_iff]
    intro hd
    exact h _ hd

theorem readText_iff (d : Doc) (s : Str) : readText d = some s ↔ d = .str s := by
  unfold readText
  split
  · simp
  · rename_i h
    simp only [reduceCtorEq, false_iff]
    intro hd
    exact h _ hd

theorem readHashes_iff (d : Doc) (ks : List (List UInt8)) : readVec readHash d = some ks ↔
    ∃ texts : List Str, d = .arr (texts.map .str) ∧
      List.Forall₂ (fun s b => SpellsHex s b ∧ b.length = 28) texts ks := by
  have hk : ∀ s b, Cardano.readKeyHash s = some b ↔ SpellsHex s b ∧ b.length = 28 := by
    intro s b
    unfold Cardano.readKeyHash
    rw [← hexDecode_iff]
    cases hd : Cardano.hexDecode s with
    | none => simp
    | some c =>
      simp only [Option.some.injEq]
      split
      · constructor
        · intro h; cases h; exact ⟨rfl, by assumption⟩
        · rintro ⟨rfl, _⟩; rfl
      · simp only [reduceCtorEq, false_iff]
        rintro ⟨rfl, h⟩
        contradiction
  unfold readVec
  split
  · rename_i l
    simp only [Doc.arr.injEq]
    induction l generalizing ks with
    | nil =>
      constructor
      · intro h
        simp only [List.mapM_nil, Option.pure_def, Option.some.injEq] at h
        subst h
        exact ⟨[], rfl, .nil⟩
      · rintro ⟨t, ht, hf⟩
        have : t = [] := by simpa using ht.symm
        subst this
        cases hf
        rfl
    | cons x xs ih =>
      rw [List.mapM_cons]
      constructor
      · intro h
        cases x with
        | str s =>
          cases hs : Cardano.readKeyHash s with
          | none => simp [readHash, hs] at h
          | some b =>
            cases hx : xs.mapM readHash with
            | none => simp [readHash, hs, hx] at h
            | some bs =>
              simp [readHash, hs, hx] at h
              subst h
              obtain ⟨t, ht, hf⟩ := (ih bs).mp hx
              exact ⟨s :: t, by simp [ht], .cons ((hk s b).mp hs) hf⟩
        | _ => simp [readHash] at h
      · rintro ⟨t, ht, hf⟩
        cases t with
        | nil => simp at ht
        | cons s t =>
          simp only [List.map_cons, List.cons.injEq] at ht
          obtain ⟨rfl, ht⟩ := ht
          cases hf with
          | @cons _ b _ bs h1 h2 =>
            rw [(ih bs).mpr ⟨t, ht, h2⟩]
            simp [readHash, (hk s b).mpr h1]
  · rename_i h
    simp only [reduceCtorEq, false_iff]
    rintro ⟨t, rfl, _⟩
    exact h _ rfl

/-! ## Plans -/

/-- C80 for multisig plans: the members `quorum` and `keys` are each there once, the quorum is below `2^32` and every
key is the text of 28 bytes; the plan has this quorum and these keys. Other members are ignored. -/
theorem C80_plan (m : List (Str × Doc)) (p : Cardano.MultisigPlan) :
    readPlan (.obj m) = some p ↔
      p.quorum < 2 ^ 32 ∧ Member m (key! "quorum") (.int p.quorum) ∧
      ∃ texts : List Str, Member m (key! "keys") (.arr (texts.map .str)) ∧
        List.Forall₂ (fun s b => SpellsHex s b ∧ b.length = 28) texts p.keys := by
  unfold readPlan
  constructor
  · intro h
    split at h
    · rename_i b q k hf
      obtain ⟨_, _, h2⟩ := (fieldsOf_obj _ _ _ _ _).mp hf
      cases h2 with | cons hq h2 => cases h2 with | cons hk _ =>
      cases q with
      | none => simp [req] at h
      | some q =>
        cases k with
        | none => simp [req] at h
        | some k =>
          simp only [req] at h
          cases hq' : readU32 q with
          | none => simp [hq'] at h
          | some q' =>
            cases hk' : readVec readHash k with
            | none => simp [hq', hk'] at h
            | some k' =>
              simp [hq', hk'] at h
              subst h
              obtain ⟨rfl, hlt⟩ := (readU32_iff _ _).mp hq'
              obtain ⟨t, rfl, hh⟩ := (readHashes_iff _ _).mp hk'
              exact ⟨hlt, hq, t, hk, hh⟩
    · cases h
  · rintro ⟨hlt, hq, t, hk, hf⟩
    have he : fieldsOf false planNames (.obj m) = some (true, [some (.int p.quorum), some (.arr (t.map .str))]) :=
      (fieldsOf_obj _ _ _ _ _).mpr ⟨rfl, by simp, .cons hq (.cons hk .nil)⟩
    rw [he]
    simp only [req, (readU32_iff _ _).mpr ⟨rfl, hlt⟩, (readHashes_iff _ _).mpr ⟨t, rfl, hf⟩]
    rfl

/-- C80 for the file: a file with the text of such an object gives the plan, and is used for the quorum the plan says
(C62). -/
theorem C80_plan_file (b : ByteArray) (p : Cardano.MultisigPlan) (h : loadPlan b = some p) :
    ∃ d, fromSlice b = some d ∧ readPlan d = some p ∧ p.quorum < 2 ^ 32 ∧ ∀ k ∈ p.keys, k.length = 28 := by
  unfold loadPlan at h
  cases hb : fromSlice b with
  | none => simp [hb] at h
  | some d =>
    simp only [hb, Option.bind_some] at h
    refine ⟨d, rfl, h, ?_⟩
    unfold readPlan at h
    split at h
    · rename_i x q k hf
      cases q with
      | none => simp [req] at h
      | some q =>
        cases k with
        | none => simp [req] at h
        | some k =>
          simp only [req] at h
          cases hq' : readU32 q with
          | none => simp [hq'] at h
          | some q' =>
            cases hk' : readVec readHash k with
            | none => simp [hq', hk'] at h
            | some k' =>
              simp [hq', hk'] at h
              subst h
              obtain ⟨t, _, hh⟩ := (readHashes_iff _ _).mp hk'
              refine ⟨((readU32_iff _ _).mp hq').2, ?_⟩
              clear * - hh
              dsimp only
              intro k hk
              induction hh with
              | nil => cases hk
              | cons h1 _ ih =>
                rcases List.mem_cons.mp hk with rfl | hk
                · exact h1.2
                · exact ih hk
    · cases h

/-! ## Networks -/

/-- The members of the document of a custom network, in the order of the declaration. -/
def customMembers (c : CustomNetwork) : List (Str × Doc) :=
  [(key! "protocol_magic", .int c.protocolMagic), (key! "network_id", .int c.networkId.toNat),
    (key! "linear_fee_coefficient", .str c.linearFeeCoefficient),
    (key! "linear_fee_constant", .str c.linearFeeConstant),
    (key! "coins_per_utxo_word", .str c.coinsPerUtxoWord), (key! "pool_deposit", .str c.poolDeposit),
    (key! "key_deposit", .str c.keyDeposit), (key! "max_value_size", .int c.maxValueSize),
    (key! "max_tx_size", .int c.maxTxSize)]

theorem req_some {α : Type} {f : Doc → Option α} {o : Option Doc} {a : α} (h : req f o = some a) :
    ∃ d, o = some d ∧ f d = some a := by
  cases o with
  | none => cases h
  | some d => exact ⟨d, rfl, h⟩

/-- An object whose fields are exactly `xs`, in another order. -/
theorem perm_of_members {m xs : List (Str × Doc)} (hd : (xs.map (·.1)).Nodup)
    (hn : ∀ p ∈ m, p.1 ∈ xs.map (·.1)) (hm : ∀ p ∈ xs, Member m p.1 p.2) : m.Perm xs := by
  induction xs generalizing m with
  | nil =>
    cases m with
    | nil => exact .nil
    | cons p m => exact absurd (hn p (by simp)) (by simp)
  | cons x xs ih =>
    obtain ⟨k, d⟩ := x
    simp only [List.map_cons, List.nodup_cons] at hd
    have hx : m.filter (fun p => p.1 == k) = [(k, d)] := hm (k, d) (by simp)
    have hrest : (m.filter (fun p => !(p.1 == k))).Perm xs := by
      apply ih hd.2
      · intro p hp
        obtain ⟨h1, h2⟩ := List.mem_filter.mp hp
        have := hn p h1
        simp only [List.map_cons, List.mem_cons] at this
        rcases this with h | h
        · simp [h] at h2
        · exact h
      · intro p hp
        have h1 := hm p (by simp [hp])
        have hne : p.1 ≠ k := by
          intro he
          exact hd.1 (he ▸ List.mem_map_of_mem hp)
        unfold Member at h1 ⊢
        rw [List.filter_filter, ← h1]
        apply List.filter_congr
        intro q _
        by_cases hq : q.1 = p.1
        · simp [hq, hne]
        · simp [hq]
    have := List.filter_append_perm (fun p : Str × Doc => p.1 == k) m
    rw [hx] at this
    exact this.symm.trans (.cons _ hrest)

/-- Each field of the document is a member of it. -/
theorem member_of_perm {m xs : List (Str × Doc)} (hd : (xs.map (·.1)).Nodup) (hp : m.Perm xs) :
    ∀ p ∈ xs, Member m p.1 p.2 := by
  intro p hpx
  have h1 : xs.filter (fun q => q.1 == p.1) = [p] := by
    clear hp
    induction xs with
    | nil => cases hpx
    | cons x xs ih =>
      simp only [List.map_cons, List.nodup_cons] at hd
      rcases List.mem_cons.mp hpx with rfl | h
      · rw [List.filter_cons_of_pos (by simp)]
        congr 1
        rw [List.filter_eq_nil_iff]
        intro q hq he
        have : q.1 = p.1 := by simpa using he
        exact hd.1 (this ▸ List.mem_map_of_mem hq)
      · rw [List.filter_cons_of_neg]
        · exact ih hd.2 h
        · intro he
          have : x.1 = p.1 := by simpa using he
          exact hd.1 (this ▸ List.mem_map_of_mem h)
  have h2 := hp.filter (fun q => q.1 == p.1)
  rw [h1] at h2
  exact List.perm_singleton.mp h2

/-- C80 for custom networks: the document has exactly the nine members, in any order; the magic and the sizes are below
`2^32` and the identifier below 256. Nothing is asked of the texts of the amounts. -/
theorem C80_network (m : List (Str × Doc)) (i : NetworkInfo) :
    readNetwork (.obj [(key! "custom", .obj m)]) = some i ↔
      ∃ c : CustomNetwork, i = .custom c ∧ c.protocolMagic < 2 ^ 32 ∧ c.maxValueSize < 2 ^ 32 ∧
        c.maxTxSize < 2 ^ 32 ∧ m.Perm (customMembers c) := by
  have hkey : readNetwork (.obj [(key! "custom", .obj m)]) = (readCustom (.obj m)).map .custom := rfl
  rw [hkey]
  constructor
  · intro h
    cases hc : readCustom (.obj m) with
    | none => simp [hc] at h
    | some c =>
      simp only [hc, Option.map_some, Option.some.injEq] at h
      subst h
      refine ⟨c, rfl, ?_⟩
      unfold readCustom at hc
      split at hc
      · rename_i b' f1 f2 f3 f4 f5 f6 f7 f8 f9 hf
        obtain ⟨_, hn, h2⟩ := (fieldsOf_obj _ _ _ _ _).mp hf
        simp only [Option.bind_eq_bind, Option.bind_eq_some_iff, Option.pure_def, Option.some.injEq] at hc
        obtain ⟨a1, e1, a2, e2, a3, e3, a4, e4, a5, e5, a6, e6, a7, e7, a8, e8, a9, e9, rfl⟩ := hc
        obtain ⟨d1, rfl, e1⟩ := req_some e1
        obtain ⟨d2, rfl, e2⟩ := req_some e2
        obtain ⟨d3, rfl, e3⟩ := req_some e3
        obtain ⟨d4, rfl, e4⟩ := req_some e4
        obtain ⟨d5, rfl, e5⟩ := req_some e5
        obtain ⟨d6, rfl, e6⟩ := req_some e6
        obtain ⟨d7, rfl, e7⟩ := req_some e7
        obtain ⟨d8, rfl, e8⟩ := req_some e8
        obtain ⟨d9, rfl, e9⟩ := req_some e9
        obtain ⟨rfl, l1⟩ := (readU32_iff _ _).mp e1
        obtain rfl := (readU8_iff _ _).mp e2
        obtain rfl := (readText_iff _ _).mp e3
        obtain rfl := (readText_iff _ _).mp e4
        obtain rfl := (readText_iff _ _).mp e5
        obtain rfl := (readText_iff _ _).mp e6
        obtain rfl := (readText_iff _ _).mp e7
        obtain ⟨rfl, l8⟩ := (readU32_iff _ _).mp e8
        obtain ⟨rfl, l9⟩ := (readU32_iff _ _).mp e9
        refine ⟨l1, l8, l9, perm_of_members (show customNames.Nodup by decide) ?_ ?_⟩
        · exact hn rfl
        · simp only [customNames, List.forall₂_cons, List.forall₂_nil_left_iff, and_true] at h2
          simp only [customMembers, List.forall_mem_cons, List.not_mem_nil, IsEmpty.forall_iff,
            implies_true, and_true]
          exact h2
      · cases hc
  · rintro ⟨c, rfl, l1, l8, l9, hp⟩
    have hnd : ((customMembers c).map (·.1)).Nodup := by
      show (customNames).Nodup
      decide
    have hmem := member_of_perm hnd hp
    simp only [customMembers, List.forall_mem_cons] at hmem
    obtain ⟨m1, m2, m3, m4, m5, m6, m7, m8, m9, -⟩ := hmem
    have he : fieldsOf true customNames (.obj m) = some (true, (customMembers c).map fun p => some p.2) := by
      refine (fieldsOf_obj _ _ _ _ _).mpr ⟨rfl, ?_, ?_⟩
      · intro _ p hpm
        have : p.1 ∈ (customMembers c).map (·.1) := List.mem_map_of_mem (hp.mem_iff.mp hpm)
        exact this
      · exact .cons m1 (.cons m2 (.cons m3 (.cons m4 (.cons m5 (.cons m6 (.cons m7 (.cons m8
          (.cons m9 .nil))))))))
    unfold readCustom
    rw [he]
    simp only [customMembers, List.map_cons, List.map_nil, req, (readU32_iff _ _).mpr ⟨rfl, l1⟩,
      (readU32_iff _ _).mpr ⟨rfl, l8⟩, (readU32_iff _ _).mpr ⟨rfl, l9⟩, (readU8_iff _ _).mpr rfl, readText]
    rfl

/-- C80 for the public networks: their names, alone or with a null. -/
theorem C80_public (d : Doc) :
    (readNetwork d = some .mainnet ↔ d = .str (key! "mainnet") ∨ d = .obj [(key! "mainnet", .null)]) ∧
    (readNetwork d = some .testnet ↔ d = .str (key! "testnet") ∨ d = .obj [(key! "testnet", .null)]) := by
  have hmap : ∀ e i, (readCustom e).map NetworkInfo.custom = some i → i ≠ .mainnet ∧ i ≠ .testnet := by
    intro e i h
    cases hc : readCustom e with
    | none => simp [hc] at h
    | some c => simp only [hc, Option.map_some, Option.some.injEq] at h; subst h; simp
  constructor
  · constructor
    · intro h
      unfold readNetwork at h
      split at h
      · split at h
        · cases h
        · split at h
          · subst_vars; exact .inl rfl
          · cases h
      · split at h
        · split at h <;> cases h
        · split at h
          · split at h
            · subst_vars; exact .inr rfl
            · cases h
          · split at h
            · exact absurd rfl (hmap _ _ h).1
            · cases h
      · cases h
    · rintro (rfl | rfl) <;> rfl
  · constructor
    · intro h
      unfold readNetwork at h
      split at h
      · split at h
        · subst_vars; exact .inl rfl
        · split at h <;> cases h
      · split at h
        · split at h
          · subst_vars; exact .inr rfl
          · cases h
        · split at h
          · split at h <;> cases h
          · split at h
            · exact absurd rfl (hmap _ _ h).2
            · cases h
      · cases h
    · rintro (rfl | rfl) <;> rfl

/-- The text of an amount: decimal digits, with one optional leading plus, of a number below `2^64`. -/
def AmountText (s : Str) (n : Nat) : Prop := n < 2 ^ 64 ∧ ∃ body, (s = body ∨ s = '+' :: body) ∧ IsDecimal body n

theorem coinOf_ok {s : Str} {n : Nat} : coinOf s = .ok n ↔ AmountText s n := by
  unfold AmountText
  rw [← C29_parse_exact]
  unfold coinOf
  split <;> simp_all

theorem coinOf_panic {s : Str} (h : ∀ n, ¬ AmountText s n) : coinOf s = .error .panic := by
  cases hc : coinOf s with
  | ok n => exact absurd (coinOf_ok.mp hc) (h n)
  | error e =>
    unfold coinOf at hc
    split at hc
    · cases hc
    · cases hc; rfl

/-- C80 for the costs of a custom network whose five amounts are texts of numbers: the fee per byte and the constant are
these numbers, the cost of a part is its size times the former unless it reaches `2^64`, and the transaction builder is
given the numbers of the document. Missing: other texts, see `C80_network_false`. -/
theorem C80_costs_partial (c : CustomNetwork) {a b w p k : Nat} (ha : AmountText c.linearFeeCoefficient a)
    (hb : AmountText c.linearFeeConstant b) (hw : AmountText c.coinsPerUtxoWord w)
    (hp : AmountText c.poolDeposit p) (hk : AmountText c.keyDeposit k) :
    ∃ n, (NetworkInfo.custom c).network = .ok n ∧ n.maxTxSize = c.maxTxSize ∧
      (∀ size, a * size < 2 ^ 64 → n.costOf size = .ok (a * size)) ∧
      (∀ size, 2 ^ 64 ≤ a * size → n.costOf size = .error .panic) ∧
      (a * 67 + b < 2 ^ 64 → n.costEmpty = .ok (a * 67 + b)) ∧
      (NetworkInfo.custom c).builder = .ok ⟨a, b, w, none, p, k, c.maxValueSize, c.maxTxSize⟩ := by
  refine ⟨⟨a, b, c.maxTxSize⟩, ?_, rfl, ?_, ?_, ?_, ?_⟩
  · simp only [NetworkInfo.network, coinOf_ok.mpr ha, coinOf_ok.mpr hb]; rfl
  · intro size h; simp only [Selection.Network.costOf, Selection.mulCoin, if_pos h]
  · intro size h; simp only [Selection.Network.costOf, Selection.mulCoin, if_neg (Nat.not_lt.mpr h)]
  · intro h
    have h1 : a * Selection.sizeEmpty < 2 ^ 64 := by
      show a * 67 < 2 ^ 64
      omega
    have h2 : a * Selection.sizeEmpty + b < 2 ^ 64 := h
    simp only [Selection.Network.costEmpty, Selection.mulCoin, if_pos h1]
    show Selection.addCoin (a * Selection.sizeEmpty) b = _
    simp only [Selection.addCoin, if_pos h2]
    rfl
  · simp only [NetworkInfo.builder, coinOf_ok.mpr ha, coinOf_ok.mpr hb, coinOf_ok.mpr hw, coinOf_ok.mpr hp,
      coinOf_ok.mpr hk]
    rfl

/-- C80 for the costs of the public networks: 44 lovelace for a byte and 155381 for a transaction, sizes up to 16384 bytes,
the deposits of the public networks and values up to 5000 bytes. -/
theorem C80_public_costs (i : NetworkInfo) (hi : i = .mainnet ∨ i = .testnet) :
    i.maxTxSize = 16384 ∧ ∃ n, i.network = .ok n ∧ n.maxTxSize = 16384 ∧
      (∀ size, 44 * size < 2 ^ 64 → n.costOf size = .ok (44 * size)) ∧
      (∀ size, 2 ^ 64 ≤ 44 * size → n.costOf size = .error .panic) ∧
      n.costEmpty = .ok (44 * 67 + 155381) ∧
      i.builder = .ok {
        coefficient := 44, constant := 155381, coinsPerWord := 34482, coinsPerByte := some 4310,
        poolDeposit := 500000000, keyDeposit := 2000000, maxValueSize := 5000, maxTxSize := 16384 } := by
  rcases hi with rfl | rfl <;>
  · refine ⟨rfl, _, rfl, rfl, ?_, ?_, rfl, rfl⟩
    · intro size h; exact if_pos h
    · intro size h; exact if_neg (Nat.not_lt.mpr h)

/-- A network whose fee per byte is 44.5. -/
def fractionalNetwork : CustomNetwork :=
  ⟨1, 0, key! "44.5", key! "155381", key! "34482", key! "500000000", key! "2000000", 5000, 16384⟩

/-- C80 is false: a network whose fee is not the text of a number is read, and every use of it panics. -/
theorem C80_network_false :
    readNetwork (.obj [(key! "custom", .obj (customMembers fractionalNetwork))]) = some (.custom fractionalNetwork) ∧
    (NetworkInfo.custom fractionalNetwork).network = .error .panic ∧
    (NetworkInfo.custom fractionalNetwork).builder = .error .panic :=
  ⟨(C80_network _ _).mpr ⟨_, rfl, by decide, by decide, by decide, .refl _⟩, rfl, rfl⟩

/-! ## Thermostat -/

theorem readAmount_int (n : U64) : readAmount (.int n.val) = some ⟨n.val, 0⟩ := by
  have h : toValueInput (.int n.val) = .num n := by
    show (match mkU64 n.val with
      | some n => Value.Input.num n
      | none => .other) = _
    rw [mkU64_val]
  unfold readAmount
  rw [h]
  rfl

/-- The members of the document of a thermostat. -/
def thermostatMembers (a b : U64) (x y : Doc) (t : Str) : List (Str × Doc) :=
  [(key! "num_accumulators", .int a.val), (key! "num_accumulators_assets", .int b.val),
    (key! "native_utxo_thermostat_min", x), (key! "native_utxo_thermostat_max", y), (key! "main_token", .str t)]

/-- C80 for the thermostat: the document has exactly the five members, in any order, the bounds being amounts. -/
theorem C80_thermostat (m : List (Str × Doc)) (c : ThermostatConfig) :
    readThermostat (.obj m) = some c ↔
      ∃ x y, readAmount x = some c.min ∧ readAmount y = some c.max ∧
        m.Perm (thermostatMembers c.accumulators c.accumulatorsAssets x y c.main) := by
  have hnd : ∀ a b x y t, ((thermostatMembers a b x y t).map (·.1)).Nodup := fun _ _ _ _ _ =>
    (show thermostatNames.Nodup by decide)
  constructor
  · intro hc
    unfold readThermostat at hc
    split at hc
    · rename_i b' f1 f2 f3 f4 f5 hf
      obtain ⟨_, hn, h2⟩ := (fieldsOf_obj _ _ _ _ _).mp hf
      simp only [Option.bind_eq_bind, Option.bind_eq_some_iff, Option.pure_def, Option.some.injEq] at hc
      obtain ⟨a1, e1, a2, e2, a3, e3, a4, e4, a5, e5, rfl⟩ := hc
      obtain ⟨d1, rfl, e1⟩ := req_some e1
      obtain ⟨d2, rfl, e2⟩ := req_some e2
      obtain ⟨d3, rfl, e3⟩ := req_some e3
      obtain ⟨d4, rfl, e4⟩ := req_some e4
      obtain ⟨d5, rfl, e5⟩ := req_some e5
      obtain rfl := (readU64_iff _ _).mp e1
      obtain rfl := (readU64_iff _ _).mp e2
      obtain rfl := (readText_iff _ _).mp e5
      refine ⟨d3, d4, e3, e4, perm_of_members (hnd _ _ _ _ _) (hn rfl) ?_⟩
      simp only [thermostatNames, List.forall₂_cons, List.forall₂_nil_left_iff, and_true] at h2
      simp only [thermostatMembers, List.forall_mem_cons, List.not_mem_nil, IsEmpty.forall_iff,
        implies_true, and_true]
      exact h2
    · cases hc
  · rintro ⟨x, y, hx, hy, hp⟩
    have hmem := member_of_perm (hnd _ _ _ _ _) hp
    simp only [thermostatMembers, List.forall_mem_cons] at hmem
    obtain ⟨m1, m2, m3, m4, m5, -⟩ := hmem
    have he : fieldsOf true thermostatNames (.obj m) =
        some (true, (thermostatMembers c.accumulators c.accumulatorsAssets x y c.main).map fun p => some p.2) := by
      refine (fieldsOf_obj _ _ _ _ _).mpr ⟨rfl, ?_, .cons m1 (.cons m2 (.cons m3 (.cons m4 (.cons m5 .nil))))⟩
      intro _ p hpm
      have : p.1 ∈ (thermostatMembers c.accumulators c.accumulatorsAssets x y c.main).map (·.1) :=
        List.mem_map_of_mem (hp.mem_iff.mp hpm)
      exact this
    unfold readThermostat
    rw [he]
    simp only [thermostatMembers, List.map_cons, List.map_nil, req, (readU64_iff _ _).mpr rfl, hx, hy, readText]
    rfl

/-- `TokenId::MAIN`, core/src/token_id.rs:15-17. -/
def mainText : Str := List.replicate 64 '0'

/-- The default of the crate, with no accumulators of assets. -/
def noAccumulators : ThermostatConfig :=
  ⟨⟨20, by decide⟩, ⟨0, by decide⟩, ⟨50000000, 0⟩, ⟨200000000, 0⟩, mainText⟩

open Verif.Selection Verif.Selection.Thermostat in
/-- C80 is false for the thermostat: a document with zero accumulators is read, and a selection with this configuration
panics. -/
theorem C80_thermostat_false (tok : Str → Token) (htok : tok mainText = mainToken) :
    readThermostat (.obj (thermostatMembers ⟨20, by decide⟩ ⟨0, by decide⟩ (.int 50000000) (.int 200000000)
      mainText)) = some noAccumulators ∧
    ∃ (W : Thermostat.World) (avail : List Utxo) (st : UStore) (outs : List Output),
      W.cfg = noAccumulators.config tok ∧ THCase W avail st [] outs ∧
      (thermostat thE W st thEst (Setup.fromFixed [] outs (some 5))).1 = .error .panic := by
  refine ⟨(C80_thermostat _ _).mpr ⟨_, _, readAmount_int ⟨50000000, by decide⟩,
    readAmount_int ⟨200000000, by decide⟩, .refl _⟩, thW { accumulatorsAssets := 0 }, thAvail, thStore thAvail, thOuts,
    ?_, ?_, ?_⟩
  · simp only [thW, noAccumulators, ThermostatConfig.config, htok, Dec.toRat]
    norm_num
  · refine thCase ?_ (by decide +kernel) rfl (by decide +kernel)
    intro u hu
    simp only [thAvail, List.mem_cons, List.not_mem_nil, or_false] at hu
    rcases hu with rfl | rfl <;> exact ⟨by decide, by decide⟩
  · have : (match (thermostat thE (thW { accumulatorsAssets := 0 }) (thStore thAvail) thEst
        (Setup.fromFixed [] thOuts (some 5))).1 with
      | .error e => some e
      | .ok _ => none) = some SelErr.panic := by decide +kernel
    generalize (thermostat thE (thW { accumulatorsAssets := 0 }) (thStore thAvail) thEst
        (Setup.fromFixed [] thOuts (some 5))).1 = x at this ⊢
    cases x with
    | error e => simp only [Option.some.injEq] at this; rw [this]
    | ok y => simp at this

/-! ## Eras and rules -/

/-- C80 for eras: each of the five members is there once and is a 64-bit number; others are ignored. -/
theorem C80_era (m : List (Str × Doc)) (e : Sources.Era) :
    readEra (.obj m) = some e ↔ e.Fits ∧ Member m (key! "first_slot") (.int e.firstSlot) ∧
      Member m (key! "start_epoch") (.int e.startEpoch) ∧ Member m (key! "known_time") (.int e.knownTime) ∧
      Member m (key! "slot_length") (.int e.slotLength) ∧
      Member m (key! "epoch_length_seconds") (.int e.epochLengthSeconds) := by
  constructor
  · intro hc
    unfold readEra at hc
    split at hc
    · rename_i b' f1 f2 f3 f4 f5 hf
      obtain ⟨_, _, h2⟩ := (fieldsOf_obj _ _ _ _ _).mp hf
      simp only [Option.bind_eq_bind, Option.bind_eq_some_iff, Option.pure_def, Option.some.injEq] at hc
      obtain ⟨a1, e1, a2, e2, a3, e3, a4, e4, a5, e5, rfl⟩ := hc
      obtain ⟨d1, rfl, e1⟩ := req_some e1
      obtain ⟨d2, rfl, e2⟩ := req_some e2
      obtain ⟨d3, rfl, e3⟩ := req_some e3
      obtain ⟨d4, rfl, e4⟩ := req_some e4
      obtain ⟨d5, rfl, e5⟩ := req_some e5
      obtain rfl := (readU64_iff _ _).mp e1
      obtain rfl := (readU64_iff _ _).mp e2
      obtain rfl := (readU64_iff _ _).mp e3
      obtain rfl := (readU64_iff _ _).mp e4
      obtain rfl := (readU64_iff _ _).mp e5
      refine ⟨⟨a1.lt, a2.lt, a3.lt, a4.lt, a5.lt⟩, ?_⟩
      simp only [eraNames, List.forall₂_cons, List.forall₂_nil_left_iff, and_true] at h2
      exact h2
    · cases hc
  · rintro ⟨⟨l1, l2, l3, l4, l5⟩, m1, m2, m3, m4, m5⟩
    have he : fieldsOf false eraNames (.obj m) = some (true, [some (.int e.firstSlot), some (.int e.startEpoch),
        some (.int e.knownTime), some (.int e.slotLength), some (.int e.epochLengthSeconds)]) :=
      (fieldsOf_obj _ _ _ _ _).mpr ⟨rfl, by simp, .cons m1 (.cons m2 (.cons m3 (.cons m4 (.cons m5 .nil))))⟩
    unfold readEra
    rw [he]
    simp only [req, (readU64_iff _ ⟨e.firstSlot, l1⟩).mpr rfl, (readU64_iff _ ⟨e.startEpoch, l2⟩).mpr rfl,
      (readU64_iff _ ⟨e.knownTime, l3⟩).mpr rfl, (readU64_iff _ ⟨e.slotLength, l4⟩).mpr rfl,
      (readU64_iff _ ⟨e.epochLengthSeconds, l5⟩).mpr rfl]
    rfl

/-- An era whose epochs have no slots. -/
def emptyEpochs : Sources.Era := ⟨10, 0, 0, 1, 0⟩

/-- C80 is false for eras: one with epochs of length zero is read, and asking for the epoch of a slot panics. -/
theorem C80_era_false : ∃ m, readEra (.obj m) = some emptyEpochs ∧
    ∀ slot, 10 ≤ slot → Sources.absoluteSlotToEpoch emptyEpochs slot = .error .panic ∧
      Sources.absoluteSlotToRelative emptyEpochs slot = .error .panic := by
  refine ⟨[(key! "first_slot", .int 10), (key! "start_epoch", .int 0), (key! "known_time", .int 0),
    (key! "slot_length", .int 1), (key! "epoch_length_seconds", .int 0)], ?_, ?_⟩
  · rw [C80_era]
    exact ⟨by unfold Sources.Era.Fits; decide, rfl, rfl, rfl, rfl, rfl⟩
  · intro slot h
    have : ¬ slot < emptyEpochs.firstSlot := by show ¬ slot < 10; omega
    constructor
    · unfold Sources.absoluteSlotToEpoch
      rw [if_neg this]; rfl
    · unfold Sources.absoluteSlotToRelative
      rw [if_neg this]; rfl

/-- C80 for eras that can be used: if the epoch length is positive and the first epoch plus the largest slot fit, every
slot has an epoch, or none before the era. -/
theorem C80_era_partial {e : Sources.Era}
    (h0 : e.epochLengthSeconds ≠ 0) (h1 : e.startEpoch < 2 ^ 63) (slot : Nat) (hs : slot < 2 ^ 63) :
    ∃ o r, Sources.absoluteSlotToEpoch e slot = .ok o ∧ Sources.absoluteSlotToRelative e slot = .ok r := by
  unfold Sources.absoluteSlotToEpoch Sources.absoluteSlotToRelative
  split
  · exact ⟨_, _, rfl, rfl⟩
  · have hlt : e.startEpoch + (slot - e.firstSlot) / e.epochLengthSeconds < 2 ^ 64 := by
      have := Nat.div_le_self (slot - e.firstSlot) e.epochLengthSeconds
      omega
    rw [Sources.u64, if_pos hlt]
    exact ⟨_, _, rfl, rfl⟩

/-- C80 for the rules of decimals: a rule is read back as it was written. -/
theorem C80_rule (r : RuleDoc) (h1 : -2 ^ 63 ≤ r.mainchain ∧ r.mainchain < 2 ^ 63)
    (h2 : -2 ^ 63 ≤ r.sidechain ∧ r.sidechain < 2 ^ 63) :
    (fromSlice (toVec (writeRuleDoc r))).bind readRuleDoc = some r := by
  rw [fromSlice_toVec _ (by simp [writeRuleDoc, Doc.WF, WFm]; omega)]
  have he : fieldsOf false precisionNames (writeRuleDoc r) =
      some (true, [some (.str r.asset), some (.int r.mainchain), some (.int r.sidechain)]) := rfl
  simp only [Option.bind_some]
  unfold readRuleDoc
  rw [he]
  simp only [req, readText, readI64, if_pos h1, if_pos h2]
  rfl

/-! ## Examples -/

/-- A plan: two of two keys, with a member that is ignored. -/
example : ∃ p, readPlan (.obj [(key! "comment", .null),
      (key! "keys", .arr [.str (List.replicate 56 'a'), .str (List.replicate 56 'B')]), (key! "quorum", .int 2)]) = some p ∧
    p.quorum = 2 ∧ p.keys.length = 2 := by
  refine ⟨⟨2, [List.replicate 28 0xaa, List.replicate 28 0xbb]⟩, ?_, rfl, rfl⟩
  rw [C80_plan]
  exact ⟨by decide, rfl, [List.replicate 56 'a', List.replicate 56 'B'], rfl,
    .cons ⟨by unfold SpellsHex; decide, by decide⟩ (.cons ⟨by unfold SpellsHex; decide, by decide⟩ .nil)⟩

/-- A custom network with the numbers of the main network. -/
def customMainnet : CustomNetwork :=
  ⟨764824073, 1, key! "44", key! "155381", key! "34482", key! "500000000", key! "2000000", 5000, 16384⟩

example : readNetwork (.obj [(key! "custom", .obj (customMembers customMainnet).reverse)]) =
    some (.custom customMainnet) :=
  (C80_network _ _).mpr ⟨_, rfl, by decide, by decide, by decide, List.reverse_perm _⟩

example : ∃ n, (NetworkInfo.custom customMainnet).network = .ok n ∧ n.costOf 38 = .ok 1672 := by
  obtain ⟨n, h1, _, h2, _⟩ := C80_costs_partial customMainnet (a := 44) (b := 155381) (w := 34482) (p := 500000000)
    (k := 2000000) (coinOf_ok.mp rfl) (coinOf_ok.mp rfl) (coinOf_ok.mp rfl) (coinOf_ok.mp rfl) (coinOf_ok.mp rfl)
  exact ⟨n, h1, h2 38 (by decide)⟩

example : readEra (.obj [(key! "first_slot", .int 86400), (key! "start_epoch", .int 4), (key! "known_time", .int 1655769600),
    (key! "slot_length", .int 1), (key! "epoch_length_seconds", .int 432000)]) = some Sources.shelleyPreprod := by
  rw [C80_era]
  exact ⟨by unfold Sources.Era.Fits; decide, rfl, rfl, rfl, rfl, rfl⟩

example : (fromSlice (toVec (writeRuleDoc ⟨key! "ada", 6, -18⟩))).bind readRuleDoc = some ⟨key! "ada", 6, -18⟩ :=
  C80_rule _ (by decide) (by decide)

end Verif.Props
