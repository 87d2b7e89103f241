import Verif.Props.JsonConfig

/-!
# Which documents are accepted (C79)

For each type the documents that read as a value of it are described: by the one member of each name for an object, by
the element at the place of the field for an array. `C79_accepts_*` say that the readers accept exactly these.
-/

namespace Verif.Props

open Verif.Core Verif.Json

/-! ## Specification -/

/-- The document gives `x` for the field `k` of a structure with the fields `names`. -/
def Gives (names : List Str) (k : Str) (x : Doc) : Doc → Prop
  | .obj m => Member m k x
  | .arr l => l[names.idxOf k]? = some x
  | _ => False

/-- The document gives nothing for the field `k`. -/
def Omits (names : List Str) (k : Str) : Doc → Prop
  | .obj m => Absent m k
  | .arr l => l.length ≤ names.idxOf k
  | _ => False

/-- The document is an object, without other members than the fields if `only`, or an array that is not too long. -/
def Shaped (only : Bool) (names : List Str) : Doc → Prop
  | .obj m => only = true → ∀ p ∈ m, p.1 ∈ names
  | .arr l => l.length ≤ names.length
  | _ => False

/-- The field `k` is given, by a document of which `P` holds. -/
def Has (names : List Str) (k : Str) (P : Doc → Prop) (d : Doc) : Prop := ∃ x, Gives names k x d ∧ P x

/-- The field `k` is given by a document of which `P` holds, or not given and `Q` holds. -/
def HasOr (names : List Str) (k : Str) (P : Doc → Prop) (Q : Prop) (d : Doc) : Prop :=
  Has names k P d ∨ Omits names k d ∧ Q

/-- A text. -/
def IsText (s : Str) (d : Doc) : Prop := d = .str s

/-- A text or null. -/
def IsOptText : Option Str → Doc → Prop
  | none, d => d = .null
  | some s, d => d = .str s

/-- An integer of 64 bits. -/
def IsInteger (n : U64) (d : Doc) : Prop := d = .int n.val

/-- An integer of 64 bits, or its decimal digits as a text, perhaps after a plus sign. -/
def IsNumber (n : U64) (d : Doc) : Prop :=
  d = .int n.val ∨ ∃ body, IsDecimal body n.val ∧ (d = .str body ∨ d = .str ('+' :: body))

/-- An integer of 64 bits, or a text the decimal library reads. -/
def IsQuantity (v : Dec) (d : Doc) : Prop :=
  (∃ n : U64, d = .int n.val ∧ v = ⟨n.val, 0⟩) ∨ ∃ s, d = .str s ∧ Dec.parse s = some v

/-- True or false. -/
def IsBool (b : Bool) (d : Doc) : Prop := d = .bool b

/-- A byte. -/
def IsByte (b : UInt8) (d : Doc) : Prop := d = .int b.toNat

/-- An array of the documents of the elements, in their order. -/
def IsArray {α : Type} (P : α → Doc → Prop) (as : List α) (d : Doc) : Prop :=
  ∃ l, d = .arr l ∧ List.Forall₂ (fun x a => P a x) l as

mutual
/-- `v` is the document `d` with its floating point numbers made canonical and its objects made sorted maps, in which the
last of several members of one key is kept. -/
def MetaOf (canon : Str → Option Str) : Doc → Doc → Prop
  | .null, v => v = .null
  | .bool b, v => v = .bool b
  | .int n, v => v = .int n
  | .float lit, v => ∃ c, canon lit = some c ∧ v = .float c
  | .str s, v => v = .str s
  | .arr l, v => ∃ l', v = .arr l' ∧ MetaOfs canon l l'
  | .obj m, v => ∃ m1 m', v = .obj m' ∧ MetaOfm canon m m1 ∧ m'.Pairwise (fun p q => p.1 < q.1) ∧
      ∀ k x, (k, x) ∈ m' ↔ ∃ pre post, m1 = pre ++ (k, x) :: post ∧ ∀ p ∈ post, p.1 ≠ k
/-- Element by element. -/
def MetaOfs (canon : Str → Option Str) : List Doc → List Doc → Prop
  | [], l' => l' = []
  | d :: l, l' => ∃ v vs, l' = v :: vs ∧ MetaOf canon d v ∧ MetaOfs canon l vs
/-- Member by member. -/
def MetaOfm (canon : Str → Option Str) : List (Str × Doc) → List (Str × Doc) → Prop
  | [], m' => m' = []
  | (k, d) :: m, m' => ∃ v vs, m' = (k, v) :: vs ∧ MetaOf canon d v ∧ MetaOfm canon m vs
end

/-- A document for metadata, nested at most `room` levels. -/
def IsMeta (canon : Str → Option Str) (room : Nat) (v d : Doc) : Prop := depth d ≤ room ∧ MetaOf canon d v

/-- A document for a pointer. -/
def IsPointer (p : Json.Pointer) (d : Doc) : Prop :=
  let names := [key! "transactionId", key! "outputIndex"]
  Shaped true names d ∧
  Has names (key! "transactionId") (IsText p.transactionId) d ∧
  Has names (key! "outputIndex") (IsInteger p.outputIndex) d

/-- A document for an asset. -/
def IsAsset (a : Json.Asset) (d : Doc) : Prop :=
  let names := [key! "policyId", key! "assetName", key! "fingerprint", key! "quantity"]
  Shaped true names d ∧
  Has names (key! "policyId") (IsText a.policyId) d ∧
  Has names (key! "assetName") (IsText a.assetName) d ∧
  Has names (key! "fingerprint") (IsText a.fingerprint) d ∧
  Has names (key! "quantity") (IsQuantity a.quantity) d

/-- A document for a UTxO, whose metadata may be nested `room` levels. -/
def IsUtxo (canon : Str → Option Str) (room : Nat) (u : Details) (d : Doc) : Prop :=
  let names := [key! "pointer", key! "address", key! "value", key! "assets", key! "metadata", key! "extra"]
  Shaped false names d ∧
  Has names (key! "pointer") (IsPointer u.pointer) d ∧
  Has names (key! "address") (IsText u.address) d ∧
  Has names (key! "value") (IsQuantity u.value) d ∧
  HasOr names (key! "assets") (IsArray IsAsset u.assets) (u.assets = []) d ∧
  Has names (key! "metadata") (IsMeta canon room u.metadata) d ∧
  HasOr names (key! "extra") (IsOptText u.extra) (u.extra = none) d

/-- A document for an output to be made. -/
def IsOutput (u : Builder) (d : Doc) : Prop :=
  let names := [key! "address", key! "value", key! "assets", key! "extra"]
  Shaped false names d ∧
  Has names (key! "address") (IsText u.address) d ∧
  Has names (key! "value") (IsQuantity u.value) d ∧
  Has names (key! "assets") (IsArray IsAsset u.assets) d ∧
  HasOr names (key! "extra") (IsOptText u.extra) (u.extra = none) d

/-- A document for a transaction: its metadata may be nested 126 levels, those of its outputs 124. -/
def IsTransaction (canon : Str → Option Str) (t : Transaction) (d : Doc) : Prop :=
  let names := [key! "transactionId", key! "inputs", key! "outputs", key! "metadata"]
  Shaped true names d ∧
  Has names (key! "transactionId") (IsText t.transactionId) d ∧
  Has names (key! "inputs") (IsArray IsPointer t.inputs) d ∧
  Has names (key! "outputs") (IsArray (IsUtxo canon 124) t.outputs) d ∧
  HasOr names (key! "metadata") (IsMeta canon 126 t.metadata) (t.metadata = .null) d

/-- A document for a position. -/
def IsPoint : Point → Doc → Prop
  | .origin, d => d = .str (key! "Origin") ∨ d = .obj [(key! "Origin", .null)]
  | .blockHeader s h, d => ∃ c, d = .obj [(key! "BlockHeader", c)] ∧
      let names := [key! "slot_nb", key! "hash"]
      Shaped false names c ∧ Has names (key! "slot_nb") (IsNumber s) c ∧ Has names (key! "hash") (IsText h) c

/-- A document for a block of the source. -/
def IsBlock (e : BlockEvent) (d : Doc) : Prop :=
  let names := [key! "id", key! "parent_id", key! "block_number", key! "raw_block", key! "slot_number",
    key! "is_boundary_block", key! "epoch"]
  Shaped false names d ∧
  Has names (key! "id") (IsText e.id) d ∧
  Has names (key! "parent_id") (IsText e.parentId) d ∧
  Has names (key! "block_number") (IsNumber e.blockNumber) d ∧
  Has names (key! "raw_block") (IsArray IsByte e.rawBlock) d ∧
  Has names (key! "slot_number") (IsNumber e.slotNumber) d ∧
  Has names (key! "is_boundary_block") (IsBool e.isBoundaryBlock) d ∧
  Has names (key! "epoch") (IsInteger e.epoch) d

/-- A document for the configuration of the indexed log. The path may be left out of an object, not of an array. -/
def IsLogMapConfig (c : LogMapConfig) (d : Doc) : Prop :=
  let names := [key! "storage_path", key! "use_key_indexing", key! "readonly"]
  Shaped true names d ∧
  HasOr names (key! "storage_path") (IsOptText c.storagePath) (c.storagePath = none ∧ ∃ m, d = .obj m) d ∧
  HasOr names (key! "use_key_indexing") (IsBool c.useKeyIndexing) (c.useKeyIndexing = false) d ∧
  HasOr names (key! "readonly") (IsBool c.readonly) (c.readonly = false) d

/-- A document for the rule by which blocks are selected: an object with the name of the rule as the member `rule`, or an
array that begins with it. -/
def IsRule : SelectionRule → Doc → Prop
  | .longestChain n g, d =>
    let names := [key! "depth", key! "age_gap"]
    (∃ m, d = .obj m ∧ Member m (key! "rule") (.str (key! "LongestChain")) ∧
      Has names (key! "depth") (IsInteger n) d ∧ Has names (key! "age_gap") (IsInteger g) d) ∨
    ∃ x y, d = .arr [.str (key! "LongestChain"), x, y] ∧ IsInteger n x ∧ IsInteger g y

/-! ## Fields -/

/-- What a document says about a field. -/
def Says (names : List Str) (d : Doc) (k : Str) : Option Doc → Prop
  | none => Omits names k d
  | some x => Gives names k x d

theorem forall₂_idx {names l : List Str} {xs : List Doc} {ds : List (Option Doc)} (hn : (l ++ names).Nodup)
    (hlen : xs.length ≤ (l ++ names).length) :
    ds = (xs.drop l.length).map some ++ List.replicate (names.length - (xs.drop l.length).length) none ↔
      List.Forall₂ (fun k o => Says (l ++ names) (.arr xs) k o) names ds := by
  induction names generalizing l ds with
  | nil =>
    have : xs.drop l.length = [] := by
      apply List.drop_eq_nil_of_le; simpa using hlen
    rw [this]
    simp
  | cons k ks ih =>
    have hidx : (l ++ k :: ks).idxOf k = l.length := by
      rw [List.idxOf_append_of_notMem]
      · simp
      · intro hk
        exact (List.nodup_append.mp hn).2.2 k hk k (by simp) rfl
    have e : l ++ k :: ks = (l ++ [k]) ++ ks := by simp
    have hrec := ih (l := l ++ [k]) (ds := ds.tail) (by rw [← e]; exact hn) (by rw [← e]; exact hlen)
    rw [← e] at hrec
    simp only [List.length_append, List.length_cons, List.length_nil, Nat.zero_add] at hrec
    rcases Nat.lt_or_ge l.length xs.length with hlt | hge
    · rw [List.drop_eq_getElem_cons hlt]
      cases ds with
      | nil => exact ⟨fun h => by simp at h; omega, fun h => by cases h⟩
      | cons o os =>
        simp only [List.tail_cons] at hrec
        rw [List.forall₂_cons, ← hrec]
        simp only [List.map_cons, List.cons_append, List.cons.injEq, List.length_cons]
        rw [show ks.length + 1 - ((List.drop (l.length + 1) xs).length + 1) =
          ks.length - (List.drop (l.length + 1) xs).length by omega]
        refine and_congr ?_ Iff.rfl
        cases o with
        | none => simp [Says, Omits, hidx]; omega
        | some x =>
          simp only [Says, Gives, hidx, List.getElem?_eq_getElem hlt, Option.some.injEq]
          exact eq_comm
    · have h1 : xs.drop l.length = [] := List.drop_eq_nil_of_le hge
      have h2 : xs.drop (l.length + 1) = [] := List.drop_eq_nil_of_le (by omega)
      rw [h1]
      rw [h2] at hrec
      cases ds with
      | nil => exact ⟨fun h => by simp at h, fun h => by cases h⟩
      | cons o os =>
        simp only [List.tail_cons] at hrec
        rw [List.forall₂_cons, ← hrec]
        simp only [List.map_nil, List.nil_append, List.length_nil, List.length_cons, Nat.sub_zero,
          List.replicate_succ, List.cons.injEq]
        refine and_congr ?_ Iff.rfl
        cases o with
        | none => simp [Says, Omits, hidx, hge]
        | some x =>
          simp only [Says, Gives, hidx, reduceCtorEq, false_iff]
          rw [List.getElem?_eq_none hge]
          simp

/-- The fields of a document. -/
theorem fieldsOf_iff (only : Bool) (names : List Str) (hn : names.Nodup) (d : Doc) (b : Bool)
    (ds : List (Option Doc)) :
    fieldsOf only names d = some (b, ds) ↔
      Shaped only names d ∧ (b = true ↔ ∃ m, d = .obj m) ∧ List.Forall₂ (Says names d) names ds := by
  cases d with
  | obj m =>
    rw [fieldsOf_obj]
    have : (∃ m', Doc.obj m = Doc.obj m') := ⟨m, rfl⟩
    simp only [this, iff_true]
    constructor
    · rintro ⟨h1, h2, h3⟩
      refine ⟨h2, h1, ?_⟩
      refine h3.imp fun k o h => ?_
      cases o <;> exact h
    · rintro ⟨h1, h2, h3⟩
      refine ⟨h2, h1, ?_⟩
      refine h3.imp fun k o h => ?_
      cases o <;> exact h
  | arr l =>
    simp only [fieldsOf, Shaped, reduceCtorEq, exists_false, iff_false]
    have h := forall₂_idx (names := names) (l := []) (xs := l) (ds := ds) (by simpa using hn)
    simp only [List.nil_append, List.length_nil, List.drop_zero] at h
    split
    · simp; omega
    · rename_i hlen
      have hlen : l.length ≤ names.length := by omega
      rw [show List.Forall₂ (Says names (.arr l)) names ds ↔ _ from (h hlen).symm]
      simp only [Option.some.injEq, Prod.mk.injEq, hlen, true_and]
      constructor
      · rintro ⟨rfl, rfl⟩; simp
      · rintro ⟨h1, rfl⟩; exact ⟨by simpa using h1, rfl⟩
  | _ => simp [fieldsOf, Shaped]

theorem req_iff {α : Type} {f : Doc → Option α} {names : List Str} {d : Doc} {k : Str} {a : α} {P : Doc → Prop}
    (hP : ∀ x, f x = some a ↔ P x) : (∃ o, Says names d k o ∧ req f o = some a) ↔ Has names k P d := by
  constructor
  · rintro ⟨o, h1, h2⟩
    obtain ⟨x, rfl, h⟩ := req_some h2
    exact ⟨x, h1, (hP x).mp h⟩
  · rintro ⟨x, h1, h2⟩
    exact ⟨some x, h1, (hP x).mpr h2⟩

theorem dflt_iff {α : Type} {f : Doc → Option α} {names : List Str} {d : Doc} {k : Str} {a a0 : α} {P : Doc → Prop}
    (hP : ∀ x, f x = some a ↔ P x) :
    (∃ o, Says names d k o ∧ dflt a0 f o = some a) ↔ HasOr names k P (a = a0) d := by
  constructor
  · rintro ⟨o, h1, h2⟩
    cases o with
    | none => exact .inr ⟨h1, (Option.some.inj h2).symm⟩
    | some x => exact .inl ⟨x, h1, (hP x).mp h2⟩
  · rintro (⟨x, h1, h2⟩ | ⟨h1, rfl⟩)
    · exact ⟨some x, h1, (hP x).mpr h2⟩
    · exact ⟨none, h1, rfl⟩

theorem readOptText_iff (d : Doc) (o : Option Str) : readOptText d = some o ↔ IsOptText o d := by
  cases d <;> cases o <;> simp [readOptText, IsOptText]

theorem readBool_iff (d : Doc) (b : Bool) : readBool d = some b ↔ IsBool b d := by
  cases d <;> simp [readBool, IsBool]

theorem readVec_iff {α : Type} {f : Doc → Option α} {P : α → Doc → Prop} (hP : ∀ x a, f x = some a ↔ P a x)
    (d : Doc) (as : List α) : readVec f d = some as ↔ IsArray P as d := by
  cases d with
  | arr l =>
    simp only [readVec, IsArray, Doc.arr.injEq, exists_eq_left']
    induction l generalizing as with
    | nil => simp [eq_comm]
    | cons x xs ih =>
      rw [List.mapM_cons]
      simp only [Option.bind_eq_bind, Option.bind_eq_some_iff, Option.pure_def, Option.some.injEq]
      constructor
      · rintro ⟨a, h1, as', h2, rfl⟩
        exact .cons ((hP x a).mp h1) ((ih as').mp h2)
      · intro h
        cases h with
        | cons h1 h2 => exact ⟨_, (hP _ _).mpr h1, _, (ih _).mpr h2, rfl⟩
  | _ => simp [readVec, IsArray]

theorem mkU64_iff (k : Nat) (n : U64) : mkU64 k = some n ↔ k = n.val := by
  unfold mkU64
  split
  · simp only [Option.some.injEq]
    constructor
    · rintro rfl; rfl
    · rintro rfl; rfl
  · simp only [reduceCtorEq, false_iff]
    rintro rfl
    exact absurd n.lt ‹_›

theorem readAmount_iff (d : Doc) (v : Dec) : readAmount d = some v ↔ IsQuantity v d := by
  cases d with
  | int i =>
    cases i with
    | ofNat k =>
      simp only [readAmount, toValueInput, IsQuantity, Doc.int.injEq, reduceCtorEq, false_and, exists_false, or_false]
      cases hk : mkU64 k with
      | none =>
        simp only [Value.deserialize, Option.map_none, reduceCtorEq, false_iff]
        rintro ⟨n, h, _⟩
        rw [(mkU64_iff k n).mpr (Int.ofNat.inj h)] at hk
        cases hk
      | some n =>
        have := (mkU64_iff k n).mp hk
        simp only [Value.deserialize, Option.map_some, Option.some.injEq]
        constructor
        · rintro rfl
          exact ⟨n, by rw [this]; rfl, rfl⟩
        · rintro ⟨n', h, rfl⟩
          have h' : k = n'.val := Int.ofNat.inj h
          rw [← h', this]; rfl
    | negSucc k =>
      simp only [readAmount, toValueInput, Value.deserialize, Option.map_none, reduceCtorEq, false_iff]
      rintro (⟨n, h, _⟩ | ⟨s, h, _⟩) <;> simp at h
  | str s => simp [readAmount, toValueInput, IsQuantity, Value.deserialize, Option.map_map, Function.comp_def]
  | _ => simp [readAmount, toValueInput, IsQuantity, Value.deserialize]

theorem readNumberDoc_iff (d : Doc) (n : U64) : readNumberDoc d = some n ↔ IsNumber n d := by
  cases d with
  | int i =>
    cases i with
    | ofNat k =>
      simp only [readNumberDoc, toNumberInput, IsNumber, Doc.int.injEq, reduceCtorEq, or_self, and_false, exists_false,
        or_false]
      cases hk : mkU64 k with
      | none =>
        simp only [readNumber, reduceCtorEq, false_iff]
        intro h
        rw [(mkU64_iff k n).mpr (Int.ofNat.inj h)] at hk
        cases hk
      | some n' =>
        have := (mkU64_iff k n').mp hk
        simp only [readNumber, ← this, mkU64_iff]
        exact ⟨fun h => by rw [h]; rfl, fun h => Int.ofNat.inj h⟩
    | negSucc k =>
      simp only [readNumberDoc, toNumberInput, readNumber, reduceCtorEq, false_iff]
      rintro (h | ⟨s, _, h | h⟩) <;> simp at h
  | str s =>
    have hp := C29_parse_exact s n.val
    simp only [readNumberDoc, toNumberInput, readNumber, IsNumber, reduceCtorEq, Doc.str.injEq, false_or]
    have hr : (∃ body, IsDecimal body n.val ∧ (s = body ∨ s = '+' :: body)) ↔ parseU64 s = .ok n.val := by
      rw [hp]
      constructor
      · rintro ⟨b, h1, h2⟩; exact ⟨n.lt, b, h2, h1⟩
      · rintro ⟨_, b, h2, h1⟩; exact ⟨b, h1, h2⟩
    rw [hr]
    cases parseU64 s with
    | ok k => simp [mkU64_iff]
    | error e => simp
  | _ => simp [readNumberDoc, toNumberInput, readNumber, IsNumber]

/-- A list in strict order is determined by its members. -/
theorem eq_of_sorted : ∀ {m m' : List (Str × Doc)}, m.Pairwise (fun p q => p.1 < q.1) →
    m'.Pairwise (fun p q => p.1 < q.1) → (∀ p, p ∈ m ↔ p ∈ m') → m = m'
  | [], [], _, _, _ => rfl
  | [], p :: m', _, _, h => absurd ((h p).mpr (by simp)) (by simp)
  | p :: m, [], _, _, h => absurd ((h p).mp (by simp)) (by simp)
  | p :: m, q :: m', h1, h2, h => by
    obtain ⟨a1, a2⟩ := List.pairwise_cons.mp h1
    obtain ⟨b1, b2⟩ := List.pairwise_cons.mp h2
    have hpq : p = q := by
      rcases List.mem_cons.mp ((h p).mp (by simp)) with h3 | h3
      · exact h3
      · rcases List.mem_cons.mp ((h q).mpr (by simp)) with h4 | h4
        · exact h4.symm
        · exact absurd (List.lt_trans (a1 q h4) (b1 p h3)) (List.lt_irrefl _)
    subst hpq
    congr 1
    refine eq_of_sorted a2 b2 fun x => ?_
    constructor
    · intro hx
      rcases List.mem_cons.mp ((h x).mp (by simp [hx])) with rfl | h3
      · exact absurd (a1 x hx) (List.lt_irrefl _)
      · exact h3
    · intro hx
      rcases List.mem_cons.mp ((h x).mpr (by simp [hx])) with rfl | h3
      · exact absurd (b1 x hx) (List.lt_irrefl _)
      · exact h3

mutual
theorem readMeta_iff (canon : Str → Option Str) : (d : Doc) → ∀ b, 1 ≤ b → ∀ v,
    (readMeta canon b d = some v ↔ depth d < b ∧ MetaOf canon d v)
  | .null, b, hb, v => by simp [readMeta, MetaOf, depth, eq_comm]; omega
  | .bool _, b, hb, v => by simp [readMeta, MetaOf, depth, eq_comm]; omega
  | .int _, b, hb, v => by simp [readMeta, MetaOf, depth, eq_comm]; omega
  | .str _, b, hb, v => by simp [readMeta, MetaOf, depth, eq_comm]; omega
  | .float lit, b, hb, v => by
    simp only [readMeta, MetaOf, depth, Option.map_eq_some_iff]
    constructor
    · rintro ⟨c, h1, rfl⟩; exact ⟨by omega, c, h1, rfl⟩
    · rintro ⟨_, c, h1, rfl⟩; exact ⟨c, h1, rfl⟩
  | .arr l, b, hb, v => by
    simp only [readMeta, MetaOf, depth]
    split
    · simp only [reduceCtorEq, false_iff]
      rintro ⟨h, _⟩; omega
    · rw [Option.map_eq_some_iff]
      constructor
      · rintro ⟨l', h, rfl⟩
        obtain ⟨h1, h2⟩ := (readMetas_iff canon l (b - 1) (by omega) l').mp h
        exact ⟨by omega, l', rfl, h2⟩
      · rintro ⟨h1, l', rfl, h2⟩
        exact ⟨l', (readMetas_iff canon l (b - 1) (by omega) l').mpr ⟨by omega, h2⟩, rfl⟩
  | .obj m, b, hb, v => by
    simp only [readMeta, MetaOf, depth]
    split
    · simp only [reduceCtorEq, false_iff]
      rintro ⟨h, _⟩; omega
    · rw [Option.map_eq_some_iff]
      constructor
      · rintro ⟨m1, h, rfl⟩
        obtain ⟨h1, h2⟩ := (readMetam_iff canon m (b - 1) (by omega) m1).mp h
        exact ⟨by omega, m1, toMap m1, rfl, h2, toMap_spec m1⟩
      · rintro ⟨h1, m1, m', rfl, h2, h3, h4⟩
        refine ⟨m1, (readMetam_iff canon m (b - 1) (by omega) m1).mpr ⟨by omega, h2⟩, ?_⟩
        congr 1
        obtain ⟨t1, t2⟩ := toMap_spec m1
        refine eq_of_sorted t1 h3 fun p => ?_
        rw [show p = (p.1, p.2) from rfl, t2, h4]
theorem readMetas_iff (canon : Str → Option Str) : (l : List Doc) → ∀ b, 1 ≤ b → ∀ l',
    (readMetas canon b l = some l' ↔ depths l < b ∧ MetaOfs canon l l')
  | [], b, hb, l' => by simp [readMetas, MetaOfs, depths, eq_comm]; omega
  | d :: l, b, hb, l' => by
    have h1 := readMeta_iff canon d b hb
    have h2 := readMetas_iff canon l b hb
    simp only [readMetas, MetaOfs, depths, Nat.max_lt]
    constructor
    · intro h
      split at h
      · rename_i v vs e1 e2
        obtain rfl := Option.some.inj h
        obtain ⟨a1, a2⟩ := (h1 v).mp e1
        obtain ⟨b1, b2⟩ := (h2 vs).mp e2
        exact ⟨⟨a1, b1⟩, v, vs, rfl, a2, b2⟩
      · cases h
    · rintro ⟨⟨a1, b1⟩, v, vs, rfl, a2, b2⟩
      rw [(h1 v).mpr ⟨a1, a2⟩, (h2 vs).mpr ⟨b1, b2⟩]
theorem readMetam_iff (canon : Str → Option Str) : (m : List (Str × Doc)) → ∀ b, 1 ≤ b → ∀ m',
    (readMetam canon b m = some m' ↔ depthm m < b ∧ MetaOfm canon m m')
  | [], b, hb, l' => by simp [readMetam, MetaOfm, depthm, eq_comm]; omega
  | (k, d) :: m, b, hb, m' => by
    have h1 := readMeta_iff canon d b hb
    have h2 := readMetam_iff canon m b hb
    simp only [readMetam, MetaOfm, depthm, Nat.max_lt]
    constructor
    · intro h
      split at h
      · rename_i v vs e1 e2
        obtain rfl := Option.some.inj h
        obtain ⟨a1, a2⟩ := (h1 v).mp e1
        obtain ⟨b1, b2⟩ := (h2 vs).mp e2
        exact ⟨⟨a1, b1⟩, v, vs, rfl, a2, b2⟩
      · cases h
    · rintro ⟨⟨a1, b1⟩, v, vs, rfl, a2, b2⟩
      rw [(h1 v).mpr ⟨a1, a2⟩, (h2 vs).mpr ⟨b1, b2⟩]
end

/-- Whether a document is an object. -/
def isObject : Doc → Bool
  | .obj _ => true
  | _ => false

theorem isObject_iff (d : Doc) : isObject d = true ↔ ∃ m, d = .obj m := by
  cases d <;> simp [isObject]

/-! ## Theorems -/

/-- C79: the documents read as a pointer. -/
theorem C79_accepts_pointer (d : Doc) (v : Json.Pointer) : readPointer d = some v ↔ IsPointer v d := by
  unfold readPointer IsPointer
  constructor
  · intro h
    split at h
    · rename_i b f1 f2 hf
      obtain ⟨hs, hb, h2⟩ := (fieldsOf_iff _ _ (by decide) _ _ _).mp hf
      simp only [Option.bind_eq_bind, Option.bind_eq_some_iff, Option.pure_def, Option.some.injEq] at h
      obtain ⟨a1, e1, a2, e2, rfl⟩ := h
      simp only [pointerNames, List.forall₂_cons, List.forall₂_nil_left_iff, and_true] at h2
      obtain ⟨s1, s2⟩ := h2
      exact ⟨hs, (req_iff (fun x => readText_iff x _)).mp ⟨_, s1, e1⟩, (req_iff (fun x => readU64_iff x _)).mp ⟨_, s2, e2⟩⟩
    · cases h
  · rintro ⟨hs, h1, h2⟩
    obtain ⟨f1, s1, e1⟩ := (req_iff (fun x => readText_iff x _)).mpr h1
    obtain ⟨f2, s2, e2⟩ := (req_iff (fun x => readU64_iff x _)).mpr h2
    have hf : fieldsOf true pointerNames d = some (isObject d, [f1, f2]) :=
      (fieldsOf_iff _ _ (by decide) _ _ _).mpr ⟨hs, isObject_iff d, .cons s1 (.cons s2 (.nil))⟩
    rw [hf]
    simp only [e1, e2]
    rfl

/-- C79: the documents read as an asset. -/
theorem C79_accepts_asset (d : Doc) (v : Json.Asset) : readAsset d = some v ↔ IsAsset v d := by
  unfold readAsset IsAsset
  constructor
  · intro h
    split at h
    · rename_i b f1 f2 f3 f4 hf
      obtain ⟨hs, hb, h2⟩ := (fieldsOf_iff _ _ (by decide) _ _ _).mp hf
      simp only [Option.bind_eq_bind, Option.bind_eq_some_iff, Option.pure_def, Option.some.injEq] at h
      obtain ⟨a1, e1, a2, e2, a3, e3, a4, e4, rfl⟩ := h
      simp only [assetNames, List.forall₂_cons, List.forall₂_nil_left_iff, and_true] at h2
      obtain ⟨s1, s2, s3, s4⟩ := h2
      exact ⟨hs, (req_iff (fun x => readText_iff x _)).mp ⟨_, s1, e1⟩, (req_iff (fun x => readText_iff x _)).mp ⟨_, s2, e2⟩, (req_iff (fun x => readText_iff x _)).mp ⟨_, s3, e3⟩, (req_iff (fun x => readAmount_iff x _)).mp ⟨_, s4, e4⟩⟩
    · cases h
  · rintro ⟨hs, h1, h2, h3, h4⟩
    obtain ⟨f1, s1, e1⟩ := (req_iff (fun x => readText_iff x _)).mpr h1
    obtain ⟨f2, s2, e2⟩ := (req_iff (fun x => readText_iff x _)).mpr h2
    obtain ⟨f3, s3, e3⟩ := (req_iff (fun x => readText_iff x _)).mpr h3
    obtain ⟨f4, s4, e4⟩ := (req_iff (fun x => readAmount_iff x _)).mpr h4
    have hf : fieldsOf true assetNames d = some (isObject d, [f1, f2, f3, f4]) :=
      (fieldsOf_iff _ _ (by decide) _ _ _).mpr ⟨hs, isObject_iff d, .cons s1 (.cons s2 (.cons s3 (.cons s4 (.nil))))⟩
    rw [hf]
    simp only [e1, e2, e3, e4]
    rfl

theorem opt_iff {α : Type} {f : Doc → Option (Option α)} {names : List Str} {d : Doc} {k : Str} {a : Option α}
    {P : Doc → Prop} {b : Bool} (hb : b = true ↔ ∃ m, d = .obj m) (hP : ∀ x, f x = some a ↔ P x) :
    (∃ o, Says names d k o ∧ opt b f o = some a) ↔ HasOr names k P (a = none ∧ ∃ m, d = .obj m) d := by
  constructor
  · rintro ⟨o, h1, h2⟩
    cases o with
    | none =>
      simp only [opt] at h2
      split at h2
      · exact .inr ⟨h1, (Option.some.inj h2).symm, hb.mp ‹_›⟩
      · cases h2
    | some x => exact .inl ⟨x, h1, (hP x).mp h2⟩
  · rintro (⟨x, h1, h2⟩ | ⟨h1, rfl, h2⟩)
    · exact ⟨some x, h1, (hP x).mpr h2⟩
    · exact ⟨none, h1, by simp [opt, hb.mpr h2]⟩

theorem readMeta_room (canon : Str → Option Str) {b : Nat} (x : Doc) {v : Doc} (hb : 2 ≤ b) :
    readMeta canon (b - 1) x = some v ↔ IsMeta canon (b - 2) v x := by
  rw [readMeta_iff canon x (b - 1) (by omega)]
  unfold IsMeta
  rw [show depth x < b - 1 ↔ depth x ≤ b - 2 by omega]

/-- The documents read as a UTxO where `b` levels of nesting are left. -/
theorem readDetails_iff (canon : Str → Option Str) (b : Nat) (hb : 2 ≤ b) (d : Doc) (v : Details) : readDetails canon b d = some v ↔ IsUtxo canon (b - 2) v d := by
  unfold readDetails IsUtxo
  constructor
  · intro h
    split at h
    · rename_i b f1 f2 f3 f4 f5 f6 hf
      obtain ⟨hs, hb, h2⟩ := (fieldsOf_iff _ _ (by decide) _ _ _).mp hf
      simp only [Option.bind_eq_bind, Option.bind_eq_some_iff, Option.pure_def, Option.some.injEq] at h
      obtain ⟨a1, e1, a2, e2, a3, e3, a4, e4, a5, e5, a6, e6, rfl⟩ := h
      simp only [detailsNames, List.forall₂_cons, List.forall₂_nil_left_iff, and_true] at h2
      obtain ⟨s1, s2, s3, s4, s5, s6⟩ := h2
      exact ⟨hs, (req_iff (fun x => C79_accepts_pointer x _)).mp ⟨_, s1, e1⟩, (req_iff (fun x => readText_iff x _)).mp ⟨_, s2, e2⟩, (req_iff (fun x => readAmount_iff x _)).mp ⟨_, s3, e3⟩, (dflt_iff (fun x => readVec_iff C79_accepts_asset x _)).mp ⟨_, s4, e4⟩, (req_iff (fun x => readMeta_room canon x (by omega))).mp ⟨_, s5, e5⟩, (dflt_iff (fun x => readOptText_iff x _)).mp ⟨_, s6, e6⟩⟩
    · cases h
  · rintro ⟨hs, h1, h2, h3, h4, h5, h6⟩
    obtain ⟨f1, s1, e1⟩ := (req_iff (fun x => C79_accepts_pointer x _)).mpr h1
    obtain ⟨f2, s2, e2⟩ := (req_iff (fun x => readText_iff x _)).mpr h2
    obtain ⟨f3, s3, e3⟩ := (req_iff (fun x => readAmount_iff x _)).mpr h3
    obtain ⟨f4, s4, e4⟩ := (dflt_iff (fun x => readVec_iff C79_accepts_asset x _)).mpr h4
    obtain ⟨f5, s5, e5⟩ := (req_iff (fun x => readMeta_room canon x (by omega))).mpr h5
    obtain ⟨f6, s6, e6⟩ := (dflt_iff (fun x => readOptText_iff x _)).mpr h6
    have hf : fieldsOf false detailsNames d = some (isObject d, [f1, f2, f3, f4, f5, f6]) :=
      (fieldsOf_iff _ _ (by decide) _ _ _).mpr ⟨hs, isObject_iff d, .cons s1 (.cons s2 (.cons s3 (.cons s4 (.cons s5 (.cons s6 (.nil))))))⟩
    rw [hf]
    simp only [e1, e2, e3, e4, e5, e6]
    rfl

/-- C79: the documents read as an output to be made. Its assets must be given. -/
theorem C79_accepts_output (d : Doc) (v : Builder) : readBuilder d = some v ↔ IsOutput v d := by
  unfold readBuilder IsOutput
  constructor
  · intro h
    split at h
    · rename_i b f1 f2 f3 f4 hf
      obtain ⟨hs, hb, h2⟩ := (fieldsOf_iff _ _ (by decide) _ _ _).mp hf
      simp only [Option.bind_eq_bind, Option.bind_eq_some_iff, Option.pure_def, Option.some.injEq] at h
      obtain ⟨a1, e1, a2, e2, a3, e3, a4, e4, rfl⟩ := h
      simp only [builderNames, List.forall₂_cons, List.forall₂_nil_left_iff, and_true] at h2
      obtain ⟨s1, s2, s3, s4⟩ := h2
      exact ⟨hs, (req_iff (fun x => readText_iff x _)).mp ⟨_, s1, e1⟩, (req_iff (fun x => readAmount_iff x _)).mp ⟨_, s2, e2⟩, (req_iff (fun x => readVec_iff C79_accepts_asset x _)).mp ⟨_, s3, e3⟩, (dflt_iff (fun x => readOptText_iff x _)).mp ⟨_, s4, e4⟩⟩
    · cases h
  · rintro ⟨hs, h1, h2, h3, h4⟩
    obtain ⟨f1, s1, e1⟩ := (req_iff (fun x => readText_iff x _)).mpr h1
    obtain ⟨f2, s2, e2⟩ := (req_iff (fun x => readAmount_iff x _)).mpr h2
    obtain ⟨f3, s3, e3⟩ := (req_iff (fun x => readVec_iff C79_accepts_asset x _)).mpr h3
    obtain ⟨f4, s4, e4⟩ := (dflt_iff (fun x => readOptText_iff x _)).mpr h4
    have hf : fieldsOf false builderNames d = some (isObject d, [f1, f2, f3, f4]) :=
      (fieldsOf_iff _ _ (by decide) _ _ _).mpr ⟨hs, isObject_iff d, .cons s1 (.cons s2 (.cons s3 (.cons s4 (.nil))))⟩
    rw [hf]
    simp only [e1, e2, e3, e4]
    rfl

/-- C79: the documents read as a UTxO. -/
theorem C79_accepts_utxo (canon : Str → Option Str) (b : ByteArray) (u : Details) :
    parseDetails canon b = some u ↔ ∃ d, fromSlice b = some d ∧ IsUtxo canon 126 u d := by
  unfold parseDetails
  rw [Option.bind_eq_some_iff]
  have h := fun d => readDetails_iff canon recursionLimit (by decide) d u
  simp only [h]
  rfl

/-- The documents read as a transaction. -/
theorem readTransaction_iff (canon : Str → Option Str) (d : Doc) (v : Transaction) : readTransaction canon recursionLimit d = some v ↔ IsTransaction canon v d := by
  unfold readTransaction IsTransaction
  constructor
  · intro h
    split at h
    · rename_i b f1 f2 f3 f4 hf
      obtain ⟨hs, hb, h2⟩ := (fieldsOf_iff _ _ (by decide) _ _ _).mp hf
      simp only [Option.bind_eq_bind, Option.bind_eq_some_iff, Option.pure_def, Option.some.injEq] at h
      obtain ⟨a1, e1, a2, e2, a3, e3, a4, e4, rfl⟩ := h
      simp only [transactionNames, List.forall₂_cons, List.forall₂_nil_left_iff, and_true] at h2
      obtain ⟨s1, s2, s3, s4⟩ := h2
      exact ⟨hs, (req_iff (fun x => readText_iff x _)).mp ⟨_, s1, e1⟩, (req_iff (fun x => readVec_iff C79_accepts_pointer x _)).mp ⟨_, s2, e2⟩, (req_iff (fun x => readVec_iff (readDetails_iff canon (recursionLimit - 2) (by decide)) x _)).mp ⟨_, s3, e3⟩, (dflt_iff (fun x => readMeta_room canon (b := recursionLimit) x (by decide))).mp ⟨_, s4, e4⟩⟩
    · cases h
  · rintro ⟨hs, h1, h2, h3, h4⟩
    obtain ⟨f1, s1, e1⟩ := (req_iff (fun x => readText_iff x _)).mpr h1
    obtain ⟨f2, s2, e2⟩ := (req_iff (fun x => readVec_iff C79_accepts_pointer x _)).mpr h2
    obtain ⟨f3, s3, e3⟩ := (req_iff (fun x => readVec_iff (readDetails_iff canon (recursionLimit - 2) (by decide)) x _)).mpr h3
    obtain ⟨f4, s4, e4⟩ := (dflt_iff (fun x => readMeta_room canon (b := recursionLimit) x (by decide))).mpr h4
    have hf : fieldsOf true transactionNames d = some (isObject d, [f1, f2, f3, f4]) :=
      (fieldsOf_iff _ _ (by decide) _ _ _).mpr ⟨hs, isObject_iff d, .cons s1 (.cons s2 (.cons s3 (.cons s4 (.nil))))⟩
    rw [hf]
    simp only [e1, e2, e3, e4]
    rfl

/-- C79: the documents read as a transaction. -/
theorem C79_accepts_transaction (canon : Str → Option Str) (b : ByteArray) (t : Transaction) :
    parseTransaction canon b = some t ↔ ∃ d, fromSlice b = some d ∧ IsTransaction canon t d := by
  unfold parseTransaction
  rw [Option.bind_eq_some_iff]
  simp only [readTransaction_iff canon]

/-- The documents read as a block. -/
theorem readBlockEvent_iff (d : Doc) (v : BlockEvent) : readBlockEvent d = some v ↔ IsBlock v d := by
  unfold readBlockEvent IsBlock
  constructor
  · intro h
    split at h
    · rename_i b f1 f2 f3 f4 f5 f6 f7 hf
      obtain ⟨hs, hb, h2⟩ := (fieldsOf_iff _ _ (by decide) _ _ _).mp hf
      simp only [Option.bind_eq_bind, Option.bind_eq_some_iff, Option.pure_def, Option.some.injEq] at h
      obtain ⟨a1, e1, a2, e2, a3, e3, a4, e4, a5, e5, a6, e6, a7, e7, rfl⟩ := h
      simp only [eventNames, List.forall₂_cons, List.forall₂_nil_left_iff, and_true] at h2
      obtain ⟨s1, s2, s3, s4, s5, s6, s7⟩ := h2
      exact ⟨hs, (req_iff (fun x => readText_iff x _)).mp ⟨_, s1, e1⟩, (req_iff (fun x => readText_iff x _)).mp ⟨_, s2, e2⟩, (req_iff (fun x => readNumberDoc_iff x _)).mp ⟨_, s3, e3⟩, (req_iff (fun x => readVec_iff (fun x a => readU8_iff x a) x _)).mp ⟨_, s4, e4⟩, (req_iff (fun x => readNumberDoc_iff x _)).mp ⟨_, s5, e5⟩, (req_iff (fun x => readBool_iff x _)).mp ⟨_, s6, e6⟩, (req_iff (fun x => readU64_iff x _)).mp ⟨_, s7, e7⟩⟩
    · cases h
  · rintro ⟨hs, h1, h2, h3, h4, h5, h6, h7⟩
    obtain ⟨f1, s1, e1⟩ := (req_iff (fun x => readText_iff x _)).mpr h1
    obtain ⟨f2, s2, e2⟩ := (req_iff (fun x => readText_iff x _)).mpr h2
    obtain ⟨f3, s3, e3⟩ := (req_iff (fun x => readNumberDoc_iff x _)).mpr h3
    obtain ⟨f4, s4, e4⟩ := (req_iff (fun x => readVec_iff (fun x a => readU8_iff x a) x _)).mpr h4
    obtain ⟨f5, s5, e5⟩ := (req_iff (fun x => readNumberDoc_iff x _)).mpr h5
    obtain ⟨f6, s6, e6⟩ := (req_iff (fun x => readBool_iff x _)).mpr h6
    obtain ⟨f7, s7, e7⟩ := (req_iff (fun x => readU64_iff x _)).mpr h7
    have hf : fieldsOf false eventNames d = some (isObject d, [f1, f2, f3, f4, f5, f6, f7]) :=
      (fieldsOf_iff _ _ (by decide) _ _ _).mpr ⟨hs, isObject_iff d, .cons s1 (.cons s2 (.cons s3 (.cons s4 (.cons s5 (.cons s6 (.cons s7 (.nil)))))))⟩
    rw [hf]
    simp only [e1, e2, e3, e4, e5, e6, e7]
    rfl

/-- C79: the documents read as an event of the source: an object with one member, `Block`, that is a block. -/
theorem C79_accepts_block (Tip : Type) (b : ByteArray) (e : NetworkEvent Tip) :
    parseEvent Tip b = some e ↔
      ∃ d block, fromSlice b = some (.obj [(key! "Block", d)]) ∧ e = .block block ∧ IsBlock block d := by
  unfold parseEvent
  rw [Option.bind_eq_some_iff]
  constructor
  · rintro ⟨d, h1, h2⟩
    unfold readEvent at h2
    split at h2
    · split at h2
      · rename_i k d' hk
        subst hk
        obtain ⟨block, h3, rfl⟩ := Option.map_eq_some_iff.mp h2
        exact ⟨d', block, h1, rfl, (readBlockEvent_iff _ _).mp h3⟩
      · cases h2
    · cases h2
  · rintro ⟨d, block, h1, rfl, h2⟩
    refine ⟨_, h1, ?_⟩
    simp only [readEvent, if_true, (readBlockEvent_iff d block).mpr h2, Option.map_some]

/-- C79: the documents read as a configuration of the indexed log. -/
theorem C79_accepts_log_config (d : Doc) (v : LogMapConfig) : readLogMapConfig d = some v ↔ IsLogMapConfig v d := by
  unfold readLogMapConfig IsLogMapConfig
  constructor
  · intro h
    split at h
    · rename_i b f1 f2 f3 hf
      obtain ⟨hs, hb, h2⟩ := (fieldsOf_iff _ _ (by decide) _ _ _).mp hf
      simp only [Option.bind_eq_bind, Option.bind_eq_some_iff, Option.pure_def, Option.some.injEq] at h
      obtain ⟨a1, e1, a2, e2, a3, e3, rfl⟩ := h
      simp only [logMapNames, List.forall₂_cons, List.forall₂_nil_left_iff, and_true] at h2
      obtain ⟨s1, s2, s3⟩ := h2
      exact ⟨hs, (opt_iff hb (fun x => readOptText_iff x _)).mp ⟨_, s1, e1⟩, (dflt_iff (fun x => readBool_iff x _)).mp ⟨_, s2, e2⟩, (dflt_iff (fun x => readBool_iff x _)).mp ⟨_, s3, e3⟩⟩
    · cases h
  · rintro ⟨hs, h1, h2, h3⟩
    obtain ⟨f1, s1, e1⟩ := (opt_iff (isObject_iff d) (fun x => readOptText_iff x _)).mpr h1
    obtain ⟨f2, s2, e2⟩ := (dflt_iff (fun x => readBool_iff x _)).mpr h2
    obtain ⟨f3, s3, e3⟩ := (dflt_iff (fun x => readBool_iff x _)).mpr h3
    have hf : fieldsOf true logMapNames d = some (isObject d, [f1, f2, f3]) :=
      (fieldsOf_iff _ _ (by decide) _ _ _).mpr ⟨hs, isObject_iff d, .cons s1 (.cons s2 (.cons s3 (.nil)))⟩
    rw [hf]
    simp only [e1, e2, e3]
    rfl

/-- C79: the documents read as a position. -/
theorem C79_accepts_point (d : Doc) (p : Point) : readPoint d = some p ↔ IsPoint p d := by
  have hh : ∀ (c : Doc) (p : Point), readHeader c = some p ↔ ∃ s h, p = .blockHeader s h ∧
      Shaped false headerNames c ∧ Has headerNames (key! "slot_nb") (IsNumber s) c ∧
      Has headerNames (key! "hash") (IsText h) c := by
    intro c p
    unfold readHeader
    constructor
    · intro h
      split at h
      · rename_i b f1 f2 hf
        obtain ⟨hs, hb, h2⟩ := (fieldsOf_iff _ _ (by decide) _ _ _).mp hf
        simp only [Option.bind_eq_bind, Option.bind_eq_some_iff, Option.pure_def, Option.some.injEq] at h
        obtain ⟨a1, e1, a2, e2, rfl⟩ := h
        simp only [headerNames, List.forall₂_cons, List.forall₂_nil_left_iff, and_true] at h2
        exact ⟨a1, a2, rfl, hs, (req_iff (fun x => readNumberDoc_iff x _)).mp ⟨_, h2.1, e1⟩,
          (req_iff (fun x => readText_iff x _)).mp ⟨_, h2.2, e2⟩⟩
      · cases h
    · rintro ⟨s, h, rfl, hs, h1, h2⟩
      obtain ⟨f1, s1, e1⟩ := (req_iff (fun x => readNumberDoc_iff x _)).mpr h1
      obtain ⟨f2, s2, e2⟩ := (req_iff (fun x => readText_iff x _)).mpr h2
      have hf : fieldsOf false headerNames c = some (isObject c, [f1, f2]) :=
        (fieldsOf_iff _ _ (by decide) _ _ _).mpr ⟨hs, isObject_iff c, .cons s1 (.cons s2 .nil)⟩
      rw [hf]
      simp only [e1, e2]
      rfl
  have hne : (key! "BlockHeader") ≠ key! "Origin" := by decide
  constructor
  · intro h
    unfold readPoint at h
    split at h
    · split at h
      · rename_i hs
        obtain rfl := Option.some.inj h
        exact .inl (by rw [hs])
      · cases h
    · split at h
      · rename_i hk
        split at h
        · obtain rfl := Option.some.inj h
          exact .inr (by rw [hk])
        · cases h
      · split at h
        · rename_i d _ hk
          obtain ⟨s, h', rfl, h2⟩ := (hh _ _).mp h
          exact ⟨_, by rw [hk], h2⟩
        · cases h
    · cases h
  · intro h
    cases p with
    | origin =>
      rcases h with rfl | rfl
      · simp [readPoint]
      · simp [readPoint]
    | blockHeader s h' =>
      obtain ⟨c, rfl, h2⟩ := h
      simp only [readPoint, if_neg hne, if_true]
      exact (hh _ _).mpr ⟨s, h', rfl, h2⟩

/-- C79: the documents read as the rule by which blocks are selected. -/
theorem C79_accepts_rule (d : Doc) (r : SelectionRule) : readRule d = some r ↔ IsRule r d := by
  have hh : ∀ (c : Doc) (r : SelectionRule), readLongestChain c = some r ↔ ∃ n g, r = .longestChain n g ∧
      Shaped false ruleNames c ∧ Has ruleNames (key! "depth") (IsInteger n) c ∧
      Has ruleNames (key! "age_gap") (IsInteger g) c := by
    intro c r
    unfold readLongestChain
    constructor
    · intro h
      split at h
      · rename_i b f1 f2 hf
        obtain ⟨hs, hb, h2⟩ := (fieldsOf_iff _ _ (by decide) _ _ _).mp hf
        simp only [Option.bind_eq_bind, Option.bind_eq_some_iff, Option.pure_def, Option.some.injEq] at h
        obtain ⟨a1, e1, a2, e2, rfl⟩ := h
        simp only [ruleNames, List.forall₂_cons, List.forall₂_nil_left_iff, and_true] at h2
        exact ⟨a1, a2, rfl, hs, (req_iff (fun x => readU64_iff x _)).mp ⟨_, h2.1, e1⟩,
          (req_iff (fun x => readU64_iff x _)).mp ⟨_, h2.2, e2⟩⟩
      · cases h
    · rintro ⟨s, h, rfl, hs, h1, h2⟩
      obtain ⟨f1, s1, e1⟩ := (req_iff (fun x => readU64_iff x _)).mpr h1
      obtain ⟨f2, s2, e2⟩ := (req_iff (fun x => readU64_iff x _)).mpr h2
      have hf : fieldsOf false ruleNames c = some (isObject c, [f1, f2]) :=
        (fieldsOf_iff _ _ (by decide) _ _ _).mpr ⟨hs, isObject_iff c, .cons s1 (.cons s2 .nil)⟩
      rw [hf]
      simp only [e1, e2]
      rfl
  have hrest : ∀ (m : List (Str × Doc)) (k : Str) (P : Doc → Prop), k ≠ key! "rule" →
      (Has ruleNames k P (.obj (m.filter fun p => p.1 != key! "rule")) ↔ Has ruleNames k P (.obj m)) := by
    intro m k P hk
    simp only [Has, Gives, Member]
    have : (m.filter fun p => p.1 != key! "rule").filter (fun p => p.1 == k) = m.filter fun p => p.1 == k := by
      rw [List.filter_filter]
      refine List.filter_congr fun p _ => ?_
      by_cases hp : p.1 = k
      · simp [hp, hk]
      · simp [hp]
    rw [this]
  have h1 : (key! "depth") ≠ key! "rule" := by decide
  have h2 : (key! "age_gap") ≠ key! "rule" := by decide
  cases r with
  | longestChain n g =>
    constructor
    · intro h
      unfold readRule at h
      split at h
      · rename_i m
        split at h
        · rename_i k v hf
          split at h
          · rename_i hv
            subst hv
            obtain ⟨n', g', e, _, h3, h4⟩ := (hh _ _).mp h
            cases e
            rw [hrest m _ _ h1] at h3
            rw [hrest m _ _ h2] at h4
            refine .inl ⟨m, rfl, ?_, h3, h4⟩
            have hk := filter_key (m := m) (k := key! "rule") (p := (k, .str (key! "LongestChain"))) (by rw [hf]; simp)
            unfold Member
            rw [hf, ← hk]
          · cases h
        · cases h
      · rename_i v l
        split at h
        · rename_i hv
          subst hv
          obtain ⟨n', g', e, hs, ⟨x, hx, h3⟩, ⟨y, hy, h4⟩⟩ := (hh _ _).mp h
          cases e
          refine .inr ⟨x, y, ?_, h3, h4⟩
          have hx' : l[0]? = some x := hx
          have hy' : l[1]? = some y := hy
          have hl : l.length ≤ 2 := hs
          match l, hx', hy', hl with
          | [a, b], hx', hy', _ =>
            simp only [List.getElem?_cons_zero, Option.some.injEq, List.getElem?_cons_succ] at hx' hy'
            rw [hx', hy']
        · cases h
      · cases h
    · rintro (⟨m, rfl, hm, h3, h4⟩ | ⟨x, y, rfl, h3, h4⟩)
      · have hm' : m.filter (fun p => p.1 == key! "rule") = [(key! "rule", .str (key! "LongestChain"))] := hm
        simp only [readRule, hm', if_true]
        exact (hh _ _).mpr ⟨n, g, rfl, by simp [Shaped], (hrest m _ _ h1).mpr h3, (hrest m _ _ h2).mpr h4⟩
      · simp only [readRule, if_true]
        exact (hh _ _).mpr ⟨n, g, rfl, by simp [Shaped, ruleNames], ⟨x, rfl, h3⟩, ⟨y, rfl, h4⟩⟩

/-! ## Examples -/

/-- A pointer as an object with its members the other way round, and as an array. -/
example : IsPointer ⟨key! "ff", ⟨3, by decide⟩⟩
      (.obj [(key! "outputIndex", .int 3), (key! "transactionId", .str (key! "ff"))]) ∧
    IsPointer ⟨key! "ff", ⟨3, by decide⟩⟩ (.arr [.str (key! "ff"), .int 3]) := by
  refine ⟨(C79_accepts_pointer _ _).mp ?_, (C79_accepts_pointer _ _).mp ?_⟩ <;> decide +kernel

/-- An index is not read from a text; a slot number is, with a plus sign or leading zeros. -/
example : (∀ p, ¬ IsPointer p (.arr [.str (key! "ff"), .str (key! "3")])) ∧
    IsPoint (.blockHeader ⟨12, by decide⟩ (key! "ab"))
      (.obj [(key! "BlockHeader", .obj [(key! "hash", .str (key! "ab")), (key! "slot_nb", .str (key! "+012"))])]) := by
  constructor
  · intro p h
    have h := (C79_accepts_pointer _ _).mpr h
    have : readPointer (.arr [.str (key! "ff"), .str (key! "3")]) = none := by rfl
    rw [this] at h
    cases h
  · exact (C79_accepts_point _ _).mp (by decide +kernel)

/-- An output needs its assets, a UTxO does not; both may be without extra data. -/
example : (∀ u, ¬ IsOutput u (.obj [(key! "address", .str (key! "a")), (key! "value", .int 5)])) ∧
    IsOutput ⟨key! "a", ⟨5, 0⟩, [], none⟩
      (.obj [(key! "address", .str (key! "a")), (key! "value", .int 5), (key! "assets", .arr [])]) ∧
    IsUtxo noFloats 126 ⟨⟨key! "ff", ⟨3, by decide⟩⟩, key! "a", ⟨5, 0⟩, [], .null, none⟩
      (.obj [(key! "pointer", .arr [.str (key! "ff"), .int 3]), (key! "address", .str (key! "a")),
        (key! "value", .int 5), (key! "metadata", .null), (key! "unknown", .arr [])]) := by
  refine ⟨fun u h => ?_, ?_, ?_⟩
  · have h := (C79_accepts_output _ _).mpr h
    have : readBuilder (.obj [(key! "address", .str (key! "a")), (key! "value", .int 5)]) = none := by rfl
    rw [this] at h
    cases h
  · exact (C79_accepts_output _ _).mp (by rfl)
  · exact (readDetails_iff noFloats 128 (by decide) _ _).mp (by rfl)

example : IsRule (.longestChain ⟨3, by decide⟩ ⟨2, by decide⟩)
      (.obj [(key! "age_gap", .int 2), (key! "rule", .str (key! "LongestChain")), (key! "depth", .int 3)]) ∧
    IsRule (.longestChain ⟨3, by decide⟩ ⟨2, by decide⟩) (.arr [.str (key! "LongestChain"), .int 3, .int 2]) := by
  refine ⟨(C79_accepts_rule _ _).mp ?_, (C79_accepts_rule _ _).mp ?_⟩ <;> decide +kernel

/-- The path may be left out of an object but not of an array. -/
example : IsLogMapConfig ⟨none, true, false⟩ (.obj [(key! "use_key_indexing", .bool true)]) ∧
    (∀ c, ¬ IsLogMapConfig c (.arr [])) ∧ IsLogMapConfig ⟨none, true, false⟩ (.arr [.null, .bool true]) := by
  refine ⟨(C79_accepts_log_config _ _).mp (by decide +kernel), fun c h => ?_,
    (C79_accepts_log_config _ _).mp (by decide +kernel)⟩
  have h := (C79_accepts_log_config _ _).mpr h
  have : readLogMapConfig (.arr []) = none := by rfl
  rw [this] at h
  cases h

end Verif.Props
