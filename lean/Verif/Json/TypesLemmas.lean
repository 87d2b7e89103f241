import Verif.Json.Types
import Verif.Json.TextLemmas

/-!
# The JSON forms read back
-/

namespace Verif.Json

open Verif.Core

theorem fromSlice_toVec (d : Doc) (h : d.WF) : fromSlice (toVec d) = some d := by
  unfold fromSlice toVec
  rw [String.toByteArray_ofList, List.utf8Decode?_utf8Encode]
  exact readDoc_write d h

/-! ## Scalars -/

theorem mkU64_val (n : U64) : mkU64 n.val = some n := dif_pos n.lt

theorem readU64_write (n : U64) : readU64 (writeU64 n) = some n := by
  simp only [writeU64, readU64, mkU64_val]

theorem readNumberDoc_write (n : U64) : readNumberDoc (writeU64 n) = some n := by
  simp only [writeU64, readNumberDoc, toNumberInput, mkU64_val, readNumber]

theorem wf_writeU64 (n : U64) : (writeU64 n).WF := by
  have := n.lt
  unfold u64Bound at this
  simp only [writeU64, Doc.WF, Int.ofNat_eq_natCast]
  omega

theorem readAmount_write (lead trail : Nat) (v : Dec) (hs : v.SmallScale) :
    ∃ w, readAmount (writeAmount lead trail v) = some w ∧ w.toRat = v.toRat := by
  obtain ⟨d, h1, h2⟩ := Dec.parse_display lead trail v hs
  exact ⟨d, by simp [readAmount, writeAmount, toValueInput, Value.deserialize, h1], h2⟩

theorem readU8_write (b : UInt8) : readU8 (.int b.toNat) = some b := by
  have := b.toNat_lt
  have h : (0 : Int) ≤ b.toNat ∧ (b.toNat : Int) < 256 := ⟨by omega, by omega⟩
  simp only [readU8, if_pos h, Int.toNat_natCast, UInt8.ofNat_toNat]

theorem mapM_map {α β : Type} {f : α → β} {g : β → Option α} (h : ∀ a, g (f a) = some a)
    (l : List α) : (l.map f).mapM g = some l := by
  induction l with
  | nil => rfl
  | cons a l ih => rw [List.map_cons, List.mapM_cons, h, ih]; rfl

theorem mapM_map_rel {α β : Type} {f : α → β} {g : β → Option α} {R : α → α → Prop} (l : List α)
    (h : ∀ a ∈ l, ∃ b, g (f a) = some b ∧ R a b) :
    ∃ l', (l.map f).mapM g = some l' ∧ List.Forall₂ R l l' := by
  induction l with
  | nil => exact ⟨[], rfl, List.Forall₂.nil⟩
  | cons a l ih =>
    obtain ⟨b, hb, hr⟩ := h a (by simp)
    obtain ⟨l', hl, hrl⟩ := ih (fun a ha => h a (by simp [ha]))
    exact ⟨b :: l', by rw [List.map_cons, List.mapM_cons, hb, hl]; rfl, List.Forall₂.cons hr hrl⟩

/-! ## Structures -/

theorem readPointer_write (p : Pointer) : readPointer (writePointer p) = some p := by
  have e : fieldsOf true pointerNames (writePointer p) =
      some (true, [some (.str p.transactionId), some (writeU64 p.outputIndex)]) := by rfl
  simp [readPointer, e, req, readText, readU64_write]

theorem wf_writePointer (p : Pointer) : (writePointer p).WF := by
  simp [writePointer, Doc.WF, WFm, wf_writeU64]

/-- The same asset: the quantities are the same number. -/
def Asset.Same (a b : Asset) : Prop :=
  a.policyId = b.policyId ∧ a.assetName = b.assetName ∧ a.fingerprint = b.fingerprint ∧
    a.quantity.toRat = b.quantity.toRat

theorem readAsset_write (lead trail : Nat) (a : Asset) (h : a.quantity.SmallScale) :
    ∃ b, readAsset (writeAsset lead trail a) = some b ∧ a.Same b := by
  obtain ⟨w, hw, hr⟩ := readAmount_write lead trail a.quantity h
  have e : fieldsOf true assetNames (writeAsset lead trail a) =
      some (true, [some (.str a.policyId), some (.str a.assetName), some (.str a.fingerprint),
        some (writeAmount lead trail a.quantity)]) := by rfl
  exact ⟨⟨a.policyId, a.assetName, a.fingerprint, w⟩, by simp [readAsset, e, req, readText, hw],
    rfl, rfl, rfl, hr.symm⟩

theorem wf_writeAsset (lead trail : Nat) (a : Asset) : (writeAsset lead trail a).WF := by
  simp [writeAsset, Doc.WF, WFm, writeAmount]

theorem readOptText_write (o : Option Str) : readOptText (writeOptText o) = some o := by
  cases o <;> rfl

theorem wf_writeOptText (o : Option Str) : (writeOptText o).WF := by
  cases o <;> simp [writeOptText, Doc.WF]

theorem readAssets_write (lead trail : Nat) (l : List Asset) (h : ∀ a ∈ l, a.quantity.SmallScale) :
    ∃ l', readVec readAsset (.arr (l.map (writeAsset lead trail))) = some l' ∧
      List.Forall₂ Asset.Same l l' :=
  mapM_map_rel l (fun a ha => readAsset_write lead trail a (h a ha))

/-! ## Metadata -/

mutual
/-- Levels of arrays and objects. -/
def depth : Doc → Nat
  | .arr l => 1 + depths l
  | .obj m => 1 + depthm m
  | _ => 0
/-- The deepest element. -/
def depths : List Doc → Nat
  | [] => 0
  | d :: l => max (depth d) (depths l)
/-- The deepest member. -/
def depthm : List (Str × Doc) → Nat
  | [] => 0
  | (_, d) :: m => max (depth d) (depthm m)
end

mutual
/-- A value of the library's document type: integers of 64 bits, floating point numbers in canonical
text, members sorted by their keys. -/
def IsValue (canon : Str → Option Str) : Doc → Prop
  | .int n => -2 ^ 63 ≤ n ∧ n < 2 ^ 64
  | .float lit => FloatLit lit ∧ canon lit = some lit
  | .arr l => IsValues canon l
  | .obj m => m.Pairwise (fun p q => p.1 < q.1) ∧ IsValuem canon m
  | _ => True
/-- All elements are. -/
def IsValues (canon : Str → Option Str) : List Doc → Prop
  | [] => True
  | d :: l => IsValue canon d ∧ IsValues canon l
/-- All members are. -/
def IsValuem (canon : Str → Option Str) : List (Str × Doc) → Prop
  | [] => True
  | (_, d) :: m => IsValue canon d ∧ IsValuem canon m
end

mutual
theorem isValue_wf (canon : Str → Option Str) : (d : Doc) → IsValue canon d → d.WF
  | .null, _ => trivial
  | .bool _, _ => trivial
  | .int n, h => by simpa only [IsValue, Doc.WF] using h
  | .float lit, h => by simp only [IsValue] at h; exact h.1
  | .str _, _ => trivial
  | .arr l, h => by
    simp only [IsValue] at h
    simpa only [Doc.WF] using isValues_wf canon l h
  | .obj m, h => by
    simp only [IsValue] at h
    simpa only [Doc.WF] using isValuem_wf canon m h.2
theorem isValues_wf (canon : Str → Option Str) : (l : List Doc) → IsValues canon l → WFs l
  | [], _ => trivial
  | d :: l, h => by
    simp only [IsValues] at h
    exact ⟨isValue_wf canon d h.1, isValues_wf canon l h.2⟩
theorem isValuem_wf (canon : Str → Option Str) : (m : List (Str × Doc)) → IsValuem canon m → WFm m
  | [], _ => trivial
  | (_, d) :: m, h => by
    simp only [IsValuem] at h
    exact ⟨isValue_wf canon d h.1, isValuem_wf canon m h.2⟩
end

theorem insertKey_last (k : Str) (d : Doc) (m : List (Str × Doc)) (h : ∀ p ∈ m, p.1 < k) :
    insertKey k d m = m ++ [(k, d)] := by
  induction m with
  | nil => rfl
  | cons p m ih =>
    obtain ⟨k', d'⟩ := p
    have h1 : k' < k := h (k', d') (by simp)
    simp only [insertKey, if_pos h1, List.cons_append]
    rw [ih (fun p hp => h p (by simp [hp]))]

theorem toMap_sorted (m : List (Str × Doc)) (h : m.Pairwise (fun p q => p.1 < q.1)) :
    toMap m = m := by
  have : ∀ (m acc : List (Str × Doc)), (acc ++ m).Pairwise (fun p q => p.1 < q.1) →
      m.foldl (fun acc p => insertKey p.1 p.2 acc) acc = acc ++ m := by
    intro m
    induction m with
    | nil => intro acc _; simp
    | cons p m ih =>
      intro acc h
      rw [List.foldl_cons, insertKey_last]
      · rw [ih]
        · simp
        · simpa using h
      · intro q hq
        rw [List.pairwise_append] at h
        exact h.2.2 q hq p (by simp)
  exact this m [] (by simpa using h)

theorem str_total {a b : Str} (h : ¬ a < b) (hne : a ≠ b) : b < a :=
  Decidable.byContradiction fun h' => hne (List.le_antisymm (List.not_lt.mp h') (List.not_lt.mp h))

theorem insertKey_sorted (k : Str) (d : Doc) (m : List (Str × Doc)) (h : m.Pairwise (fun p q => p.1 < q.1)) :
    (insertKey k d m).Pairwise (fun p q => p.1 < q.1) ∧
      ∀ k' v, (k', v) ∈ insertKey k d m ↔ (k' = k ∧ v = d) ∨ (k' ≠ k ∧ (k', v) ∈ m) := by
  induction m with
  | nil => exact ⟨by simp [insertKey], fun k' v => by simp [insertKey]⟩
  | cons p m ih =>
    obtain ⟨k1, d1⟩ := p
    rw [List.pairwise_cons] at h
    obtain ⟨i1, i2⟩ := ih h.2
    simp only [insertKey]
    split
    · rename_i hlt
      refine ⟨List.pairwise_cons.mpr ⟨?_, i1⟩, fun k' v => ?_⟩
      · intro q hq
        rcases (i2 q.1 q.2).mp hq with ⟨e, _⟩ | ⟨_, hm⟩
        · rw [e]; exact hlt
        · exact h.1 _ hm
      · rw [List.mem_cons, i2, List.mem_cons]
        constructor
        · rintro (e | e | ⟨e, hm⟩)
          · cases e; exact .inr ⟨fun e => List.lt_irrefl _ (e ▸ hlt), .inl rfl⟩
          · exact .inl e
          · exact .inr ⟨e, .inr hm⟩
        · rintro (e | ⟨e, e' | hm⟩)
          · exact .inr (.inl e)
          · exact .inl e'
          · exact .inr (.inr ⟨e, hm⟩)
    · split
      · rename_i hlt heq
        subst heq
        refine ⟨List.pairwise_cons.mpr ⟨h.1, h.2⟩, fun k' v => ?_⟩
        rw [List.mem_cons, List.mem_cons]
        constructor
        · rintro (e | hm)
          · cases e; exact .inl ⟨rfl, rfl⟩
          · exact .inr ⟨fun e => List.lt_irrefl _ (e ▸ h.1 _ hm), .inr hm⟩
        · rintro (⟨rfl, rfl⟩ | ⟨e, e' | hm⟩)
          · exact .inl rfl
          · cases e'; exact absurd rfl e
          · exact .inr hm
      · rename_i hlt hne
        have hlt' : k < k1 := str_total hlt hne
        refine ⟨List.pairwise_cons.mpr ⟨?_, List.pairwise_cons.mpr h⟩, fun k' v => ?_⟩
        · intro q hq
          rcases List.mem_cons.mp hq with rfl | hq
          · exact hlt'
          · exact List.lt_trans hlt' (h.1 _ hq)
        · rw [List.mem_cons]
          constructor
          · rintro (e | hm)
            · cases e; exact .inl ⟨rfl, rfl⟩
            · refine .inr ⟨fun e => ?_, hm⟩
              subst e
              rcases List.mem_cons.mp hm with e | hm
              · cases e; exact hne rfl
              · exact List.lt_irrefl _ (List.lt_trans hlt' (h.1 _ hm))
          · rintro (⟨rfl, rfl⟩ | ⟨_, hm⟩)
            · exact .inl rfl
            · exact .inr hm

/-- The map of the members: sorted, with the last value of each key. -/
theorem toMap_spec (m : List (Str × Doc)) : (toMap m).Pairwise (fun p q => p.1 < q.1) ∧
    ∀ k v, (k, v) ∈ toMap m ↔ ∃ pre post, m = pre ++ (k, v) :: post ∧ ∀ p ∈ post, p.1 ≠ k := by
  have hsnoc : ∀ (m : List (Str × Doc)) (p : Str × Doc), toMap (m ++ [p]) = insertKey p.1 p.2 (toMap m) := by
    intro m p; simp [toMap, List.foldl_append]
  induction m using List.reverseRecOn with
  | nil => exact ⟨by simp [toMap], fun k v => by simp [toMap]⟩
  | append_singleton m p ih =>
    obtain ⟨i1, i2⟩ := ih
    obtain ⟨s1, s2⟩ := insertKey_sorted p.1 p.2 _ i1
    rw [hsnoc]
    refine ⟨s1, fun k v => ?_⟩
    rw [s2, i2]
    constructor
    · rintro (⟨rfl, rfl⟩ | ⟨hne, pre, post, rfl, hp⟩)
      · exact ⟨m, [], rfl, by simp⟩
      · refine ⟨pre, post ++ [p], by simp, ?_⟩
        intro q hq
        rcases List.mem_append.mp hq with hq | hq
        · exact hp q hq
        · rw [List.mem_singleton.mp hq]; exact fun e => hne e.symm
    · rintro ⟨pre, post, he, hp⟩
      rcases List.eq_nil_or_concat post with rfl | ⟨post', q, rfl⟩
      · obtain ⟨_, e⟩ := List.append_inj' he rfl
        cases List.singleton_inj.mp e
        exact .inl ⟨rfl, rfl⟩
      · have he' : m ++ [p] = (pre ++ (k, v) :: post') ++ [q] := by simpa using he
        obtain ⟨rfl, e⟩ := List.append_inj' he' rfl
        cases List.singleton_inj.mp e
        exact .inr ⟨fun e => hp p (by simp) e.symm, pre, post', rfl, fun x hx => hp x (by simp [hx])⟩

theorem forall₂_split_right {α β : Type} {R : α → β → Prop} : ∀ {m : List α} {pre : List β} {x : β} {post : List β},
    List.Forall₂ R m (pre ++ x :: post) →
      ∃ pre0 y post0, m = pre0 ++ y :: post0 ∧ R y x ∧ List.Forall₂ R post0 post
  | _, [], _, _, .cons h1 h2 => ⟨[], _, _, rfl, h1, h2⟩
  | _, _ :: _, _, _, .cons _ h2 => by
    obtain ⟨p, y, q, rfl, h⟩ := forall₂_split_right h2
    exact ⟨_ :: p, y, q, rfl, h⟩

theorem forall₂_split_left {α β : Type} {R : α → β → Prop} : ∀ {m : List β} {pre : List α} {x : α} {post : List α},
    List.Forall₂ R (pre ++ x :: post) m →
      ∃ pre0 y post0, m = pre0 ++ y :: post0 ∧ R x y ∧ List.Forall₂ R post post0
  | _, [], _, _, .cons h1 h2 => ⟨[], _, _, rfl, h1, h2⟩
  | _, _ :: _, _, _, .cons _ h2 => by
    obtain ⟨p, y, q, rfl, h⟩ := forall₂_split_left h2
    exact ⟨_ :: p, y, q, rfl, h⟩

theorem forall₂_keys {R : Doc → Doc → Prop} {k : Str} : ∀ {m m' : List (Str × Doc)},
    List.Forall₂ (fun p q => p.1 = q.1 ∧ R p.2 q.2) m m' → ((∀ p ∈ m, p.1 ≠ k) ↔ ∀ p ∈ m', p.1 ≠ k)
  | [], [], .nil => Iff.rfl
  | p :: _, q :: _, .cons h1 h2 => by
    rw [List.forall_mem_cons, List.forall_mem_cons, forall₂_keys h2, h1.1]

theorem readMetam_spec (canon : Str → Option Str) (b : Nat) : ∀ {m m' : List (Str × Doc)},
    readMetam canon b m = some m' → List.Forall₂ (fun p q => p.1 = q.1 ∧ readMeta canon b p.2 = some q.2) m m'
  | [], m', h => by simp only [readMetam, Option.some.injEq] at h; subst h; exact .nil
  | (k, d) :: m, m', h => by
    simp only [readMetam] at h
    split at h
    · rename_i d' l' h1 h2
      cases h
      exact .cons ⟨rfl, h1⟩ (readMetam_spec canon b h2)
    · cases h

mutual
theorem readMeta_value (canon : Str → Option Str) : (d : Doc) → IsValue canon d → ∀ b, depth d < b →
    readMeta canon b d = some d
  | .null, _, b, _ => by simp [readMeta]
  | .bool _, _, b, _ => by simp [readMeta]
  | .int _, _, b, _ => by simp [readMeta]
  | .float lit, h, b, _ => by simp only [IsValue] at h; simp [readMeta, h.2]
  | .str _, _, b, _ => by simp [readMeta]
  | .arr l, h, b, hb => by
    simp only [IsValue] at h
    simp only [depth] at hb
    simp only [readMeta]
    rw [if_neg (by omega), readMetas_value canon l h (b - 1) (by omega)]
    rfl
  | .obj m, h, b, hb => by
    simp only [IsValue] at h
    simp only [depth] at hb
    simp only [readMeta]
    rw [if_neg (by omega), readMetam_value canon m h.2 (b - 1) (by omega)]
    simp [toMap_sorted m h.1]
theorem readMetas_value (canon : Str → Option Str) : (l : List Doc) → IsValues canon l → ∀ b,
    depths l < b → readMetas canon b l = some l
  | [], _, b, _ => by simp [readMetas]
  | d :: l, h, b, hb => by
    simp only [IsValues] at h
    simp only [depths] at hb
    simp only [readMetas]
    rw [readMeta_value canon d h.1 b (by omega), readMetas_value canon l h.2 b (by omega)]
theorem readMetam_value (canon : Str → Option Str) : (m : List (Str × Doc)) → IsValuem canon m → ∀ b,
    depthm m < b → readMetam canon b m = some m
  | [], _, b, _ => by simp [readMetam]
  | (k, d) :: m, h, b, hb => by
    simp only [IsValuem] at h
    simp only [depthm] at hb
    simp only [readMetam]
    rw [readMeta_value canon d h.1 b (by omega), readMetam_value canon m h.2 b (by omega)]
end

mutual
/-- Too deep a document is refused. -/
theorem readMeta_deep (canon : Str → Option Str) : (d : Doc) → ∀ b, 1 ≤ b → b ≤ depth d →
    readMeta canon b d = none
  | .null, b, h1, h => by simp only [depth] at h; omega
  | .bool _, b, h1, h => by simp only [depth] at h; omega
  | .int _, b, h1, h => by simp only [depth] at h; omega
  | .float lit, b, h1, h => by simp only [depth] at h; omega
  | .str _, b, h1, h => by simp only [depth] at h; omega
  | .arr l, b, h1, h => by
    simp only [depth] at h
    simp only [readMeta]
    split
    · rfl
    · rw [readMetas_deep canon l (b - 1) (by omega) (by omega)]; rfl
  | .obj m, b, h1, h => by
    simp only [depth] at h
    simp only [readMeta]
    split
    · rfl
    · rw [readMetam_deep canon m (b - 1) (by omega) (by omega)]; rfl
theorem readMetas_deep (canon : Str → Option Str) : (l : List Doc) → ∀ b, 1 ≤ b → b ≤ depths l →
    readMetas canon b l = none
  | [], b, h1, h => by simp only [depths] at h; omega
  | d :: l, b, h1, h => by
    simp only [depths] at h
    simp only [readMetas]
    by_cases hd : b ≤ depth d
    · rw [readMeta_deep canon d b h1 hd]
    · rw [readMetas_deep canon l b h1 (by omega)]
      cases readMeta canon b d <;> rfl
theorem readMetam_deep (canon : Str → Option Str) : (m : List (Str × Doc)) → ∀ b, 1 ≤ b →
    b ≤ depthm m → readMetam canon b m = none
  | [], b, h1, h => by simp only [depthm] at h; omega
  | (k, d) :: m, b, h1, h => by
    simp only [depthm] at h
    simp only [readMetam]
    by_cases hd : b ≤ depth d
    · rw [readMeta_deep canon d b h1 hd]
    · rw [readMetam_deep canon m b h1 (by omega)]
      cases readMeta canon b d <;> rfl
end

/-! ## Outputs and transactions -/

/-- The same output: amounts are the same numbers, everything else is equal. This is what the derived
`PartialEq` compares (tx/utxo.rs:34, value.rs:544-548). -/
def Details.Same (u v : Details) : Prop :=
  u.pointer = v.pointer ∧ u.address = v.address ∧ u.value.toRat = v.value.toRat ∧
    List.Forall₂ Asset.Same u.assets v.assets ∧ u.metadata = v.metadata ∧ u.extra = v.extra

/-- The amounts have scales that fit the reader. -/
def Details.Small (u : Details) : Prop :=
  u.value.SmallScale ∧ ∀ a ∈ u.assets, a.quantity.SmallScale

theorem readDetails_write (canon : Str → Option Str) (lead trail budget : Nat) (u : Details)
    (hs : u.Small) (hm : IsValue canon u.metadata) (hd : depth u.metadata < budget - 1) :
    ∃ v, readDetails canon budget (writeDetails lead trail u) = some v ∧ u.Same v := by
  obtain ⟨w, hw, hr⟩ := readAmount_write lead trail u.value hs.1
  obtain ⟨l, hl, hlr⟩ := readAssets_write lead trail u.assets hs.2
  have e : fieldsOf false detailsNames (writeDetails lead trail u) =
      some (true, [some (writePointer u.pointer), some (.str u.address),
        some (writeAmount lead trail u.value), some (.arr (u.assets.map (writeAsset lead trail))),
        some u.metadata, some (writeOptText u.extra)]) := by rfl
  refine ⟨⟨u.pointer, u.address, w, l, u.metadata, u.extra⟩, ?_, rfl, rfl, hr.symm, hlr, rfl, rfl⟩
  simp [readDetails, e, req, dflt, readText, readPointer_write, hw, hl, readOptText_write,
    readMeta_value canon _ hm _ hd]

theorem wf_writeDetails (canon : Str → Option Str) (lead trail : Nat) (u : Details)
    (hm : IsValue canon u.metadata) : (writeDetails lead trail u).WF := by
  have h1 : WFs (u.assets.map (writeAsset lead trail)) := by
    rw [WFs_iff]
    intro d hd
    obtain ⟨a, _, rfl⟩ := List.mem_map.mp hd
    exact wf_writeAsset lead trail a
  simp [writeDetails, Doc.WF, WFm, wf_writePointer, writeAmount, h1, wf_writeOptText,
    isValue_wf canon _ hm]

/-- The same output to be made. -/
def Builder.Same (u v : Builder) : Prop :=
  u.address = v.address ∧ u.value.toRat = v.value.toRat ∧
    List.Forall₂ Asset.Same u.assets v.assets ∧ u.extra = v.extra

theorem readBuilder_write (lead trail : Nat) (u : Builder) (h1 : u.value.SmallScale)
    (h2 : ∀ a ∈ u.assets, a.quantity.SmallScale) :
    ∃ v, readBuilder (writeBuilder lead trail u) = some v ∧ u.Same v := by
  obtain ⟨w, hw, hr⟩ := readAmount_write lead trail u.value h1
  obtain ⟨l, hl, hlr⟩ := readAssets_write lead trail u.assets h2
  have e : fieldsOf false builderNames (writeBuilder lead trail u) =
      some (true, [some (.str u.address),
        some (writeAmount lead trail u.value), some (.arr (u.assets.map (writeAsset lead trail))),
        some (writeOptText u.extra)]) := by rfl
  refine ⟨⟨u.address, w, l, u.extra⟩, ?_, rfl, hr.symm, hlr, rfl⟩
  simp [readBuilder, e, req, dflt, readText, hw, hl, readOptText_write]

theorem wf_writeBuilder (lead trail : Nat) (u : Builder) : (writeBuilder lead trail u).WF := by
  have h1 : WFs (u.assets.map (writeAsset lead trail)) := by
    rw [WFs_iff]
    intro d hd
    obtain ⟨a, _, rfl⟩ := List.mem_map.mp hd
    exact wf_writeAsset lead trail a
  simp [writeBuilder, Doc.WF, WFm, writeAmount, h1, wf_writeOptText]

/-- The same transaction. -/
def Transaction.Same (s t : Transaction) : Prop :=
  s.transactionId = t.transactionId ∧ s.inputs = t.inputs ∧
    List.Forall₂ Details.Same s.outputs t.outputs ∧ s.metadata = t.metadata

theorem readTransaction_write (canon : Str → Option Str) (lead trail budget : Nat) (t : Transaction)
    (ho : ∀ u ∈ t.outputs, u.Small ∧ IsValue canon u.metadata ∧ depth u.metadata < budget - 3)
    (hm : IsValue canon t.metadata) (hd : depth t.metadata < budget - 1) :
    ∃ s, readTransaction canon budget (writeTransaction lead trail t) = some s ∧ t.Same s := by
  obtain ⟨l, hl, hlr⟩ := mapM_map_rel (f := writeDetails lead trail)
    (g := readDetails canon (budget - 2)) (R := Details.Same) t.outputs (fun u hu =>
      readDetails_write canon lead trail (budget - 2) u (ho u hu).1 (ho u hu).2.1
        (by have := (ho u hu).2.2; omega))
  have e : fieldsOf true transactionNames (writeTransaction lead trail t) =
      some (true, [some (.str t.transactionId), some (.arr (t.inputs.map writePointer)),
        some (.arr (t.outputs.map (writeDetails lead trail))), some t.metadata]) := by rfl
  refine ⟨⟨t.transactionId, t.inputs, l, t.metadata⟩, ?_, rfl, rfl, hlr, rfl⟩
  simp [readTransaction, e, req, dflt, readText, readVec, mapM_map readPointer_write, hl,
    readMeta_value canon _ hm _ hd]

theorem wf_writeTransaction (canon : Str → Option Str) (lead trail : Nat) (t : Transaction)
    (ho : ∀ u ∈ t.outputs, IsValue canon u.metadata) (hm : IsValue canon t.metadata) :
    (writeTransaction lead trail t).WF := by
  have h1 : WFs (t.inputs.map writePointer) := by
    rw [WFs_iff]
    intro d hd
    obtain ⟨a, _, rfl⟩ := List.mem_map.mp hd
    exact wf_writePointer a
  have h2 : WFs (t.outputs.map (writeDetails lead trail)) := by
    rw [WFs_iff]
    intro d hd
    obtain ⟨a, ha, rfl⟩ := List.mem_map.mp hd
    exact wf_writeDetails canon lead trail a (ho a ha)
  simp [writeTransaction, Doc.WF, WFm, h1, h2, isValue_wf canon _ hm]

/-! ## Sources -/

theorem readPoint_write (p : Point) : readPoint (writePoint p) = some p := by
  cases p with
  | origin => rfl
  | blockHeader s h =>
    have e : fieldsOf false headerNames (.obj [(key! "slot_nb", writeU64 s), (key! "hash", .str h)]) =
      some (true, [some (writeU64 s), some (.str h)]) := by rfl
    have hk : key! "BlockHeader" ≠ key! "Origin" := by decide
    simp only [writePoint, readPoint, if_neg hk, if_true, readHeader, e, req, readNumberDoc_write,
      readText]
    rfl

theorem wf_writePoint (p : Point) : (writePoint p).WF := by
  cases p <;> simp [writePoint, Doc.WF, WFm, wf_writeU64]

theorem readBlockEvent_write (e : BlockEvent) : readBlockEvent (writeBlockEvent e) = some e := by
  have h : fieldsOf false eventNames (writeBlockEvent e) =
      some (true, [some (.str e.id), some (.str e.parentId), some (writeU64 e.blockNumber),
        some (.arr (e.rawBlock.map fun b => .int b.toNat)), some (writeU64 e.slotNumber),
        some (.bool e.isBoundaryBlock), some (writeU64 e.epoch)]) := by rfl
  simp [readBlockEvent, h, req, readText, readNumberDoc_write, readU64_write, readVec, readBool,
    mapM_map readU8_write]

theorem wf_writeBlockEvent (e : BlockEvent) : (writeBlockEvent e).WF := by
  have h1 : WFs (e.rawBlock.map fun b => Doc.int b.toNat) := by
    rw [WFs_iff]
    intro d hd
    obtain ⟨b, _, rfl⟩ := List.mem_map.mp hd
    have := b.toNat_lt
    simp only [Doc.WF]
    omega
  simp [writeBlockEvent, Doc.WF, WFm, wf_writeU64, h1]

theorem readRule_write (r : SelectionRule) : readRule (writeRule r) = some r := by
  cases r with
  | longestChain d a =>
    have e : fieldsOf false ruleNames (.obj [(key! "depth", writeU64 d), (key! "age_gap", writeU64 a)]) =
      some (true, [some (writeU64 d), some (writeU64 a)]) := by rfl
    have : readRule (writeRule (.longestChain d a)) =
        readLongestChain (.obj [(key! "depth", writeU64 d), (key! "age_gap", writeU64 a)]) := by rfl
    rw [this]
    simp [readLongestChain, e, req, readU64_write]

theorem wf_writeRule (r : SelectionRule) : (writeRule r).WF := by
  cases r; simp [writeRule, Doc.WF, WFm, wf_writeU64]

theorem readLogMapConfig_write (c : LogMapConfig) :
    readLogMapConfig (writeLogMapConfig c) = some c := by
  have e : fieldsOf true logMapNames (writeLogMapConfig c) =
      some (true, [some (writeOptText c.storagePath), some (.bool c.useKeyIndexing),
        some (.bool c.readonly)]) := by rfl
  simp [readLogMapConfig, e, opt, dflt, readOptText_write, readBool]

theorem wf_writeLogMapConfig (c : LogMapConfig) : (writeLogMapConfig c).WF := by
  simp [writeLogMapConfig, Doc.WF, WFm, wf_writeOptText]

end Verif.Json
