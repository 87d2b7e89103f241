import Verif.Json.TypesLemmas

/-!
# JSON documents (C79)
-/

namespace Verif.Props

open Verif.Core Verif.Json

/-! ## Reading and writing, as the caller sees it -/

/-- `serde_json::from_slice::<Transaction>`. -/
def parseTransaction (canon : Str → Option Str) (b : ByteArray) : Option Transaction :=
  (fromSlice b).bind (readTransaction canon recursionLimit)

/-- `serde_json::from_slice::<UTxODetails>`. -/
def parseDetails (canon : Str → Option Str) (b : ByteArray) : Option Details :=
  (fromSlice b).bind (readDetails canon recursionLimit)

/-- `serde_json::from_slice::<CardanoNetworkEvent<BlockEvent, Tip>>`. -/
def parseEvent (Tip : Type) (b : ByteArray) : Option (NetworkEvent Tip) :=
  (fromSlice b).bind readEvent

/-- C79 for documents: a document written without white space reads back, whatever its strings
contain. -/
theorem C79_text (d : Doc) (h : d.WF) : fromSlice (toVec d) = some d := fromSlice_toVec d h

/-- C79: after a document only white space may follow; a text with anything else after it is refused. (What goes on with a
number is another document.) -/
theorem C79_trailing (d : Doc) (h : d.WF) (rest : Str)
    (hs : ∀ c ∈ rest.head?, isDigit c = false ∧ c ≠ '.' ∧ c ≠ 'e' ∧ c ≠ 'E') :
    fromSlice (String.ofList (write d ++ rest)).toByteArray =
      if ∀ c ∈ rest, c = ' ' ∨ c = '\n' ∨ c = '\t' ∨ c = '\r' then some d else none := by
  unfold fromSlice
  rw [String.toByteArray_ofList, List.utf8Decode?_utf8Encode]
  refine (readDoc_rest d h hs).trans ?_
  simp only [isWs, Bool.or_eq_true, decide_eq_true_eq, or_assoc]

/-- C79: metadata with several members of one key keep the last one: the object read has its keys in order, each once, with
what the last member of that key reads as. -/
theorem C79_equal_keys (canon : Str → Option Str) (b : Nat) (m : List (Str × Doc)) (d : Doc)
    (h : readMeta canon b (.obj m) = some d) : ∃ m', d = .obj m' ∧ m'.Pairwise (fun p q => p.1 < q.1) ∧
      ∀ k v, (k, v) ∈ m' ↔ ∃ pre w post, m = pre ++ (k, w) :: post ∧ (∀ p ∈ post, p.1 ≠ k) ∧
        readMeta canon (b - 1) w = some v := by
  simp only [readMeta] at h
  split at h
  · cases h
  · rw [Option.map_eq_some_iff] at h
    obtain ⟨m1, h1, rfl⟩ := h
    obtain ⟨s1, s2⟩ := toMap_spec m1
    have hf := readMetam_spec canon _ h1
    refine ⟨_, rfl, s1, fun k v => ?_⟩
    rw [s2]
    clear s1 s2 h1
    constructor
    · rintro ⟨pre, post, rfl, hp⟩
      obtain ⟨pre0, ⟨k0, w⟩, post0, rfl, ⟨rfl, hr⟩, hf2⟩ := forall₂_split_right hf
      exact ⟨pre0, w, post0, rfl, (forall₂_keys (R := fun x y => readMeta canon (b - 1) x = some y) hf2).mpr hp, hr⟩
    · rintro ⟨pre, w, post, rfl, hp, hr⟩
      obtain ⟨pre0, ⟨k0, v0⟩, post0, rfl, ⟨rfl, hr'⟩, hf2⟩ := forall₂_split_left hf
      rw [Option.some.inj (hr.symm.trans hr')]
      exact ⟨pre0, post0, rfl, (forall₂_keys (R := fun x y => readMeta canon (b - 1) x = some y) hf2).mp hp⟩

/-- C79 for transactions, whose metadata are nested at most 126 levels deep and those of the outputs at
most 124. Missing: deeper metadata, see `C79_transaction_false`. -/
theorem C79_transaction_partial (canon : Str → Option Str) (lead trail : Nat) (t : Transaction)
    (ho : ∀ u ∈ t.outputs, u.Small ∧ IsValue canon u.metadata ∧ depth u.metadata ≤ 124)
    (hm : IsValue canon t.metadata) (hd : depth t.metadata ≤ 126) :
    ∃ s, parseTransaction canon (toVec (writeTransaction lead trail t)) = some s ∧ t.Same s := by
  unfold parseTransaction
  rw [fromSlice_toVec _ (wf_writeTransaction canon lead trail t (fun u hu => (ho u hu).2.1) hm)]
  apply readTransaction_write canon lead trail recursionLimit t _ hm
  · unfold recursionLimit; omega
  · intro u hu
    refine ⟨(ho u hu).1, (ho u hu).2.1, ?_⟩
    have := (ho u hu).2.2
    unfold recursionLimit; omega

/-- C79 for UTxOs, whose metadata are nested at most 126 levels deep. -/
theorem C79_utxo_partial (canon : Str → Option Str) (lead trail : Nat) (u : Details) (hs : u.Small)
    (hm : IsValue canon u.metadata) (hd : depth u.metadata ≤ 126) :
    ∃ v, parseDetails canon (toVec (writeDetails lead trail u)) = some v ∧ u.Same v := by
  unfold parseDetails
  rw [fromSlice_toVec _ (wf_writeDetails canon lead trail u hm)]
  exact readDetails_write canon lead trail recursionLimit u hs hm (by unfold recursionLimit; omega)

/-- C79 for outputs to be made. -/
theorem C79_output (lead trail : Nat) (u : Builder) (h1 : u.value.SmallScale)
    (h2 : ∀ a ∈ u.assets, a.quantity.SmallScale) :
    ∃ v, (fromSlice (toVec (writeBuilder lead trail u))).bind readBuilder = some v ∧ u.Same v := by
  rw [fromSlice_toVec _ (wf_writeBuilder lead trail u)]
  exact readBuilder_write lead trail u h1 h2

/-- C79 for blocks: what is written for a block of the source reads back as the same block. -/
theorem C79_block (Tip : Type) (e : BlockEvent) :
    ∃ d, writeEvent (.block e : NetworkEvent Tip) = some d ∧
      parseEvent Tip (toVec d) = some (.block e) := by
  refine ⟨_, rfl, ?_⟩
  unfold parseEvent
  rw [fromSlice_toVec _ (by simp [Doc.WF, WFm, wf_writeBlockEvent])]
  simp [readEvent, readBlockEvent_write]

/-- C79 for stored blocks: reading all values of a store, in any order, gives the blocks that were
written. -/
theorem C79_store (Tip : Type) (es : List BlockEvent) :
    (es.map fun e => toVec (.obj [(key! "Block", writeBlockEvent e)])).mapM (parseEvent Tip) =
      some (es.map .block) := by
  induction es with
  | nil => rfl
  | cons e es ih =>
    obtain ⟨d, h1, h2⟩ := C79_block Tip e
    simp only [writeEvent, Option.some.injEq] at h1
    rw [← h1] at h2
    rw [List.map_cons, List.mapM_cons, h2, ih]
    rfl

/-- C79: tips are not stored. Writing one is an error, and no document reads as one. -/
theorem C79_tip (Tip : Type) (t : Tip) :
    writeEvent (.tip t) = none ∧ ∀ b : ByteArray, parseEvent Tip b ≠ some (.tip t) := by
  refine ⟨rfl, fun b h => ?_⟩
  unfold parseEvent at h
  cases hb : fromSlice b with
  | none => simp [hb] at h
  | some d =>
    simp only [hb, Option.bind_some] at h
    unfold readEvent at h
    split at h
    · split at h
      · rename_i d' _
        cases hd : readBlockEvent d' <;> simp [hd] at h
      · cases h
    · cases h

/-- C79 for positions. -/
theorem C79_point (p : Point) : (fromSlice (toVec (writePoint p))).bind readPoint = some p := by
  rw [fromSlice_toVec _ (wf_writePoint p)]
  exact readPoint_write p

/-- C79 for the rule by which blocks are selected. -/
theorem C79_rule (r : SelectionRule) : (fromSlice (toVec (writeRule r))).bind readRule = some r := by
  rw [fromSlice_toVec _ (wf_writeRule r)]
  exact readRule_write r

/-- C79 for the configuration of the indexed log. -/
theorem C79_log_config (c : LogMapConfig) :
    (fromSlice (toVec (writeLogMapConfig c))).bind readLogMapConfig = some c := by
  rw [fromSlice_toVec _ (wf_writeLogMapConfig c)]
  exact readLogMapConfig_write c

/-! ## Fields -/

theorem fieldsOf_perm (deny : Bool) (names : List Str) {m m' : List (Str × Doc)} (h : m.Perm m') :
    fieldsOf deny names (.obj m) = fieldsOf deny names (.obj m') := by
  simp only [fieldsOf]
  have h1 : m.any (fun p => !names.contains p.1) = m'.any (fun p => !names.contains p.1) := by
    rw [Bool.eq_iff_iff]
    simp only [List.any_eq_true]
    constructor
    · rintro ⟨p, hp, hh⟩; exact ⟨p, h.mem_iff.mp hp, hh⟩
    · rintro ⟨p, hp, hh⟩; exact ⟨p, h.mem_iff.mpr hp, hh⟩
  have h2 : ∀ k, (m.filter (fun p => p.1 == k)).length = (m'.filter (fun p => p.1 == k)).length :=
    fun k => (h.filter _).length_eq
  simp only [h1, h2]
  split
  · rfl
  · split
    · rfl
    · rename_i hdup
      congr 2
      apply List.map_congr_left
      intro k hk
      have hlen : ¬ 1 < (m'.filter (fun p => p.1 == k)).length := by
        intro hlt
        exact hdup (List.any_eq_true.mpr ⟨k, hk, by simpa using hlt⟩)
      have hp := h.filter (fun p => p.1 == k)
      rw [← List.head?_filter, ← List.head?_filter]
      cases hf : m'.filter (fun p => p.1 == k) with
      | nil => rw [hf] at hp; rw [hp.eq_nil]
      | cons x xs =>
        rw [hf] at hlen
        have hxs : xs = [] := by simpa using hlen
        subst hxs
        rw [hf] at hp
        rw [List.perm_singleton.mp hp]

theorem fieldsOf_unknown (names : List Str) (m : List (Str × Doc)) {k : Str} (d : Doc)
    (hk : k ∉ names) : fieldsOf false names (.obj ((k, d) :: m)) = fieldsOf false names (.obj m) := by
  have hne : ∀ k' ∈ names, (k == k') = false := by
    intro k' hk'
    simp only [beq_eq_false_iff_ne, ne_eq]
    rintro rfl
    exact hk hk'
  have h2 : ∀ k' ∈ names, (((k, d) :: m).filter (fun p => p.1 == k')) =
      m.filter (fun p => p.1 == k') := by
    intro k' hk'
    rw [List.filter_cons]
    simp [hne k' hk']
  simp only [fieldsOf, Bool.false_eq_true, false_and, if_false]
  have h3 : names.any (fun k' => decide (1 < (((k, d) :: m).filter (fun p => p.1 == k')).length)) =
      names.any (fun k' => decide (1 < (m.filter (fun p => p.1 == k')).length)) := by
    rw [Bool.eq_iff_iff]
    simp only [List.any_eq_true]
    constructor
    · rintro ⟨k', hk', hh⟩; exact ⟨k', hk', by rw [h2 k' hk'] at hh; exact hh⟩
    · rintro ⟨k', hk', hh⟩; exact ⟨k', hk', by rw [h2 k' hk']; exact hh⟩
  rw [h3]
  split
  · rfl
  · congr 2
    apply List.map_congr_left
    intro k' hk'
    rw [← List.head?_filter, ← List.head?_filter, h2 k' hk']

theorem fieldsOf_denied (names : List Str) (m : List (Str × Doc)) {k : Str} {d : Doc}
    (hm : (k, d) ∈ m) (hk : k ∉ names) : fieldsOf true names (.obj m) = none := by
  simp only [fieldsOf]
  rw [if_pos]
  refine ⟨trivial, List.any_eq_true.mpr ⟨(k, d), hm, ?_⟩⟩
  simpa using hk

/-- C79: the order of the members of a document does not matter. -/
theorem C79_order {m m' : List (Str × Doc)} (h : m.Perm m') (canon : Str → Option Str) (b : Nat) :
    readTransaction canon b (.obj m) = readTransaction canon b (.obj m') ∧
    readDetails canon b (.obj m) = readDetails canon b (.obj m') ∧
    readBuilder (.obj m) = readBuilder (.obj m') ∧
    readAsset (.obj m) = readAsset (.obj m') ∧
    readPointer (.obj m) = readPointer (.obj m') ∧
    readBlockEvent (.obj m) = readBlockEvent (.obj m') ∧
    readLogMapConfig (.obj m) = readLogMapConfig (.obj m') := by
  refine ⟨?_, ?_, ?_, ?_, ?_, ?_, ?_⟩
  · unfold readTransaction; rw [fieldsOf_perm _ _ h]
  · unfold readDetails; rw [fieldsOf_perm _ _ h]
  · unfold readBuilder; rw [fieldsOf_perm _ _ h]
  · unfold readAsset; rw [fieldsOf_perm _ _ h]
  · unfold readPointer; rw [fieldsOf_perm _ _ h]
  · unfold readBlockEvent; rw [fieldsOf_perm _ _ h]
  · unfold readLogMapConfig; rw [fieldsOf_perm _ _ h]

/-- C79: a transaction, pointer, asset or configuration of the indexed log with a member that is not one
of its fields is refused. -/
theorem C79_unknown_refused {m : List (Str × Doc)} {k : Str} {d : Doc} (hm : (k, d) ∈ m)
    (canon : Str → Option Str) (b : Nat) :
    (k ∉ [key! "transactionId", key! "inputs", key! "outputs", key! "metadata"] →
      readTransaction canon b (.obj m) = none) ∧
    (k ∉ [key! "transactionId", key! "outputIndex"] → readPointer (.obj m) = none) ∧
    (k ∉ [key! "policyId", key! "assetName", key! "fingerprint", key! "quantity"] →
      readAsset (.obj m) = none) ∧
    (k ∉ [key! "storage_path", key! "use_key_indexing", key! "readonly"] →
      readLogMapConfig (.obj m) = none) := by
  refine ⟨fun h => ?_, fun h => ?_, fun h => ?_, fun h => ?_⟩
  · unfold readTransaction; rw [fieldsOf_denied transactionNames m hm h]
  · unfold readPointer; rw [fieldsOf_denied pointerNames m hm h]
  · unfold readAsset; rw [fieldsOf_denied assetNames m hm h]
  · unfold readLogMapConfig; rw [fieldsOf_denied logMapNames m hm h]

/-- C79: in a UTxO, an output to be made and a block, a member that is not a field is ignored, wherever it
stands. -/
theorem C79_unknown_ignored (m1 m2 : List (Str × Doc)) (k : Str) (d : Doc)
    (canon : Str → Option Str) (b : Nat) :
    (k ∉ [key! "pointer", key! "address", key! "value", key! "assets", key! "metadata", key! "extra"] →
      readDetails canon b (.obj (m1 ++ (k, d) :: m2)) = readDetails canon b (.obj (m1 ++ m2))) ∧
    (k ∉ [key! "address", key! "value", key! "assets", key! "extra"] →
      readBuilder (.obj (m1 ++ (k, d) :: m2)) = readBuilder (.obj (m1 ++ m2))) ∧
    (k ∉ [key! "id", key! "parent_id", key! "block_number", key! "raw_block", key! "slot_number",
        key! "is_boundary_block", key! "epoch"] →
      readBlockEvent (.obj (m1 ++ (k, d) :: m2)) = readBlockEvent (.obj (m1 ++ m2))) := by
  have hp : (m1 ++ (k, d) :: m2).Perm ((k, d) :: (m1 ++ m2)) := List.perm_middle
  refine ⟨fun h => ?_, fun h => ?_, fun h => ?_⟩
  · unfold readDetails
    rw [fieldsOf_perm _ _ hp, fieldsOf_unknown detailsNames _ d h]
  · unfold readBuilder
    rw [fieldsOf_perm _ _ hp, fieldsOf_unknown builderNames _ d h]
  · unfold readBlockEvent
    rw [fieldsOf_perm _ _ hp, fieldsOf_unknown eventNames _ d h]

/-- C79: what may be left out. A UTxO without assets and extra data, a transaction without metadata and
a configuration of the indexed log without anything read as if these were empty. -/
theorem C79_omitted (canon : Str → Option Str) (b : Nat) (p a v l i o t : Doc) :
    readDetails canon b (.obj [(key! "pointer", p), (key! "address", a), (key! "value", v),
        (key! "metadata", l)]) =
      readDetails canon b (.obj [(key! "pointer", p), (key! "address", a), (key! "value", v),
        (key! "assets", .arr []), (key! "metadata", l), (key! "extra", .null)]) ∧
    readTransaction canon b (.obj [(key! "transactionId", t), (key! "inputs", i),
        (key! "outputs", o)]) =
      readTransaction canon b (.obj [(key! "transactionId", t), (key! "inputs", i), (key! "outputs", o),
        (key! "metadata", .null)]) ∧
    readLogMapConfig (.obj []) = some ⟨none, false, false⟩ := by
  refine ⟨?_, ?_, rfl⟩
  · have e1 : fieldsOf false detailsNames (.obj [(key! "pointer", p), (key! "address", a),
        (key! "value", v), (key! "metadata", l)]) =
        some (true, [some p, some a, some v, none, some l, none]) := by rfl
    have e2 : fieldsOf false detailsNames (.obj [(key! "pointer", p), (key! "address", a),
        (key! "value", v), (key! "assets", .arr []), (key! "metadata", l), (key! "extra", .null)]) =
        some (true, [some p, some a, some v, some (.arr []), some l, some .null]) := by rfl
    unfold readDetails
    rw [e1, e2]
    rfl
  · have e1 : fieldsOf true transactionNames (.obj [(key! "transactionId", t), (key! "inputs", i),
        (key! "outputs", o)]) = some (true, [some t, some i, some o, none]) := by rfl
    have e2 : fieldsOf true transactionNames (.obj [(key! "transactionId", t), (key! "inputs", i),
        (key! "outputs", o), (key! "metadata", .null)]) =
        some (true, [some t, some i, some o, some .null]) := by rfl
    unfold readTransaction
    rw [e1, e2]
    simp only [dflt, readMeta]

/-! ## Deep metadata -/

/-- `n` arrays in each other. -/
def nested : Nat → Doc
  | 0 => .arr []
  | n + 1 => .arr [nested n]

theorem depth_nested (n : Nat) : depth (nested n) = n + 1 := by
  induction n with
  | zero => rfl
  | succ n ih => simp [nested, depth, depths, ih]; omega

theorem isValue_nested (canon : Str → Option Str) (n : Nat) : IsValue canon (nested n) := by
  induction n with
  | zero => simp [nested, IsValue, IsValues]
  | succ n ih => simp [nested, IsValue, IsValues, ih]

/-- A transaction whose metadata are `n + 1` arrays in each other. -/
def deepTransaction (n : Nat) : Transaction := ⟨key! "ab", [], [], nested n⟩

/-- C79 is false for every transaction: metadata nested 127 levels deep or deeper are written, but the
document is refused by the reader. -/
theorem C79_transaction_false (canon : Str → Option Str) (lead trail n : Nat) (hn : 126 ≤ n) :
    IsValue canon (deepTransaction n).metadata ∧
    parseTransaction canon (toVec (writeTransaction lead trail (deepTransaction n))) = none := by
  refine ⟨isValue_nested canon n, ?_⟩
  unfold parseTransaction
  rw [fromSlice_toVec _ (wf_writeTransaction canon lead trail _ (by simp [deepTransaction])
    (isValue_nested canon n))]
  simp only [Option.bind_some]
  have e : fieldsOf true transactionNames (writeTransaction lead trail (deepTransaction n)) =
      some (true, [some (.str (key! "ab")), some (.arr []), some (.arr []), some (nested n)]) := by rfl
  unfold readTransaction
  rw [e]
  simp only [req, dflt, readText, readVec]
  rw [readMeta_deep canon (nested n) (recursionLimit - 1) (by decide)
    (by rw [depth_nested]; unfold recursionLimit; omega)]
  rfl

/-! ## Examples -/

/-- No floating point number is canonical. -/
def noFloats : Str → Option Str := fun _ => none

/-- A transaction with two outputs, a quotation mark and a line break in its texts. -/
def sampleTransaction : Transaction :=
  ⟨key! "0a", [⟨key! "ff", ⟨3, by decide⟩⟩],
    [⟨⟨key! "0a", ⟨0, by decide⟩⟩, key! "addr", ⟨15, 1⟩, [⟨key! "p", key! "n", key! "f", ⟨7, 0⟩⟩],
        .obj [(key! "a", .int (-5)), (key! "b", .arr [.bool true, .null])], some (key! "x\"\n")⟩,
      ⟨⟨key! "0a", ⟨1, by decide⟩⟩, key! "é", ⟨2, 0⟩, [], .null, none⟩],
    .null⟩

example : write (writeTransaction 5 15 sampleTransaction) = key! "{\"transactionId\":\"0a\",\"inputs\":[{\"transactionId\":\"ff\",\"outputIndex\":3}],\"outputs\":[{\"pointer\":{\"transactionId\":\"0a\",\"outputIndex\":0},\"address\":\"addr\",\"value\":\"1.5\",\"assets\":[{\"policyId\":\"p\",\"assetName\":\"n\",\"fingerprint\":\"f\",\"quantity\":\"7\"}],\"metadata\":{\"a\":-5,\"b\":[true,null]},\"extra\":\"x\\\"\\n\"},{\"pointer\":{\"transactionId\":\"0a\",\"outputIndex\":1},\"address\":\"é\",\"value\":\"2\",\"assets\":[],\"metadata\":null,\"extra\":null}],\"metadata\":null}" := by
  decide +kernel

example : ∃ s, parseTransaction noFloats (toVec (writeTransaction 5 15 sampleTransaction)) = some s ∧
    sampleTransaction.Same s := by
  apply C79_transaction_partial
  · intro u hu
    simp only [sampleTransaction, List.mem_cons, List.not_mem_nil, or_false] at hu
    rcases hu with rfl | rfl
    · refine ⟨⟨by unfold Dec.SmallScale; decide, ?_⟩, ?_, by decide⟩
      · intro a ha
        simp only [List.mem_cons, List.not_mem_nil, or_false] at ha
        subst ha; unfold Dec.SmallScale; decide
      · simp [IsValue, IsValues, IsValuem]
        decide
    · exact ⟨⟨by unfold Dec.SmallScale; decide, by simp⟩, by simp [IsValue], by decide⟩
  · simp [sampleTransaction, IsValue]
  · decide

example : FloatLit (key! "-12.5e+3") :=
  ⟨⟨true, key! "12", key! ".5", key! "e+3", rfl, by decide, by decide, by decide,
    .inr ⟨key! "5", rfl, by decide, by decide⟩,
    .inr ⟨'e', key! "+", key! "3", rfl, .inl rfl, .inr (.inl rfl), by decide, by decide⟩, by decide⟩⟩

/-- The reader: escapes, surrogates, white space, and texts that are refused. -/
example : (readDoc (key! " { \"a\\u00e9\\ud83d\\ude00\" : [ 1 , -0 , 2.50e1 ] } \n")).isSome = true ∧
    (readDoc (key! "[1,]")).isNone = true ∧ (readDoc (key! "01")).isNone = true ∧
    (readDoc (key! "\"\\ud83d\"")).isNone = true ∧ (readDoc (key! "{\"a\":1} x")).isNone = true ∧
    (readDoc (key! "\"a\nb\"")).isNone = true := by
  decide +kernel

/-- The last of the equal keys. -/
example : readMeta noFloats 9 (.obj [(key! "b", .int 1), (key! "a", .null), (key! "b", .int 2)]) =
    some (.obj [(key! "a", .null), (key! "b", .int 2)]) := by rfl

/-- The second pointer of a document is refused: a field given twice. -/
example : readPointer (.obj [(key! "outputIndex", .int 3), (key! "transactionId", .str (key! "ff"))]) =
      some ⟨key! "ff", ⟨3, by decide⟩⟩ ∧
    readPointer (.obj [(key! "outputIndex", .int 3), (key! "transactionId", .str (key! "ff")),
      (key! "outputIndex", .int 3)]) = none ∧
    readPointer (.arr [.str (key! "ff"), .int 3]) = some ⟨key! "ff", ⟨3, by decide⟩⟩ := by
  refine ⟨?_, ?_, ?_⟩ <;> decide +kernel

example : writeRule (.longestChain ⟨3, by decide⟩ ⟨2, by decide⟩) =
    .obj [(key! "rule", .str (key! "LongestChain")), (key! "depth", .int 3), (key! "age_gap", .int 2)] := by
  rfl

end Verif.Props
