import Verif.Cardano.Carp
import Verif.Json.TextLemmas
import Verif.Props.Address
import Mathlib.Data.List.Induction

/-!
# C105: what the tool says to the backend, and what it takes its answers for

C89 leaves open how requests and answers are written. Here the backend is a server: it is sent a body to an address and
gives back a text.
-/

namespace Verif.Props

open Verif Verif.Core Verif.Json Verif.Cardano Verif.Cardano.FirstAddress

/-! ### Specification -/

/-- The object gives the member `k` with the value `x`: the last one counts, and those before it have to be readable too. -/
def GivesMember {α : Type} (P : Doc → α → Prop) (k : Str) (m : List (Str × Doc)) (x : α) : Prop :=
  ∃ pre d post, m = pre ++ (k, d) :: post ∧ (∀ p ∈ post, p.1 ≠ k) ∧ P d x ∧ ∀ p ∈ pre, p.1 = k → ∃ y, P p.2 y

/-- A number of 64 bits. -/
def IsU64Doc (d : Doc) (n : Nat) : Prop := d = .int n ∧ n < 2 ^ 64

/-- The text says that the latest block is the one with the hash `h`: `{"block": {"era": .., "hash": h, ..}}`. -/
def NamesBlock (t h : Str) : Prop :=
  ∃ m, readDoc t = some (.obj m) ∧ GivesMember (fun d h => ∃ b, d = .obj b ∧ GivesMember (fun d h => d = .str h) "hash".toList b h ∧
    ∀ k ∈ ["era", "height", "epoch", "slot"], ∃ n, GivesMember IsU64Doc k.toList b n) "block".toList m h

/-- The text lists the addresses in use: `{"addresses": [..]}`. -/
def ListsAddresses (t : Str) (l : List Str) : Prop :=
  ∃ m, readDoc t = some (.obj m) ∧ GivesMember (fun d l => d = .arr (l.map Doc.str)) "addresses".toList m l

/-! ### Proofs -/

theorem mapM_total_iff {α β : Type} (f : α → Option β) : ∀ l : List α, (∃ r, l.mapM f = some r) ↔ ∀ a ∈ l, ∃ b, f a = some b
  | [] => by simp
  | a :: l => by
    have ih := mapM_total_iff f l
    simp only [List.mapM_cons, List.forall_mem_cons, ← ih]
    cases f a with
    | none => simp
    | some b => cases l.mapM f <;> simp

theorem gives_snoc {α : Type} (P : Doc → α → Prop) (k : Str) (m : List (Str × Doc)) (p : Str × Doc) (x : α) :
    GivesMember P k (m ++ [p]) x ↔
      if p.1 = k then P p.2 x ∧ ∀ q ∈ m, q.1 = k → ∃ y, P q.2 y else GivesMember P k m x := by
  constructor
  · rintro ⟨pre, d, post, h, h1, h2, h3⟩
    rcases List.eq_nil_or_concat post with rfl | ⟨post, q, rfl⟩
    · obtain ⟨rfl, h'⟩ := List.append_inj' h rfl
      have h' := List.singleton_injective h'
      subst h'
      rw [if_pos rfl]
      exact ⟨h2, h3⟩
    · rw [List.concat_eq_append] at h h1
      rw [← List.cons_append, ← List.append_assoc] at h
      obtain ⟨rfl, h'⟩ := List.append_inj' h rfl
      have h' := List.singleton_injective h'
      subst h'
      rw [if_neg (h1 p (by simp))]
      exact ⟨pre, d, post, rfl, fun q hq => h1 q (by simp [hq]), h2, h3⟩
  · intro h
    split at h
    · rename_i hk
      refine ⟨m, p.2, [], by rw [← hk], by simp, h.1, h.2⟩
    · rename_i hk
      obtain ⟨pre, d, post, rfl, h1, h2, h3⟩ := h
      refine ⟨pre, d, post ++ [p], by simp, ?_, h2, h3⟩
      intro q hq
      rcases List.mem_append.1 hq with hq | hq
      · exact h1 q hq
      · rw [List.mem_singleton.1 hq]; exact hk

theorem member_iff {α : Type} {f : Doc → Option α} {P : Doc → α → Prop} (hf : ∀ d x, f d = some x ↔ P d x) (k : Str)
    (m : List (Str × Doc)) (x : α) : member f k m = some x ↔ GivesMember P k m x := by
  induction m using List.reverseRecOn with
  | nil =>
    simp only [member, List.filter_nil, List.mapM_nil]
    constructor
    · intro h; cases h
    · rintro ⟨pre, d, post, h, _⟩; simp at h
  | append_singleton m p ih =>
    rw [gives_snoc, ← ih]
    unfold member
    rw [List.filter_append]
    by_cases hk : p.1 = k
    · rw [if_pos hk, List.filter_cons_of_pos (by simpa using hk), List.filter_nil, List.mapM_append]
      have ha : (∃ r, (m.filter (fun p => p.1 == k)).mapM (fun p => f p.2) = some r) ↔ ∀ q ∈ m, q.1 = k → ∃ y, P q.2 y := by
        rw [mapM_total_iff]
        simp only [List.mem_filter, beq_iff_eq, and_imp, hf]
      rw [← ha, ← hf]
      cases (m.filter (fun p => p.1 == k)).mapM (fun p => f p.2) with
      | none => simp
      | some r =>
        rw [List.mapM_cons, List.mapM_nil]
        cases f p.2 <;> simp
    · rw [if_neg hk, List.filter_cons_of_neg (by simpa using hk), List.filter_nil, List.append_nil]

theorem text_doc_iff (d : Doc) (s : Str) : readText d = some s ↔ d = .str s := by
  cases d <;> simp [readText]

theorem number_doc_iff (d : Doc) (x : U64) : readU64 d = some x ↔ IsU64Doc d x.val := by
  unfold IsU64Doc
  have hx := x.lt
  unfold u64Bound at hx
  cases d with
  | int n =>
    cases n with
    | ofNat n =>
      simp only [readU64, mkU64, Doc.int.injEq]
      unfold u64Bound
      constructor
      · intro h
        split at h
        · cases h; exact ⟨rfl, by assumption⟩
        · cases h
      · rintro ⟨h, h2⟩
        have : n = x.val := by simpa using h
        subst this
        rw [dif_pos h2]
    | negSucc n => simp [readU64]
  | _ => simp [readU64]

theorem texts_iff : ∀ (l : List Doc) (r : List Str), l.mapM readText = some r ↔ l = r.map Doc.str
  | [], r => by cases r <;> simp
  | d :: l, r => by
    have ih := texts_iff l
    rw [List.mapM_cons]
    cases hd : readText d with
    | none =>
      simp only [Option.bind_eq_bind, Option.bind_none, reduceCtorEq, false_iff]
      rintro h
      cases r with
      | nil => simp at h
      | cons s r =>
        simp only [List.map_cons, List.cons.injEq] at h
        rw [(text_doc_iff d s).2 h.1] at hd
        cases hd
    | some s =>
      have hs := (text_doc_iff d s).1 hd
      subst hs
      cases r with
      | nil => cases l.mapM readText <;> simp
      | cons s' r =>
        simp only [List.map_cons, List.cons.injEq, Doc.str.injEq, ← ih]
        cases l.mapM readText <;> simp

theorem texts_doc_iff (d : Doc) (r : List Str) : readVec readText d = some r ↔ d = .arr (r.map Doc.str) := by
  cases d with
  | arr l => simp only [readVec, texts_iff, Doc.arr.injEq]
  | _ => simp [readVec]

theorem readBlock_iff (d : Doc) (h : Str) : readBlock d = some h ↔ ∃ b, d = .obj b ∧
    GivesMember (fun d h => d = .str h) "hash".toList b h ∧
    ∀ k ∈ ["era", "height", "epoch", "slot"], ∃ n, GivesMember IsU64Doc k.toList b n := by
  have hnum : ∀ (k : Str) (b : List (Str × Doc)), (∃ x, member readU64 k b = some x) ↔ ∃ n, GivesMember IsU64Doc k b n := by
    intro k b
    constructor
    · rintro ⟨x, hx⟩
      obtain ⟨pre, d, post, h1, h2, h3, h4⟩ := (member_iff number_doc_iff k b x).1 hx
      exact ⟨x.val, pre, d, post, h1, h2, h3, fun p hp hk => (h4 p hp hk).elim fun y hy => ⟨y.val, hy⟩⟩
    · rintro ⟨n, pre, d, post, h1, h2, h3, h4⟩
      have mk : ∀ m, m < 2 ^ 64 → ∃ y : U64, y.val = m := fun m hm => ⟨⟨m, by unfold u64Bound; omega⟩, rfl⟩
      obtain ⟨x, rfl⟩ := mk n h3.2
      refine ⟨x, (member_iff number_doc_iff k b x).2 ⟨pre, d, post, h1, h2, h3, fun p hp hk => ?_⟩⟩
      obtain ⟨m, hm⟩ := h4 p hp hk
      obtain ⟨y, rfl⟩ := mk m hm.2
      exact ⟨y, hm⟩
  cases d with
  | obj b =>
    simp only [Doc.obj.injEq, exists_eq_left', List.forall_mem_cons, List.not_mem_nil, false_imp_iff, implies_true, and_true,
      ← hnum, ← member_iff text_doc_iff, readBlock]
    have e1 : "era".toList = key! "era" := rfl
    have e2 : "height".toList = key! "height" := rfl
    have e3 : "epoch".toList = key! "epoch" := rfl
    have e4 : "slot".toList = key! "slot" := rfl
    have e5 : "hash".toList = key! "hash" := rfl
    rw [e1, e2, e3, e4, e5]
    cases member readU64 (key! "era") b <;> cases member readText (key! "hash") b <;>
      cases member readU64 (key! "height") b <;> cases member readU64 (key! "epoch") b <;>
      cases member readU64 (key! "slot") b <;> simp
  | _ => simp [readBlock]

theorem readLatestText_iff (t h : Str) : readLatestText t = some h ↔ NamesBlock t h := by
  unfold readLatestText NamesBlock
  cases hd : readDoc t with
  | none => simp
  | some d =>
    cases d with
    | obj m =>
      simp only [Option.some.injEq, Doc.obj.injEq, exists_eq_left']
      exact member_iff readBlock_iff _ m h
    | _ => simp

theorem readUsedText_iff (t : Str) (l : List Str) : readUsedText t = some l ↔ ListsAddresses t l := by
  unfold readUsedText ListsAddresses
  cases hd : readDoc t with
  | none => simp
  | some d =>
    cases d with
    | obj m =>
      simp only [Option.some.injEq, Doc.obj.injEq, exists_eq_left']
      exact member_iff texts_doc_iff _ m l
    | _ => simp

/-! ### Theorems -/

variable {derive : Bytes → Nat → Option Bytes} {keyHash : Bytes → Hash28} {post : Str → Str → Reply}

/-- C105: the verdict of the tool in terms of what goes over the wire. It says "used" or "unused" exactly when the server of
the network answers the question for the latest block with a text that names a block, and the question for the addresses in
use until that block, successfully, with a text that lists addresses; "unused" if it lists none. -/
theorem C105_verdict (key network t : List Char) (h : Line.checking t ∈ (run (World.online derive keyHash post) key network).lines)
    (used : Bool) :
    (if used then Line.used else Line.unused) ∈ (run (World.online derive keyHash post) key network).lines ↔
      ∃ ok b block b' l,
        post ("https://gate.flint-wallet.com/".toList ++ network ++ "/carp/block/latest".toList) "{\"offset\": 0}".toList =
          .answer ok (some b) ∧ NamesBlock b block ∧
        post ("https://gate.flint-wallet.com/".toList ++ network ++ "/carp/address/used".toList)
          (write (.obj [("addresses".toList, .arr [.str t]), ("untilBlock".toList, .str block)])) = .answer true (some b') ∧
        ListsAddresses b' l ∧ (used = true ↔ l ≠ []) := by
  rw [(C89_verdict (World.online derive keyHash post) key network t h used).1]
  have hurl : ∀ net, Net.read network = some net → (Query.latest net).url =
      "https://gate.flint-wallet.com/".toList ++ network ++ "/carp/block/latest".toList ∧ ∀ block, (Query.used net [t] block).url =
      "https://gate.flint-wallet.com/".toList ++ network ++ "/carp/address/used".toList := by
    intro net hn
    rcases read_net hn with ⟨rfl, rfl⟩ | ⟨rfl, rfl⟩ <;> exact ⟨rfl, fun _ => rfl⟩
  constructor
  · rintro ⟨net, ok, b, block, b', l, h1, h2, h3, h4, h5, h6⟩
    obtain ⟨u1, u2⟩ := hurl net h1
    refine ⟨ok, b, block, b', l, ?_, (readLatestText_iff b block).1 h3, ?_, (readUsedText_iff b' l).1 h5, h6⟩
    · rw [← u1]; exact h2
    · rw [← u2 block]; exact h4
  · rintro ⟨ok, b, block, b', l, h2, h3, h4, h5, h6⟩
    obtain ⟨net, _, _, _, hnet, _⟩ := C89_address (World.online derive keyHash post) key network t h
    have h1 : Net.read network = some net := by
      rcases hnet with ⟨rfl, rfl⟩ | ⟨rfl, rfl⟩ <;> rfl
    obtain ⟨u1, u2⟩ := hurl net h1
    refine ⟨net, ok, b, block, b', l, h1, ?_, (readLatestText_iff b block).2 h3, ?_, (readUsedText_iff b' l).2 h5, h6⟩
    · rw [← u1] at h2; exact h2
    · rw [← u2 block] at h4; exact h4

/-- C105: the question for the addresses in use can be read back by the server: it is one document with exactly this address
and this block, whatever the characters of the block's text. -/
theorem C105_question (net : Net) (addresses : List Str) (block : Str) :
    readDoc (Query.used net addresses block).body =
      some (.obj [("addresses".toList, .arr (addresses.map Doc.str)), ("untilBlock".toList, .str block)]) := by
  refine readDoc_write _ ?_
  simp only [Doc.WF, WFm, and_true, WFs_iff, List.mem_map]
  rintro _ ⟨s, _, rfl⟩
  trivial

/-- C105: different questions are different texts. -/
theorem C105_questions_differ (net net' : Net) (addresses addresses' : List Str) (block block' : Str)
    (h : (Query.used net addresses block).body = (Query.used net' addresses' block').body) :
    addresses = addresses' ∧ block = block' := by
  have h1 := C105_question net addresses block
  rw [h, C105_question] at h1
  simp only [Option.some.injEq, Doc.obj.injEq, List.cons.injEq, Prod.mk.injEq, Doc.arr.injEq, Doc.str.injEq, true_and,
    and_true] at h1
  have hi : Function.Injective Doc.str := fun a b e => Doc.str.inj e
  exact ⟨(List.map_injective_iff.2 hi h1.1).symm, h1.2.symm⟩

/-! ### Samples -/

/-- A server: its latest block, with a member the tool does not know and numbers in any order, and the answer `used`. -/
def carpServer (used : Str) (url body : Str) : FirstAddress.Reply :=
  if url = "https://gate.flint-wallet.com/mainnet/carp/block/latest".toList ∧ body = "{\"offset\": 0}".toList then
    .answer true (some "{\"block\": {\"slot\": 5, \"hash\": \"aa\", \"era\": 1, \"new\": [null], \"height\": 2, \"epoch\": 3}}".toList)
  else if url = "https://gate.flint-wallet.com/mainnet/carp/address/used".toList then .answer true (some used)
  else .unsent

def carpWorld (used : Str) : World := World.online (sampleWorld none).derive (sampleWorld none).keyHash (carpServer used)

/-- The address of the sample key. -/
def carpAddress : Str := "addr1qyqqqqqqqqqqqqqqqqqqqqqqqqqqqqqqqqqqqqqqqqqqqqqyqszqgpqyqszqgpqyqszqgpqyqszqgpqyqszqgpqyqszqgtjqvv".toList

theorem carp_lines : (run (World.online (sampleWorld none).derive (sampleWorld none).keyHash
    (carpServer "{\"addresses\": [\"addr1\"]}".toList)) sampleKey "mainnet".toList).lines = [.checking carpAddress, .used] := by
  decide +kernel

example : ∃ block, NamesBlock "{\"block\": {\"slot\": 5, \"hash\": \"aa\", \"era\": 1, \"new\": [null], \"height\": 2, \"epoch\": 3}}".toList
    block ∧ block = "aa".toList := ⟨_, (readLatestText_iff _ _).1 (by decide +kernel), rfl⟩

example : ∃ ok b block, carpServer "{\"addresses\": [\"addr1\"]}".toList
      ("https://gate.flint-wallet.com/".toList ++ "mainnet".toList ++ "/carp/block/latest".toList) "{\"offset\": 0}".toList =
      .answer ok (some b) ∧ NamesBlock b block := by
  obtain ⟨ok, b, block, _, _, h1, h2, _⟩ := (C105_verdict (derive := (sampleWorld none).derive)
    (keyHash := (sampleWorld none).keyHash) (post := carpServer "{\"addresses\": [\"addr1\"]}".toList) sampleKey "mainnet".toList
    carpAddress (by rw [carp_lines]; simp) true).1 (by rw [carp_lines]; simp)
  exact ⟨ok, b, block, h1, h2⟩

example : (run (carpWorld "{\"addresses\": []}".toList) sampleKey "mainnet".toList).ends = .done := by decide +kernel

/-- A list with something that is not a text is no answer. -/
example : (run (carpWorld "{\"addresses\": [1]}".toList) sampleKey "mainnet".toList).ends = .error := by decide +kernel

/-- The last of several members counts. -/
example : readUsedText "{\"addresses\": [\"x\"], \"addresses\": []}".toList = some [] := by decide +kernel

/-- Text from the server cannot change the question: quotes are escaped. -/
example : (Query.used .mainnet ["a".toList] "b\"}".toList).body = "{\"addresses\":[\"a\"],\"untilBlock\":\"b\\\"}\"}".toList := by
  decide +kernel

end Verif.Props
