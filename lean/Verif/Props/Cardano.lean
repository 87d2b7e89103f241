import Verif.Cardano.Blake2b
import Verif.Cardano.Lemmas
import Mathlib.Tactic.IntervalCases

/-!
# C53, C54: token fingerprints and ledger values
-/

namespace Verif.Props
open Verif.Core Verif.Cardano

/-! ## Specification -/

/-- Lower case of an ASCII letter; other characters are unchanged. -/
def lowerCase (c : Char) : Char :=
  if 65 ≤ c.toNat ∧ c.toNat ≤ 90 then Char.ofNat (c.toNat + 32) else c

/-- `s` spells the bytes `b` in hexadecimal, in any letter case. -/
def SpellsHex (s : List Char) (b : Bytes) : Prop := s.map lowerCase = hexEncode b

/-- A hexadecimal digit. -/
def IsHexDigit (c : Char) : Prop := c ∈ "0123456789abcdefABCDEF".toList

/-! ## Helper lemmas -/

theorem hexVal_iff (c : Char) (d : Nat) : hexVal c = some d ↔ d < 16 ∧ lowerCase c = hexDigit d := by
  have hc : c = Char.ofNat c.toNat := (Char.ofNat_toNat c).symm
  constructor
  · intro h
    refine ⟨hexVal_lt h, ?_⟩
    unfold hexVal at h
    split at h
    · rename_i hr
      cases h
      unfold lowerCase
      rw [if_pos ⟨hr.1, by omega⟩]
      generalize c.toNat = k at hr
      obtain ⟨h1, h2⟩ := hr
      interval_cases k <;> decide
    · split at h
      · rename_i hr
        cases h
        unfold lowerCase
        rw [if_neg (by omega)]
        generalize c.toNat = k at hr hc
        subst hc
        obtain ⟨h1, h2⟩ := hr
        interval_cases k <;> decide
      · split at h
        · rename_i hr
          cases h
          unfold lowerCase
          rw [if_neg (by omega)]
          generalize c.toNat = k at hr hc
          subst hc
          obtain ⟨h1, h2⟩ := hr
          interval_cases k <;> decide
        · cases h
  · rintro ⟨hd, h⟩
    unfold lowerCase at h
    split at h
    · rename_i hr
      have h2 := congrArg Char.toNat h
      have hcn : (Char.ofNat (c.toNat + 32)).toNat = c.toNat + 32 := by
        generalize c.toNat = k at hr
        obtain ⟨h1, h2⟩ := hr
        interval_cases k <;> decide
      rw [hcn] at h2
      have : (hexDigit d).toNat = if d < 10 then 48 + d else 87 + d := by
        clear h h2
        interval_cases d <;> decide
      rw [this] at h2
      unfold hexVal
      split at h2
      · omega
      · rw [if_pos (by omega)]
        congr 1; omega
    · rw [h]; exact hexVal_hexDigit hd

theorem hexDecode_iff : ∀ (s : List Char) (b : Bytes), hexDecode s = some b ↔ SpellsHex s b
  | [], b => by
    unfold SpellsHex
    simp only [hexDecode, Option.some.injEq, List.map_nil]
    constructor
    · rintro rfl; rfl
    · intro h
      have := congrArg List.length h
      rw [hexEncode_length] at this
      simp only [List.length_nil] at this
      exact (List.length_eq_zero_iff.mp (by omega)).symm
  | [c], b => by
    unfold SpellsHex
    simp only [hexDecode, reduceCtorEq, false_iff]
    intro h
    have := congrArg List.length h
    rw [hexEncode_length] at this
    simp at this
    omega
  | a :: c :: t, b => by
    have ih := hexDecode_iff t
    constructor
    · intro h
      simp only [hexDecode] at h
      split at h
      · rename_i x y r hx hy hr
        cases h
        have h1 := (hexVal_iff a x).mp hx
        have h2 := (hexVal_iff c y).mp hy
        have h3 := (ih r).mp hr
        unfold SpellsHex at h3 ⊢
        have hb : (UInt8.ofNat (x * 16 + y)).toNat = x * 16 + y := by
          rw [UInt8.toNat_ofNat']; omega
        show lowerCase a :: lowerCase c :: t.map lowerCase =
          hexDigit ((UInt8.ofNat (x * 16 + y)).toNat / 16) ::
            hexDigit ((UInt8.ofNat (x * 16 + y)).toNat % 16) :: hexEncode r
        rw [hb, h1.2, h2.2, h3]
        have e1 : (x * 16 + y) / 16 = x := by omega
        have e2 : (x * 16 + y) % 16 = y := by omega
        rw [e1, e2]
      · cases h
    · intro h
      cases b with
      | nil => simp [SpellsHex, hexEncode] at h
      | cons z r =>
        have hz : z.toNat < 256 := z.toNat_lt
        have h' : lowerCase a :: lowerCase c :: t.map lowerCase =
          hexDigit (z.toNat / 16) :: hexDigit (z.toNat % 16) :: hexEncode r := h
        simp only [List.cons.injEq] at h'
        obtain ⟨h1, h2, h3⟩ := h'
        simp only [hexDecode, (hexVal_iff a _).mpr ⟨by omega, h1⟩,
          (hexVal_iff c _).mpr ⟨by omega, h2⟩, (ih r).mpr h3]
        have : z.toNat / 16 * 16 + z.toNat % 16 = z.toNat := by omega
        rw [this, UInt8.ofNat_toNat]

theorem hexVal_isSome_iff (c : Char) : (hexVal c).isSome = true ↔ IsHexDigit c := by
  constructor
  · intro h
    obtain ⟨d, hd⟩ := Option.isSome_iff_exists.mp h
    have hc : c = Char.ofNat c.toNat := (Char.ofNat_toNat c).symm
    unfold hexVal at hd
    generalize c.toNat = k at hd hc
    subst hc
    split at hd
    · rename_i hr; obtain ⟨h1, h2⟩ := hr; clear hd; interval_cases k <;> unfold IsHexDigit <;> decide
    · split at hd
      · rename_i hr; obtain ⟨h1, h2⟩ := hr; clear hd; interval_cases k <;> unfold IsHexDigit <;> decide
      · split at hd
        · rename_i hr; obtain ⟨h1, h2⟩ := hr; clear hd; interval_cases k <;> unfold IsHexDigit <;> decide
        · cases hd
  · intro h
    revert h
    unfold IsHexDigit
    have : ∀ c ∈ "0123456789abcdefABCDEF".toList, (hexVal c).isSome = true := by decide
    exact this c

/-! ## C53 -/

/-- A fingerprint is computed exactly for a policy of 56 hexadecimal digits and a name with an
even number of them. -/
theorem C53_defined (hash : Bytes → Bytes) (policy name : List Char) :
    (fingerprint hash policy name).isSome = true ↔
      (policy.length = 56 ∧ ∀ c ∈ policy, IsHexDigit c) ∧
      (name.length % 2 = 0 ∧ ∀ c ∈ name, IsHexDigit c) := by
  have key : ∀ s, (hexDecode s).isSome = true ↔ s.length % 2 = 0 ∧ ∀ c ∈ s, IsHexDigit c := by
    intro s
    rw [hexDecode_isSome_iff]
    simp only [hexVal_isSome_iff]
  unfold fingerprint
  rw [Option.isSome_map]
  constructor
  · intro h
    obtain ⟨b, hb⟩ := Option.isSome_iff_exists.mp h
    obtain ⟨P, N, hp, hl, hn, _⟩ := fingerprintHash_eq_some.mp hb
    have h1 := (key policy).mp (by rw [hp]; rfl)
    have h2 := (key name).mp (by rw [hn]; rfl)
    exact ⟨⟨by rw [hexDecode_length hp, hl], h1.2⟩, h2⟩
  · rintro ⟨⟨h1, h2⟩, h3⟩
    obtain ⟨P, hP⟩ := Option.isSome_iff_exists.mp ((key policy).mpr ⟨by omega, h2⟩)
    obtain ⟨N, hN⟩ := Option.isSome_iff_exists.mp ((key name).mpr h3)
    have := hexDecode_length hP
    rw [fingerprintHash_eq_some.mpr ⟨P, N, hP, by omega, hN, rfl⟩]
    rfl

/-- The identifier is the hexadecimal text of the hash of the policy bytes followed by the name
bytes, with zeros up to 64 characters, whatever the letter case. -/
theorem C53_hashes (hash : Bytes → Bytes) (policy name : List Char) (P N : Bytes)
    (hp : SpellsHex policy P) (h28 : P.length = 28) (hn : SpellsHex name N)
    (h20 : (hash (P ++ N)).length = 20) :
    fingerprint hash policy name = some (hexEncode (hash (P ++ N)) ++ List.replicate 24 '0') := by
  unfold fingerprint
  rw [fingerprintHash_eq_some.mpr ⟨P, N, (hexDecode_iff _ _).mpr hp, h28, (hexDecode_iff _ _).mpr hn, rfl⟩]
  simp only [Option.map_some, padRight, hexEncode_length, h20]

/-- Letter case does not matter. -/
theorem C53_case (hash : Bytes → Bytes) (policy name policy' name' : List Char)
    (hp : policy.map lowerCase = policy'.map lowerCase) (hn : name.map lowerCase = name'.map lowerCase) :
    fingerprint hash policy name = fingerprint hash policy' name' := by
  have key : ∀ s t, s.map lowerCase = t.map lowerCase → hexDecode s = hexDecode t := by
    intro s t h
    apply Option.ext
    intro b
    rw [hexDecode_iff, hexDecode_iff]
    unfold SpellsHex; rw [h]
  have e : fingerprintHash hash policy name = fingerprintHash hash policy' name' := by
    apply Option.ext
    intro b
    rw [fingerprintHash_eq_some, fingerprintHash_eq_some, key _ _ hp, key _ _ hn]
  unfold fingerprint; rw [e]

/-- Two pairs with the same identifier spell the same policy and the same name, or the hash
collides on the bytes they spell. -/
theorem C53_injective (hash : Bytes → Bytes) (h20 : ∀ b, (hash b).length = 20)
    (policy name policy' name' f : List Char)
    (h : fingerprint hash policy name = some f) (h' : fingerprint hash policy' name' = some f) :
    (policy.map lowerCase = policy'.map lowerCase ∧ name.map lowerCase = name'.map lowerCase) ∨
    ∃ P N P' N', SpellsHex policy P ∧ SpellsHex name N ∧ SpellsHex policy' P' ∧ SpellsHex name' N' ∧
      P ++ N ≠ P' ++ N' ∧ hash (P ++ N) = hash (P' ++ N') := by
  unfold fingerprint at h h'
  rw [Option.map_eq_some_iff] at h h'
  obtain ⟨b, hb, hf⟩ := h
  obtain ⟨b', hb', hf'⟩ := h'
  obtain ⟨P, N, hp, hl, hn, rfl⟩ := fingerprintHash_eq_some.mp hb
  obtain ⟨P', N', hp', hl', hn', rfl⟩ := fingerprintHash_eq_some.mp hb'
  have hsame : hash (P ++ N) = hash (P' ++ N') := by
    apply hexEncode_injective
    rw [← hf'] at hf
    unfold padRight at hf
    have := List.append_inj_left hf (by rw [hexEncode_length, hexEncode_length, h20, h20])
    exact this
  rw [hexDecode_iff] at hp hn hp' hn'
  by_cases he : P ++ N = P' ++ N'
  · left
    have hP := List.append_inj_left he (by rw [hl, hl'])
    have hN := List.append_inj_right he (by rw [hl, hl'])
    subst hP; subst hN
    exact ⟨hp.trans hp'.symm, hn.trans hn'.symm⟩
  · exact Or.inr ⟨P, N, P', N', hp, hn, hp', hn', he, hsame⟩

/-- The identifier has 64 characters, and it is the identifier of the main token only if the
hash is all zeros. -/
theorem C53_shape (hash : Bytes → Bytes) (h20 : ∀ b, (hash b).length = 20)
    (policy name f : List Char) (h : fingerprint hash policy name = some f) :
    f.length = 64 ∧
    (f = List.replicate 64 '0' → ∃ P N, SpellsHex policy P ∧ SpellsHex name N ∧
      hash (P ++ N) = List.replicate 20 0) := by
  unfold fingerprint at h
  rw [Option.map_eq_some_iff] at h
  obtain ⟨b, hb, hf⟩ := h
  obtain ⟨P, N, hp, hl, hn, rfl⟩ := fingerprintHash_eq_some.mp hb
  have hlen : (hexEncode (hash (P ++ N))).length = 40 := by rw [hexEncode_length, h20]
  constructor
  · rw [← hf]; unfold padRight; simp [hlen]
  · intro hz
    refine ⟨P, N, (hexDecode_iff _ _).mp hp, (hexDecode_iff _ _).mp hn, ?_⟩
    apply hexEncode_injective
    have h40 : hexEncode (List.replicate 20 0) = List.replicate 40 '0' := by decide
    rw [h40]
    rw [← hf] at hz
    unfold padRight at hz
    rw [show List.replicate 64 '0' = List.replicate 40 '0' ++ List.replicate 24 '0' by decide] at hz
    exact List.append_inj_left hz (by rw [hlen]; simp)

/-- For the hash the code uses, with nothing assumed of it: the identifier is that hash in hexadecimal digits with zeros up to
64 characters, and two pairs that share an identifier are the same pair or show a collision of Blake2b. -/
theorem C53_blake2b (policy name P N : List _) (hp : SpellsHex policy P) (h28 : P.length = 28) (hn : SpellsHex name N) :
    fingerprint (Blake2b.hash 20) policy name = some (hexEncode (Blake2b.hash 20 (P ++ N)) ++ List.replicate 24 '0') ∧
    (hexEncode (Blake2b.hash 20 (P ++ N)) ++ List.replicate 24 '0').length = 64 ∧
    ∀ policy' name', fingerprint (Blake2b.hash 20) policy' name' = fingerprint (Blake2b.hash 20) policy name →
      (policy'.map lowerCase = policy.map lowerCase ∧ name'.map lowerCase = name.map lowerCase) ∨
      ∃ P' N', SpellsHex policy' P' ∧ SpellsHex name' N' ∧ P' ++ N' ≠ P ++ N ∧
        Blake2b.hash 20 (P' ++ N') = Blake2b.hash 20 (P ++ N) := by
  have h20 : ∀ b, (Blake2b.hash 20 b).length = 20 := Blake2b.hash_length (by decide)
  have h1 := C53_hashes (Blake2b.hash 20) policy name P N hp h28 hn (h20 _)
  refine ⟨h1, (C53_shape _ h20 _ _ _ h1).1, fun policy' name' he => ?_⟩
  rcases C53_injective _ h20 policy' name' policy name _ (he.trans h1) h1 with h | ⟨P', N', P2, N2, a, b, c, d, e, f⟩
  · exact Or.inl h
  · have hP : P2 = P := Option.some.inj (((hexDecode_iff _ _).mpr c).symm.trans ((hexDecode_iff _ _).mpr hp))
    have hN : N2 = N := Option.some.inj (((hexDecode_iff _ _).mpr d).symm.trans ((hexDecode_iff _ _).mpr hn))
    subst hP; subst hN
    exact Or.inr ⟨P', N', a, b, e, f⟩

/-- A vector of CIP-14: the token `PATATE` of a policy. -/
example : fingerprint (Blake2b.hash 20) "7eae28af2208be856f7a119668ae52a49b73725e326dc16579dcc373".toList "504154415445".toList =
    some ("8cd54e31e4ea696e42344ed563eb00269e2a1da5000000000000000000000000".toList) ∧
    SpellsHex "504154415445".toList [0x50, 0x41, 0x54, 0x41, 0x54, 0x45] := by unfold SpellsHex; decide +kernel

/-- A hash for examples: the first byte summed with the length, 20 times. -/
def toyHash (b : Bytes) : Bytes := List.replicate 20 (b.headD 0 + UInt8.ofNat b.length)

example : fingerprint toyHash (List.replicate 56 'A') "4F6a".toList =
      some (hexEncode (List.replicate 20 (0xaa + 30)) ++ List.replicate 24 '0') ∧
    fingerprint toyHash (List.replicate 56 'a') "4f6A".toList =
      fingerprint toyHash (List.replicate 56 'A') "4F6a".toList ∧
    fingerprint toyHash (List.replicate 55 'a') [] = none ∧
    fingerprint toyHash (List.replicate 56 'a') "4f6".toList = none ∧
    fingerprint toyHash (List.replicate 56 'g') [] = none := by decide +kernel

/-! ## C54 -/

/-- No two different assets of the value have the same hash (specification). -/
def NoCollision (lib : Lib) (v : LedgerValue) : Prop :=
  ∀ p n p' n', (v.quantity p n).isSome → (v.quantity p' n').isSome →
    lib.hash (p ++ lib.nameBytes n) = lib.hash (p' ++ lib.nameBytes n') → p = p' ∧ n = n'

theorem tokenOf_inj {lib : Lib} (h20 : ∀ b, (lib.hash b).length = 20) {v : LedgerValue}
    (hc : NoCollision lib v) :
    ((assetList v).map fun e => (tokenOf lib e.1 e.2.1 e.2.2).fingerprint).Nodup ↔
      ((assetList v).map fun e => (e.1, e.2.1)).Nodup := by
  have key : ∀ l : List (Bytes × Bytes × U64), (∀ e ∈ l, e ∈ assetList v) →
      ((l.map fun e => (tokenOf lib e.1 e.2.1 e.2.2).fingerprint).Nodup ↔
        (l.map fun e => (e.1, e.2.1)).Nodup) := by
    intro l
    induction l with
    | nil => simp
    | cons e l ih =>
      intro hl
      simp only [List.map_cons, List.nodup_cons]
      rw [ih (fun x hx => hl x (by simp [hx]))]
      have hiff : (tokenOf lib e.1 e.2.1 e.2.2).fingerprint ∈
            l.map (fun e => (tokenOf lib e.1 e.2.1 e.2.2).fingerprint) ↔
          (e.1, e.2.1) ∈ l.map (fun e => (e.1, e.2.1)) := by
        simp only [List.mem_map]
        constructor
        · rintro ⟨x, hx, hf⟩
          refine ⟨x, hx, ?_⟩
          have hh : lib.hash (x.1 ++ lib.nameBytes x.2.1) = lib.hash (e.1 ++ lib.nameBytes e.2.1) := by
            apply hexEncode_injective
            unfold tokenOf padRight at hf
            exact List.append_inj_left hf (by rw [hexEncode_length, hexEncode_length, h20, h20])
          have h1 := mem_assetList.mp (show (x.1, x.2.1, x.2.2) ∈ assetList v from hl x (by simp [hx]))
          have h2 := mem_assetList.mp (show (e.1, e.2.1, e.2.2) ∈ assetList v from hl e (by simp))
          obtain ⟨h3, h4⟩ := hc _ _ _ _ (by rw [h1]; rfl) (by rw [h2]; rfl) hh
          rw [h3, h4]
        · rintro ⟨x, hx, hf⟩
          refine ⟨x, hx, ?_⟩
          simp only [Prod.mk.injEq] at hf
          unfold tokenOf
          simp only [hf.1, hf.2]
      rw [hiff]
  exact key _ (fun _ h => h)

theorem valueToTokens_eq {lib : Lib} (h20 : ∀ b, (lib.hash b).length = 20) {v : LedgerValue}
    (hw : v.WF) (hc : NoCollision lib v) :
    valueToTokens lib v = .ok (coinToValue v.coin, (assetList v).map fun e =>
      ((tokenOf lib e.1 e.2.1 e.2.2).fingerprint, tokenOf lib e.1 e.2.1 e.2.2)) := by
  unfold valueToTokens
  rw [← assetList_map, addTokens_eq lib _ _ (fun e he => (assetList_lengths hw he).1)]
  have := foldl_insert_append (fun e : Bytes × Bytes × U64 => (tokenOf lib e.1 e.2.1 e.2.2).fingerprint)
    (fun e => tokenOf lib e.1 e.2.1 e.2.2) (assetList v) []
    (by simpa using (tokenOf_inj h20 hc).mpr (assetList_nodup hw))
  simp only [List.nil_append] at this
  rw [this]

/-- Converting a ledger value gives its coin and one token per asset, with the texts, the
fingerprint and the quantity of the asset, and no other token. -/
theorem C54_tokens (lib : Lib) (h20 : ∀ b, (lib.hash b).length = 20) (v : LedgerValue)
    (hw : v.WF) (hc : NoCollision lib v) :
    ∃ coin t, valueToTokens lib v = .ok (coin, t) ∧ coin.toRat = v.coin.val ∧ t.keys.Nodup ∧
      (∀ f a, (f, a) ∈ t → f = a.fingerprint) ∧
      ∀ a : TxAsset, (∃ f, (f, a) ∈ t) ↔
        ∃ p n q, v.quantity p n = some q ∧ a.policy = hexEncode p ∧
          a.name = hexEncode (lib.nameBytes n) ∧
          Cardano.fingerprint lib.hash a.policy a.name = some a.fingerprint ∧
          a.quantity = Value.ofNat q.val := by
  refine ⟨_, _, valueToTokens_eq h20 hw hc, ?_, ?_, ?_, ?_⟩
  · simp [coinToValue, Value.ofNat, Value.toRat, Dec.toRat_ofInt]
  · have := (tokenOf_inj h20 hc).mpr (assetList_nodup hw)
    simpa [AMap.keys, List.map_map, Function.comp_def] using this
  · intro f a h
    rw [List.mem_map] at h
    obtain ⟨e, _, he⟩ := h
    cases he; rfl
  · intro a
    constructor
    · rintro ⟨f, h⟩
      rw [List.mem_map] at h
      obtain ⟨e, hm, he⟩ := h
      cases he
      exact ⟨e.1, e.2.1, e.2.2, mem_assetList.mp hm, rfl, rfl,
        fingerprint_encoded lib.hash (assetList_lengths hw hm).1, rfl⟩
    · rintro ⟨p, n, q, hq, h1, h2, h3, h4⟩
      refine ⟨(tokenOf lib p n q).fingerprint, List.mem_map.mpr ⟨(p, n, q), mem_assetList.mpr hq, ?_⟩⟩
      · simp only [Prod.mk.injEq, true_and]
        have hp : p.length = 28 := (assetList_lengths hw (mem_assetList.mpr hq)).1
        rw [h1, h2, fingerprint_encoded lib.hash hp] at h3
        cases a
        simp only at h1 h2 h3 h4
        subst h1 h2 h4
        have := Option.some.inj h3
        subst this
        rfl

theorem all_ok {α β : Type} : ∀ (X : List (Except α β)) (_ : ∀ x ∈ X, ∃ b, x = .ok b),
    X = (X.filterMap Except.toOption).map .ok
  | [], _ => rfl
  | x :: X, h => by
    obtain ⟨b, rfl⟩ := h x (by simp)
    simp only [List.filterMap_cons, Except.toOption, List.map_cons, List.cons.injEq, true_and]
    exact all_ok X (fun y hy => h y (by simp [hy]))

theorem tokensToValue_eq {lib : Lib} {coin : Value .regulated} {c : U64} {t : AMap (List Char) TxAsset}
    (hcoin : valueToCoin coin = .ok c) (ds0 : List (Bytes × Bytes × U64))
    (hd0 : ((t.map (·.2)).map (decodeAsset lib)).Perm (ds0.map .ok))
    (hn0 : (ds0.map fun d => (d.1, d.2.1)).Nodup) :
    ∃ v, tokensToValue lib coin t = .ok v ∧ v.coin = c ∧
      ∀ p n q, v.quantity p n = some q ↔ (p, n, q) ∈ ds0 := by
  obtain ⟨ds, hd, hperm⟩ : ∃ ds : List (Bytes × Bytes × U64),
      (t.map (·.2)).map (decodeAsset lib) = ds.map .ok ∧ ds.Perm ds0 := by
    refine ⟨_, all_ok _ ?_, ?_⟩
    · intro x hx
      have := hd0.mem_iff.mp hx
      rw [List.mem_map] at this
      obtain ⟨b, _, rfl⟩ := this
      exact ⟨b, rfl⟩
    · have := hd0.filterMap Except.toOption
      rw [List.filterMap_map (l := ds0),
        show ((Except.toOption ∘ (Except.ok : _ → Except ConvErr (Bytes × Bytes × U64)))) = some from rfl,
        List.filterMap_some] at this
      exact this
  have hn : (ds.map fun d => (d.1, d.2.1)).Nodup := (hperm.map _).nodup_iff.mpr hn0
  simp only [← hperm.mem_iff]
  clear hperm hd0 hn0
  unfold tokensToValue
  rw [hcoin]
  simp only
  cases ht : t with
  | nil =>
    subst ht
    refine ⟨⟨c, none⟩, rfl, rfl, ?_⟩
    intro p n q
    have : ds = [] := by
      cases ds with
      | nil => rfl
      | cons _ _ => simp at hd
    subst this
    simp [LedgerValue.quantity]
  | cons x t' =>
    rw [← ht]
    have hne : t.isEmpty = false := by rw [ht]; rfl
    rw [if_neg (by rw [hne]; simp), addAssets_ok lib _ ds [] hd]
    refine ⟨⟨c, some _⟩, rfl, rfl, ?_⟩
    intro p n q
    show maQuantity _ p n = some q ↔ _
    obtain ⟨h1, h2⟩ := maQuantity_foldl ds hn [] p n
    constructor
    · intro h
      by_cases hm : (p, n) ∈ ds.map fun d => (d.1, d.2.1)
      · rw [List.mem_map] at hm
        obtain ⟨⟨p', n', q'⟩, hm, he⟩ := hm
        simp only [Prod.mk.injEq] at he
        obtain ⟨rfl, rfl⟩ := he
        rw [h1 q' hm] at h
        cases h; exact hm
      · rw [h2 hm] at h
        simp [maQuantity] at h
    · exact h1 q

/-- Converting a ledger value to tokens and back, in any iteration order of the tokens, gives
the same coin, and every quantity under the name the library's `to_bytes` makes of the
asset's name. -/
theorem C54_round_trip_names (lib : Lib) (h20 : ∀ b, (lib.hash b).length = 20) (v : LedgerValue)
    (hw : v.WF) (hc : NoCollision lib v)
    (h32 : ∀ p n, (v.quantity p n).isSome → (lib.nameBytes n).length ≤ 32) :
    ∃ coin t, valueToTokens lib v = .ok (coin, t) ∧ ∀ t', t'.Perm t →
      ∃ v', tokensToValue lib coin t' = .ok v' ∧ v'.coin = v.coin ∧
        ∀ p m q, v'.quantity p m = some q ↔ ∃ n, lib.nameBytes n = m ∧ v.quantity p n = some q := by
  refine ⟨_, _, valueToTokens_eq h20 hw hc, ?_⟩
  intro t' ht'
  have hdec : ∀ e ∈ assetList v, decodeAsset lib (tokenOf lib e.1 e.2.1 e.2.2) =
      .ok (e.1, lib.nameBytes e.2.1, e.2.2) := by
    intro e he
    have hq := mem_assetList.mp (show (e.1, e.2.1, e.2.2) ∈ assetList v from he)
    exact decodeAsset_of (hexDecode_hexEncode _) (hexDecode_hexEncode _) (assetList_lengths hw he).1
      (h32 _ _ (by rw [hq]; rfl)) (quantityToNum_coin lib _)
  have hmap : ((t'.map (·.2)).map (decodeAsset lib)).Perm
      (((assetList v).map fun e => (e.1, lib.nameBytes e.2.1, e.2.2)).map .ok) := by
    have := (ht'.map (·.2)).map (decodeAsset lib)
    refine this.trans ?_
    rw [List.map_map, List.map_map, List.map_map]
    apply List.Perm.of_eq
    apply List.map_congr_left
    intro e he
    exact hdec e he
  have hnd : (((assetList v).map fun e => (e.1, lib.nameBytes e.2.1, e.2.2)).map fun d => (d.1, d.2.1)).Nodup := by
    rw [List.map_map]
    have h1 := assetList_nodup hw
    rw [List.Nodup, List.pairwise_map] at h1 ⊢
    refine h1.imp_of_mem ?_
    intro a b ha hb hne he
    apply hne
    simp only [Function.comp, Prod.mk.injEq] at he
    have ha' := mem_assetList.mp (show (a.1, a.2.1, a.2.2) ∈ assetList v from ha)
    have hb' := mem_assetList.mp (show (b.1, b.2.1, b.2.2) ∈ assetList v from hb)
    obtain ⟨h3, h4⟩ := hc _ _ _ _ (by rw [ha']; rfl) (by rw [hb']; rfl) (by rw [he.1, he.2])
    rw [h3, h4]
  obtain ⟨v', hv, hcoin, hq⟩ := tokensToValue_eq (valueToCoin_coin v.coin) _ hmap hnd
  refine ⟨v', hv, hcoin, ?_⟩
  intro p m q
  rw [hq, List.mem_map]
  constructor
  · rintro ⟨⟨p', n, q'⟩, hm, he⟩
    cases he
    exact ⟨n, rfl, mem_assetList.mp hm⟩
  · rintro ⟨n, rfl, hn⟩
    exact ⟨(p, n, q), mem_assetList.mpr hn, rfl⟩

/-- Converting to tokens and back gives the same coin and the same quantity for every asset, in any
iteration order. What is missing for the full property: it is assumed that the library's
`AssetName::to_bytes` returns the bytes of the name and that no two assets of the value have
the same hash. -/
theorem C54_round_trip_partial (lib : Lib) (h20 : ∀ b, (lib.hash b).length = 20)
    (hname : ∀ n, lib.nameBytes n = n) (v : LedgerValue) (hw : v.WF) (hc : NoCollision lib v) :
    ∃ coin t, valueToTokens lib v = .ok (coin, t) ∧ ∀ t', t'.Perm t →
      ∃ v', tokensToValue lib coin t' = .ok v' ∧ v'.coin = v.coin ∧
        ∀ p n, v'.quantity p n = v.quantity p n := by
  have h32 : ∀ p n, (v.quantity p n).isSome → (lib.nameBytes n).length ≤ 32 := by
    intro p n h
    obtain ⟨q, hq⟩ := Option.isSome_iff_exists.mp h
    rw [hname]
    exact (assetList_lengths hw (mem_assetList.mpr hq)).2
  obtain ⟨coin, t, h1, h2⟩ := C54_round_trip_names lib h20 v hw hc h32
  refine ⟨coin, t, h1, ?_⟩
  intro t' ht'
  obtain ⟨v', h3, h4, h5⟩ := h2 t' ht'
  refine ⟨v', h3, h4, ?_⟩
  intro p n
  apply Option.ext
  intro q
  rw [h5]
  simp only [hname, exists_eq_left]

/-- The CBOR form of a byte string of fewer than 256 bytes: what `AssetName::to_bytes` of the library
returns if it is the general serialisation method of its types. -/
def cborBytes (b : Bytes) : Bytes :=
  if b.length < 24 then UInt8.ofNat (0x40 + b.length) :: b
  else 0x58 :: UInt8.ofNat b.length :: b

/-- If `AssetName::to_bytes` is the serialised form, then the round trip loses every asset: the
quantities come back under other names. -/
theorem C54_cbor_names_false (hash : Bytes → Bytes) (h20 : ∀ b, (hash b).length = 20) (lead trail : Nat) :
    let lib : Lib := ⟨hash, cborBytes, lead, trail⟩
    ∃ v : LedgerValue, v.WF ∧ ∃ coin t v' p n, valueToTokens lib v = .ok (coin, t) ∧
      tokensToValue lib coin t = .ok v' ∧ v.quantity p n = some U64.one ∧ v'.quantity p n = none ∧
      v'.quantity p (cborBytes n) = some U64.one := by
  intro lib
  let P : Bytes := List.replicate 28 7
  let N : Bytes := [1, 2, 3]
  let v : LedgerValue := ⟨U64.one, some [(P, [(N, U64.one)])]⟩
  have hw : v.WF := by
    constructor
    · intro m hm; cases hm; simp
    · intro m hm p a hpa
      cases hm
      simp only [List.mem_singleton, Prod.mk.injEq] at hpa
      obtain ⟨rfl, rfl⟩ := hpa
      refine ⟨by decide, by simp, ?_⟩
      intro n hn
      simp at hn
      subst hn; decide
  have hq : ∀ p n, (v.quantity p n).isSome → p = P ∧ n = N := by
    intro p n h
    unfold LedgerValue.quantity at h
    simp only [v, AMap.get_cons] at h
    split at h
    · rename_i hp
      simp only [Option.bind_some, AMap.get_cons] at h
      split at h
      · rename_i hn; exact ⟨hp.symm, hn.symm⟩
      · simp at h
    · simp at h
  have hc : NoCollision lib v := by
    intro p n p' n' h h' _
    obtain ⟨rfl, rfl⟩ := hq p n h
    obtain ⟨rfl, rfl⟩ := hq p' n' h'
    exact ⟨rfl, rfl⟩
  obtain ⟨coin, t, h1, h2⟩ := C54_round_trip_names lib h20 v hw hc (by
    intro p n h
    obtain ⟨rfl, rfl⟩ := hq p n h
    show (cborBytes [1, 2, 3]).length ≤ 32
    decide)
  obtain ⟨v', h3, _, h5⟩ := h2 t (List.Perm.refl _)
  refine ⟨v, hw, coin, t, v', P, N, h1, h3, by decide, ?_, ?_⟩
  · cases hv : v'.quantity P N with
    | none => rfl
    | some q =>
      obtain ⟨n, hn, hq'⟩ := (h5 P N q).mp hv
      have := (hq P n (by rw [hq']; rfl)).2
      subst this
      exact absurd hn (show ¬ cborBytes [1, 2, 3] = [1, 2, 3] by decide)
  · exact (h5 P (cborBytes N) U64.one).mpr ⟨N, rfl, by decide⟩

/-- The assets of an output that the ledger can hold: a policy of 28 bytes, a name of at most 32,
a quantity that is not negative and has an integer part below `2^64` (specification). The
decimals of the quantity are written with a scale of at least zero. -/
structure Convertible (a : TxAsset) (p n : Bytes) (q : U64) : Prop where
  policy : SpellsHex a.policy p
  name : SpellsHex a.name n
  policyLength : p.length = 28
  nameLength : n.length ≤ 32
  nonneg : 0 ≤ a.quantity.value.digits
  scale : 0 ≤ a.quantity.value.scale ∧ a.quantity.value.scale < 2 ^ 62
  quantity : (q.val : Int) = ⌊a.quantity.toRat⌋

theorem Convertible.decodes {lib : Lib} {a : TxAsset} {p n : Bytes} {q : U64} (h : Convertible a p n q) :
    decodeAsset lib a = .ok (p, n, q) := by
  refine decodeAsset_of ((hexDecode_iff _ _).mpr h.policy) ((hexDecode_iff _ _).mpr h.name)
    h.policyLength h.nameLength ?_
  have hs : a.quantity.value.SmallScale := by
    have := h.scale
    unfold Dec.SmallScale; omega
  rw [quantityToNum_eq lib _ h.nonneg h.scale.1 hs]
  have hq : ⌊a.quantity.toRat⌋.toNat = q.val := by rw [← h.quantity]; simp
  rw [dif_pos (by rw [hq]; exact q.lt)]
  congr 1
  cases q
  simp only [U64.mk.injEq]; exact hq

theorem assetsMap_eq {l : List TxAsset} (h : (l.map (·.fingerprint)).Nodup) :
    assetsMap l = l.map fun a => (a.fingerprint, a) := by
  have := foldl_insert_append (fun a : TxAsset => a.fingerprint) (fun a => a) l [] (by simpa using h)
  simpa [assetsMap] using this

theorem assetsMap_mem {l : List TxAsset} {x : List Char × TxAsset} (h : x ∈ assetsMap l) : x.2 ∈ l := by
  have key : ∀ (l : List TxAsset) (m : AMap (List Char) TxAsset),
      x ∈ l.foldl (fun m a => m.insert a.fingerprint a) m → x ∈ m ∨ x.2 ∈ l := by
    intro l
    induction l with
    | nil => intro m h; exact .inl h
    | cons a l ih =>
      intro m h
      rcases ih _ h with h1 | h1
      · rcases AMap.mem_insert h1 with h2 | h2
        · subst h2; exact .inr (by simp)
        · exact .inl h2
      · exact .inr (List.mem_cons_of_mem _ h1)
  rcases key l [] h with h1 | h1
  · cases h1
  · exact h1

/-- An output built from assets with distinct fingerprints holds, in any iteration order, the
integer part of every asset's quantity under its policy and name, and nothing else. What
is missing for the full property: repeated fingerprints (`C54_duplicate_false`). -/
theorem C54_output_partial {A E : Type} (lib : Lib) (c : Codecs A E)
    (order : AMap (List Char) TxAsset → AMap (List Char) TxAsset) (horder : ∀ m, (order m).Perm m)
    (b : UtxoBuilder) (addr : A) (haddr : c.readAddress b.address = some addr)
    (coin : U64) (hcoin : 0 ≤ b.value.toRat ∧ (coin.val : Int) = ⌊b.value.toRat⌋)
    (hextra : b.extra = none ∨ ∃ t e, b.extra = some t ∧ c.readExtra t = some e)
    (hfp : (b.assets.map (·.fingerprint)).Nodup)
    (ds : List (TxAsset × Bytes × Bytes × U64)) (hds : ds.map (·.1) = b.assets)
    (hconv : ∀ d ∈ ds, Convertible d.1 d.2.1 d.2.2.1 d.2.2.2)
    (hdist : (ds.map fun d => (d.2.1, d.2.2.1)).Nodup) :
    ∃ o, toOutput lib c order b = .ok o ∧ o.address = addr ∧ o.amount.coin = coin ∧
      ∀ p n q, o.amount.quantity p n = some q ↔ ∃ a ∈ b.assets, Convertible a p n q := by
  have hcoin' : valueToCoin b.value = .ok coin := by
    unfold valueToCoin toU64
    have h1 : ¬ b.value.value.toRat < 0 := not_lt.mpr hcoin.1
    have h2 : b.value.value.toRat.floor.toNat = coin.val := by
      have := hcoin.2
      show ⌊b.value.toRat⌋.toNat = coin.val
      rw [← this]; simp
    rw [if_neg h1, dif_pos (by rw [h2]; exact coin.lt)]
    simp only
    congr 1
    cases coin
    simp only [U64.mk.injEq]; exact h2
  have hperm : (((order (assetsMap b.assets)).map (·.2)).map (decodeAsset lib)).Perm
      ((ds.map (·.2)).map .ok) := by
    refine (((horder _).map (·.2)).map _).trans (List.Perm.of_eq ?_)
    rw [assetsMap_eq hfp, ← hds]
    simp only [List.map_map]
    apply List.map_congr_left
    intro d hd
    exact (hconv d hd).decodes
  obtain ⟨v, hv, hvc, hq⟩ := tokensToValue_eq hcoin' (ds.map (·.2)) hperm (by
    rw [List.map_map]; exact hdist)
  have hex : ∃ e, toOutput lib c order b = .ok ⟨addr, v, e⟩ := by
    unfold toOutput
    rw [haddr]
    simp only [hv]
    rcases hextra with h | ⟨t, e, h, h'⟩
    · rw [h]; exact ⟨_, rfl⟩
    · rw [h]; simp only [h']; exact ⟨_, rfl⟩
  obtain ⟨e, he⟩ := hex
  refine ⟨_, he, rfl, hvc, ?_⟩
  intro p n q
  show v.quantity p n = some q ↔ _
  rw [hq, List.mem_map]
  constructor
  · rintro ⟨⟨a, p', n', q'⟩, hm, hee⟩
    cases hee
    exact ⟨a, by rw [← hds]; exact List.mem_map.mpr ⟨_, hm, rfl⟩, hconv _ hm⟩
  · rintro ⟨a, ha, hcv⟩
    rw [← hds, List.mem_map] at ha
    obtain ⟨⟨a', p', n', q'⟩, hm, rfl⟩ := ha
    have h1 := (hconv _ hm).decodes (lib := lib)
    rw [hcv.decodes] at h1
    cases h1
    exact ⟨_, hm, rfl⟩

/-- Whenever an output is built, in any iteration order, its coin is the integer part of the value, which
is not negative; everything in it comes from an asset of the builder with that policy and name, in
the integer part of its quantity (zero for a negative one); and no asset with a fingerprint of its own is
left out. What is missing for the full property: repeated fingerprints (`C54_duplicate_false`), and the
quantity kept is that of the last asset if two have the same policy and name. -/
theorem C54_output_faithful_partial {A E : Type} (lib : Lib) (c : Codecs A E)
    (order : AMap (List Char) TxAsset → AMap (List Char) TxAsset) (horder : ∀ m, (order m).Perm m)
    (b : UtxoBuilder) (o : LedgerOutput A E) (h : toOutput lib c order b = .ok o) :
    c.readAddress b.address = some o.address ∧ 0 ≤ b.value.toRat ∧
    (o.amount.coin.val : Int) = ⌊b.value.toRat⌋ ∧
    (∀ p n q, o.amount.quantity p n = some q → ∃ a ∈ b.assets, SpellsHex a.policy p ∧ SpellsHex a.name n ∧
      p.length = 28 ∧ n.length ≤ 32 ∧
      (0 ≤ a.quantity.value.scale → a.quantity.value.scale < 2 ^ 62 →
        (q.val : Int) = max 0 ⌊a.quantity.toRat⌋)) ∧
    ((b.assets.map (·.fingerprint)).Nodup → ∀ a ∈ b.assets, ∃ p n, SpellsHex a.policy p ∧
      SpellsHex a.name n ∧ p.length = 28 ∧ n.length ≤ 32 ∧ (o.amount.quantity p n).isSome) := by
  unfold toOutput at h
  cases ha : c.readAddress b.address with
  | none => rw [ha] at h; cases h
  | some addr =>
    rw [ha] at h
    cases ht : tokensToValue lib b.value (order (assetsMap b.assets)) with
    | error e => rw [ht] at h; cases h
    | ok v =>
      rw [ht] at h
      have hv : o.address = addr ∧ o.amount = v := by
        simp only at h
        split at h
        · cases h; exact ⟨rfl, rfl⟩
        · split at h
          · cases h
          · cases h; exact ⟨rfl, rfl⟩
      obtain ⟨h1, h2, h3, h4⟩ := tokensToValue_ok ht
      rw [hv.1, hv.2]
      refine ⟨rfl, h1, h2, ?_, ?_⟩
      · intro p n q hq
        obtain ⟨x, hx, hd⟩ := h3 p n q hq
        have hx' := assetsMap_mem ((horder _).mem_iff.mp hx)
        obtain ⟨d1, d2, d3, d4, d5⟩ := decodeAsset_lengths hd
        refine ⟨x.2, hx', (hexDecode_iff _ _).mp d1, (hexDecode_iff _ _).mp d2, d3, d4, ?_⟩
        intro hs0 hs1
        by_cases hneg : x.2.quantity.toRat < 1
        · rw [quantityToNum_small lib _ hneg] at d5
          cases d5
          have : ⌊x.2.quantity.toRat⌋ ≤ 0 := by
            have := Int.floor_lt (a := x.2.quantity.toRat) (z := 1)
            have h := this.mpr (by simpa using hneg)
            omega
          show ((0 : Nat) : Int) = _
          rw [max_eq_left this]; rfl
        · have hge : 0 ≤ x.2.quantity.value.digits := by
            by_contra hlt
            apply hneg
            have : x.2.quantity.toRat < 0 := by
              unfold Value.toRat Dec.toRat
              exact mul_neg_of_neg_of_pos (by exact_mod_cast not_le.mp hlt) (Dec.pow_pos' _)
            linarith
          rw [quantityToNum_eq lib _ hge hs0 (by unfold Dec.SmallScale; omega)] at d5
          have hfl : 0 ≤ ⌊x.2.quantity.toRat⌋ := Int.floor_nonneg.mpr (toRat_nonneg hge)
          split at d5
          · cases d5
            show ((⌊x.2.quantity.toRat⌋.toNat : Nat) : Int) = _
            rw [max_eq_right hfl]
            exact Int.toNat_of_nonneg hfl
          · cases d5
      · intro hfp a haa
        have hm : (a.fingerprint, a) ∈ order (assetsMap b.assets) := by
          rw [(horder _).mem_iff, assetsMap_eq hfp]
          exact List.mem_map.mpr ⟨a, haa, rfl⟩
        obtain ⟨p, n, q, hd, hs⟩ := h4 _ hm
        obtain ⟨d1, d2, d3, d4, _⟩ := decodeAsset_lengths hd
        exact ⟨p, n, (hexDecode_iff _ _).mp d1, (hexDecode_iff _ _).mp d2, d3, d4, hs⟩

/-- Two assets of an output with the same fingerprint: the output holds the quantity of the last
one only. -/
theorem C54_duplicate_false : ∃ (lib : Lib) (b : UtxoBuilder) (p n : Bytes) (o : LedgerOutput Unit Unit),
    toOutput lib ⟨fun _ => some [], fun _ => some (), fun _ => some [], fun _ => some (), ()⟩ id b = .ok o ∧
    (b.assets.map fun a => a.quantity.toRat).sum = 7 ∧
    (∀ a ∈ b.assets, SpellsHex a.policy p ∧ SpellsHex a.name n ∧
      Cardano.fingerprint lib.hash a.policy a.name = some a.fingerprint) ∧
    (o.amount.quantity p n).map (·.val) = some 4 := by
  let lib : Lib := ⟨toyHash, id, 5, 15⟩
  let p : Bytes := List.replicate 28 0xaa
  let n : Bytes := [0x4f, 0x6a]
  let f : List Char := hexEncode (toyHash (p ++ n)) ++ List.replicate 24 '0'
  let a (q : Nat) : TxAsset := ⟨List.replicate 56 'a', "4f6a".toList, f, Value.ofNat q⟩
  let b : UtxoBuilder := ⟨[], Value.ofNat 9, [a 3, a 4], none⟩
  have hex : SpellsHex (List.replicate 56 'a') p ∧ SpellsHex "4f6a".toList n := by
    unfold SpellsHex; decide +kernel
  have hconv : Convertible (a 4) p n ⟨4, by decide⟩ := by
    refine ⟨hex.1, hex.2, by decide, by decide, by decide, by decide, ?_⟩
    simp [a, Value.ofNat, Value.toRat, Dec.toRat_ofInt]
  have hmap : assetsMap b.assets = [(f, a 4)] := by
    show AMap.insert (AMap.insert [] f (a 3)) f (a 4) = [(f, a 4)]
    simp [AMap.insert]
  have hcoin : valueToCoin (Value.ofNat 9) = .ok ⟨9, by decide⟩ := valueToCoin_coin ⟨9, by decide⟩
  obtain ⟨v, hv, _, hq⟩ := tokensToValue_eq (lib := lib) (t := [(f, a 4)]) hcoin [(p, n, ⟨4, by decide⟩)]
    (by simp only [List.map_cons, List.map_nil, hconv.decodes]; exact List.Perm.refl _) (by simp)
  refine ⟨lib, b, p, n, ⟨(), v, ()⟩, ?_, ?_, ?_, ?_⟩
  · unfold toOutput
    simp only [id, hmap]
    rw [show b.value = Value.ofNat 9 from rfl, hv]
  · simp [b, a, Value.ofNat, Value.toRat, Dec.toRat_ofInt]; norm_num
  · intro x hx
    have hx' : x = a 3 ∨ x = a 4 := by simpa [b] using hx
    have hfp : Cardano.fingerprint toyHash (List.replicate 56 'a') "4f6a".toList = some f := by decide +kernel
    rcases hx' with rfl | rfl <;> exact ⟨hex.1, hex.2, hfp⟩
  · show (v.quantity p n).map (·.val) = some 4
    rw [(hq p n ⟨4, by decide⟩).mpr (by simp)]; rfl

/-- An asset with a negative quantity is not refused: the output is built with quantity zero of it. -/
theorem C54_negative_quantity_false : ∃ (lib : Lib) (b : UtxoBuilder) (p n : Bytes) (o : LedgerOutput Unit Unit),
    toOutput lib ⟨fun _ => some [], fun _ => some (), fun _ => some [], fun _ => some (), ()⟩ id b = .ok o ∧
    (b.assets.map fun a => a.quantity.toRat) = [-3] ∧
    (∀ a ∈ b.assets, SpellsHex a.policy p ∧ SpellsHex a.name n) ∧
    (o.amount.quantity p n).map (·.val) = some 0 := by
  let lib : Lib := ⟨toyHash, id, 5, 15⟩
  let p : Bytes := List.replicate 28 0xaa
  let n : Bytes := [0x4f, 0x6a]
  let a : TxAsset := ⟨List.replicate 56 'a', "4f6a".toList, [], ⟨⟨-3, 0⟩⟩⟩
  let b : UtxoBuilder := ⟨[], Value.ofNat 9, [a], none⟩
  have hex : SpellsHex (List.replicate 56 'a') p ∧ SpellsHex "4f6a".toList n := by
    unfold SpellsHex; decide +kernel
  have hrat : a.quantity.toRat = -3 := by simp [a, Value.toRat, Dec.toRat]
  have hdec : decodeAsset lib a = .ok (p, n, ⟨0, by decide⟩) :=
    decodeAsset_of ((hexDecode_iff _ _).mpr hex.1) ((hexDecode_iff _ _).mpr hex.2) (by decide) (by decide)
      (quantityToNum_small lib _ (by rw [hrat]; norm_num))
  have hmap : assetsMap b.assets = [([], a)] := rfl
  have hcoin : valueToCoin (Value.ofNat 9) = .ok ⟨9, by decide⟩ := valueToCoin_coin ⟨9, by decide⟩
  obtain ⟨v, hv, _, hq⟩ := tokensToValue_eq (lib := lib) (t := [([], a)]) hcoin [(p, n, ⟨0, by decide⟩)]
    (by simp only [List.map_cons, List.map_nil, hdec]; exact List.Perm.refl _) (by simp)
  refine ⟨lib, b, p, n, ⟨(), v, ()⟩, ?_, ?_, ?_, ?_⟩
  · unfold toOutput
    simp only [id, hmap]
    rw [show b.value = Value.ofNat 9 from rfl, hv]
  · show [a.quantity.toRat] = _
    rw [hrat]
  · intro x hx
    have hx' : x = a := by simpa [b] using hx
    subst hx'; exact hex
  · show (v.quantity p n).map (·.val) = some 0
    rw [(hq p n ⟨0, by decide⟩).mpr (by simp)]; rfl

/-- A ledger output, converted to a builder and back in any iteration orders, has the same
address, coin, quantities, script reference and datum, under the assumptions of
`C54_round_trip_partial` and if the address and JSON codecs read back what they write. -/
theorem C54_output_round_trip_partial {A E : Type} (lib : Lib) (h20 : ∀ b, (lib.hash b).length = 20)
    (hname : ∀ n, lib.nameBytes n = n) (c : Codecs A E) (hcodec : c.Lawful)
    (order order' : AMap (List Char) TxAsset → AMap (List Char) TxAsset)
    (horder : ∀ m, (order m).Perm m) (horder' : ∀ m, (order' m).Perm m)
    (o : LedgerOutput A E) (hw : o.amount.WF) (hc : NoCollision lib o.amount)
    (b : UtxoBuilder) (hb : fromOutput lib c order o = .ok b) :
    ∃ o', toOutput lib c order' b = .ok o' ∧ o'.address = o.address ∧ o'.extra = o.extra ∧
      o'.amount.coin = o.amount.coin ∧ ∀ p n, o'.amount.quantity p n = o.amount.quantity p n := by
  obtain ⟨coin, t, ht, hrt⟩ := C54_round_trip_partial lib h20 hname o.amount hw hc
  obtain ⟨coin', t', ht', _, hnd, hkey, _⟩ := C54_tokens lib h20 o.amount hw hc
  rw [ht] at ht'; cases ht'
  unfold fromOutput at hb
  rw [ht] at hb
  simp only at hb
  cases ha : c.showAddress o.address with
  | none => rw [ha] at hb; cases hb
  | some at' =>
    cases hx : c.showExtra o.extra with
    | none => rw [ha] at hb; simp only [hx] at hb; cases hb
    | some xt =>
      rw [ha] at hb; simp only [hx] at hb; cases hb
      -- the map rebuilt from the assets
      have hk : ∀ m : AMap (List Char) TxAsset, (∀ f a, (f, a) ∈ m → f = a.fingerprint) →
          (m.map (·.2)).map (fun a => (a.fingerprint, a)) = m := by
        intro m hm
        rw [List.map_map]
        conv_rhs => rw [← List.map_id m]
        apply List.map_congr_left
        intro x hx
        obtain ⟨f, a⟩ := x
        have := hm f a hx
        simp [this]
      have hko : ∀ f a, (f, a) ∈ order t → f = a.fingerprint :=
        fun f a h => hkey f a ((horder t).mem_iff.mp h)
      have hfp : (((order t).map (·.2)).map (·.fingerprint)).Nodup := by
        have h1 : ((order t).map (·.2)).map (·.fingerprint) = AMap.keys (order t) := by
          rw [List.map_map]
          unfold AMap.keys
          apply List.map_congr_left
          intro x hx
          exact (hko x.1 x.2 hx).symm
        rw [h1]
        exact ((horder t).map (fun x : List Char × TxAsset => x.1)).nodup_iff.mpr hnd
      have hperm : (order' (assetsMap ((order t).map (·.2)))).Perm t := by
        refine (horder' _).trans ?_
        rw [assetsMap_eq hfp, hk _ hko]
        exact horder t
      obtain ⟨v', hv, h1, h2⟩ := hrt _ hperm
      refine ⟨⟨o.address, v', o.extra⟩, ?_, rfl, rfl, h1, h2⟩
      unfold toOutput
      simp only [hcodec.address _ _ ha, hv, hcodec.extra _ _ hx]

/-- The same for a spent output with its pointer: a 32-byte transaction identifier and the index
come back. -/
theorem C54_input_round_trip_partial {A E : Type} (lib : Lib) (h20 : ∀ b, (lib.hash b).length = 20)
    (hname : ∀ n, lib.nameBytes n = n) (c : Codecs A E) (hcodec : c.Lawful)
    (order order' : AMap (List Char) TxAsset → AMap (List Char) TxAsset)
    (horder : ∀ m, (order m).Perm m) (horder' : ∀ m, (order' m).Perm m)
    (i : LedgerInput A E) (hid : i.transactionId.length = 32) (hw : i.output.amount.WF)
    (hc : NoCollision lib i.output.amount) (d : UtxoDetails) (hd : fromIo lib c order i = .ok d) :
    ∃ i', toInput lib c order' d = .ok i' ∧ i'.transactionId = i.transactionId ∧ i'.index = i.index ∧
      i'.output.address = i.output.address ∧ i'.output.extra = i.output.extra ∧
      i'.output.amount.coin = i.output.amount.coin ∧
      ∀ p n, i'.output.amount.quantity p n = i.output.amount.quantity p n := by
  unfold fromIo at hd
  cases hb : fromOutput lib c order i.output with
  | error e => rw [hb] at hd; cases hd
  | ok b =>
    rw [hb] at hd; cases hd
    obtain ⟨o', h1, h2, h3, h4, h5⟩ := C54_output_round_trip_partial lib h20 hname c hcodec order order'
      horder horder' i.output hw hc b hb
    refine ⟨⟨i.transactionId, i.index, o'⟩, ?_, rfl, rfl, h2, h3, h4, h5⟩
    unfold toInput
    simp only [hexDecode_hexEncode, h1, if_neg (not_not.mpr hid)]

/-! ### Examples -/

/-- A value with two policies and three assets, two of them with the same name. -/
def sampleLedger : LedgerValue :=
  ⟨⟨5000000, by decide⟩, some [(List.replicate 28 1, [([], ⟨7, by decide⟩), ([0x41, 0x42], ⟨2 ^ 63, by decide⟩)]),
    (List.replicate 28 2, [([0x41, 0x42], ⟨9, by decide⟩)])]⟩

/-- The text of a token. -/
structure TokenView where
  policy : List Char
  name : List Char
  fingerprint : List Char
  quantity : Dec
deriving DecidableEq

/-- A token as something decidable. -/
def tokenView (a : TxAsset) : TokenView := ⟨a.policy, a.name, a.fingerprint, a.quantity.value⟩

example : sampleLedger.WF := by
  constructor
  · intro m hm; cases hm; decide
  · intro m hm p a hpa
    cases hm
    have key : ∀ x ∈ [(List.replicate 28 (1 : UInt8), [(([] : Bytes), (⟨7, by decide⟩ : U64)), ([0x41, 0x42], ⟨2 ^ 63, by decide⟩)]),
        (List.replicate 28 2, [([0x41, 0x42], ⟨9, by decide⟩)])],
        x.1.length = 28 ∧ (AMap.keys x.2).Nodup ∧ ∀ n ∈ AMap.keys x.2, n.length ≤ 32 := by decide
    exact key _ hpa

example : ∃ t, valueToTokens ⟨toyHash, id, 5, 15⟩ sampleLedger = .ok (Value.ofNat 5000000, t) ∧
    t.map (fun x => tokenView x.2) =
      [⟨hexEncode (List.replicate 28 1), [], hexEncode (List.replicate 20 29) ++ List.replicate 24 '0', ⟨7, 0⟩⟩,
       ⟨hexEncode (List.replicate 28 1), "4142".toList, hexEncode (List.replicate 20 31) ++ List.replicate 24 '0', ⟨2 ^ 63, 0⟩⟩,
       ⟨hexEncode (List.replicate 28 2), "4142".toList, hexEncode (List.replicate 20 32) ++ List.replicate 24 '0', ⟨9, 0⟩⟩] := by
  refine ⟨_, rfl, ?_⟩
  decide +kernel

/-- The assets of the sample, by lookup. -/
theorem sampleLedger_quantity (p n : Bytes) (h : (sampleLedger.quantity p n).isSome) :
    (p, n) = (List.replicate 28 1, []) ∨ (p, n) = (List.replicate 28 1, [0x41, 0x42]) ∨
      (p, n) = (List.replicate 28 2, [0x41, 0x42]) := by
  obtain ⟨q, hq⟩ := Option.isSome_iff_exists.mp h
  have := mem_assetList.mpr hq
  have hl : assetList sampleLedger = [(List.replicate 28 1, [], ⟨7, by decide⟩),
      (List.replicate 28 1, [0x41, 0x42], ⟨2 ^ 63, by decide⟩),
      (List.replicate 28 2, [0x41, 0x42], ⟨9, by decide⟩)] := by decide
  rw [hl] at this
  simp only [List.mem_cons, Prod.mk.injEq, List.not_mem_nil, or_false] at this
  simp only [Prod.mk.injEq]
  tauto

example : NoCollision ⟨toyHash, id, 5, 15⟩ sampleLedger := by
  intro p n p' n' h h' he
  have h1 := sampleLedger_quantity p n h
  have h2 := sampleLedger_quantity p' n' h'
  revert he
  rcases h1 with h1 | h1 | h1 <;> rcases h2 with h2 | h2 | h2 <;> cases h1 <;> cases h2 <;> decide

end Verif.Props
