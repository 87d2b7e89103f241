import Verif.Cardano.Address
import Verif.Cardano.Bech32Lemmas
import Verif.Props.Cardano

/-!
# Addresses as text (C88) and the tool `cip1852-first-address` (C89)
-/

namespace Verif.Props

open Verif Verif.Cardano

/-! ### Bytes of addresses -/

theorem readCred_hash (p : Cred) : readCred (decide (p.kind = 1)) p.hash = some p := by
  cases p with
  | key h => unfold readCred; simp [Cred.hash, Cred.kind, h.property]
  | script h => unfold readCred; simp [Cred.hash, Cred.kind, h.property]

theorem Cred.hash_length (p : Cred) : p.hash.length = 28 := by
  cases p with
  | key h => exact h.property
  | script h => exact h.property

theorem Cred.kind_le (p : Cred) : p.kind ≤ 1 := by cases p <;> simp [Cred.kind]

theorem head_facts : ∀ t < 8, ∀ k ≤ 1, ∀ n < 16, (t * 32 + k * 16 + n) / 32 = t ∧ (t * 32 + k * 16 + n) % 16 = n ∧
    (t * 32 + k * 16 + n).testBit 4 = decide (k = 1) ∧ (t * 32 + k * 16 + n).testBit 5 = decide (t % 2 = 1) ∧
    (UInt8.ofNat (t * 32 + k * 16 + n)).toNat = t * 32 + k * 16 + n := by decide +kernel

theorem readNat_high : ∀ (f n : Nat) (rest : Bytes), n < 128 ^ f → n < 2 ^ 57 →
    readNat 0 (highBytes f n ++ rest) = readNat n rest
  | 0, n, rest, h, _ => by
    have : n = 0 := by simpa using h
    subst this; rfl
  | f + 1, n, rest, h, h64 => by
    unfold highBytes
    by_cases hn : n = 0
    · rw [if_pos hn, hn]; rfl
    · rw [if_neg hn, List.append_assoc, readNat_high f (n / 128) _ (Nat.div_lt_of_lt_mul (by rw [pow_succ] at h; omega)) (by omega),
        List.singleton_append, readNat]
      have hb : (UInt8.ofNat (n % 128 + 128)).toNat = n % 128 + 128 := by
        rw [UInt8.toNat_ofNat']; omega
      have ha : n / 128 * 128 + (n % 128 + 128) % 128 = n := by omega
      simp only [hb, ha]
      rw [if_neg (by omega), if_neg (by omega)]

/-- A number of 64 bits is read back, whatever comes after it. -/
theorem readNat_writeNat (n : Fin (2 ^ 64)) (rest : Bytes) : readNat 0 (writeNat n ++ rest) = some (n.val, rest) := by
  have hn := n.isLt
  unfold writeNat
  rw [List.append_assoc, readNat_high 9 _ _ (by omega) (by omega), List.singleton_append, readNat]
  have hb : (UInt8.ofNat (n.val % 128)).toNat = n.val % 128 := by
    rw [UInt8.toNat_ofNat']; omega
  have ha : n.val / 128 * 128 + n.val % 128 % 128 = n.val := by omega
  simp only [hb, ha]
  rw [if_neg (by omega), if_pos (by omega)]

theorem readPointer_write (a b c : Fin (2 ^ 64)) :
    readPointer (writeNat a ++ (writeNat b ++ writeNat c)) = some (a.val, b.val, c.val) := by
  have h := readNat_writeNat c []
  rw [List.append_nil] at h
  unfold readPointer
  simp only [readNat_writeNat, h]

theorem word_val (n : Fin (2 ^ 64)) : word n.val = n := Fin.ext (Nat.mod_eq_of_lt n.isLt)

theorem fromBytes_toBytes (a : Addr) : Addr.fromBytes a.toBytes = some a := by
  cases a with
  | base n p s =>
    have hp := Cred.kind_le p
    have hs := Cred.kind_le s
    obtain ⟨h1, h2, h3, h4, h5⟩ := head_facts s.kind (by omega) p.kind hp n.val n.isLt
    have he : p.kind * 16 + s.kind * 32 + n.val = s.kind * 32 + p.kind * 16 + n.val := by omega
    unfold Addr.toBytes Addr.fromBytes
    simp only [he, h5]
    rw [h1, h3, h4, List.take_left' (Cred.hash_length p), List.drop_left' (Cred.hash_length p), readCred_hash]
    have h6 : decide (s.kind % 2 = 1) = decide (s.kind = 1) := by
      rw [Nat.mod_eq_of_lt (by omega)]
    rw [h6, readCred_hash]
    have : s.kind = 0 ∨ s.kind = 1 := by omega
    rcases this with hk | hk <;> simp only [hk] at h2 ⊢ <;>
    · congr 2
      exact Fin.ext h2
  | pointer n p slot tx cert =>
    obtain ⟨h1, h2, h3, h4, h5⟩ := head_facts 2 (by omega) p.kind (Cred.kind_le p) n.val n.isLt
    unfold Addr.toBytes Addr.fromBytes
    simp only [show 64 + p.kind * 16 + n.val = 2 * 32 + p.kind * 16 + n.val by omega, h5, h1, h3,
      List.take_left' (Cred.hash_length p), List.drop_left' (Cred.hash_length p), readCred_hash, readPointer_write, word_val]
    congr 2
    exact Fin.ext h2
  | enterprise n p =>
    obtain ⟨h1, h2, h3, h4, h5⟩ := head_facts 3 (by omega) p.kind (Cred.kind_le p) n.val n.isLt
    unfold Addr.toBytes Addr.fromBytes
    simp only [show 96 + p.kind * 16 + n.val = 3 * 32 + p.kind * 16 + n.val by omega, h5, h1, h3, readCred_hash, Option.map_some]
    congr 2
    exact Fin.ext h2
  | reward n p =>
    obtain ⟨h1, h2, h3, h4, h5⟩ := head_facts 7 (by omega) p.kind (Cred.kind_le p) n.val n.isLt
    unfold Addr.toBytes Addr.fromBytes
    simp only [show 224 + p.kind * 16 + n.val = 7 * 32 + p.kind * 16 + n.val by omega, h5, h1, h3, readCred_hash, Option.map_some]
    congr 2
    exact Fin.ext h2

theorem prefix_cases (a : Addr) : a.prefix = "addr".toList ∨ a.prefix = "addr_test".toList ∨ a.prefix = "stake".toList ∨
    a.prefix = "stake_test".toList := by
  unfold Addr.prefix
  split <;> split <;> simp

/-! ## C88 -/

/-- Every address can be written, and is read back as it was. -/
theorem C88_round_trip (a : Addr) : ∃ t, a.toText = some t ∧ Addr.fromText t = some a := by
  have hok : ∃ t, a.toText = some t := by
    unfold Addr.toText Bech32.encode
    rcases prefix_cases a with h | h | h | h <;> rw [h] <;> exact ⟨_, rfl⟩
  obtain ⟨t, ht⟩ := hok
  refine ⟨t, ht, ?_⟩
  unfold Addr.fromText
  rw [Bech32.decode_encode ht]
  simp only [Bech32.fromBase32_toBase32]
  exact fromBytes_toBytes a

/-- Different addresses have different texts. -/
theorem C88_injective (a b : Addr) (h : a.toText = b.toText) : a = b := by
  obtain ⟨t, h1, h2⟩ := C88_round_trip a
  obtain ⟨t', h3, h4⟩ := C88_round_trip b
  rw [h1, h3] at h
  cases h
  rw [h2] at h4
  exact Option.some.inj h4

theorem mapM_append_some {f : Char → Option (Fin 32)} {a b : List Char} {vs : List (Fin 32)} (h : (a ++ b).mapM f = some vs) :
    ∃ us ws, a.mapM f = some us ∧ b.mapM f = some ws ∧ vs = us ++ ws := by
  rw [List.mapM_append] at h
  cases h1 : a.mapM f with
  | none => rw [h1] at h; cases h
  | some us =>
    cases h2 : b.mapM f with
    | none => rw [h1, h2] at h; cases h
    | some ws =>
      rw [h1, h2] at h
      exact ⟨us, ws, rfl, rfl, (Option.some.inj h).symm⟩

theorem mapM_some_length {f : Char → Option (Fin 32)} : ∀ {a : List Char} {us : List (Fin 32)}, a.mapM f = some us →
    us.length = a.length
  | [], us, h => by cases h; rfl
  | c :: a, us, h => by
    rw [List.mapM_cons] at h
    cases h1 : f c with
    | none => rw [h1] at h; cases h
    | some v =>
      cases h2 : a.mapM f with
      | none => rw [h1, h2] at h; cases h
      | some vs =>
        rw [h1, h2] at h
        rw [← Option.some.inj h]
        show vs.length + 1 = _
        rw [mapM_some_length h2]; rfl

theorem value_lower {c d : Char} {v : Fin 32} (hc : Bech32.value c = some v) (hd : Bech32.value d = some v) :
    Bech32.lower c = Bech32.lower d := by
  unfold Bech32.value at hc hd
  split at hc
  · rename_i h1
    split at hd
    · rename_i h2
      have e1 := congrArg Fin.val (Option.some.inj hc)
      have e2 := congrArg Fin.val (Option.some.inj hd)
      exact (List.idxOf_inj h1).mp (e1.trans e2.symm)
    · cases hd
  · cases hc

theorem mapM_lower : ∀ {a b : List Char} {us : List (Fin 32)}, a.mapM Bech32.value = some us → b.mapM Bech32.value = some us →
    a.map Bech32.lower = b.map Bech32.lower
  | [], [], _, _, _ => rfl
  | [], d :: b, us, h, h' => by
    have := mapM_some_length h
    have := mapM_some_length h'
    simp_all
  | c :: a, [], us, h, h' => by
    have := mapM_some_length h
    have := mapM_some_length h'
    simp_all
  | c :: a, d :: b, us, h, h' => by
    obtain ⟨u1, u2, h1, h2, rfl⟩ := mapM_append_some (a := [c]) h
    obtain ⟨w1, w2, h3, h4, he⟩ := mapM_append_some (a := [d]) h'
    have l1 := mapM_some_length h1
    have l3 := mapM_some_length h3
    obtain ⟨rfl, rfl⟩ := List.append_inj he (by rw [l1, l3]; rfl)
    rw [List.map_cons, List.map_cons, mapM_lower h2 h4]
    congr 1
    match u1, l1, h1, h3 with
    | [v], _, h1, h3 =>
      have k : ∀ {e : Char}, [e].mapM Bech32.value = some [v] → Bech32.value e = some v := by
        intro e he
        rw [List.mapM_cons] at he
        cases hv : Bech32.value e with
        | none => rw [hv] at he; cases he
        | some x => rw [hv] at he; cases he; rfl
      exact value_lower (k h1) (k h3)

/-- A text that is read has a valid checksum. -/
theorem decode_parts {p d : List Char} (h1 : ∀ c ∈ d, c ≠ '1') {r : List Char × List (Fin 32)}
    (h : Bech32.decode (p ++ '1' :: d) = some r) : ∃ vs, d.mapM Bech32.value = some vs ∧
      Bech32.polymod (p.map Bech32.lower) vs = 1#32 ∧ r = (p.map Bech32.lower, vs.take (vs.length - 6)) := by
  unfold Bech32.decode at h
  rw [Bech32.splitLast_append _ _ h1] at h
  simp only at h
  split at h
  · cases hm : d.mapM Bech32.value with
    | none => rw [hm] at h; cases h
    | some vs =>
      rw [hm] at h
      simp only at h
      split at h
      · exact ⟨vs, rfl, by assumption, (Option.some.inj h).symm⟩
      · cases h
  · cases h

/-- A mistake in up to six neighbouring characters after the prefix is noticed: if both texts are read, they are the same but for
the case of letters. (The mistake does not introduce a separator.) -/
theorem C88_mistake (p x w w' y : List Char) (a b : Addr) (hl : w.length = w'.length) (h6 : w.length ≤ 6)
    (h1 : ∀ c ∈ x ++ w ++ w' ++ y, c ≠ '1') (ha : Addr.fromText (p ++ '1' :: (x ++ w ++ y)) = some a)
    (hb : Addr.fromText (p ++ '1' :: (x ++ w' ++ y)) = some b) :
    w.map Bech32.lower = w'.map Bech32.lower ∧ a = b := by
  unfold Addr.fromText at ha hb
  cases hd : Bech32.decode (p ++ '1' :: (x ++ w ++ y)) with
  | none => rw [hd] at ha; cases ha
  | some r =>
    cases hd' : Bech32.decode (p ++ '1' :: (x ++ w' ++ y)) with
    | none => rw [hd'] at hb; cases hb
    | some r' =>
      rw [hd] at ha
      rw [hd'] at hb
      obtain ⟨vs, k1, k2, rfl⟩ := decode_parts (fun c hc => h1 c (by
        simp only [List.mem_append] at hc ⊢; tauto)) hd
      obtain ⟨vs', k1', k2', rfl⟩ := decode_parts (fun c hc => h1 c (by
        simp only [List.mem_append] at hc ⊢; tauto)) hd'
      obtain ⟨xw, ys, m1, m2, rfl⟩ := mapM_append_some k1
      obtain ⟨xs, ws, m3, m4, rfl⟩ := mapM_append_some m1
      obtain ⟨xw', ys', m1', m2', rfl⟩ := mapM_append_some k1'
      obtain ⟨xs', ws', m3', m4', rfl⟩ := mapM_append_some m1'
      rw [m2] at m2'
      rw [m3] at m3'
      cases m2'
      cases m3'
      have l1 := mapM_some_length m4
      have l2 := mapM_some_length m4'
      have := Bech32.window_eq (by omega) (by omega) k2 k2'
      subst this
      refine ⟨mapM_lower m4 m4', ?_⟩
      simp only at ha hb
      rw [ha] at hb
      exact Option.some.inj hb

/-- The prefix says nothing about what is read: a text with any other prefix is accepted. -/
theorem C88_prefix_false : ¬ ∀ (t : List Char) (a : Addr), Addr.fromText t = some a → (a.prefix ++ ['1']) <+: t := by
  intro h
  obtain ⟨t, ht⟩ : ∃ t, Bech32.encode "addr".toList (Bech32.toBase32 (Addr.enterprise 0 (.key ⟨List.replicate 28 5, rfl⟩)).toBytes) =
      some t := ⟨_, rfl⟩
  have hr : Addr.fromText t = some (Addr.enterprise 0 (.key ⟨List.replicate 28 5, rfl⟩)) := by
    unfold Addr.fromText
    rw [Bech32.decode_encode ht]
    simp only [Bech32.fromBase32_toBase32]
    exact fromBytes_toBytes _
  have hp := h t _ hr
  have h5 : t.take 5 = "addr1".toList := by
    unfold Bech32.encode at ht
    split at ht
    · cases ht; rfl
    · cases ht
  have := List.prefix_iff_eq_take.mp hp
  have h6 := congrArg (List.take 5) this
  rw [List.take_take, show min 5 (List.length _) = 5 from rfl, h5] at h6
  revert h6
  decide

/-- The address codec of outputs and inputs, with any codec for the rest. -/
def addressCodecs {E : Type} (showExtra : E → Option (List Char)) (readExtra : List Char → Option E) (noExtra : E) : Codecs Addr E :=
  ⟨Addr.toText, Addr.fromText, showExtra, readExtra, noExtra⟩

theorem readCred_some {s : Bool} {h : Bytes} {p : Cred} (e : readCred s h = some p) :
    p.hash = h ∧ h.length = 28 ∧ p.kind = if s then 1 else 0 := by
  unfold readCred at e
  split at e
  · rename_i hl
    cases s <;> (rw [← Option.some.inj e]; exact ⟨rfl, hl, rfl⟩)
  · cases e

theorem first_byte : ∀ x : UInt8,
    (x.toNat / 32 = 0 ∨ x.toNat / 32 = 1 →
      UInt8.ofNat ((if x.toNat.testBit 4 then 1 else 0) * 16 + (if x.toNat.testBit 5 then 1 else 0) * 32 + x.toNat % 16) = x) ∧
    (x.toNat / 32 = 2 → UInt8.ofNat (64 + (if x.toNat.testBit 4 then 1 else 0) * 16 + x.toNat % 16) = x) ∧
    (x.toNat / 32 = 3 → UInt8.ofNat (96 + (if x.toNat.testBit 4 then 1 else 0) * 16 + x.toNat % 16) = x) ∧
    (x.toNat / 32 = 7 → UInt8.ofNat (224 + (if x.toNat.testBit 4 then 1 else 0) * 16 + x.toNat % 16) = x) := by
  have h : ∀ n : Fin 256, (fun x : UInt8 =>
    (x.toNat / 32 = 0 ∨ x.toNat / 32 = 1 →
      UInt8.ofNat ((if x.toNat.testBit 4 then 1 else 0) * 16 + (if x.toNat.testBit 5 then 1 else 0) * 32 + x.toNat % 16) = x) ∧
    (x.toNat / 32 = 2 → UInt8.ofNat (64 + (if x.toNat.testBit 4 then 1 else 0) * 16 + x.toNat % 16) = x) ∧
    (x.toNat / 32 = 3 → UInt8.ofNat (96 + (if x.toNat.testBit 4 then 1 else 0) * 16 + x.toNat % 16) = x) ∧
    (x.toNat / 32 = 7 → UInt8.ofNat (224 + (if x.toNat.testBit 4 then 1 else 0) * 16 + x.toNat % 16) = x)) (UInt8.ofNat n.val) := by
    decide +kernel
  intro x
  have := h ⟨x.toNat, x.toNat_lt⟩
  simpa only [UInt8.ofNat_toNat] using this

theorem readNat_append {acc : Nat} {b c rest : Bytes} {n : Nat} (h : readNat acc b = some (n, rest)) :
    readNat acc (b ++ c) = some (n, rest ++ c) := by
  induction b generalizing acc with
  | nil => simp [readNat] at h
  | cons x b ih =>
    simp only [readNat, List.cons_append] at h ⊢
    split at h
    · cases h
    · rename_i h1
      rw [if_neg h1]
      split at h
      · rename_i h2
        rw [if_pos h2]
        cases h; rfl
      · rename_i h2
        rw [if_neg h2]
        exact ih h

theorem readPointer_append {b c : Bytes} {x : Nat × Nat × Nat} (h : readPointer b = some x) (hc : c ≠ []) :
    readPointer (b ++ c) = none := by
  unfold readPointer at h ⊢
  cases e1 : readNat 0 b with
  | none => rw [e1] at h; cases h
  | some y1 =>
    obtain ⟨s, b1⟩ := y1
    rw [e1] at h
    simp only [readNat_append e1] at h ⊢
    cases e2 : readNat 0 b1 with
    | none => rw [e2] at h; cases h
    | some y2 =>
      obtain ⟨t, b2⟩ := y2
      rw [e2] at h
      simp only [readNat_append e2] at h ⊢
      cases e3 : readNat 0 b2 with
      | none => rw [e3] at h; cases h
      | some y3 =>
        obtain ⟨u, b3⟩ := y3
        rw [e3] at h
        simp only [readNat_append e3] at h ⊢
        cases b3 with
        | cons a l => cases h
        | nil =>
          cases c with
          | nil => exact absurd rfl hc
          | cons a l => rfl

/-- Only the bytes of an address are read as a base, enterprise or reward address. -/
theorem C88_bytes (b : Bytes) (a : Addr) (h : Addr.fromBytes b = some a)
    (hp : ∀ n p slot tx cert, a ≠ .pointer n p slot tx cert) : a.toBytes = b := by
  cases b with
  | nil => cases h
  | cons x rest =>
    obtain ⟨f1, _, f3, f4⟩ := first_byte x
    unfold Addr.fromBytes at h
    simp only at h
    have base : x.toNat / 32 = 0 ∨ x.toNat / 32 = 1 →
        (match readCred (x.toNat.testBit 4) (rest.take 28), readCred (x.toNat.testBit 5) (rest.drop 28) with
          | some p, some s => some (Addr.base ⟨x.toNat % 16, Nat.mod_lt _ (by decide)⟩ p s)
          | _, _ => none) = some a → a.toBytes = x :: rest := by
      intro hx h
      split at h
      · rename_i p s e1 e2
        obtain ⟨p1, _, p3⟩ := readCred_some e1
        obtain ⟨s1, _, s3⟩ := readCred_some e2
        rw [← Option.some.inj h]
        simp only [Addr.toBytes, p1, s1, p3, s3, List.take_append_drop, f1 hx]
      · cases h
    split at h
    · rename_i e; exact base (.inl e) h
    · rename_i e; exact base (.inr e) h
    · split at h
      · exact absurd (Option.some.inj h).symm (hp _ _ _ _ _)
      · cases h
    · rename_i e
      obtain ⟨p, e1, rfl⟩ := Option.map_eq_some_iff.1 h
      obtain ⟨p1, _, p3⟩ := readCred_some e1
      simp only [Addr.toBytes, p1, p3, f3 e]
    · rename_i e
      obtain ⟨p, e1, rfl⟩ := Option.map_eq_some_iff.1 h
      obtain ⟨p1, _, p3⟩ := readCred_some e1
      simp only [Addr.toBytes, p1, p3, f4 e]
    · cases h

theorem readCred_long {s : Bool} {h c : Bytes} (hl : h.length = 28) (hc : c ≠ []) : readCred s (h ++ c) = none := by
  unfold readCred
  rw [dif_neg]
  have : c.length ≠ 0 := fun e => hc (List.length_eq_zero_iff.1 e)
  simp only [List.length_append]
  omega

/-- An address of any kind ends where its bytes end: with more bytes after it, it is rejected. -/
theorem C88_whole (b c : Bytes) (a : Addr) (h : Addr.fromBytes b = some a) (hc : c ≠ []) :
    Addr.fromBytes (b ++ c) = none := by
  cases b with
  | nil => cases h
  | cons x rest =>
    unfold Addr.fromBytes at h
    simp only at h
    rw [List.cons_append]
    unfold Addr.fromBytes
    simp only
    split at h
    · rename_i e
      split at h
      · rename_i p s e1 e2
        have h1 := (readCred_some e1).2.1
        have h2 := (readCred_some e2).2.1
        have hlen : 28 ≤ rest.length := by rw [List.length_take] at h1; omega
        rw [List.take_append_of_le_length hlen, e1, List.drop_append_of_le_length hlen, readCred_long h2 hc]
      · cases h
    · rename_i e
      split at h
      · rename_i p s e1 e2
        have h1 := (readCred_some e1).2.1
        have h2 := (readCred_some e2).2.1
        have hlen : 28 ≤ rest.length := by rw [List.length_take] at h1; omega
        rw [List.take_append_of_le_length hlen, e1, List.drop_append_of_le_length hlen, readCred_long h2 hc]
      · cases h
    · rename_i e
      split at h
      · rename_i p slot tx cert e1 e2
        have h1 := (readCred_some e1).2.1
        have hlen : 28 ≤ rest.length := by rw [List.length_take] at h1; omega
        rw [List.take_append_of_le_length hlen, e1, List.drop_append_of_le_length hlen, readPointer_append e2 hc]
      · cases h
    · obtain ⟨p, e1, _⟩ := Option.map_eq_some_iff.1 h
      rw [readCred_long (readCred_some e1).2.1 hc]; rfl
    · obtain ⟨p, e1, _⟩ := Option.map_eq_some_iff.1 h
      rw [readCred_long (readCred_some e1).2.1 hc]; rfl
    · rfl

/-- Not so for pointers: the numbers may be written with zeros before them, so different bytes are read as the same pointer. -/
theorem C88_pointer_bytes_false : ¬ ∀ (b : Bytes) (a : Addr), Addr.fromBytes b = some a → a.toBytes = b := by
  intro h
  have := h (64 :: (List.replicate 28 5 ++ [128, 1, 2, 3])) (.pointer 0 (.key ⟨List.replicate 28 5, rfl⟩) 1 2 3) (by decide +kernel)
  revert this
  decide +kernel

example : Addr.fromBytes (97 :: List.replicate 28 5) = some (.enterprise 1 (.key ⟨List.replicate 28 5, rfl⟩)) ∧
    Addr.fromBytes (64 :: (List.replicate 28 5 ++ [1, 2, 3])) = some (.pointer 0 (.key ⟨List.replicate 28 5, rfl⟩) 1 2 3) ∧
    Addr.fromBytes (64 :: (List.replicate 28 5 ++ [1, 2, 3]) ++ [0]) = none := by decide +kernel

/-- With these addresses an output goes through the conversions of C54 unchanged; of the codecs only that for script reference and
datum is assumed. -/
theorem C88_output {E : Type} (showExtra : E → Option (List Char)) (readExtra : List Char → Option E) (noExtra : E)
    (hextra : ∀ e t, showExtra e = some t → readExtra t = some e) (lib : Lib) (h20 : ∀ b, (lib.hash b).length = 20)
    (hname : ∀ n, lib.nameBytes n = n) (order order' : AMap (List Char) TxAsset → AMap (List Char) TxAsset)
    (horder : ∀ m, (order m).Perm m) (horder' : ∀ m, (order' m).Perm m) (o : LedgerOutput Addr E) (hw : o.amount.WF)
    (hc : NoCollision lib o.amount) (b : UtxoBuilder) (hb : fromOutput lib (addressCodecs showExtra readExtra noExtra) order o = .ok b) :
    o.address.toText = some b.address ∧
    ∃ o', toOutput lib (addressCodecs showExtra readExtra noExtra) order' b = .ok o' ∧ o'.address = o.address ∧ o'.extra = o.extra ∧
      o'.amount.coin = o.amount.coin ∧ ∀ p n, o'.amount.quantity p n = o.amount.quantity p n := by
  refine ⟨?_, C54_output_round_trip_partial lib h20 hname (addressCodecs showExtra readExtra noExtra) ⟨?_, hextra⟩ order order' horder
    horder' o hw hc b hb⟩
  · unfold fromOutput at hb
    split at hb
    · cases hb
    · split at hb
      · cases hb
      · rename_i ha
        split at hb
        · cases hb
        · cases hb; exact ha
  · intro a t h
    obtain ⟨t', h1, h2⟩ := C88_round_trip a
    have h : a.toText = some t := h
    rw [h1] at h
    cases h
    exact h2

/-- A case: the address of the documentation (CIP-19), written and read. -/
example : ((Addr.fromText "addr1qx2fxv2umyhttkxyxp8x0dlpdt3k6cwng5pxj3jhsydzer3n0d3vllmyqwsx5wktcd8cc3sq835lu7drv2xwl2wywfgse35a3x".toList).bind
    Addr.toText) = some "addr1qx2fxv2umyhttkxyxp8x0dlpdt3k6cwng5pxj3jhsydzer3n0d3vllmyqwsx5wktcd8cc3sq835lu7drv2xwl2wywfgse35a3x".toList := by
  decide +kernel

/-- Where a pointer address points to. -/
def pointsTo : Addr → List Nat
  | .pointer _ _ slot tx cert => [slot.val, tx.val, cert.val]
  | _ => []

/-- The pointer address of that documentation: it points to certificate 3 of transaction 27 in slot 2498243. -/
example : (Addr.fromText "addr1gx2fxv2umyhttkxyxp8x0dlpdt3k6cwng5pxj3jhsydzer5pnz75xxcrzqf96k".toList).map pointsTo =
      some [2498243, 27, 3] ∧
    ((Addr.fromText "addr1gx2fxv2umyhttkxyxp8x0dlpdt3k6cwng5pxj3jhsydzer5pnz75xxcrzqf96k".toList).bind Addr.toText) =
      some "addr1gx2fxv2umyhttkxyxp8x0dlpdt3k6cwng5pxj3jhsydzer5pnz75xxcrzqf96k".toList := by
  constructor <;> decide +kernel

/-- With two neighbouring characters exchanged it is not read. -/
example : Addr.fromText "addr1qx2fxv2umyhttkxyxp8x0dlpdt3k6cwng5pxj3jhsydzer3n0d3vllmyqwsx5wktcd8cc3sq835lu7drv2xwl2wywfgse35ax3".toList = none := by
  decide +kernel

/-! ## C89 -/

open FirstAddress

theorem read_net {network : List Char} {net : Net} (h : Net.read network = some net) :
    network = "mainnet".toList ∧ net = .mainnet ∨ network = "testnet".toList ∧ net = .testnet := by
  unfold Net.read at h
  split at h
  · cases h; exact .inl ⟨by assumption, rfl⟩
  · split at h
    · cases h; exact .inr ⟨by assumption, rfl⟩
    · cases h

theorem address_some {w : World} {key : List Char} {net : Net} {a : Addr} (h : address w key net = some a) :
    ∃ pk spend stake, SpellsHex key pk ∧ pk.length = 64 ∧ (∃ k, w.derive pk 0 = some k ∧ w.derive k 0 = some spend) ∧
      (∃ k, w.derive pk 2 = some k ∧ w.derive k 0 = some stake) ∧
      a = .base net.number (.key (w.keyHash spend)) (.key (w.keyHash stake)) := by
  unfold address at h
  cases hk : hexDecode key with
  | none => rw [hk] at h; cases h
  | some pk =>
    rw [hk] at h
    simp only at h
    split at h
    · cases h
    · rename_i hl
      split at h
      · rename_i stake spend h2 h1
        cases h
        exact ⟨pk, spend, stake, (hexDecode_iff _ _).mp hk, by simpa using hl, by simpa [World.path, Option.bind_eq_some_iff] using h1,
          by simpa [World.path, Option.bind_eq_some_iff] using h2, rfl⟩
      · cases h

/-- A run that prints something has a network and an address. -/
theorem run_cases (w : World) (key network : List Char) : run w key network = ⟨[], [], .error⟩ ∨
    ∃ net a t, Net.read network = some net ∧ address w key net = some a ∧ a.toText = some t ∧
      run w key network = askLatest w net t := by
  unfold run
  cases h1 : Net.read network with
  | none => exact .inl rfl
  | some net =>
    simp only
    cases h2 : address w key net with
    | none => exact .inl rfl
    | some a =>
      simp only
      obtain ⟨t, h3, _⟩ := C88_round_trip a
      rw [h3]
      exact .inr ⟨net, a, t, rfl, h2, h3, rfl⟩

/-- All runs after the address has been printed. -/
theorem ask_cases (w : World) (net : Net) (t : List Char) :
    (askLatest w net t = ⟨[.checking t], [.latest net], .error⟩ ∧
      ∀ ok body, w.backend (.latest net) = .answer ok (some body) → w.readLatest body = none) ∨
    ∃ ok body block, w.backend (.latest net) = .answer ok (some body) ∧ w.readLatest body = some block ∧
      ((askLatest w net t = ⟨[.checking t], [.latest net, .used net [t] block], .error⟩ ∧
          (w.backend (.used net [t] block) = .unsent ∨ (∃ b, w.backend (.used net [t] block) = .answer false b) ∨
            ∃ b, w.backend (.used net [t] block) = .answer true (some b) ∧ w.readUsed b = none)) ∨
        (askLatest w net t = ⟨[.checking t], [.latest net, .used net [t] block], .panic⟩ ∧
          w.backend (.used net [t] block) = .answer true none) ∨
        ∃ b l, w.backend (.used net [t] block) = .answer true (some b) ∧ w.readUsed b = some l ∧
          askLatest w net t = ⟨[.checking t, if l.isEmpty then .unused else .used], [.latest net, .used net [t] block], .done⟩) := by
  unfold askLatest
  cases h1 : w.backend (.latest net) with
  | unsent => exact .inl ⟨rfl, by intro _ _ h; cases h⟩
  | answer ok body =>
    simp only
    cases body with
    | none => exact .inl ⟨rfl, by intro _ _ h; cases h⟩
    | some b0 =>
      simp only [Option.bind_some]
      cases h2 : w.readLatest b0 with
      | none => exact .inl ⟨rfl, by intro _ _ h; cases h; exact h2⟩
      | some block =>
        refine .inr ⟨ok, b0, block, rfl, h2, ?_⟩
        simp only
        unfold askUsed
        cases h3 : w.backend (.used net [t] block) with
        | unsent => exact .inl ⟨rfl, .inl rfl⟩
        | answer success body =>
          cases success with
          | false => exact .inl ⟨rfl, .inr (.inl ⟨body, rfl⟩)⟩
          | true =>
            cases body with
            | none => exact .inr (.inl ⟨rfl, rfl⟩)
            | some b =>
              simp only [Bool.not_true, Bool.false_eq_true, if_false]
              cases h4 : w.readUsed b with
              | none => exact .inl ⟨rfl, .inr (.inr ⟨b, rfl, h4⟩)⟩
              | some l => exact .inr (.inr ⟨b, l, rfl, h4, rfl⟩)

theorem ask_lines (w : World) (net : Net) (t : List Char) : ∃ rest asked ends,
    askLatest w net t = ⟨.checking t :: rest, .latest net :: asked, ends⟩ ∧ (∀ l ∈ rest, l = .used ∨ l = .unused) ∧
    ∀ q ∈ asked, ∃ block, q = .used net [t] block := by
  rcases ask_cases w net t with ⟨h, _⟩ | ⟨_, _, block, _, _, ⟨h, _⟩ | ⟨h, _⟩ | ⟨b, l, _, _, h⟩⟩
  · exact ⟨[], [], _, h, by simp, by simp⟩
  · exact ⟨[], _, _, h, by simp, by simp⟩
  · exact ⟨[], _, _, h, by simp, by simp⟩
  · refine ⟨_, _, _, h, ?_, by simp⟩
    intro x hx
    rw [List.mem_singleton.mp hx]
    split
    · exact .inr rfl
    · exact .inl rfl

/-- The tool prints at most one address, first. It is the address of the network named, with the hashes of the keys at the paths
0/0 (payment) and 2/0 (stake) under the 64 bytes of the key given; it can be read back, and its prefix is that of the network.
Every request goes to that network and names no other address. -/
theorem C89_address (w : World) (key network t : List Char) (h : Line.checking t ∈ (run w key network).lines) :
    ∃ net pk spend stake, (network = "mainnet".toList ∧ net = Net.mainnet ∨ network = "testnet".toList ∧ net = Net.testnet) ∧
      SpellsHex key pk ∧ pk.length = 64 ∧ (∃ k, w.derive pk 0 = some k ∧ w.derive k 0 = some spend) ∧
      (∃ k, w.derive pk 2 = some k ∧ w.derive k 0 = some stake) ∧
      Addr.fromText t = some (.base net.number (.key (w.keyHash spend)) (.key (w.keyHash stake))) ∧
      (∃ rest, (run w key network).lines = .checking t :: rest ∧ ∀ l ∈ rest, l = .used ∨ l = .unused) ∧
      (if net = Net.mainnet then "addr1".toList else "addr_test1".toList) <+: t ∧
      ∀ q ∈ (run w key network).asked, q = .latest net ∨ ∃ block, q = .used net [t] block := by
  rcases run_cases w key network with hr | ⟨net, a, t', h1, h2, h3, hr⟩
  · rw [hr] at h; cases h
  · obtain ⟨rest, asked, ends, ha, hl, hq⟩ := ask_lines w net t'
    rw [ha] at hr
    rw [hr] at h ⊢
    have ht : t = t' := by
      rcases List.mem_cons.mp h with h | h
      · cases h; rfl
      · rcases hl _ h with h | h <;> cases h
    subst ht
    obtain ⟨pk, spend, stake, k1, k2, k3, k4, rfl⟩ := address_some h2
    refine ⟨net, pk, spend, stake, read_net h1, k1, k2, k3, k4, ?_, ⟨rest, rfl, hl⟩, ?_, ?_⟩
    · obtain ⟨t'', h4, h5⟩ := C88_round_trip (.base net.number (.key (w.keyHash spend)) (.key (w.keyHash stake)))
      rw [h3] at h4
      cases h4
      exact h5
    · unfold Addr.toText Bech32.encode at h3
      split at h3
      · rw [← Option.some.inj h3]
        cases net with
        | mainnet => exact ⟨_, rfl⟩
        | testnet => exact ⟨_, rfl⟩
      · cases h3
    · intro q hq'
      rcases List.mem_cons.mp hq' with rfl | hq'
      · exact .inl rfl
      · exact .inr (hq q hq')

/-- "used" or "unused" is printed exactly when the backend of the network has named its latest block and answered, successfully,
with a list of addresses for this address and block; it is "unused" if that list is empty. Then the tool ends well, and only
then. -/
theorem C89_verdict (w : World) (key network t : List Char) (h : Line.checking t ∈ (run w key network).lines) (used : Bool) :
    ((if used then Line.used else Line.unused) ∈ (run w key network).lines ↔
      ∃ net ok b block b' l, Net.read network = some net ∧ w.backend (.latest net) = .answer ok (some b) ∧
        w.readLatest b = some block ∧ w.backend (.used net [t] block) = .answer true (some b') ∧
        w.readUsed b' = some l ∧ (used = true ↔ l ≠ [])) ∧
    ((run w key network).ends = .done ↔ Line.used ∈ (run w key network).lines ∨ Line.unused ∈ (run w key network).lines) := by
  rcases run_cases w key network with hr | ⟨net, a, t', h1, h2, h3, hr⟩
  · rw [hr] at h; cases h
  · have ht : t = t' := by
      obtain ⟨rest, asked, ends, ha, hl, hq⟩ := ask_lines w net t'
      rw [hr, ha] at h
      rcases List.mem_cons.mp h with h | h
      · cases h; rfl
      · rcases hl _ h with h | h <;> cases h
    subst ht
    rw [hr]
    have hne : ∀ b : Bool, (if b then Line.used else Line.unused) ≠ .checking t := by
      intro b; cases b <;> simp
    rcases ask_cases w net t with ⟨h', hn⟩ | ⟨ok, body, block, hb, hl, ⟨h', hn⟩ | ⟨h', hn⟩ | ⟨b, l, hn, hu, h'⟩⟩
    · rw [h']
      refine ⟨⟨fun hm => absurd (List.mem_singleton.mp hm) (hne used), ?_⟩, by simp⟩
      rintro ⟨net', ok, b, block, b', l, k1, k2, k3, _⟩
      rw [h1] at k1; cases k1
      rw [hn ok b k2] at k3; cases k3
    · rw [h']
      refine ⟨⟨fun hm => absurd (List.mem_singleton.mp hm) (hne used), ?_⟩, by simp⟩
      rintro ⟨net', ok', b, block', b', l, k1, k2, k3, k4, k5, _⟩
      rw [h1] at k1; cases k1
      rw [hb] at k2; cases k2
      rw [hl] at k3; cases k3
      rcases hn with hn | ⟨_, hn⟩ | ⟨_, hn, hn'⟩
      · rw [hn] at k4; cases k4
      · rw [hn] at k4; cases k4
      · rw [hn] at k4; cases k4
        rw [hn'] at k5; cases k5
    · rw [h']
      refine ⟨⟨fun hm => absurd (List.mem_singleton.mp hm) (hne used), ?_⟩, by simp⟩
      rintro ⟨net', ok', b, block', b', l, k1, k2, k3, k4, k5, _⟩
      rw [h1] at k1; cases k1
      rw [hb] at k2; cases k2
      rw [hl] at k3; cases k3
      rw [hn] at k4; cases k4
    · rw [h']
      refine ⟨⟨fun hm => ⟨net, ok, body, block, b, l, h1, hb, hl, hn, hu, ?_⟩, ?_⟩, ?_⟩
      · rcases List.mem_cons.mp hm with hm | hm
        · exact absurd hm (hne used)
        · have hm := List.mem_singleton.mp hm
          cases l <;> cases used <;> simp_all
      · rintro ⟨net', ok', b'', block', b', l', k1, k2, k3, k4, k5, k6⟩
        rw [h1] at k1; cases k1
        rw [hb] at k2; cases k2
        rw [hl] at k3; cases k3
        rw [hn] at k4; cases k4
        rw [hu] at k5; cases k5
        cases l <;> cases used <;> simp_all
      · cases l <;> simp

/-- Two keys with the same printed address agree in both hashes. -/
theorem C89_distinct (w : World) (key key' network network' t : List Char) (h : Line.checking t ∈ (run w key network).lines)
    (h' : Line.checking t ∈ (run w key' network').lines) :
    network = network' ∧ ∃ pk pk' k1 k2 k1' k2', SpellsHex key pk ∧ SpellsHex key' pk' ∧
      w.path pk 0 0 = some k1 ∧ w.path pk 2 0 = some k2 ∧ w.path pk' 0 0 = some k1' ∧ w.path pk' 2 0 = some k2' ∧
      w.keyHash k1 = w.keyHash k1' ∧ w.keyHash k2 = w.keyHash k2' := by
  obtain ⟨net, pk, k1, k2, a1, a2, a3, a4, a5, a6, _⟩ := C89_address w key network t h
  obtain ⟨net', pk', k1', k2', b1, b2, b3, b4, b5, b6, _⟩ := C89_address w key' network' t h'
  rw [a6] at b6
  simp only [Option.some.injEq, Addr.base.injEq, Cred.key.injEq] at b6
  obtain ⟨e1, e2, e3⟩ := b6
  refine ⟨?_, pk, pk', k1, k2, k1', k2', a2, b2, by simpa [World.path, Option.bind_eq_some_iff] using a4,
    by simpa [World.path, Option.bind_eq_some_iff] using a5, by simpa [World.path, Option.bind_eq_some_iff] using b4,
    by simpa [World.path, Option.bind_eq_some_iff] using b5, e2, e3⟩
  rcases a1 with ⟨rfl, rfl⟩ | ⟨rfl, rfl⟩ <;> rcases b1 with ⟨rfl, rfl⟩ | ⟨rfl, rfl⟩
  · rfl
  · cases e1
  · cases e1
  · rfl

/-- The tool panics only when the body of the second, successful answer cannot be read to its end. Missing for "it ends with a
verdict or an error": this case. -/
theorem C89_no_panic_partial (w : World) (key network : List Char) (h : (run w key network).ends = .panic) :
    ∃ net t block, w.backend (.used net [t] block) = .answer true none := by
  rcases run_cases w key network with hr | ⟨net, a, t, h1, h2, h3, hr⟩
  · rw [hr] at h; cases h
  · rw [hr] at h
    rcases ask_cases w net t with ⟨h', hn⟩ | ⟨ok, body, block, hb, hl, ⟨h', hn⟩ | ⟨h', hn⟩ | ⟨b, l, hn, hu, h'⟩⟩
    · rw [h'] at h; cases h
    · rw [h'] at h; cases h
    · exact ⟨net, t, block, hn⟩
    · rw [h'] at h; cases h

/-- A backend that answers, with any key. -/
def sampleWorld (body : Option (List Char)) : World :=
  { derive := fun pk i => some (UInt8.ofNat i :: pk)
    keyHash := fun k => ⟨List.replicate 28 (k.headD 0 + 2 * k.tail.headD 0), by simp⟩
    backend := fun q => match q with
      | .latest _ => .answer true (some "L".toList)
      | .used _ _ _ => .answer true body
    readLatest := fun b => if b = "L".toList then some "B".toList else none
    readUsed := fun b => if b = "[]".toList then some [] else some [b] }

def sampleKey : List Char := List.replicate 128 '0'

/-- The case meets the hypotheses: an address is printed and found unused. -/
example : ∃ t, (run (sampleWorld (some "[]".toList)) sampleKey "mainnet".toList).lines = [.checking t, .unused] :=
  ⟨_, rfl⟩

theorem C89_panic_false : ¬ ∀ (w : World) (key network : List Char), (run w key network).ends ≠ .panic := by
  intro h
  exact h (sampleWorld none) sampleKey "mainnet".toList (by decide +kernel)

end Verif.Props
