import Verif.Cardano.Multisig
import Verif.Props.Cardano
import Mathlib.Data.List.Sublists
import Mathlib.Data.List.Dedup

/-!
# Multisig plans (C62)
-/

namespace Verif.Props

open Verif Verif.Cardano

theorem countSatisfied_map (signed : Bytes → Bool) : ∀ keys : List Bytes,
    NativeScript.countSatisfied signed (keys.map .pubkey) = keys.countP signed
  | [] => rfl
  | k :: keys => by
    rw [List.map_cons, NativeScript.countSatisfied, countSatisfied_map signed keys, NativeScript.satisfied,
      List.countP_cons, Nat.add_comm]

/-- A plan is read exactly if the quorum is a 32-bit number and every key is 56 hexadecimal digits, and
the keys are the bytes they spell. -/
theorem C62_read (quorum : Nat) (texts : List (List Char)) (p : MultisigPlan) :
    MultisigPlan.read quorum texts = some p ↔ quorum < 2 ^ 32 ∧ p.quorum = quorum ∧
      List.Forall₂ (fun s b => SpellsHex s b ∧ b.length = 28) texts p.keys := by
  have hk : ∀ s b, readKeyHash s = some b ↔ SpellsHex s b ∧ b.length = 28 := by
    intro s b
    unfold readKeyHash
    rw [← hexDecode_iff]
    cases hexDecode s with
    | none => simp
    | some b' =>
      simp only [Option.some.injEq]
      split
      · rename_i h
        simp only [Option.some.injEq]
        exact ⟨fun e => ⟨e, e ▸ h⟩, fun e => e.1⟩
      · rename_i h
        simp only [reduceCtorEq, false_iff, not_and]
        intro e; rwa [← e]
  have hm : ∀ (texts : List (List Char)) (ks : List Bytes), texts.mapM readKeyHash = some ks ↔
      List.Forall₂ (fun s b => SpellsHex s b ∧ b.length = 28) texts ks := by
    intro texts
    induction texts with
    | nil => intro ks; simp [eq_comm]
    | cons s l ih =>
      intro ks
      rw [List.mapM_cons]
      cases ks with
      | nil =>
        simp only [Option.pure_def, Option.bind_eq_bind, Option.bind_eq_some_iff]
        constructor
        · rintro ⟨_, _, _, _, h⟩; cases h
        · intro h; cases h
      | cons k ks =>
        simp only [Option.pure_def, Option.bind_eq_bind, Option.bind_eq_some_iff, Option.some.injEq, List.cons.injEq,
          List.forall₂_cons, ih, hk]
        constructor
        · rintro ⟨_, h1, _, h2, rfl, rfl⟩; exact ⟨h1, h2⟩
        · rintro ⟨h1, h2⟩; exact ⟨_, h1, _, h2, rfl, rfl⟩
  unfold MultisigPlan.read
  obtain ⟨q, ks⟩ := p
  split
  · rename_i hq
    cases h : texts.mapM readKeyHash with
    | none =>
      simp only [reduceCtorEq, false_iff, not_and]
      intro _ _ h'
      rw [← hm, h] at h'
      cases h'
    | some ks' =>
      simp only [Option.some.injEq, MultisigPlan.mk.injEq]
      rw [← hm, h, Option.some.injEq]
      constructor
      · rintro ⟨rfl, rfl⟩; exact ⟨hq, rfl, rfl⟩
      · rintro ⟨_, rfl, rfl⟩; exact ⟨rfl, rfl⟩
  · rename_i hq
    simp only [reduceCtorEq, false_iff, not_and]
    intro h; exact absurd h hq

/-- The script of a plan is one script, satisfied exactly if as many entries of the plan as the quorum says have
signed. -/
theorem C62_script (p : MultisigPlan) : ∃ s, p.toScript = [s] ∧
    ∀ signed : Bytes → Bool, s.satisfied signed = true ↔ p.quorum ≤ p.keys.countP signed := by
  refine ⟨_, rfl, ?_⟩
  intro signed
  rw [NativeScript.satisfied, countSatisfied_map]
  simp

/-- With different keys, a transaction can spend from the plan exactly if at least `quorum` different keys
of the plan signed it. -/
theorem C62_quorum_partial (p : MultisigPlan) (hd : p.keys.Nodup) (signers : List Bytes) :
    ∃ s, p.toScript = [s] ∧ (s.satisfied (fun k => decide (k ∈ signers)) = true ↔
      ∃ ks : List Bytes, ks.Nodup ∧ ks.length = p.quorum ∧ ∀ k ∈ ks, k ∈ p.keys ∧ k ∈ signers) := by
  obtain ⟨s, h1, h2⟩ := C62_script p
  refine ⟨s, h1, ?_⟩
  rw [h2, List.countP_eq_length_filter]
  constructor
  · intro h
    refine ⟨(p.keys.filter fun k => decide (k ∈ signers)).take p.quorum, ?_, ?_, ?_⟩
    · exact (List.take_sublist _ _).nodup (hd.filter _)
    · rw [List.length_take]; omega
    · intro k hk
      have := List.mem_of_mem_take hk
      rw [List.mem_filter] at this
      exact ⟨this.1, by simpa using this.2⟩
  · rintro ⟨ks, h3, h4, h5⟩
    rw [← h4]
    apply List.Subperm.length_le
    apply List.subperm_of_subset h3
    intro k hk
    rw [List.mem_filter]
    exact ⟨(h5 k hk).1, by simpa using (h5 k hk).2⟩

/-- A plan that lists a key twice is read, and its holder alone meets a quorum of two. -/
theorem C62_same_key_false : ∃ (texts : List (List Char)) (p : MultisigPlan) (s : NativeScript) (k : Bytes),
    MultisigPlan.read 2 texts = some p ∧ p.toScript = [s] ∧
    s.satisfied (fun k' => decide (k' ∈ [k])) = true := by
  refine ⟨[List.replicate 56 '1', List.replicate 56 '1', List.replicate 56 '2'],
    ⟨2, [List.replicate 28 0x11, List.replicate 28 0x11, List.replicate 28 0x22]⟩, _, List.replicate 28 0x11, ?_, rfl, ?_⟩
  · rfl
  · simp only [NativeScript.satisfied, countSatisfied_map]
    decide

/-- A plan asking for more signatures than it has keys is read; nothing can be spent from it. -/
theorem C62_locked_false : ∃ (texts : List (List Char)) (p : MultisigPlan) (s : NativeScript),
    MultisigPlan.read 2 texts = some p ∧ p.toScript = [s] ∧ ∀ signed, s.satisfied signed = false := by
  refine ⟨[List.replicate 56 '1'], ⟨2, [List.replicate 28 0x11]⟩, _, rfl, rfl, ?_⟩
  intro signed
  simp only [NativeScript.satisfied]
  rw [countSatisfied_map]
  simp only [decide_eq_false_iff_not, not_le]
  exact lt_of_le_of_lt List.countP_le_length (by decide)

/-! ### Addresses -/

theorem encodeAll_eq : ∀ l : List NativeScript, NativeScript.encodeAll l = l.map NativeScript.encode
  | [] => rfl
  | s :: l => by rw [NativeScript.encodeAll, encodeAll_eq l]; rfl

theorem keys_inj : ∀ (l l' : List Bytes) (r r' : Bytes), l.length = l'.length →
    (∀ k ∈ l, k.length < 2 ^ 64) → (∀ k ∈ l', k.length < 2 ^ 64) →
    ((l.map NativeScript.pubkey).map NativeScript.encode).flatten ++ r =
      ((l'.map NativeScript.pubkey).map NativeScript.encode).flatten ++ r' → l = l'
  | [], [], _, _, _, _, _, _ => rfl
  | [], _ :: _, _, _, h, _, _, _ => by cases h
  | _ :: _, [], _, _, h, _, _, _ => by cases h
  | k :: l, k' :: l', r, r', h, hl, hl', he => by
    simp only [List.map_cons, List.flatten_cons, NativeScript.encode, encArray, List.length_cons, List.length_nil,
      encUInt, List.flatten_nil, List.append_assoc, List.nil_append] at he
    obtain ⟨_, _, e1⟩ := head_inj (by omega) (by omega) (by omega) (by omega) he
    obtain ⟨_, _, e2⟩ := head_inj (by omega) (by omega) (by omega) (by omega) e1
    obtain ⟨rfl, e3⟩ := encBytes_inj (hl k (by simp)) (hl' k' (by simp)) e2
    rw [keys_inj l l' r r' (by simpa using h) (fun x hx => hl x (by simp [hx])) (fun x hx => hl' x (by simp [hx])) e3]

/-- Plans as `read` gives them, with at most `2^64` keys. -/
structure MultisigPlan.WF (p : MultisigPlan) : Prop where
  quorum : p.quorum < 2 ^ 32
  keys : ∀ k ∈ p.keys, k.length = 28
  count : p.keys.length < 2 ^ 64

theorem toScript_inj {p p' : MultisigPlan} (h : MultisigPlan.WF p) (h' : MultisigPlan.WF p') {s s' : NativeScript}
    (hs : p.toScript = [s]) (hs' : p'.toScript = [s']) (he : s.encode = s'.encode) : p = p' := by
  obtain ⟨q, ks⟩ := p
  obtain ⟨q', ks'⟩ := p'
  cases hs
  cases hs'
  have h1 := h.quorum
  have h1' := h'.quorum
  have hc := h.count
  have hc' := h'.count
  simp only [NativeScript.encode, encodeAll_eq, encArray, List.length_cons, List.length_nil, List.length_map,
    encUInt, List.flatten_cons, List.flatten_nil, List.append_nil] at he h1 h1' hc hc'
  obtain ⟨_, _, e1⟩ := head_inj (by omega) (by omega) (by omega) (by omega) he
  obtain ⟨_, _, e2⟩ := head_inj (by omega) (by omega) (by omega) (by omega) e1
  obtain ⟨_, rfl, e3⟩ := head_inj (by omega) (by omega) (by omega) (by omega) e2
  obtain ⟨_, e4, e5⟩ := head_inj (by omega) (by omega) (by omega) (by omega) e3
  rw [keys_inj ks ks' [] [] e4 (fun k hk => by rw [h.keys k hk]; omega) (fun k hk => by rw [h'.keys k hk]; omega)
    (by simpa using e5)]

/-- Different plans have different addresses: if two plans share an address, they are the same plan or the hash
function has a collision. The networks are the same up to 16. -/
theorem C62_address (hash28 : Bytes → Bytes) (p p' : MultisigPlan) (h : MultisigPlan.WF p) (h' : MultisigPlan.WF p')
    (net net' : UInt8) (he : p.address hash28 net = p'.address hash28 net') :
    net.toNat % 16 = net'.toNat % 16 ∧ (p = p' ∨ ∃ x y, x ≠ y ∧ hash28 x = hash28 y) := by
  unfold MultisigPlan.address at he
  simp only [List.cons.injEq] at he
  constructor
  · have key : ∀ n < 256, (0x70 ||| (UInt8.ofNat n &&& 0x0f)).toNat = 112 + n % 16 := by decide +kernel
    have h1 := key net.toNat net.toNat_lt
    have h2 := key net'.toNat net'.toNat_lt
    rw [UInt8.ofNat_toNat] at h1 h2
    rw [he.1, h2] at h1
    omega
  · by_cases hp : p = p'
    · exact .inl hp
    · refine .inr ⟨_, _, ?_, he.2⟩
      intro hh
      simp only [List.cons.injEq, true_and] at hh
      exact hp (toScript_inj h h' rfl rfl hh)

/-- The ledger lets a script spend from an address (CIP-19 and the ledger's rule for script hashes): the address has the
header of an enterprise address of a script, with the number of the network, and the hash of a zero byte, which stands for
native scripts, and the bytes of the script. -/
def LedgerScriptOf (hash28 : Bytes → Bytes) (network : Nat) (addr : Bytes) (s : NativeScript) : Prop :=
  addr = UInt8.ofNat (7 * 16 + network) :: hash28 ([0] ++ s.encode)

/-- The script of a plan is the one that spends from its address, on the network asked for; and it is the only one, or
the hash function has a collision. -/
theorem C62_spends (hash28 : Bytes → Bytes) (p : MultisigPlan) (net : UInt8) (hn : net.toNat < 16) (s : NativeScript)
    (hs : p.toScript = [s]) :
    LedgerScriptOf hash28 net.toNat (p.address hash28 net) s ∧
    ∀ s', LedgerScriptOf hash28 net.toNat (p.address hash28 net) s' →
      s'.encode = s.encode ∨ ∃ x y, x ≠ y ∧ hash28 x = hash28 y := by
  have key : ∀ n < 16, (0x70 ||| (UInt8.ofNat n &&& 0x0f)) = UInt8.ofNat (7 * 16 + n) := by decide +kernel
  have h1 := key net.toNat hn
  rw [UInt8.ofNat_toNat] at h1
  have h2 : LedgerScriptOf hash28 net.toNat (p.address hash28 net) s := by
    unfold LedgerScriptOf MultisigPlan.address MultisigPlan.hash
    rw [h1, hs]
    rfl
  refine ⟨h2, fun s' h3 => ?_⟩
  unfold LedgerScriptOf at h2 h3
  rw [h2] at h3
  simp only [List.cons.injEq, true_and] at h3
  by_cases he : s'.encode = s.encode
  · exact .inl he
  · refine .inr ⟨_, _, ?_, h3⟩
    intro hh
    simp only [List.append_cancel_left_eq] at hh
    exact he hh.symm

/-- The addresses of the networks 0 and 16 are the same. -/
theorem C62_network_false (hash28 : Bytes → Bytes) (p : MultisigPlan) :
    p.address hash28 0 = p.address hash28 16 := rfl

/-! ### Examples -/

/-- Two of three different keys, written in mixed case. -/
example : ∃ p, MultisigPlan.read 2 [List.replicate 56 'a', List.replicate 56 'B', List.replicate 56 '3'] = some p ∧
    p.keys.Nodup ∧ MultisigPlan.WF p := by
  refine ⟨⟨2, [List.replicate 28 0xaa, List.replicate 28 0xbb, List.replicate 28 0x33]⟩, rfl, by decide, ?_, ?_, ?_⟩
  · decide
  · decide
  · decide

/-- A shorter key is refused. -/
example : MultisigPlan.read 1 [List.replicate 54 'a'] = none := rfl

end Verif.Props
