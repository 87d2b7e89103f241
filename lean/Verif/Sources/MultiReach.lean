import Verif.Sources.MultiWorld

/-!
# Reachable states of the multiverse source, whatever is delivered
-/

namespace Verif.Sources

open Verif.Multiverse

variable {P : Type} [DecidableEq P] {B : Key → Block} {d : Nat} {nf : Block → Option P}

/-- The inner source delivers blocks of `B` with 64-bit numbers, in any order. -/
def Honest (B : Key → Block) (resp : List P → Except Unit (Option Ev)) : Prop :=
  ∀ ps v, blockOf (resp ps) = some v → v = B v.id ∧ v.number < 2 ^ 64

/-- The states a source can come to: any pulls at any positions, and restarts. -/
inductive SrcReach (B : Key → Block) (nf : Block → Option P) (d : Nat) : MSrc → Prop where
  | start (sf : Nat) : SrcReach B nf d ⟨MV.empty [] sf, d, none⟩
  | pull {s : MSrc} {o : Orders} {from' : Option P} {resp : List P → Except Unit (Option Ev)}
      (h : SrcReach B nf d s) (ho : o.Ok) (hr : Honest B resp) : SrcReach B nf d (s.pull nf o from' resp).src
  | restart {s s' : MSrc} {o : Orders} (h : SrcReach B nf d s) (ho : o.Ok)
      (hs : reopenSrc s.mv s.depth o = .ok s') : SrcReach B nf d s'

/-- The multiverse is in order and the confirmed block is stored. -/
def Good (B : Key → Block) (d : Nat) (s : MSrc) (S : Tree) : Prop :=
  Rel B s.mv S ∧ s.depth = d ∧ ∀ c, s.confirmed = some c → (S c).isSome

/-- What happens to a new block. -/
theorem store_spec {s : MSrc} {S : Tree} (h : Good B d s S) {o : Orders} (ho : o.Ok) {v : Block}
    (hv : v = B v.id ∧ v.number < 2 ^ 64) :
    ∃ S', Good B d (s.store o v).2 S' ∧
      ((s.store o v).1 = .ok none ∨ ∃ c top, (s.store o v).1 = .ok (some (.block (B c))) ∧ (B c).id = c ∧
        (s.store o v).2.confirmed = some c ∧ s.confirmed ≠ some c ∧ (S' top).isSome ∧
        (∀ k, (S' k).isSome → (B k).number ≤ (B top).number) ∧
        specAncestor B (specInsert s.mv.storeFrom S v) d top = some c) := by
  obtain ⟨hrel, hd, hc⟩ := h
  obtain ⟨sel, R, m', h1, h2, h3, h4⟩ := insertAndGc_spec hrel hv.1 hv.2 ho s.depth
  rw [hd] at h4
  have hin : ∀ k, (S k).isSome → (specInsert s.mv.storeFrom S v k).isSome := by
    intro k hk
    unfold specInsert
    split
    · exact hk
    · simp only
      split
      · rfl
      · exact hk
  have hkeep : ∀ k, (specInsert s.mv.storeFrom S v k).isSome → k ∉ R →
      (specDrop B (specInsert s.mv.storeFrom S v) R k).isSome := by
    intro k hk hR
    rw [specDrop_apply, if_neg hR]
    split
    · rw [Option.isSome_map]
      exact hk
    · exact hk
  have hsub : ∀ k, (specDrop B (specInsert s.mv.storeFrom S v) R k).isSome →
      (specInsert s.mv.storeFrom S v k).isSome := by
    intro k hk
    rw [specDrop_apply] at hk
    split at hk
    · cases hk
    · split at hk
      · rw [Option.isSome_map] at hk
        exact hk
      · exact hk
  have hsel : ∀ c, sel = some c → (specDrop B (specInsert s.mv.storeFrom S v) R c).isSome := by
    intro c hcs
    refine hkeep c (h4.stored c hcs) (fun hR => ?_)
    obtain ⟨_, c', h5, h6⟩ := (h4.discard c).1 hR
    rw [hcs] at h5
    obtain rfl := Option.some.inj h5
    omega
  refine ⟨specDrop B (specInsert s.mv.storeFrom S v) R, ?_⟩
  unfold MSrc.store
  rw [h1]
  simp only [MSrc.settle]
  cases hs : sel with
  | none =>
    refine ⟨⟨h2, hd, fun c hcc => hkeep c (hin c (hc c hcc)) (fun hR => ?_)⟩, .inl rfl⟩
    obtain ⟨_, c', h5, _⟩ := (h4.discard c).1 hR
    rw [hs] at h5
    cases h5
  | some c =>
    have hst := hsel c hs
    by_cases he : s.confirmed = some c
    · simp only [he, if_true]
      refine ⟨⟨h2, hd, fun c' hcc => ?_⟩, .inl trivial⟩
      rw [← Option.some.inj hcc]
      exact hst
    · have hg : m'.get c = some (B c) := by rw [h2.get, if_pos hst]
      simp only [he, if_false, hg]
      obtain ⟨top, h5, h6, h7⟩ := h4.top
      refine ⟨⟨h2, hd, fun c' hcc => ?_⟩, .inr ⟨c, top, rfl, h2.stored_id hst, rfl, he, ?_, ?_, ?_⟩⟩
      · rw [← Option.some.inj hcc]
        exact hst
      · refine hkeep top h5 (fun hR => ?_)
        obtain ⟨_, c', h8, h9⟩ := (h4.discard top).1 hR
        have := h6 c' (h4.stored c' h8)
        omega
      · exact fun k hk => h6 k (hsub k hk)
      · rw [← h7, hs]

theorem answer_good {s : MSrc} {S : Tree} (h : Good B d s S) {o : Orders} (ho : o.Ok)
    {x : Except Unit (Option Ev)} (hx : ∀ v, blockOf x = some v → v = B v.id ∧ v.number < 2 ^ 64) :
    ∃ S', Good B d (s.answer o x).2 S' := by
  cases x with
  | error e => exact ⟨S, h⟩
  | ok y =>
    cases y with
    | none => exact ⟨S, h⟩
    | some ev =>
      cases ev with
      | tip n => exact ⟨S, h⟩
      | block v =>
        simp only [MSrc.answer]
        split
        · exact ⟨S, h⟩
        · obtain ⟨S', h1, _⟩ := store_spec h ho (hx v rfl)
          exact ⟨S', h1⟩

theorem SrcReach.good {s : MSrc} (h : SrcReach B nf d s) : ∃ S, Good B d s S := by
  induction h with
  | start sf => exact ⟨fun _ => none, Rel.empty B sf, rfl, by simp⟩
  | @pull s o from' resp _ ho hr ih =>
    obtain ⟨S, hg⟩ := ih
    unfold MSrc.pull
    split
    · exact ⟨S, hg⟩
    · exact ⟨S, hg⟩
    · exact answer_good hg ho (fun v hv => hr _ v hv)
  | @restart s s' o _ ho hs ih =>
    obtain ⟨S, hg⟩ := ih
    obtain ⟨m', h1, h2, _⟩ := hg.1.reopen s.mv.storeFrom
    have hns : NoStale m' (fun _ => false) := fun _ _ _ _ _ _ hf => by cases hf
    obtain ⟨sel, disc, h4, h5, _⟩ := h2.selected hns ho.2.1 s.depth 0
    unfold reopenSrc at hs
    rw [h1] at hs
    simp only [MSrc.new, h4, Except.map] at hs
    rw [← Except.ok.inj hs]
    refine ⟨_, h2, hg.2.1, fun c hc => ?_⟩
    obtain ⟨x, hx, rfl⟩ := Option.map_eq_some_iff.1 hc
    exact h5 x hx

/-- An ancestor over links is an ancestor. -/
theorem specAncestor_anc {S : Tree} : ∀ (j : Nat) (k c : Key), specAncestor B S j k = some c → anc B j k = c
  | 0, k, c, h => Option.some.inj h
  | j + 1, k, c, h => by
    rw [specAncestor] at h
    split at h
    · exact specAncestor_anc j _ c h
    · cases h

end Verif.Sources
