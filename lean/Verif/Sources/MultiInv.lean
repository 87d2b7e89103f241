import Verif.Sources.MultiLemmas
import Verif.Sources.Chain

/-!
# Invariants of the multiverse source
-/

namespace Verif.Sources

open Verif.Multiverse

variable {B : Key → Block} {d : Nat} {r : Key} {D : List Block} {S : Tree} {m : MV}

/-- What the multiverse of a source stores of the delivered blocks: all from the parents of the confirmed
ones on, and linked from the confirmed ones on. -/
structure Inv (B : Key → Block) (d : Nat) (r : Key) (D : List Block) (S : Tree) : Prop where
  sub : ∀ k, (S k).isSome → ∃ v ∈ D, v.id = k
  keep : ∀ v ∈ D, (∀ x ∈ D, x.number ≤ v.number + d + 1) → (S v.id).isSome
  link : ∀ v ∈ D, v.id ≠ r → (∀ x ∈ D, x.number ≤ v.number + d) → ∃ b, S v.id = some b ∧ b.linked = true

theorem Inv.nil (B : Key → Block) (d : Nat) (r : Key) : Inv B d r [] (fun _ => none) where
  sub := by simp
  keep := by simp
  link := by simp

/-- A delivered block that is stored changes nothing. -/
theorem Inv.again {v : Block} (h : Inv B d r D S) (hf : Feed B r (v :: D)) (hv : (S v.id).isSome) :
    Inv B d r (v :: D) S ∧ v ∈ D := by
  obtain ⟨w, hw, he⟩ := h.sub _ hv
  have hwv : w = v := hf.same (List.mem_cons_of_mem _ hw) (by simp) he
  subst hwv
  have key : ∀ {Q : Block → Prop}, (∀ x ∈ w :: D, Q x) → ∀ x ∈ D, Q x :=
    fun hq x hx => hq x (List.mem_cons_of_mem _ hx)
  refine ⟨⟨fun k hk => ?_, fun x hx hq => ?_, fun x hx h1 hq => ?_⟩, hw⟩
  · obtain ⟨x, hx, h1⟩ := h.sub k hk
    exact ⟨x, List.mem_cons_of_mem _ hx, h1⟩
  · rcases List.mem_cons.1 hx with rfl | hx
    · exact hv
    · exact h.keep x hx (key hq)
  · rcases List.mem_cons.1 hx with rfl | hx
    · exact h.link x hw h1 (key hq)
    · exact h.link x hx h1 (key hq)

theorem Conf.again {v : Block} {c : Option Key} (h : Conf B d r D c) (hv : v ∈ D) : Conf B d r (v :: D) c := by
  refine ⟨by simp, fun x hx hm => ?_⟩
  have hx' : x ∈ D := by
    rcases List.mem_cons.1 hx with rfl | hx
    · exact hv
    · exact hx
  exact h.2 x hx' (fun y hy => hm y (List.mem_cons_of_mem _ hy))

/-- A new block. -/
theorem Inv.insert {v : Block} (h : Inv B d r D S) (hf : Feed B r (v :: D)) (hv : S v.id = none) (sf : Nat) :
    Inv B d r (v :: D) (specInsert sf S v) := by
  have hS : specInsert sf S v =
      fun k => if k = v.id then some ⟨(S v.parent).isSome, decide (sf ≤ v.number)⟩ else S k := by
    unfold specInsert
    rw [if_neg (by simp [hv])]
  have hkey : ∀ x ∈ v :: D, x.id = v.id → x = v := fun x hx he => hf.same hx (by simp) he
  have hin : ∀ x ∈ v :: D, x ≠ v → x ∈ D := by
    intro x hx hne
    rcases List.mem_cons.1 hx with rfl | hx
    · exact absurd rfl hne
    · exact hx
  rw [hS]
  refine ⟨fun k hk => ?_, fun x hx hq => ?_, fun x hx h1 hq => ?_⟩
  · split at hk
    · rename_i he
      exact ⟨v, by simp, he.symm⟩
    · obtain ⟨x, hx, h1⟩ := h.sub k hk
      exact ⟨x, List.mem_cons_of_mem _ hx, h1⟩
  · by_cases he : x.id = v.id
    · simp [he]
    · simp only [if_neg he]
      exact h.keep x (hin x hx (fun hh => he (by rw [hh]))) (fun y hy => hq y (List.mem_cons_of_mem _ hy))
  · by_cases he : x.id = v.id
    · obtain rfl := hkey x hx he
      rw [if_pos rfl]
      refine ⟨_, rfl, ?_⟩
      rcases hf.order [] x D rfl with h2 | ⟨u, h2, h3, h4⟩
      · exact absurd h2 h1
      · simp only
        rw [← h3]
        exact h.keep u h2 (fun y hy => by
          have := hq y (List.mem_cons_of_mem _ hy)
          omega)
    · simp only [if_neg he]
      exact h.link x (hin x hx (fun hh => he (by rw [hh]))) h1 (fun y hy => hq y (List.mem_cons_of_mem _ hy))

/-- The ancestor over links of the highest blocks. -/
theorem Inv.ancestor (h : Inv B d r D S) (hf : Feed B r D) (hr : Rel B m S) {x : Block} (hx : x ∈ D)
    (hm : ∀ y ∈ D, y.number ≤ x.number) : ∀ (j : Nat) (u : Block), u ∈ D → x.number + j ≤ u.number + d →
    specAncestor B S j u.id = if (B r).number + j ≤ u.number then some (anc B j u.id) else none
  | 0, u, hu, _ => by
    rw [if_pos (by have := hf.ge hu; omega)]
    rfl
  | j + 1, u, hu, hj => by
    rw [specAncestor]
    by_cases hur : u.id = r
    · have hn := hf.number_root hu hur
      rw [if_neg (c := (B r).number + (j + 1) ≤ u.number) (by omega), if_neg]
      intro hl
      cases hS : S u.id with
      | none => rw [hS] at hl; cases hl
      | some b =>
        rw [hS] at hl
        have h1 := hr.parent_linked hS (by simpa using hl)
        obtain ⟨w, hw, he⟩ := h.sub _ h1
        rw [hur] at he
        exact hf.rootParent w hw he
    · obtain ⟨b, h1, h2⟩ := h.link u hu hur (fun y hy => by
        have := hm y hy
        omega)
      rcases hf.cases hu with h3 | ⟨w, h3, h4, h5⟩
      · exact absurd h3 hur
      · rw [if_pos (by rw [h1]; simpa using h2)]
        have hBu : B u.id = u := (hf.ok u hu).1.symm
        rw [hBu, ← h4, Inv.ancestor h hf hr hx hm j w h3 (by omega), anc, hBu, ← h4]
        by_cases hle : (B r).number + j ≤ w.number
        · rw [if_pos hle, if_pos (by omega)]
        · rw [if_neg hle, if_neg (by omega)]

/-- The selected block is the one that should be confirmed. -/
theorem Inv.conf (h : Inv B d r D S) (hf : Feed B r D) (hcp : CommonPrefix B d r D) (hr : Rel B m S)
    {top : Key} {sel : Option Key} (h1 : (S top).isSome)
    (h2 : ∀ k, (S k).isSome → (B k).number ≤ (B top).number) (h3 : sel = specAncestor B S d top) :
    Conf B d r D sel := by
  obtain ⟨t, ht, rfl⟩ := h.sub _ h1
  have hBt : B t.id = t := (hf.ok t ht).1.symm
  rw [hBt] at h2
  have hmax : ∀ y ∈ D, y.number ≤ t.number := by
    obtain ⟨x, hx, hm⟩ := exists_top (List.ne_nil_of_mem ht)
    have h4 := h2 x.id (h.keep x hx (fun y hy => by
      have := hm y hy
      omega))
    rw [← (hf.ok x hx).1] at h4
    intro y hy
    exact le_trans (hm y hy) h4
  refine ⟨(fun hD => absurd hD (List.ne_nil_of_mem ht)), fun x hx hm => ?_⟩
  have he : x.number = t.number := le_antisymm (hmax x hx) (hm t ht)
  rw [h3, h.ancestor hf hr ht hmax d t ht le_rfl, he]
  split
  · rename_i hle
    congr 1
    exact hcp t ht x hx d d le_rfl le_rfl hle (by omega)
  · rfl

/-- Pruning of low blocks. -/
theorem Inv.dropLow (h : Inv B d r D S) (hf : Feed B r D) {R : List Key}
    (hnum : ∀ k ∈ R, ∃ x ∈ D, (B k).number + d + 1 < x.number) : Inv B d r D (specDrop B S R) := by
  have hout : ∀ v ∈ D, (∀ x ∈ D, x.number ≤ v.number + d + 1) → v.id ∉ R := by
    intro v hv hq hk
    obtain ⟨x, hx, h1⟩ := hnum _ hk
    rw [← (hf.ok v hv).1] at h1
    have := hq x hx
    omega
  refine ⟨fun k hk => ?_, fun v hv hq => ?_, fun v hv h1 hq => ?_⟩
  · rw [specDrop_apply] at hk
    split at hk
    · cases hk
    · split at hk
      · rw [Option.isSome_map] at hk
        exact h.sub k hk
      · exact h.sub k hk
  · rw [specDrop_apply, if_neg (hout v hv hq)]
    split
    · rw [Option.isSome_map]
      exact h.keep v hv hq
    · exact h.keep v hv hq
  · obtain ⟨b, h2, h3⟩ := h.link v hv h1 hq
    refine ⟨b, ?_, h3⟩
    rw [specDrop_apply, if_neg (hout v hv (fun x hx => by have := hq x hx; omega)), if_neg]
    · exact h2
    · rcases hf.cases hv with h4 | ⟨u, h4, h5, h6⟩
      · exact absurd h4 h1
      · rw [← (hf.ok v hv).1, ← h5]
        exact hout u h4 (fun x hx => by have := hq x hx; omega)

/-- Pruning below the parent of the confirmed block. -/
theorem Inv.drop (h : Inv B d r D S) (hf : Feed B r D) {c : Option Key} (hc : Conf B d r D c) {R : List Key}
    (hR : ∀ k ∈ R, ∃ c', c = some c' ∧ (B k).number < (B c').number - 1) :
    Inv B d r D (specDrop B S R) := by
  refine h.dropLow hf (fun k hk => ?_)
  obtain ⟨c', h1, h2⟩ := hR k hk
  subst h1
  obtain ⟨u, hu, hu1, x, hx, _, hn, _⟩ := Conf.mem hf hc
  rw [← hu1, ← (hf.ok u hu).1] at h2
  exact ⟨x, hx, by omega⟩

/-- Reading the database again. -/
theorem Inv.reopen (h : Inv B d r D S) (hf : Feed B r D) (hr : Rel B m S) (hsf : m.storeFrom = 0) :
    Inv B d r D (specReopen B S) := by
  have hsv : ∀ k, isSaved S k = (S k).isSome := by
    intro k
    cases hS : S k with
    | none => simp [isSaved, hS]
    | some b =>
      have : b.saved = true := by
        cases hb : b.saved with
        | true => rfl
        | false =>
          have := hr.unsaved k b hS hb
          omega
      simp [isSaved, hS, this]
  have hiff : ∀ k, (specReopen B S k).isSome = (S k).isSome := by
    intro k
    unfold specReopen
    rw [hsv]
    split
    · rename_i hk
      rw [hk]
      rfl
    · rename_i hk
      simp only [Option.isSome_none]
      exact (by simpa using hk : (S k).isSome = false).symm
  refine ⟨fun k hk => h.sub k (by rw [← hiff]; exact hk), fun v hv hq => by rw [hiff]; exact h.keep v hv hq,
    fun v hv h1 hq => ?_⟩
  rcases hf.cases hv with h2 | ⟨u, h2, h3, h4⟩
  · exact absurd h2 h1
  · have hst := h.keep v hv (fun x hx => by have := hq x hx; omega)
    have hsu := h.keep u h2 (fun x hx => by have := hq x hx; omega)
    have hBv : B v.id = v := (hf.ok v hv).1.symm
    have hBu : B u.id = u := (hf.ok u h2).1.symm
    refine ⟨⟨isSaved S (B v.id).parent && decide (Before (B (B v.id).parent) (B v.id)), true⟩, ?_, ?_⟩
    · unfold specReopen
      rw [if_pos (by rw [hsv]; exact hst)]
    · simp only [Bool.and_eq_true, decide_eq_true_eq, hBv, ← h3, hBu, hsv]
      exact ⟨hsu, .inl (by omega)⟩

end Verif.Sources
