import Verif.Multiverse.Model
import Mathlib.Tactic.Common
import Mathlib.Order.Basic

/-!
# Chains of blocks

The vocabulary for statements about sources: `B` gives the block with a given identifier.
-/

namespace Verif.Sources

open Verif.Multiverse

/-- The `j`-th ancestor. -/
def anc (B : Key → Block) : Nat → Key → Key
  | 0, k => k
  | j + 1, k => anc B j (B k).parent

/-- The chain of `h` ancestors and the block, oldest first. -/
def path (B : Key → Block) : Nat → Key → List Key
  | 0, k => [k]
  | h + 1, k => path B h (B k).parent ++ [k]

/-- What an inner source may deliver (newest first): blocks of `B`, parents before children, with
consecutive numbers, and starting with `r`, the parent of which is not delivered. Blocks may be delivered
again. -/
structure Feed (B : Key → Block) (r : Key) (D : List Block) : Prop where
  ok : ∀ v ∈ D, v = B v.id ∧ v.number < 2 ^ 64
  rootParent : ∀ v ∈ D, v.id ≠ (B r).parent
  order : ∀ l1 v l2, D = l1 ++ v :: l2 →
    v.id = r ∨ ∃ u ∈ l2, u.id = v.parent ∧ v.number = u.number + 1

/-- The delivered blocks agree up to `d` blocks below their ends: forks are at most `d` blocks long. -/
def CommonPrefix (B : Key → Block) (d : Nat) (r : Key) (D : List Block) : Prop :=
  ∀ x ∈ D, ∀ y ∈ D, ∀ i j, d ≤ i → d ≤ j → (B r).number + i ≤ x.number → x.number + j = y.number + i →
    anc B i x.id = anc B j y.id

variable {B : Key → Block} {d : Nat} {r : Key} {D : List Block}

theorem anc_add : ∀ (i j : Nat) (k : Key), anc B (i + j) k = anc B j (anc B i k)
  | 0, j, k => by rw [Nat.zero_add]; rfl
  | i + 1, j, k => by
    rw [Nat.add_right_comm]
    exact anc_add i j _

theorem anc_succ (j : Nat) (k : Key) : anc B (j + 1) k = (B (anc B j k)).parent := by
  rw [anc_add]
  rfl

theorem path_length : ∀ (h : Nat) (k : Key), (path B h k).length = h + 1
  | 0, _ => rfl
  | h + 1, k => by simp [path, path_length h]

/-- The chain without its last `d` blocks. -/
theorem path_take : ∀ (d h : Nat) (k : Key), d ≤ h → (path B h k).take (h + 1 - d) = path B (h - d) (anc B d k)
  | 0, h, k, _ => by
    rw [Nat.sub_zero, List.take_of_length_le (by rw [path_length])]
    rfl
  | d + 1, 0, k, hd => by omega
  | d + 1, h + 1, k, hd => by
    have ih := path_take d h (B k).parent (by omega)
    rw [path, List.take_append_of_le_length (by rw [path_length]; omega)]
    have e1 : h + 1 + 1 - (d + 1) = h + 1 - d := by omega
    have e2 : h + 1 - (d + 1) = h - d := by omega
    rw [e1, e2, ih]
    rfl

theorem path_last (h : Nat) (k : Key) : (path B h k).getLast? = some k := by
  cases h <;> simp [path]

theorem Feed.tail {v : Block} (h : Feed B r (v :: D)) : Feed B r D where
  ok w hw := h.ok w (List.mem_cons_of_mem _ hw)
  rootParent w hw := h.rootParent w (List.mem_cons_of_mem _ hw)
  order l1 w l2 he := h.order (v :: l1) w l2 (by rw [he]; rfl)

theorem Feed.append : ∀ {l : List Block}, Feed B r (l ++ D) → Feed B r D
  | [], h => h
  | _ :: _, h => Feed.append (Feed.tail h)

theorem Feed.cases (h : Feed B r D) {v : Block} (hv : v ∈ D) :
    v.id = r ∨ ∃ u ∈ D, u.id = v.parent ∧ v.number = u.number + 1 := by
  obtain ⟨l1, l2, he⟩ := List.append_of_mem hv
  rcases h.order l1 v l2 he with h1 | ⟨u, h1, h2⟩
  · exact .inl h1
  · exact .inr ⟨u, by rw [he]; simp [h1], h2⟩

theorem Feed.same (h : Feed B r D) {u v : Block} (hu : u ∈ D) (hv : v ∈ D) (he : u.id = v.id) : u = v := by
  rw [(h.ok u hu).1, (h.ok v hv).1, he]

theorem Feed.ge : ∀ {D : List Block}, Feed B r D → ∀ {v : Block}, v ∈ D → (B r).number ≤ v.number
  | a :: D, h, v, hv => by
    rcases List.mem_cons.1 hv with rfl | hv
    · rcases h.order [] v D rfl with h1 | ⟨u, h1, _, h2⟩
      · rw [(h.ok v (by simp)).1, h1]
      · have := Feed.ge h.tail h1
        omega
    · exact Feed.ge h.tail hv

theorem Feed.root (h : Feed B r D) {v : Block} (hv : v ∈ D) (he : v.number = (B r).number) : v.id = r := by
  rcases h.cases hv with h1 | ⟨u, h1, _, h2⟩
  · exact h1
  · have := h.ge h1
    omega

theorem Feed.number_root (h : Feed B r D) {v : Block} (hv : v ∈ D) (he : v.id = r) :
    v.number = (B r).number := by
  rw [(h.ok v hv).1, he]

/-- Ancestors down to the first block are delivered. -/
theorem Feed.anc (h : Feed B r D) : ∀ (j : Nat) {v : Block}, v ∈ D → (B r).number + j ≤ v.number →
    ∃ u ∈ D, u.id = anc B j v.id ∧ u.number + j = v.number
  | 0, v, hv, _ => ⟨v, hv, rfl, rfl⟩
  | j + 1, v, hv, hj => by
    rcases h.cases hv with h1 | ⟨u, h1, h2, h3⟩
    · have := h.number_root hv h1
      omega
    · obtain ⟨w, h4, h5, h6⟩ := Feed.anc h j h1 (by omega)
      refine ⟨w, h4, ?_, by omega⟩
      rw [h5, h2, Sources.anc, ← (h.ok v hv).1]

theorem Feed.root_mem (h : Feed B r D) (hne : D ≠ []) : ∃ u ∈ D, u.id = r := by
  obtain ⟨v, hv⟩ := List.exists_mem_of_ne_nil D hne
  have := h.ge hv
  obtain ⟨u, h1, _, h3⟩ := h.anc (v.number - (B r).number) hv (by omega)
  exact ⟨u, h1, h.root h1 (by omega)⟩

/-- A delivered block of maximal number. -/
theorem exists_top : ∀ {D : List Block}, D ≠ [] → ∃ x ∈ D, ∀ y ∈ D, y.number ≤ x.number
  | [v], _ => ⟨v, by simp⟩
  | v :: w :: D, _ => by
    obtain ⟨x, h1, h2⟩ := exists_top (D := w :: D) (by simp)
    by_cases h : x.number ≤ v.number
    · exact ⟨v, by simp, fun y hy => by
        rcases List.mem_cons.1 hy with rfl | hy
        · exact le_refl _
        · exact le_trans (h2 y hy) h⟩
    · exact ⟨x, List.mem_cons_of_mem _ h1, fun y hy => by
        rcases List.mem_cons.1 hy with rfl | hy
        · omega
        · exact h2 y hy⟩

/-- What should be confirmed: the ancestor at depth `d` of a delivered block of maximal number. -/
def Conf (B : Key → Block) (d : Nat) (r : Key) (D : List Block) (c : Option Key) : Prop :=
  (D = [] → c = none) ∧ ∀ x ∈ D, (∀ y ∈ D, y.number ≤ x.number) →
    c = if (B r).number + d ≤ x.number then some (Sources.anc B d x.id) else none

theorem Conf.unique {c c' : Option Key} (h : Conf B d r D c) (h' : Conf B d r D c') : c = c' := by
  by_cases hD : D = []
  · rw [h.1 hD, h'.1 hD]
  · obtain ⟨x, h1, h2⟩ := exists_top hD
    rw [h.2 x h1 h2, h'.2 x h1 h2]

/-- The chain up to the confirmed block. -/
def pathTo (B : Key → Block) (r : Key) : Option Key → List Key
  | none => []
  | some c => path B ((B c).number - (B r).number) c

/-- The confirmed block is delivered. -/
theorem Conf.mem {c : Key} (hf : Feed B r D) (h : Conf B d r D (some c)) :
    ∃ u ∈ D, u.id = c ∧ ∃ x ∈ D, (∀ y ∈ D, y.number ≤ x.number) ∧ u.number + d = x.number ∧
      c = Sources.anc B d x.id := by
  have hD : D ≠ [] := by
    intro hD
    have := h.1 hD
    cases this
  obtain ⟨x, h1, h2⟩ := exists_top hD
  have h3 := h.2 x h1 h2
  split at h3
  · rename_i hle
    obtain ⟨u, h4, h5, h6⟩ := hf.anc d h1 hle
    have h7 := Option.some.inj h3
    exact ⟨u, h4, by rw [h5, h7], x, h1, h2, h6, h7⟩
  · cases h3

/-- With one more block the confirmed block stays or is followed by its child. -/
theorem Conf.step {v : Block} {c c' : Option Key} (hf : Feed B r (v :: D)) (hcp : CommonPrefix B d r (v :: D))
    (h : Conf B d r D c) (h' : Conf B d r (v :: D) c') :
    c' = c ∨ ∃ k, c' = some k ∧ c ≠ some k ∧ pathTo B r c' = pathTo B r c ++ [k] := by
  cases c' with
  | none =>
    cases c with
    | none => exact .inl rfl
    | some k =>
      exfalso
      obtain ⟨u, hu, _, x, hx, hmax, hn, _⟩ := Conf.mem hf.tail h
      have hge := hf.tail.ge hu
      obtain ⟨y, hy, hymax⟩ := exists_top (D := v :: D) (by simp)
      have h1 := h'.2 y hy hymax
      have h2 := hymax x (List.mem_cons_of_mem _ hx)
      rw [if_pos (by omega)] at h1
      cases h1
  | some k =>
    obtain ⟨u, hu, huk, x, hx, hmax, hn, hk⟩ := Conf.mem hf h'
    have hge := hf.ge hu
    have hBk : B k = u := by rw [← huk]; exact (hf.ok u hu).1.symm
    have hpx : pathTo B r (some k) = path B (u.number - (B r).number) k := by
      simp only [pathTo, hBk]
    -- the new maximum is at most one more than the old one
    by_cases hD : D = []
    · subst hD
      rcases hf.order [] v [] rfl with h1 | ⟨w, h1, _⟩
      · simp only [List.mem_singleton] at hx hu
        subst hx
        subst hu
        have h2 := h.1 rfl
        have := hf.number_root (v := u) (by simp) h1
        subst h2
        refine .inr ⟨k, rfl, by simp, ?_⟩
        rw [hpx, this, Nat.sub_self]
        rfl
      · cases h1
    · obtain ⟨x0, hx0, hmax0⟩ := exists_top hD
      have hle : x.number ≤ x0.number + 1 := by
        rcases List.mem_cons.1 hx with rfl | hx
        · rcases hf.order [] x D rfl with h1 | ⟨w, h1, _, h2⟩
          · have h3 := hf.number_root (v := x) (by simp) h1
            have h4 := hf.tail.ge hx0
            omega
          · have := hmax0 w h1
            omega
        · have := hmax0 x hx
          omega
      have hge0 := hmax x0 (List.mem_cons_of_mem _ hx0)
      have h1 := h.2 x0 hx0 hmax0
      by_cases hc : (B r).number + d ≤ x0.number
      · rw [if_pos hc] at h1
        by_cases he : x.number = x0.number
        · left
          rw [h1, hk]
          congr 1
          exact hcp x hx x0 (List.mem_cons_of_mem _ hx0) d d le_rfl le_rfl (by omega) (by omega)
        · right
          have hxe : x.number = x0.number + 1 := by omega
          have h2 : Sources.anc B (d + 1) x.id = Sources.anc B d x0.id :=
            hcp x hx x0 (List.mem_cons_of_mem _ hx0) (d + 1) d (by omega) le_rfl (by omega) (by omega)
          obtain ⟨u0, hu0, hu1, hu2⟩ := hf.tail.anc d hx0 hc
          have hBu0 : B u0.id = u0 := (hf.tail.ok u0 hu0).1.symm
          have hpar : (B k).parent = u0.id := by rw [hu1, ← h2, hk, anc_succ]
          have hne : c ≠ some k := by
            rw [h1, ← hu1]
            intro hh
            have h3 := Option.some.inj hh
            rw [h3, hBk] at hBu0
            rw [hBu0] at hn
            omega
          refine ⟨k, rfl, hne, ?_⟩
          have e : u.number - (B r).number = (u0.number - (B r).number) + 1 := by
            have := hf.tail.ge hu0
            omega
          rw [hpx, h1, ← hu1, e, path, hpar]
          simp only [pathTo, hBu0]
      · rw [if_neg hc] at h1
        right
        refine ⟨k, rfl, by rw [h1]; simp, ?_⟩
        have e : u.number - (B r).number = 0 := by omega
        rw [hpx, h1, e]
        rfl

end Verif.Sources
