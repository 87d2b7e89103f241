import Mathlib.Data.List.Nodup
import Mathlib.Data.List.Perm.Basic
import Mathlib.Tactic.Common

/-!
# Association lists

Hash maps of the Rust code (`std::collections::HashMap`, `imbl::HashMap`) as lists of key-value
pairs. The list order stands for the iteration order.
-/

namespace Verif

/-- A map as a list of pairs. -/
abbrev AMap (K V : Type) := List (K × V)

namespace AMap

variable {K V : Type} [DecidableEq K]

/-- Lookup. -/
def get : AMap K V → K → Option V
  | [], _ => none
  | (k', v) :: m, k => if k' = k then some v else get m k

/-- Insert, replacing the value of a present key; a new key goes last. -/
def insert : AMap K V → K → V → AMap K V
  | [], k, v => [(k, v)]
  | (k', v') :: m, k, v => if k' = k then (k, v) :: m else (k', v') :: insert m k v

/-- Remove a key. -/
def erase (m : AMap K V) (k : K) : AMap K V := m.filter (fun kv => kv.1 ≠ k)

/-- Membership of a key. -/
def contains (m : AMap K V) (k : K) : Bool := (m.get k).isSome

/-- The keys. -/
def keys (m : AMap K V) : List K := m.map (·.1)

theorem get_cons (k' : K) (v : V) (m : AMap K V) (k : K) :
    get ((k', v) :: m) k = if k' = k then some v else get m k := rfl

@[simp] theorem get_nil (k : K) : get ([] : AMap K V) k = none := rfl

theorem get_insert (m : AMap K V) (k k' : K) (v : V) :
    (m.insert k v).get k' = if k = k' then some v else m.get k' := by
  induction m with
  | nil => simp [insert, get]
  | cons kv m ih =>
    obtain ⟨a, b⟩ := kv
    simp only [insert]
    by_cases h : a = k
    · subst h
      by_cases h2 : a = k' <;> simp [get, h2]
    · simp only [if_neg h, get, ih]
      by_cases h2 : k = k'
      · subst h2; simp [h]
      · simp [h2]

theorem get_erase (m : AMap K V) (k k' : K) :
    (m.erase k).get k' = if k = k' then none else m.get k' := by
  induction m with
  | nil => simp [erase, get]
  | cons kv m ih =>
    obtain ⟨a, b⟩ := kv
    unfold erase at *
    by_cases h : a = k
    · subst h
      rw [List.filter_cons_of_neg (by simp), ih]
      by_cases h2 : a = k' <;> simp [get, h2]
    · rw [List.filter_cons_of_pos (by simpa using h)]
      simp only [get, ih]
      by_cases h2 : k = k'
      · subst h2; simp [h]
      · simp [h2]

theorem get_eq_none_iff (m : AMap K V) (k : K) : m.get k = none ↔ k ∉ m.keys := by
  induction m with
  | nil => simp [keys]
  | cons kv m ih =>
    obtain ⟨a, b⟩ := kv
    simp only [get, keys, List.map_cons, List.mem_cons] at *
    by_cases h : a = k
    · simp [h]
    · simp only [if_neg h, ih]
      constructor
      · intro h1 h2
        rcases h2 with h2 | h2
        · exact h h2.symm
        · exact h1 h2
      · intro h1 h2; exact h1 (Or.inr h2)

theorem mem_of_get {m : AMap K V} {k : K} {v : V} (h : m.get k = some v) : (k, v) ∈ m := by
  induction m with
  | nil => simp at h
  | cons kv m ih =>
    obtain ⟨a, b⟩ := kv
    simp only [get] at h
    split at h
    · rename_i hk; cases h; subst hk; simp
    · exact List.mem_cons_of_mem _ (ih h)

theorem get_of_mem {m : AMap K V} (hn : m.keys.Nodup) {k : K} {v : V} (h : (k, v) ∈ m) :
    m.get k = some v := by
  induction m with
  | nil => simp at h
  | cons kv m ih =>
    obtain ⟨a, b⟩ := kv
    simp only [keys, List.map_cons, List.nodup_cons] at hn
    rcases List.mem_cons.mp h with h | h
    · cases h; simp [get]
    · have hne : a ≠ k := by
        rintro rfl
        exact hn.1 (List.mem_map.mpr ⟨_, h, rfl⟩)
      simp [get, hne, ih hn.2 h]

theorem get_iff_mem {m : AMap K V} (hn : m.keys.Nodup) {k : K} {v : V} :
    m.get k = some v ↔ (k, v) ∈ m := ⟨mem_of_get, get_of_mem hn⟩

theorem insert_absent {m : AMap K V} {k : K} (v : V) (h : k ∉ m.keys) :
    m.insert k v = m ++ [(k, v)] := by
  induction m with
  | nil => rfl
  | cons kv m ih =>
    obtain ⟨a, b⟩ := kv
    simp only [keys, List.map_cons, List.mem_cons, not_or] at h
    simp only [insert, if_neg (fun e => h.1 (Eq.symm e)), ih h.2, List.cons_append]

omit [DecidableEq K] in
@[simp] theorem keys_nil : keys ([] : AMap K V) = [] := rfl
omit [DecidableEq K] in
@[simp] theorem keys_cons (kv : K × V) (m : AMap K V) : keys (kv :: m) = kv.1 :: keys m := rfl

theorem keys_insert (m : AMap K V) (k : K) (v : V) :
    (m.insert k v).keys = if k ∈ m.keys then m.keys else m.keys ++ [k] := by
  induction m with
  | nil => simp [insert]
  | cons kv m ih =>
    obtain ⟨a, b⟩ := kv
    simp only [insert]
    by_cases h : a = k
    · subst h; simp
    · have h' : ¬ k = a := fun e => h e.symm
      simp only [if_neg h, keys_cons, List.mem_cons, h', false_or, ih]
      split <;> simp

theorem nodup_insert {m : AMap K V} (hn : m.keys.Nodup) (k : K) (v : V) :
    (m.insert k v).keys.Nodup := by
  rw [keys_insert]
  split
  · exact hn
  · rename_i h
    rw [List.nodup_append]
    exact ⟨hn, by simp, by intro a ha b hb; simp at hb; subst hb; rintro rfl; exact h ha⟩

theorem keys_erase (m : AMap K V) (k : K) : (m.erase k).keys = m.keys.filter (· ≠ k) := by
  unfold erase keys
  rw [List.filter_map]; rfl

theorem nodup_erase {m : AMap K V} (hn : m.keys.Nodup) (k : K) : (m.erase k).keys.Nodup := by
  rw [keys_erase]; exact hn.filter _

theorem erase_absent {m : AMap K V} {k : K} (h : k ∉ m.keys) : m.erase k = m := by
  unfold erase
  rw [List.filter_eq_self]
  intro kv hkv
  have : kv.1 ≠ k := by rintro rfl; exact h (List.mem_map.mpr ⟨_, hkv, rfl⟩)
  simpa using this

theorem mem_insert {m : AMap K V} {k : K} {v : V} {kv : K × V} (h : kv ∈ m.insert k v) :
    kv = (k, v) ∨ kv ∈ m := by
  induction m with
  | nil => simp [insert] at h; exact Or.inl h
  | cons a m ih =>
    obtain ⟨a, b⟩ := a
    simp only [insert] at h
    split at h
    · rcases List.mem_cons.mp h with h | h
      · exact Or.inl h
      · exact Or.inr (List.mem_cons_of_mem _ h)
    · rcases List.mem_cons.mp h with h | h
      · exact Or.inr (by simp [h])
      · rcases ih h with h | h
        · exact Or.inl h
        · exact Or.inr (List.mem_cons_of_mem _ h)

theorem mem_erase {m : AMap K V} {k : K} {kv : K × V} : kv ∈ m.erase k ↔ kv ∈ m ∧ kv.1 ≠ k := by
  unfold erase; simp

end AMap
end Verif
