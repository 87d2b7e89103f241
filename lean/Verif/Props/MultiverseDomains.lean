import Verif.Props.Multiverse
import Verif.Multiverse.Domains

/-!
# C100: several multiverses in one database

A run is a list of requests to domains: opening, inserting, removing, clearing, destroying, closing. `own d`
are the requests to the domain `d`. The specification of the requests to one multiverse is that of C15.
-/

namespace Verif.Props

open Verif.Multiverse

/-- An empty database. -/
def noDomains : World := ⟨[], []⟩

/-- C100: the requests to several domains of a database never fail, whatever their interleaving, if those to
each domain are as in C15 and blocks are read back from what is written of them. The multiverse of a domain is
open if it was opened and not closed or destroyed since. It then has the blocks and tips that it should have
after the requests to its own domain alone. -/
theorem C100_domains {C : Codec} {B : String → Key → Block} {acts : List (String × Req)} (hl : Lossless C acts)
    (hh : ∀ d, MvHist (B d) 0 (own d false acts)) :
    ∃ w : World, noDomains.run C acts = .ok w ∧
      (∀ d, (AMap.get w.mem d).isSome = openAfter d false acts) ∧
      ∀ d m, AMap.get w.mem d = some m → ∃ S, S = (specRun (B d) (0, fun _ => none) (own d false acts)).2 ∧
        (∀ k, m.get k = if (S k).isSome then some (B d k) else none) ∧
        (∀ k, k ∈ m.tips.map Ref.key ↔
          (S k).isSome ∧ ∀ c b, S c = some b → b.linked = true → (B d c).parent ≠ k) := by
  choose m' hm' using fun d => C15_refines (hh d)
  obtain ⟨w, h1, h2⟩ := run_alone (C := C) (acts := acts) (w := noDomains) (o := fun _ => false)
    (m := fun _ => MV.empty [] 0) (m' := m') hl
    (fun d => ⟨rfl, rfl, fun h hh => by cases hh⟩) (fun d => (hm' d).1)
  refine ⟨w, h1, fun d => (h2 d).open_iff, fun d m hg => ?_⟩
  obtain ⟨S, hS, h3, _, h4, _⟩ := (hm' d).2
  have h5 := (h2 d).mem m hg
  subst h5
  exact ⟨S, hS, h3, h4⟩

/-- C100: a request to a domain, successful or not, leaves the stored blocks and the multiverse of every
other domain. -/
theorem C100_isolated (C : Codec) (w : World) {d d' : String} (hd : d ≠ d') (r : Req) :
    (w.step C d r).2.tree d' = w.tree d' ∧ AMap.get (w.step C d r).2.mem d' = AMap.get w.mem d' :=
  step_other C w hd r

theorem loadRaw_reads {C : Codec} : ∀ {bs : List (List UInt8)} {m m1 : MV}, loadRaw C m bs = .ok m1 →
    ∀ b ∈ bs, (C.dec b).isSome
  | [], _, _, _, b, hb => by cases hb
  | x :: xs, m, m1, h, b, hb => by
    unfold loadRaw at h
    split at h
    · cases h
    · rename_i v hv
      split at h
      · cases h
      · rcases List.mem_cons.1 hb with rfl | hb
        · rw [hv]; rfl
        · exact loadRaw_reads h b hb

/-- C100: a domain with a record that cannot be read does not open, whatever the threshold; opening it,
successful or not, changes nothing of what is stored, in any domain. -/
theorem C100_unreadable (C : Codec) (w : World) (d : String) (sf : Nat) :
    ((∃ k b, (k, b) ∈ w.tree d ∧ C.dec b = none) → ∃ e, (w.step C d (.load sf)).1 = .error e) ∧
    ∀ d', (w.step C d (.load sf)).2.tree d' = w.tree d' := by
  have hs : w.step C d (.load sf) = w.load C d sf := by unfold World.step; rfl
  rw [hs]
  constructor
  · rintro ⟨k, b, h1, h2⟩
    unfold World.load
    dsimp only
    cases h : loadRaw C (MV.empty [] sf) ((sortByKey (w.tree d)).map Prod.snd) with
    | error e => exact ⟨e, rfl⟩
    | ok m =>
      have := loadRaw_reads h b (List.mem_map.2 ⟨(k, b), mem_sortByKey.2 h1, rfl⟩)
      rw [h2] at this
      cases this
  · intro d'
    have h1 : (w.setTree d (w.tree d)).tree d' = w.tree d' := by
      rw [tree_setTree]; split
      · rename_i h; rw [h]
      · rfl
    unfold World.load
    dsimp only
    split
    · exact h1
    · exact h1

/-- A sample encoding, with the payload not read back above 9. -/
def sampleCodec (lossy : Bool) : Codec where
  enc v := some [v.id.headD 0, v.parent.headD 0, v.number.toUInt8, v.payload.toUInt8]
  dec
    | [i, p, n, x] => if lossy ∧ 9 < x then none else some ⟨[i], [p], n.toNat, x.toNat⟩
    | _ => none

/-- Requests to two domains with the same blocks: one is destroyed, the other reopened. -/
def twoDomains : List (String × Req) :=
  [("a", .load 0), ("b", .load 0), ("a", .insert (forkB [0])), ("b", .insert (forkB [0])), ("a", .insert (forkB [1])),
    ("b", .insert (forkB [2])), ("a", .destroy), ("b", .close), ("b", .load 0), ("b", .insert (forkB [3]))]

theorem twoDomains_lossless : Lossless (sampleCodec false) twoDomains := by
  intro d v hm
  simp only [twoDomains, List.mem_cons, Prod.mk.injEq, reduceCtorEq, and_false, false_or, Req.insert.injEq,
    List.not_mem_nil, or_false] at hm
  rcases hm with ⟨_, rfl⟩ | ⟨_, rfl⟩ | ⟨_, rfl⟩ | ⟨_, rfl⟩ | ⟨_, rfl⟩ <;> exact ⟨_, rfl, by decide⟩

theorem twoDomains_own (d : String) : own d false twoDomains =
    if d = "a" then [.reopen 0, .insert (forkB [0]), .insert (forkB [1]), .clear]
    else if d = "b" then
      [.reopen 0, .insert (forkB [0]), .insert (forkB [2]), .reopen 0, .insert (forkB [3])]
    else [] := by
  split
  · subst d; rfl
  · split
    · subst d; rfl
    · rename_i h1 h2
      have h1' : ¬ "a" = d := fun h => h1 h.symm
      have h2' : ¬ "b" = d := fun h => h2 h.symm
      simp [twoDomains, own, h1', h2']

/-- The hypotheses of C100 are met, and the domain that was not destroyed has its blocks. -/
example : ∃ w : World, noDomains.run (sampleCodec false) twoDomains = .ok w ∧
    (AMap.get w.mem "a").isNone ∧ ∃ m, AMap.get w.mem "b" = some m ∧ m.get [2] = some (forkB [2]) ∧
      m.contains [1] = false := by
  obtain ⟨w, h1, _⟩ := C100_domains (B := fun _ => forkB) twoDomains_lossless (fun d => by
    refine ⟨fun op hop => ?_, fair_of_noHeld ?_⟩
    · rw [twoDomains_own] at hop
      split at hop
      · simp only [List.mem_cons, List.not_mem_nil, or_false] at hop
        rcases hop with rfl | rfl | rfl | rfl <;> first | exact forkB_ok _ | trivial
      · split at hop
        · simp only [List.mem_cons, List.not_mem_nil, or_false] at hop
          rcases hop with rfl | rfl | rfl | rfl | rfl <;> first | exact forkB_ok _ | trivial
        · cases hop
    · intro k held hm
      rw [twoDomains_own] at hm
      split at hm
      · simp at hm
      · split at hm <;> simp at hm)
  have e1 : ((noDomains.run (sampleCodec false) twoDomains).map (fun w => ((AMap.get w.mem "a").isNone,
      (AMap.get w.mem "b").map (fun m => (m.get [2], m.contains [1]))))).toOption =
    some (true, some (some (forkB [2]), false)) := by decide +kernel
  rw [h1] at e1
  have e2 := Option.some.inj e1
  simp only [Prod.mk.injEq] at e2
  cases h2 : AMap.get w.mem "b" with
  | none => rw [h2] at e2; cases e2.2
  | some m =>
    rw [h2] at e2
    have e3 := Option.some.inj e2.2
    simp only [Prod.mk.injEq] at e3
    exact ⟨w, h1, e2.1, m, h2, e3.1, e3.2⟩

/-- **C100 is false without lossless encodings**: the insertion of a block that cannot be read back is
successful, and the domain does not open again. -/
theorem C100_lossy_false : ¬ ∀ (C : Codec) (acts : List (String × Req)) (d : String) (w : World),
    noDomains.run C acts = .ok w → (w.step C d (.load 0)).1 = .ok () := by
  intro h
  have e1 : ((noDomains.run (sampleCodec true) [("a", .load 0), ("a", .insert ⟨[1], [0], 1, 10⟩)]).map
      (fun w => (match (w.step (sampleCodec true) "a" (.load 0)).1 with
        | .error .serde => true
        | _ => false))).toOption = some true := by decide +kernel
  cases h1 : noDomains.run (sampleCodec true) [("a", .load 0), ("a", .insert ⟨[1], [0], 1, 10⟩)] with
  | error e => rw [h1] at e1; cases e1
  | ok w =>
    have h2 := h _ _ "a" w h1
    rw [h1] at e1
    have e2 := Option.some.inj e1
    dsimp only at e2
    rw [h2] at e2
    cases e2

end Verif.Props
