import Verif.Sources.CardanoLemmas
import Verif.Core.Num

/-!
# The block fetching tool

Models `/repo/cardano-cli-tools/cardano-net-fetcher/src/main.rs`: reading the option `--since`, and the loop
that pulls from a Cardano source and prints blocks.
-/

namespace Verif.Sources.Cardano

open Verif.Core

/-- How reading `--since` fails: an error, or the panic of `Vec::remove` on an empty vector. -/
inductive SinceErr where
  | parse (e : ParseErr)
  | panic
deriving DecidableEq

/-- `str::split(',')`: at least one part. -/
def splitComma : List Char → List (List Char)
  | [] => [[]]
  | c :: cs =>
    if c = ',' then [] :: splitComma cs
    else
      match splitComma cs with
      | [] => [[c]]
      | p :: ps => (c :: p) :: ps

/-- `parse_since`, main.rs:22-27: the slot and the text of the block identifier. The slot is parsed before the
second part is taken. -/
def parseSince (s : List Char) : Except SinceErr (Nat × List Char) :=
  match splitComma s with
  | [] => .error .panic
  | a :: rest =>
    match parseU64 a with
    | .error e => .error (.parse e)
    | .ok slot =>
      match rest with
      | [] => .error .panic
      | b :: _ => .ok (slot, b)

/-- The blocks among events. -/
def blocksOf : List Out → List NBlock
  | [] => []
  | .block b :: os => b :: blocksOf os
  | _ :: os => blocksOf os

/-- What the tool has printed, main.rs:70-80. -/
def printed (s : St) : List NBlock := blocksOf (s.results.filterMap evOf)

/-- `pull_from`, main.rs:48-57 and 65-68, after the events received: the last block, or what was given. -/
def pullFrom (since : List Point) (os : List Out) : List Point :=
  match (blocksOf os).getLast? with
  | none => since
  | some b => [b.point]

/-- Has the loop ended, main.rs:64: the last pull returned nothing or an error? -/
def ended (s : St) : Bool :=
  match s.results.getLast? with
  | some .nothing => true
  | some .stopped => true
  | some (.event .bad) => true
  | _ => false

/-- One action of the tool or of the request handler of its source. The tool only pulls from its position, and
never clears buffers. -/
def toolStep (cfg : Config) (since : List Point) (s : St) : Act → Option St
  | .pull f =>
    if ended s = false ∧ f = pullFrom since (s.results.filterMap evOf) then s.step cfg (.pull f) else none
  | .clear => none
  | a => s.step cfg a

/-- A list of actions. -/
def toolRun (cfg : Config) (since : List Point) : St → List Act → Option St
  | s, [] => some s
  | s, a :: as =>
    match toolStep cfg since s a with
    | none => none
    | some s' => toolRun cfg since s' as

/-- The positions of a request, mod.rs:72-78: the default position if none is given. -/
def orDefault (cfg : Config) (f : List Point) : List Point := if f = [] then [cfg.from'] else f

/-! ### Invariant -/

theorem toolStep_step {cfg : Config} {since : List Point} {s s' : St} {a : Act} (h : toolStep cfg since s a = some s') :
    s.step cfg a = some s' := by
  cases a with
  | pull f =>
    simp only [toolStep] at h
    split at h
    · exact h
    · cases h
  | clear => cases h
  | recv => exact h
  | send => exact h
  | take n => exact h
  | emit => exact h
  | finish => exact h

theorem toolRun_run {cfg : Config} {since : List Point} : ∀ {as : List Act} {s s' : St},
    toolRun cfg since s as = some s' → s.run cfg as = some s'
  | [], s, s', h => h
  | a :: as, s, s', h => by
    simp only [toolRun] at h
    cases h1 : toolStep cfg since s a with
    | none => simp [h1] at h
    | some t =>
      simp only [h1] at h
      simp only [St.run, toolStep_step h1]
      exact toolRun_run h

/-- Where the tool's requests come from; no error is followed by another event; nothing is pulled after
the end. -/
structure ToolInv (cfg : Config) (since : List Point) (s : St) : Prop where
  base : CInv cfg s
  asked : ∀ c < s.next, s.asked c = orDefault cfg (pullFrom since ((List.range c).flatMap s.got))
  reading : ∀ f, s.puller = .reading f → f = pullFrom since (s.results.filterMap evOf) ∧ ended s = false
  sending : ∀ f, s.puller = .sending f → f = pullFrom since (s.results.filterMap evOf) ∧ ended s = false
  awaiting : s.puller = .awaiting → ended s = false
  bad : ∀ l r, s.results = l ++ .event .bad :: r → r = []
  cleared : ∀ c, s.cleared c = false

theorem ToolInv.start (cfg : Config) (since : List Point) : ToolInv cfg since St.start := by
  refine ⟨CInv.start cfg, ?_, ?_, ?_, ?_, ?_, ?_⟩ <;> simp [St.start]

theorem not_ended {s : St} (hb : ∀ l r, s.results = l ++ .event .bad :: r → r = []) (he : ended s = false) (x : PullRes) :
    ∀ l r, s.results ++ [x] = l ++ .event .bad :: r → r = [] := by
  intro l r h
  rcases List.eq_nil_or_concat r with rfl | ⟨r', y, rfl⟩
  · rfl
  · exfalso
    rw [List.concat_eq_append, ← List.cons_append, ← List.append_assoc] at h
    have h1 := (List.append_inj' h rfl).1
    have h2 := hb _ _ h1
    subst h2
    unfold ended at he
    rw [h1] at he
    simp at he

theorem ToolInv.step {cfg : Config} {since : List Point} {s s' : St} (h : ToolInv cfg since s) {a : Act}
    (hs : toolStep cfg since s a = some s') : ToolInv cfg since s' := by
  have hb := h.base.step (toolStep_step hs)
  -- reception of an event
  have hrecv : ∀ c o rest, s.current = some c → ended s = false → s' = s.receive c o rest → ToolInv cfg since s' := by
    rintro c o rest hc he rfl
    have hcn := (h.base.cur c hc).1
    refine ⟨hb, fun c' hc' => ?_, fun f hf => (by cases hf), fun f hf => (by cases hf), fun hf => (by cases hf), ?_,
      h.cleared⟩
    · have h1 := h.asked c' hc'
      have h2 : (List.range c').flatMap (s.receive c o rest).got = (List.range c').flatMap s.got := by
        apply List.flatMap_congr
        intro i hi
        refine set_ne _ _ ?_
        have := List.mem_range.1 hi
        have : c' < s.next := hc'
        omega
      rw [h2]
      exact h1
    · exact not_ended h.bad he _
  cases a with
  | clear => cases hs
  | pull f =>
    simp only [toolStep] at hs
    split at hs
    · rename_i hc
      simp only [St.step] at hs
      split at hs
      · obtain rfl := Option.some.inj hs
        refine ⟨hb, h.asked, ?_, ?_, ?_, h.bad, h.cleared⟩
        · intro g hg
          dsimp only at hg
          split at hg
          · cases hg
          · cases hg
            exact ⟨hc.2, hc.1⟩
        · intro g hg
          dsimp only at hg
          split at hg
          · cases hg
            exact ⟨hc.2, hc.1⟩
          · cases hg
        · intro hg
          dsimp only at hg
          split at hg <;> cases hg
      · cases hs
    · cases hs
  | recv =>
    simp only [toolStep, St.step, St.recv] at hs
    split at hs
    · rename_i f c hp hc
      have hf := h.reading f hp
      split at hs
      · rename_i o rest hbuf
        exact hrecv c o rest hc hf.2 (Option.some.inj hs).symm
      · split at hs
        · cases hs
        · obtain rfl := Option.some.inj hs
          refine ⟨hb, h.asked, fun g hg => (by cases hg), fun g hg => ?_, fun hg => (by cases hg), h.bad, h.cleared⟩
          cases hg
          exact hf
    · rename_i c hp hc
      split at hs
      · rename_i o rest hbuf
        exact hrecv c o rest hc (h.awaiting hp) (Option.some.inj hs).symm
      · split at hs
        · cases hs
        · obtain rfl := Option.some.inj hs
          exact ⟨hb, h.asked, fun g hg => (by cases hg), fun g hg => (by cases hg), fun hg => (by cases hg),
            not_ended h.bad (h.awaiting hp) _, h.cleared⟩
    · cases hs
  | send =>
    simp only [toolStep, St.step, St.send] at hs
    split at hs
    · rename_i f hp
      have hf := h.sending f hp
      split at hs
      · obtain rfl := Option.some.inj hs
        exact ⟨hb, h.asked, fun g hg => (by cases hg), fun g hg => (by cases hg), fun hg => (by cases hg),
          not_ended h.bad hf.2 _, h.cleared⟩
      · split at hs
        · cases hs
        · obtain rfl := Option.some.inj hs
          refine ⟨hb, fun c hc => ?_, fun g hg => (by cases hg), fun g hg => (by cases hg), fun _ => hf.2, h.bad,
            h.cleared⟩
          show set s.asked s.next _ c = _
          have hc : c < s.next + 1 := hc
          by_cases he : c = s.next
          · subst he
            rw [set_eq, hf.1, h.base.res]
            rfl
          · rw [set_ne _ _ he]
            exact h.asked c (by omega)
    · cases hs
  | take n =>
    simp only [toolStep, St.step, St.take] at hs
    split at hs
    · split at hs
      · obtain rfl := Option.some.inj hs
        exact ⟨hb, h.asked, h.reading, h.sending, h.awaiting, h.bad, h.cleared⟩
      · obtain rfl := Option.some.inj hs
        exact ⟨hb, h.asked, h.reading, h.sending, h.awaiting, h.bad, h.cleared⟩
    · cases hs
  | emit =>
    simp only [toolStep, St.step, St.emit] at hs
    repeat' split at hs
    all_goals first
      | cases hs; done
      | (obtain rfl := Option.some.inj hs
         exact ⟨hb, h.asked, h.reading, h.sending, h.awaiting, h.bad, h.cleared⟩)
  | finish =>
    simp only [toolStep, St.step, St.finish] at hs
    repeat' split at hs
    all_goals first
      | cases hs; done
      | (obtain rfl := Option.some.inj hs
         exact ⟨hb, h.asked, h.reading, h.sending, h.awaiting, h.bad, h.cleared⟩)

theorem ToolInv.run {cfg : Config} {since : List Point} : ∀ {as : List Act} {s s' : St}, ToolInv cfg since s →
    toolRun cfg since s as = some s' → ToolInv cfg since s'
  | [], s, s', h, hr => by
    obtain rfl := Option.some.inj hr
    exact h
  | a :: as, s, s', h, hr => by
    simp only [toolRun] at hr
    cases h1 : toolStep cfg since s a with
    | none => simp [h1] at hr
    | some t =>
      simp only [h1] at hr
      exact (h.step h1).run hr

/-! ### Events of one request -/

theorem blocksOf_append : ∀ a b : List Out, blocksOf (a ++ b) = blocksOf a ++ blocksOf b
  | [], b => rfl
  | .block x :: a, b => by simp [blocksOf, blocksOf_append a b]
  | .tip x :: a, b => by simp [blocksOf, blocksOf_append a b]
  | .bad :: a, b => by simp [blocksOf, blocksOf_append a b]

theorem parseAll_blocks : ∀ (bs : List NBlock) (q : List Out), q <+: (parseAll bs).1 → .bad ∉ q.dropLast →
    blocksOf q <+: bs
  | [], q, h, _ => by
    have : q = [] := List.prefix_nil.1 h
    subst this
    exact List.nil_prefix
  | b :: bs, q, h, hb => by
    rw [parseAll] at h
    cases hp : b.parsed with
    | panic =>
      rw [hp] at h
      have : q = [] := List.prefix_nil.1 h
      subst this
      exact List.nil_prefix
    | ok =>
      rw [hp] at h
      cases q with
      | nil => exact List.nil_prefix
      | cons o q =>
        obtain ⟨rfl, h'⟩ := List.cons_prefix_cons.1 h
        refine List.cons_prefix_cons.2 ⟨rfl, parseAll_blocks bs q h' (fun hm => hb ?_)⟩
        cases q with
        | nil => simp at hm
        | cons o' q => rw [List.dropLast_cons_cons]; exact List.mem_cons_of_mem _ hm
    | error =>
      rw [hp] at h
      cases q with
      | nil => exact List.nil_prefix
      | cons o q =>
        obtain ⟨rfl, h'⟩ := List.cons_prefix_cons.1 h
        cases q with
        | nil => exact List.nil_prefix
        | cons o' q => exact absurd (List.mem_cons_self) hb

theorem dropWhile_find {p : Point} {l : List NBlock} (h : l.any (fun b => decide (b.point = p)) = true) :
    ∃ pre b post, l = pre ++ b :: post ∧ b.point = p ∧ l.dropWhile (fun b => decide (b.point ≠ p)) = b :: post := by
  induction l with
  | nil => simp at h
  | cons a l ih =>
    by_cases ha : a.point = p
    · exact ⟨[], a, l, rfl, ha, List.dropWhile_cons_of_neg (by simp [ha])⟩
    · simp only [List.any_cons, ha, decide_false, Bool.false_or] at h
      obtain ⟨pre, b, post, h1, h2, h3⟩ := ih h
      refine ⟨a :: pre, b, post, by rw [h1]; rfl, h2, ?_⟩
      rw [List.dropWhile_cons_of_pos (by simp [ha]), h3]

/-- The blocks received for a request from one point: a first part of the blocks from the point on. -/
theorem blockFetch_blocks {cfg : Config} {n : Net} {p : Point} (hp : p ≠ .origin) {ig : Bool} {q : List Out}
    (h : q <+: (blockFetch cfg n [p] ig).1) (hb : .bad ∉ q.dropLast) : blocksOf q = [] ∨
    ∃ pre b post, n.chain = pre ++ b :: post ∧ b.point = p ∧ blocksOf q <+: (if ig then post else b :: post) := by
  have hnil : q <+: [] → blocksOf q = [] := by
    intro h
    rw [List.prefix_nil.1 h]
    rfl
  have htip : ∀ t, q <+: (if n.tipDue then [Out.tip t] else []) → blocksOf q = [] := by
    intro t h
    split at h
    · cases q with
      | nil => rfl
      | cons o q =>
        obtain ⟨rfl, h'⟩ := List.cons_prefix_cons.1 h
        rw [List.prefix_nil.1 h']
        rfl
    · exact hnil h
  unfold blockFetch at h
  split at h
  · split at h
    · split at h
      · exact .inl (hnil h)
      · rename_i p' hf
        have hpp : p' = p := by
          have := List.mem_of_find?_eq_some hf
          simpa using this
        subst hpp
        have hon := List.find?_some hf
        split at h
        · exact .inl (hnil h)
        · dsimp only at h
          split at h
          · exact .inl (htip _ h)
          · exact .inl (htip _ h)
          · right
            cases p' with
            | origin => exact absurd rfl hp
            | header sl ha =>
              obtain ⟨pre, b, post, h1, h2, h3⟩ := dropWhile_find (p := .header sl ha) hon
              refine ⟨pre, b, post, h1, h2, ?_⟩
              have h3' : n.blocksFrom (.header sl ha) = b :: post := h3
              rw [h3'] at h
              -- events without the tip
              have key : ∀ q' : List Out, q' <+: (readBlocks ig n.cut (b :: post)).1 → .bad ∉ q'.dropLast →
                  blocksOf q' <+: (if ig then post else b :: post) := by
                intro q' hq hb'
                refine (parseAll_blocks _ q' hq hb').trans ?_
                cases n.cut with
                | none => cases ig <;> simp
                | some k =>
                  cases ig with
                  | false =>
                    simp only [Bool.false_eq_true, if_false]
                    exact List.take_prefix _ _
                  | true =>
                    simp only [if_true]
                    cases k with
                    | zero => simp
                    | succ k =>
                      simp only [List.take_succ_cons, List.drop_succ_cons, List.drop_zero]
                      exact List.take_prefix _ _
              split at h
              · cases q with
                | nil => exact List.nil_prefix
                | cons o q =>
                  rw [List.cons_append, List.nil_append] at h
                  obtain ⟨rfl, h'⟩ := List.cons_prefix_cons.1 h
                  refine key q h' (fun hm => hb ?_)
                  cases q with
                  | nil => simp at hm
                  | cons o' q => rw [List.dropLast_cons_cons]; exact List.mem_cons_of_mem _ hm
              · rw [List.nil_append] at h
                exact key q h hb
    · exact .inl (hnil h)
  · exact .inl (hnil h)

end Verif.Sources.Cardano
