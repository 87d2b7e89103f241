import Verif.Sources.Multi
import Verif.Sources.Cardano

/-!
# Confirmed blocks of a Cardano node

The multiverse source (`/repo/blockchain-source/src/multiverse/mod.rs`) over the Cardano source
(`/repo/blockchain-source/src/cardano/mod.rs`): the program a user runs to follow a node. A consumer pulls from the
multiverse source, which asks the Cardano source, the request handler of which talks to the node meanwhile.
-/

namespace Verif.Sources.Confirmed

open Verif.Multiverse
open Verif.Sources.Cardano (Point NBlock Net Out PullRes St Config)

/-- What `BlockEvent::from_serialized_block` gives for a block of the node, event.rs:107-141, as the multiverse sees it
(`Variant`, event.rs:59-89), and `next_from`, event.rs:91-104. Decoding is `cml_multi_era`'s and not modelled. -/
structure Decoder where
  view : NBlock → Block
  nf : Block → Option Point

/-- What the multiverse source gets from the pull of the Cardano source, cardano/mod.rs:54-90. Tips are not numbered in the
multiverse source's interface; here they carry their slot. -/
def reply (D : Decoder) : PullRes → Except Unit (Option Ev)
  | .event (.tip p) => .ok (some (.tip p.slot))
  | .event (.block b) => .ok (some (.block (D.view b)))
  | .event .bad => .error ()
  | .nothing => .ok none
  | .stopped => .error ()

/-- The two sources and the consumer; `pend` are the orders of a pull that waits for the Cardano source. -/
structure Sys where
  cs : St
  w : World Point
  pend : Option Orders

/-- What can happen: the consumer pulls; the Cardano source or its handler does something; the consumer abandons its pull
(drops the future while it waits, as a timeout does); the program is stopped and started again; the program dies when the Cardano source has answered, after `n` removals from the database, and is
started again. -/
inductive SAct where
  | pull (o : Orders)
  | inner (a : Cardano.Act)
  | abandon
  | restart (o : Orders)
  | die (a : Cardano.Act) (n : Nat) (o : Orders)

/-- Actions of the Cardano source that go on with a pull, and those of its handler. -/
def going : Cardano.Act → Bool
  | .pull _ => false
  | .clear => false
  | _ => true

/-- The result of the pull in progress, if `a` has ended it. -/
def resultOf (s : Sys) (cs' : St) : Option (Orders × PullRes) :=
  match s.pend with
  | none => none
  | some o => (cs'.results.drop s.cs.results.length).head?.map (fun r => (o, r))

/-- One action; `none` if it cannot happen now. A pull of the multiverse source waits only in the pull of the Cardano source
(multiverse/mod.rs:127), and has changed nothing before, so abandoning it abandons that one. -/
def Sys.step (cfg : Config) (D : Decoder) (s : Sys) : SAct → Option Sys
  | .pull o =>
    match s.pend with
    | some _ => none
    | none =>
      match s.w.src.request D.nf o s.w.pos with
      | .ok (.inr ps) => (s.cs.step cfg (.pull ps)).map (fun cs' => ⟨cs', s.w, some o⟩)
      | _ => some ⟨s.cs, s.w.step D.nf (.pull o (fun _ => .error ())), none⟩
  | .inner a =>
    if going a then
      (s.cs.step cfg a).map (fun cs' =>
        match resultOf s cs' with
        | none => ⟨cs', s.w, s.pend⟩
        | some (o, r) => ⟨cs', s.w.step D.nf (.pull o (fun _ => reply D r)), none⟩)
    else none
  | .abandon =>
    match s.pend with
    | none => none
    | some _ => s.cs.abandon.map (fun cs' => ⟨cs', s.w, none⟩)
  | .restart o => some ⟨.start, s.w.step D.nf (.restart o), none⟩
  | .die a n o' =>
    if going a then
      (s.cs.step cfg a).bind (fun cs' =>
        (resultOf s cs').map (fun x =>
          ⟨.start, s.w.step D.nf (.crash x.1 (fun _ => reply D x.2) n o'), none⟩))
    else none

/-- A list of actions. -/
def Sys.run (cfg : Config) (D : Decoder) : Sys → List SAct → Option Sys
  | s, [] => some s
  | s, a :: as =>
    match s.step cfg D a with
    | none => none
    | some s' => s'.run cfg D as

/-- A new source over an empty database, and a consumer at a position. -/
def Sys.start (d : Nat) (p0 : Option Point) : Sys := ⟨.start, World.start d p0, none⟩

/-- What the node did at the request that is taken, if one is. -/
def takenBy : SAct → List Net
  | .inner (.take n) => [n]
  | .die (.take n) _ _ => [n]
  | _ => []

/-- What the node did at each request the handler took, in order. -/
def taken (as : List SAct) : List Net := as.flatMap takenBy

end Verif.Sources.Confirmed
