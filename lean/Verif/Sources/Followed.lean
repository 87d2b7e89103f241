import Verif.Sources.Rollback
import Verif.Sources.Confirmed

/-!
# Following a Cardano node with its rollbacks

The fork handling source (`/repo/blockchain-source/src/multiverse/rollback.rs`) over the Cardano source
(`/repo/blockchain-source/src/cardano/mod.rs`). A consumer pulls events, blocks and rollbacks, from the fork handling source,
which asks the Cardano source, the request handler of which talks to the node meanwhile.
-/

namespace Verif.Sources.Followed

open Verif.Multiverse
open Verif.Sources.Cardano (Point NBlock Net Out PullRes St Config)
open Verif.Sources.Confirmed (Decoder reply going)

/-- The two sources and the consumer; `pend` are the orders of a pull that waits for the Cardano source. -/
structure Sys where
  cs : St
  w : FWorld Point
  pend : Option Orders

/-- What can happen: the consumer pulls; the Cardano source or its handler does something; the consumer abandons its pull
(drops the future while it waits, as a timeout does); the program is stopped and started again, and the consumer goes on
where it was. -/
inductive Act where
  | pull (o : Orders)
  | inner (a : Cardano.Act)
  | abandon
  | restart (o : Orders) (it : List Ref → List Ref)

/-- The result of the pull in progress, if it has just ended. -/
def resultOf (s : Sys) (cs' : St) : Option (Orders × PullRes) :=
  match s.pend with
  | none => none
  | some o => (cs'.results.drop s.cs.results.length).head?.map (fun r => (o, r))

/-- One action; `none` if it cannot happen now. `pt` gives the positions of the blocks for the consumer. The pull of the
fork handling source, rollback.rs:95-219: a queued event is returned at once; otherwise the Cardano source is asked
(rollback.rs:128). It waits only there, and has changed nothing before, so abandoning it abandons the pull of the Cardano
source. -/
def Sys.step (cfg : Config) (pt : Key → Option Point) (D : Decoder) (s : Sys) : Act → Option Sys
  | .pull o =>
    match s.pend with
    | some _ => none
    | none =>
      match s.w.src.events, s.w.src.request D.nf o (position pt s.w.chain) with
      | [], .ok ps => (s.cs.step cfg (.pull ps)).map (fun cs' => ⟨cs', s.w, some o⟩)
      | _, _ => some ⟨s.cs, s.w.step pt D.nf (.pull o (fun _ => .error ())), none⟩
  | .inner a =>
    if going a then
      (s.cs.step cfg a).map (fun cs' =>
        match resultOf s cs' with
        | none => ⟨cs', s.w, s.pend⟩
        | some (o, r) => ⟨cs', s.w.step pt D.nf (.pull o (fun _ => reply D r)), none⟩)
    else none
  | .abandon =>
    match s.pend with
    | none => none
    | some _ => s.cs.abandon.map (fun cs' => ⟨cs', s.w, none⟩)
  | .restart o it => some ⟨.start, s.w.step pt D.nf (.restart o it), none⟩

/-- A list of actions. -/
def Sys.run (cfg : Config) (pt : Key → Option Point) (D : Decoder) : Sys → List Act → Option Sys
  | s, [] => some s
  | s, a :: as =>
    match s.step cfg pt D a with
    | none => none
    | some s' => s'.run cfg pt D as

/-- A new source over an empty database, and a consumer at block `k`. -/
def Sys.start (d : Nat) (k : Key) : Sys := ⟨.start, FWorld.start d k, none⟩

/-- What the node did at the request that is taken, if one is. -/
def takenBy : Act → List Net
  | .inner (.take n) => [n]
  | _ => []

/-- What the node did at each request the handler took, in order. -/
def taken (as : List Act) : List Net := as.flatMap takenBy

end Verif.Sources.Followed
