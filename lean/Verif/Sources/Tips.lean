import Verif.Sources.Cardano

/-!
# The Cardano source: when tips are announced

Models the clock of `request_handler`, `/repo/blockchain-source/src/cardano/mod.rs:166-286`. The requests are
served one after the other; what each finds is a `Net`, as in `Verif.Sources.Cardano`, but whether a tip event
is due is computed here. Times are nanoseconds of the monotonic clock. The receiver of a request is there until
the request is served, or was gone before.
-/

namespace Verif.Sources.Cardano

/-- A request: what the node does, the positions, the time when the handler asks whether a tip event is due
(mod.rs:277), the time it notes after sending it (mod.rs:286), and whether the receiver is there. -/
structure Req where
  net : Net
  from' : List Point
  asked : Int
  noted : Int
  heard : Bool

/-- The variables of `request_handler`: is there a handle (mod.rs:179); `last_tip_event` (mod.rs:175); did it
panic. -/
structure Clock where
  connected : Bool
  last : Int
  gone : Bool

/-- The start of `request_handler`, mod.rs:175-179: `Instant::checked_sub`, which on Linux counts seconds in a
signed number of 64 bits and gives nothing below its range; then `expect` panics. -/
def Clock.start (now : Int) (pace : Nat) : Clock :=
  if -2 ^ 63 * 1000000000 ≤ now - pace then ⟨true, now - pace, false⟩ else ⟨true, now, true⟩

/-- `last_tip_event.elapsed() >= tip_update_pace`, mod.rs:277. `elapsed` is zero if the clock went back. -/
def Clock.due (k : Clock) (pace : Nat) (r : Req) : Bool := decide ((pace : Int) ≤ max 0 (r.asked - k.last))

/-- The net with the flag computed from the clock. -/
def Req.netAt (r : Req) (due : Bool) : Net := { r.net with tipDue := due }

/-- Is the event a tip? -/
def isTip : Out → Bool
  | .tip _ => true
  | _ => false

/-- How a request ends: without a receiver a tip is lost without notice (mod.rs:278-284), and the first other
event breaks the request off (mod.rs:311-317). -/
def Req.ends (r : Req) (x : List Out × End) : End :=
  if r.heard || x.1.all isTip then x.2 else .dropped

/-- One turn of the loop, mod.rs:181-231: without a handle it connects again, or gives up the request. The
events the handler has for the request, and the variables afterwards. -/
def Clock.serve (c : Config) (pace : Nat) (k : Clock) (r : Req) : List Out × Clock :=
  if k.gone then ([], k)
  else if !k.connected && !r.net.connects then ([], k)
  else
    let x := handle c (r.netAt (k.due pace r)) r.from'
    (x.1, ⟨decide (r.ends x = .done), if x.1.any isTip then r.noted else k.last, decide (r.ends x = .panicked)⟩)

/-- What the receiver gets of the events for a request. -/
def Req.gets (r : Req) (out : List Out) : List Out := if r.heard then out else []

/-- The variables after some requests. -/
def Clock.after (c : Config) (pace : Nat) (k : Clock) : List Req → Clock
  | [] => k
  | r :: rs => Clock.after c pace (k.serve c pace r).2 rs

end Verif.Sources.Cardano
