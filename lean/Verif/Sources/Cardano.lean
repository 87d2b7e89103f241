import Mathlib.Data.List.Sort

/-!
# The Cardano source

Models `/repo/blockchain-source/src/cardano/mod.rs`: the pulling side and the request handler, which run
concurrently and share channels. The node and the network protocols (`cardano_net`) are not modelled; what
they answer is a parameter of each request (`Net`). Block identifiers are numbers.
-/

namespace Verif.Sources.Cardano

/-- `Point`, point.rs:4-8. -/
inductive Point where
  | origin
  | header (slot : Nat) (hash : Nat)
deriving DecidableEq

/-- `slot_nb` of a point of `cardano_sdk`; the origin has slot 0. -/
def Point.slot : Point → Nat
  | .origin => 0
  | .header s _ => s

/-- What `BlockEvent::from_serialized_block` makes of the bytes of a block, event.rs:107-141: an event, an
error (no epoch), or a panic (cannot be decoded). -/
inductive Parsed where
  | ok
  | error
  | panic
deriving DecidableEq

/-- A block of the node. -/
structure NBlock where
  slot : Nat
  hash : Nat
  parsed : Parsed
deriving DecidableEq

/-- The point of a block. -/
def NBlock.point (b : NBlock) : Point := .header b.slot b.hash

/-- The result of a protocol call. -/
inductive Reply (α : Type) where
  | failed
  | nothing
  | value (a : α)

/-- What the node and the connection to it do during a request: does a reconnection succeed; does the
intersection call succeed; the node's chain, oldest block first; does the range call fail or give no blocks;
the blocks it gives for a range from the origin; after how many blocks does the connection break, if it
does; is a tip event due. -/
structure Net where
  connects : Bool
  intersects : Bool
  chain : List NBlock
  range : Reply Unit
  originRange : List NBlock
  cut : Option Nat
  tipDue : Bool

/-- The node's tip. -/
def Net.tip (n : Net) : Point :=
  match n.chain.getLast? with
  | none => .origin
  | some b => b.point

/-- Is the point on the node's chain? -/
def Net.on (n : Net) (p : Point) : Bool :=
  match p with
  | .origin => true
  | p => n.chain.any (fun b => decide (b.point = p))

/-- The blocks the node gives for a range from a point of its chain to its tip, inclusive. -/
def Net.blocksFrom (n : Net) : Point → List NBlock
  | .origin => n.originRange
  | p => n.chain.dropWhile (fun b => decide (b.point ≠ p))

/-- `NetworkConfiguration`, configuration.rs:5-13: the default position, the identifier of the genesis
block's parent and the genesis point; and which identifiers are well formed (`Point::from_raw`). -/
structure Config where
  from' : Point
  genesisParent : Nat
  genesis : Point
  valid : Nat → Bool

/-- `Point::try_from`, point.rs:11-22. -/
def Config.validPoint (c : Config) : Point → Bool
  | .origin => true
  | .header _ h => c.valid h

/-- The contents of a response channel: a tip event, a block, or an error. -/
inductive Out where
  | tip (p : Point)
  | block (b : NBlock)
  | bad
deriving DecidableEq

/-- How a request ends: normally, with an error (the connection is dropped), or with a panic (the handler
is gone). -/
inductive End where
  | done
  | dropped
  | panicked
deriving DecidableEq

/-- The loop over the blocks, mod.rs:302-319, when nothing fails: the events sent, and whether a block makes
it panic. -/
def parseAll : List NBlock → List Out × Bool
  | [] => ([], false)
  | b :: bs =>
    match b.parsed with
    | .ok => (.block b :: (parseAll bs).1, (parseAll bs).2)
    | .error => (.bad :: (parseAll bs).1, (parseAll bs).2)
    | .panic => ([], true)

/-- Reading the blocks of a range, mod.rs:296-319: the first is skipped if `ignoreFirst`; the connection may
break. -/
def readBlocks (ignoreFirst : Bool) (cut : Option Nat) (bs : List NBlock) : List Out × End :=
  let seen := match cut with
    | none => bs
    | some n => bs.take n
  let x := parseAll (if ignoreFirst then seen.drop 1 else seen)
  (x.1, if x.2 then .panicked else
    match cut with
    | none => .done
    | some n => if n ≤ bs.length then .dropped else .done)

/-- Descending order of slots. -/
def newer (a b : Point) : Prop := b.slot ≤ a.slot

instance : DecidableRel newer := fun a b => by unfold newer; infer_instance

/-- `block_fetch`, mod.rs:235-324: the events it sends, as long as the receiver is there, and how it ends. The
node takes the first of the points, which are sorted by descending slot, that is on its chain. -/
def blockFetch (c : Config) (n : Net) (from' : List Point) (ignoreFirst : Bool) : List Out × End :=
  if from'.all c.validPoint then
    if n.intersects then
      match (from'.insertionSort newer).find? n.on with
      | none => ([], .done)
      | some p =>
        if n.tip = p then ([], .done)
        else
          let tips := if n.tipDue then [Out.tip n.tip] else []
          match n.range with
          | .failed => (tips, .dropped)
          | .nothing => (tips, .done)
          | .value _ =>
            let x := readBlocks ignoreFirst n.cut (n.blocksFrom p)
            (tips ++ x.1, x.2)
    else ([], .dropped)
  else ([], .dropped)

/-- What the handler does with a request, mod.rs:202-231. -/
def handle (c : Config) (n : Net) (from' : List Point) : List Out × End :=
  if from' = [.header 0 c.genesisParent] then blockFetch c n [c.genesis] false
  else blockFetch c n from' true

/-! ### The two processes -/

/-- The request handler: waiting for a request; sending the rest of the events of a request on a channel;
gone. -/
inductive Handler where
  | idle
  | busy (chan : Nat) (rest : List Out) (fin : End)
  | gone
deriving DecidableEq

/-- The pulling side: no pull; a pull that reads from the channel of the last request; a pull that sends a
request; a pull that waits for the first answer to its request. -/
inductive Puller where
  | idle
  | reading (from' : List Point)
  | sending (from' : List Point)
  | awaiting
deriving DecidableEq

/-- What a pull returns: an event (or an error in its place), nothing, or the error that the handler is
gone. -/
inductive PullRes where
  | event (o : Out)
  | nothing
  | stopped
deriving DecidableEq

/-- The state. Each request has a channel, and channels are numbered: `next` is the next number, `current`
the channel the puller reads from, `buf` its contents. `queue` is the channel of requests, of capacity 1. The
rest records what happened: the positions requested (`asked`), the events the handler is to send (`plan`) and
how it ends, the events received (`got`), whether the channel was dropped by `clear_buffers`, and the results
of the pulls, oldest first. -/
structure St where
  connected : Bool
  handler : Handler
  queue : Option (List Point × Nat)
  puller : Puller
  current : Option Nat
  buf : List Out
  next : Nat
  asked : Nat → List Point
  plan : Nat → List Out
  net : Nat → Option Net
  got : Nat → List Out
  cleared : Nat → Bool
  results : List PullRes

/-- Change at one number. -/
def set {α : Type} (f : Nat → α) (k : Nat) (a : α) : Nat → α := fun i => if i = k then a else f i

/-- After `connect`, mod.rs:93-148. -/
def St.start : St :=
  ⟨true, .idle, none, .idle, none, [], 0, fun _ => [], fun _ => [], fun _ => none, fun _ => [], fun _ => false, []⟩

/-- `TX_PROCESSING_CHANNEL_BOUND`, mod.rs:22. -/
def bound : Nat := 1000

/-- Can the channel still get events? -/
def St.alive (s : St) (c : Nat) : Bool :=
  (match s.queue with
    | some (_, c') => decide (c' = c)
    | none => false) ||
  match s.handler with
  | .busy c' _ _ => decide (c' = c)
  | _ => false

/-- What can happen. The puller: a pull begins; it takes an event, or sees the channel closed; it sends a
request; `clear_buffers` is called between pulls. The handler: it takes a request; it sends an event; it ends
a request. -/
inductive Act where
  | pull (from' : List Point)
  | recv
  | send
  | clear
  | take (n : Net)
  | emit
  | finish

/-- Reception of an event from the current channel. -/
def St.receive (s : St) (c : Nat) (o : Out) (rest : List Out) : St :=
  { s with puller := .idle, buf := rest, got := set s.got c (s.got c ++ [o]),
           results := s.results ++ [.event o] }

/-- `recv`, mod.rs:60-63 and 88. -/
def St.recv (s : St) : Option St :=
  match s.puller, s.current with
  | .reading f, some c =>
    match s.buf with
    | o :: rest => some (s.receive c o rest)
    | [] => if s.alive c then none else some { s with puller := .sending f }
  | .awaiting, some c =>
    match s.buf with
    | o :: rest => some (s.receive c o rest)
    | [] => if s.alive c then none else some { s with puller := .idle, results := s.results ++ [.nothing] }
  | _, _ => none

/-- Sending of a request, mod.rs:71-85. -/
def St.send (cfg : Config) (s : St) : Option St :=
  match s.puller with
  | .sending f =>
    if s.handler = .gone then some { s with puller := .idle, results := s.results ++ [.stopped] }
    else
      match s.queue with
      | some _ => none
      | none =>
        let f' := if f = [] then [cfg.from'] else f
        some { s with queue := some (f', s.next), current := some s.next, buf := [], puller := .awaiting,
                      next := s.next + 1, asked := set s.asked s.next f' }
  | _ => none

/-- The handler takes a request, mod.rs:182-211. If the reconnection fails the channel is dropped. -/
def St.take (cfg : Config) (s : St) (n : Net) : Option St :=
  match s.handler, s.queue with
  | .idle, some (f, c) =>
    if s.connected || n.connects then
      some { s with queue := none, connected := true, handler := .busy c (handle cfg n f).1 (handle cfg n f).2,
                    plan := set s.plan c (handle cfg n f).1, net := set s.net c (some n) }
    else some { s with queue := none }
  | _, _ => none

/-- The handler sends an event, mod.rs:269-281 and 310-316. If the receiver is gone a tip event is skipped,
and another one ends the request with an error. -/
def St.emit (s : St) : Option St :=
  match s.handler with
  | .busy c (o :: rest) e =>
    if s.current = some c then
      if s.buf.length < bound then some { s with handler := .busy c rest e, buf := s.buf ++ [o] } else none
    else
      match o with
      | .tip _ => some { s with handler := .busy c rest e }
      | _ => some { s with handler := .idle, connected := false }
  | _ => none

/-- The end of a request, mod.rs:213-231. If the handler is gone the requests queued are dropped. -/
def St.finish (s : St) : Option St :=
  match s.handler with
  | .busy _ [] .done => some { s with handler := .idle }
  | .busy _ [] .dropped => some { s with handler := .idle, connected := false }
  | .busy _ [] .panicked => some { s with handler := .gone, connected := false, queue := none }
  | _ => none

/-- One action; `none` if it cannot happen now. -/
def St.step (cfg : Config) (s : St) : Act → Option St
  | .pull f =>
    match s.puller with
    | .idle => some { s with puller := if s.current = none then .sending f else .reading f }
    | _ => none
  | .recv => s.recv
  | .send => s.send cfg
  | .clear =>
    match s.puller with
    | .idle =>
      some { s with current := none, buf := [],
                    cleared := match s.current with
                      | none => s.cleared
                      | some c => set s.cleared c true }
    | _ => none
  | .take n => s.take cfg n
  | .emit => s.emit
  | .finish => s.finish

/-- The future of a pull is dropped. It can be waiting for an event (mod.rs:60 and 88), which `recv` does not lose, or
for room in the channel of requests (mod.rs:81), and then the request is not made. `current` is set right after the
request is made (mod.rs:86), without a pause in between. -/
def St.abandon (s : St) : Option St :=
  match s.puller with
  | .idle => none
  | _ => some { s with puller := .idle }

/-- A list of actions. -/
def St.run (cfg : Config) : St → List Act → Option St
  | s, [] => some s
  | s, a :: as =>
    match s.step cfg a with
    | none => none
    | some s' => s'.run cfg as

end Verif.Sources.Cardano
