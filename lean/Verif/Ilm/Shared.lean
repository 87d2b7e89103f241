import Verif.Fraos.ConcurrentSpec
import Verif.Ilm.Lemmas

/-!
# Threads sharing a map, down to the log

Threads call all functions of `/repo/indexed-log-map/src/storage.rs` on one map. A call is a program (`Prog`) over the two
stores: calls of the log, which run with the steps of `Verif/Fraos/Concurrent.lean` (lock sections and atomic accesses), and
accesses to the key index, each of which is one step (`sled` is atomic). There is no lock around the two stores. `SpStep` is the
specification: the same calls on a list of keys and values and a list of keys with positions, with atomic effects.
-/

namespace Verif.Ilm

open Verif.Fraos

variable {K V : Type}

/-- Calls of a thread. `item i` is `next()` of an iterator that stands at `i`; iterators belong to one thread. -/
inductive SCall (K V : Type) where
  | append (k : K) (v : V)
  | get (k : K)
  | contains (k : K)
  | isEmpty
  | last
  | iterFrom (k : K)
  | item (i : Nat)
  | getNext (k : Option K)

/-- Answers. `start` is where the iterator made by `iter_from` stands. -/
inductive SResp (V : Type) where
  | done (r : Except MErr Unit)
  | value (r : Except MErr (Option V))
  | flag (r : Except MErr Bool)
  | start (r : Except MErr (Option Nat))
  | item (r : Option (Except MErr V))

/-- What is seen from outside: thread `t` calls, thread `t` gets an answer. -/
inductive SEv (n : Nat) (K V : Type) where
  | inv (t : Fin n) (c : SCall K V)
  | ret (t : Fin n) (c : SCall K V) (r : SResp V)

/-- The thread of an event. -/
def SEv.tid {n : Nat} : SEv n K V → Fin n
  | .inv t _ => t
  | .ret t _ _ => t

/-! ### The code -/

/-- A program over the log and the key index. -/
inductive Prog (R : Type) where
  | done (r : R)
  /-- a call of the log -/
  | log (c : Call) (next : Resp → Prog R)
  /-- `get` of the key index -/
  | lookup (kb : List UInt8) (next : Option (List UInt8) → Prog R)
  /-- `insert` of the key index -/
  | insert (kb pb : List UInt8) (next : Prog R)
  /-- `is_empty` of the key index -/
  | vacant (next : Bool → Prog R)

/-- The answer to a read of the log. -/
def recordOf : Resp → Except Err (Option (List UInt8))
  | .record r => r
  | _ => .error .panic

/-- The answer to a call of `len`. -/
def numberOf : Resp → Nat
  | .number m => m
  | _ => 0

/-- Where an iterator stands after it was advanced from `i`, seqno_iter.rs:18-27. -/
def moved (i : Nat) : Resp → Nat
  | .record (.ok _) => i + 1
  | _ => i

/-- `iter_from`, storage.rs:94-119, continued with where the iterator starts. -/
def locate {R : Type} (c : Codec K V) (indexed : Bool) (k : K) (f : Except MErr (Option Nat) → Prog R) : Prog R :=
  if indexed then
    match c.encK k with
    | none => f (.error .encode)
    | some kb => .lookup kb (fun r => match r with
      | none => f (.ok none)
      | some bs => match posDec bs with
        | none => f (.error .panic)
        | some pos => f (.ok (some pos)))
  else f (.error .noIndex)

/-- `get`, storage.rs:121-134, continued with its answer. -/
def getProg {R : Type} (c : Codec K V) (indexed : Bool) (k : K) (f : Except MErr (Option V) → R) : Prog R :=
  locate c indexed k (fun r => match r with
    | .error e => .done (f (.error e))
    | .ok none => .done (f (.ok none))
    | .ok (some i) => .log (.get i) (fun r => .done (f (itemResult (item c (recordOf r))))))

/-- What a call does, storage.rs:62-205. -/
def prog (c : Codec K V) (indexed : Bool) : SCall K V → Prog (SResp V)
  | .append k v =>
    if indexed then
      match c.encK k with
      | none => .done (.done (.error .encode))
      | some kb =>
        match c.encV v with
        | none => .done (.done (.error .encode))
        | some vb => .log (.append [vb]) (fun r => match r with
          | .seqno (.ok (some pos)) => .insert kb (posEnc pos) (.done (.done (.ok ())))
          | .seqno (.ok none) => .done (.done (.error .notInserted))
          | .seqno (.error e) => .done (.done (.error (.storage e)))
          | _ => .done (.done (.error .panic)))
    else .done (.done (.error .noIndex))
  | .get k => getProg c indexed k (fun r => .value r)
  | .contains k => getProg c indexed k (fun r => .flag (r.map Option.isSome))
  | .isEmpty => if indexed then .vacant (fun b => .done (.flag (.ok b))) else .done (.flag (.error .noIndex))
  | .last => .log .len (fun r => if numberOf r = 0 then .done (.value (.ok none)) else
    .log .len (fun r => .log (.get (numberOf r - 1)) (fun r => .done (.value (itemResult (item c (recordOf r)))))))
  | .iterFrom k => locate c indexed k (fun r => .done (.start r))
  | .item i => .log (.get i) (fun r => .done (.item (item c (recordOf r))))
  | .getNext none => .log (.get 0) (fun r => .done (.value (itemResult (item c (recordOf r)))))
  | .getNext (some k) => locate c indexed k (fun r => match r with
    | .error e => .done (.value (.error e))
    | .ok none => .done (.value (.ok none))
    | .ok (some i) => .log (.get i) (fun r => match item c (recordOf r) with
      | none => .done (.value (.ok none))
      | some _ => .log (.get (moved i r)) (fun r => .done (.value (itemResult (item c (recordOf r)))))))

/-- Where a thread is in the code. -/
inductive SPC (K V : Type) where
  | idle
  | at_ (c : SCall K V) (q : Prog (SResp V))
  /-- in a call of the log -/
  | calling (c : SCall K V) (next : Resp → Prog (SResp V))

/-- The log with its threads, the insertions into the key index (newest first), the threads. -/
structure SState (n : Nat) (K V : Type) where
  cs : CState n
  journal : List (List UInt8 × List UInt8)
  pcs : Fin n → SPC K V

/-- Thread `t` moves on. -/
def SState.goto {n : Nat} (s : SState n K V) (t : Fin n) (pc : SPC K V) : SState n K V :=
  { s with pcs := Function.update s.pcs t pc }

/-- Steps of the code. `sys` says that the system may refuse to extend or to map the files of the log. -/
inductive SStep (p : Params) (c : Codec K V) (sys indexed : Bool) {n : Nat} :
    SState n K V → Option (SEv n K V) → SState n K V → Prop
  | invoke {s : SState n K V} {t : Fin n} {cl : SCall K V} : s.pcs t = .idle →
      SStep p c sys indexed s (some (.inv t cl)) (s.goto t (.at_ cl (prog c indexed cl)))
  | enter {s : SState n K V} {t : Fin n} {cl : SCall K V} {call : Call} {next : Resp → Prog (SResp V)} {cs : CState n} :
      s.pcs t = .at_ cl (.log call next) → CStep p sys s.cs (some (.inv t call)) cs →
      SStep p c sys indexed s none { s.goto t (.calling cl next) with cs := cs }
  | work {s : SState n K V} {cs : CState n} : CStep p sys s.cs none cs → SStep p c sys indexed s none { s with cs := cs }
  | leave {s : SState n K V} {t : Fin n} {cl : SCall K V} {call : Call} {r : Resp} {next : Resp → Prog (SResp V)}
      {cs : CState n} : s.pcs t = .calling cl next → CStep p sys s.cs (some (.ret t call r)) cs →
      SStep p c sys indexed s none { s.goto t (.at_ cl (next r)) with cs := cs }
  | lookup {s : SState n K V} {t : Fin n} {cl : SCall K V} {kb : List UInt8}
      {next : Option (List UInt8) → Prog (SResp V)} : s.pcs t = .at_ cl (.lookup kb next) →
      SStep p c sys indexed s none (s.goto t (.at_ cl (next (s.journal.lookup kb))))
  | insert {s : SState n K V} {t : Fin n} {cl : SCall K V} {kb pb : List UInt8} {q : Prog (SResp V)} :
      s.pcs t = .at_ cl (.insert kb pb q) →
      SStep p c sys indexed s none { s.goto t (.at_ cl q) with journal := (kb, pb) :: s.journal }
  | vacant {s : SState n K V} {t : Fin n} {cl : SCall K V} {next : Bool → Prog (SResp V)} :
      s.pcs t = .at_ cl (.vacant next) →
      SStep p c sys indexed s none (s.goto t (.at_ cl (next s.journal.isEmpty)))
  | answer {s : SState n K V} {t : Fin n} {cl : SCall K V} {r : SResp V} : s.pcs t = .at_ cl (.done r) →
      SStep p c sys indexed s (some (.ret t cl r)) (s.goto t .idle)

/-- Threads begin to share a map. -/
def sinit (n : Nat) (m : ILM) : SState n K V := ⟨cinit n m.db, m.journal, fun _ => .idle⟩

/-- The program run by one thread alone. -/
def Prog.run {R : Type} (p : Params) : Prog R → ILM → R × ILM
  | .done r, m => (r, m)
  | .log (.append b) next, m =>
    (next (.seqno (m.db.append p Faults.none Faults.none b).1)).run p
      { m with db := (m.db.append p Faults.none Faults.none b).2 }
  | .log (.get i) next, m => (next (.record (m.db.get p i))).run p m
  | .log .len next, m => (next (.number m.db.len)).run p m
  | .lookup kb next, m => (next (m.journal.lookup kb)).run p m
  | .insert kb pb next, m => next.run p { m with journal := (kb, pb) :: m.journal }
  | .vacant next, m => (next m.journal.isEmpty).run p m

/-! ### The specification -/

/-- What is shared: all keys and values in the order of the log, how many of them are counted, the keys recorded with their
positions (newest first). -/
structure Shared (K V : Type) where
  log : List (K × V)
  counted : Nat
  keys : List (K × Nat)

/-- The value found under a key. -/
def Shared.value [DecidableEq K] (S : Shared K V) (k : K) : Option V :=
  (S.keys.lookup k).bind (fun i => S.log[i]?.map Prod.snd)

/-- A call that needs the index and the encoding of `k`. -/
def keyed {α : Type} (c : Codec K V) (indexed : Bool) (k : K) (x : α) : Except MErr α :=
  if indexed then (if (c.encK k).isSome then .ok x else .error .encode) else .error .noIndex

/-- The answer to a call that has no effect, from one look at what is shared. -/
def look [DecidableEq K] (c : Codec K V) (indexed : Bool) (S : Shared K V) : SCall K V → Option (SResp V)
  | .append k v =>
    if indexed then (if (c.encK k).isSome ∧ (c.encV v).isSome then none else some (.done (.error .encode)))
    else some (.done (.error .noIndex))
  | .get k => some (.value (keyed c indexed k (S.value k)))
  | .contains k => some (.flag (keyed c indexed k (S.value k).isSome))
  | .isEmpty => some (.flag (if indexed then .ok S.keys.isEmpty else .error .noIndex))
  | .last => some (.value (.ok ((S.log.take S.counted).getLast?.map Prod.snd)))
  | .iterFrom k => some (.start (keyed c indexed k (S.keys.lookup k)))
  | .item i => some (.item (S.log[i]?.map (fun x => .ok x.2)))
  | .getNext none => some (.value (.ok (S.log[0]?.map Prod.snd)))
  | .getNext (some k) =>
    match keyed c indexed k (S.keys.lookup k) with
    | .error e => some (.value (.error e))
    | .ok none => some (.value (.ok none))
    | .ok (some _) => none

/-- Appends that the system may refuse, with their answers. -/
def refusal (c : Codec K V) (sys indexed : Bool) : SCall K V → SResp V → Prop
  | .append k v, .done (.error (.storage e)) =>
    sys = true ∧ indexed = true ∧ (c.encK k).isSome ∧ (c.encV v).isSome ∧ (e = .extend ∨ e = .mmap)
  | _, _ => False

/-- Where a thread is in the specification. -/
inductive SpPC (K V : Type) where
  | idle
  | called (c : SCall K V)
  /-- in the log at `i`, not yet counted -/
  | put (k : K) (v : V) (i : Nat)
  /-- counted, key not yet recorded -/
  | counted (k : K) (v : V) (i : Nat)
  /-- `get_next` has found the position of its key -/
  | passed (k : K) (i : Nat)
  | ready (c : SCall K V) (r : SResp V)

/-- Specification: what is shared, and the threads. -/
structure SpState (n : Nat) (K V : Type) where
  sh : Shared K V
  pcs : Fin n → SpPC K V

/-- Steps of the specification. An append puts its value at the end of the log, counts it (no other append puts its value in
between), and then records its key; or the system refuses it, and nothing has happened. All other calls look once at what is shared, but `get_next`, which looks for the position of its
key and later for the value behind it. -/
inductive SpStep [DecidableEq K] (c : Codec K V) (sys indexed : Bool) {n : Nat} :
    SpState n K V → Option (SEv n K V) → SpState n K V → Prop
  | invoke {s : SpState n K V} {t : Fin n} {cl : SCall K V} : s.pcs t = .idle →
      SpStep c sys indexed s (some (.inv t cl)) { s with pcs := Function.update s.pcs t (.called cl) }
  | look {s : SpState n K V} {t : Fin n} {cl : SCall K V} {r : SResp V} : s.pcs t = .called cl →
      look c indexed s.sh cl = some r →
      SpStep c sys indexed s none { s with pcs := Function.update s.pcs t (.ready cl r) }
  | fail {s : SpState n K V} {t : Fin n} {cl : SCall K V} {r : SResp V} : s.pcs t = .called cl →
      refusal c sys indexed cl r →
      SpStep c sys indexed s none { s with pcs := Function.update s.pcs t (.ready cl r) }
  | put {s : SpState n K V} {t : Fin n} {k : K} {v : V} : s.pcs t = .called (.append k v) → indexed = true →
      (c.encK k).isSome → (c.encV v).isSome → s.sh.counted = s.sh.log.length →
      SpStep c sys indexed s none ⟨{ s.sh with log := s.sh.log ++ [(k, v)] },
        Function.update s.pcs t (.put k v s.sh.log.length)⟩
  | count {s : SpState n K V} {t : Fin n} {k : K} {v : V} {i : Nat} : s.pcs t = .put k v i →
      SpStep c sys indexed s none ⟨{ s.sh with counted := s.sh.log.length }, Function.update s.pcs t (.counted k v i)⟩
  | record {s : SpState n K V} {t : Fin n} {k : K} {v : V} {i : Nat} : s.pcs t = .counted k v i →
      SpStep c sys indexed s none ⟨{ s.sh with keys := (k, i) :: s.sh.keys },
        Function.update s.pcs t (.ready (.append k v) (.done (.ok ())))⟩
  | pass {s : SpState n K V} {t : Fin n} {k : K} {i : Nat} : s.pcs t = .called (.getNext (some k)) → indexed = true →
      (c.encK k).isSome → s.sh.keys.lookup k = some i →
      SpStep c sys indexed s none { s with pcs := Function.update s.pcs t (.passed k i) }
  | follow {s : SpState n K V} {t : Fin n} {k : K} {i : Nat} : s.pcs t = .passed k i →
      SpStep c sys indexed s none ⟨s.sh, Function.update s.pcs t
        (.ready (.getNext (some k)) (.value (.ok (s.sh.log[i + 1]?.map Prod.snd))))⟩
  | answer {s : SpState n K V} {t : Fin n} {cl : SCall K V} {r : SResp V} : s.pcs t = .ready cl r →
      SpStep c sys indexed s (some (.ret t cl r)) { s with pcs := Function.update s.pcs t .idle }

/-- Threads begin to share what there is. -/
def spinit (n : Nat) (log : List (K × V)) (keys : List (K × Nat)) : SpState n K V :=
  ⟨⟨log, log.length, keys⟩, fun _ => .idle⟩

/-- Bytes a call brings to the log. -/
def SCall.bytes (c : Codec K V) : SCall K V → Nat
  | .append _ v => ((c.encV v).getD []).length
  | _ => 0

/-- Iterators stand below `2^60`. -/
def SCall.small : SCall K V → Prop
  | .item i => i < 2 ^ 60
  | _ => True

/-- Bytes brought by an event. -/
def SEv.bytes (c : Codec K V) {n : Nat} : SEv n K V → Nat
  | .inv _ cl => cl.bytes c
  | .ret _ _ _ => 0

/-- The iterators of a trace stand below `2^60`. -/
def SEv.small {n : Nat} : SEv n K V → Prop
  | .inv _ cl => cl.small
  | .ret _ _ _ => True

end Verif.Ilm
