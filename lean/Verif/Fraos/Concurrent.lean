import Verif.Fraos.Spec
import Mathlib.Logic.Function.Basic

/-!
# Threads sharing a database

Threads call `append_get_seqno`, `get_by_seqno` and `len` on clones of one database. A step is a section
under one lock, or one atomic load or store; steps of the threads interleave in any order. `AStep` is the
specification: the same calls on a list of records, with atomic effects.
-/

namespace Verif.Fraos

/-- Calls of a thread. -/
inductive Call where
  | append (batch : List (List UInt8))
  | get (seqno : Nat)
  | len
deriving DecidableEq

/-- What is seen from outside: thread `t` calls, thread `t` gets an answer. -/
inductive Ev (n : Nat) where
  | inv (t : Fin n) (c : Call)
  | ret (t : Fin n) (c : Call) (r : Resp)
deriving DecidableEq

/-- Runs of a machine whose steps may carry an event. -/
inductive Exec {S E : Type} (step : S → Option E → S → Prop) (s0 : S) : List E → S → Prop
  | nil : Exec step s0 [] s0
  | silent {tr : List E} {s s' : S} : Exec step s0 tr s → step s none s' → Exec step s0 tr s'
  | event {tr : List E} {s s' : S} {e : E} : Exec step s0 tr s → step s (some e) s' →
      Exec step s0 (tr ++ [e]) s'

/-! ### Specification -/

/-- Where a thread is in the specification. -/
inductive APC where
  | idle
  /-- called, no effect yet -/
  | start (c : Call)
  /-- the records are there, from number `k` on, but not yet counted -/
  | shown (batch : List (List UInt8)) (k : Nat)
  /-- the answer is determined -/
  | ready (c : Call) (r : Resp)

/-- The records, the count reported by `len`, and the threads. -/
structure AState (n : Nat) where
  log : List (List UInt8)
  counted : Nat
  pcs : Fin n → APC

/-- Steps of the specification. An append puts all its records at once at the end of the log, then
counts them; between these two steps no other append takes place. An append may also have no effect and fail, if the system
(`sys`) refuses to extend or to map a file. A read looks at the log once. -/
inductive AStep (sys : Bool) {n : Nat} : AState n → Option (Ev n) → AState n → Prop
  | invoke {a : AState n} {t : Fin n} {c : Call} : a.pcs t = .idle →
      AStep sys a (some (.inv t c)) { a with pcs := Function.update a.pcs t (.start c) }
  | none_ {a : AState n} {t : Fin n} : a.pcs t = .start (.append []) →
      AStep sys a none { a with pcs := Function.update a.pcs t (.ready (.append []) (.seqno (.ok none))) }
  | refuse {a : AState n} {t : Fin n} {b : List (List UInt8)} : a.pcs t = .start (.append b) → [] ∈ b →
      AStep sys a none { a with pcs := Function.update a.pcs t (.ready (.append b) (.seqno (.error .emptyRecord))) }
  | fail {a : AState n} {t : Fin n} {b : List (List UInt8)} {e : Err} : a.pcs t = .start (.append b) → sys = true →
      b ≠ [] → [] ∉ b → e = .extend ∨ e = .mmap →
      AStep sys a none { a with pcs := Function.update a.pcs t (.ready (.append b) (.seqno (.error e))) }
  | put {a : AState n} {t : Fin n} {b : List (List UInt8)} : a.pcs t = .start (.append b) → b ≠ [] →
      [] ∉ b → a.counted = a.log.length →
      AStep sys a none { a with log := a.log ++ b, pcs := Function.update a.pcs t (.shown b a.log.length) }
  | count {a : AState n} {t : Fin n} {b : List (List UInt8)} {k : Nat} : a.pcs t = .shown b k →
      AStep sys a none { a with
        counted := a.log.length
        pcs := Function.update a.pcs t (.ready (.append b) (.seqno (.ok (some k)))) }
  | read {a : AState n} {t : Fin n} {i : Nat} : a.pcs t = .start (.get i) →
      AStep sys a none { a with pcs := Function.update a.pcs t (.ready (.get i) (.record (.ok a.log[i]?))) }
  | tally {a : AState n} {t : Fin n} : a.pcs t = .start .len →
      AStep sys a none { a with pcs := Function.update a.pcs t (.ready .len (.number a.counted)) }
  | answer {a : AState n} {t : Fin n} {c : Call} {r : Resp} : a.pcs t = .ready c r →
      AStep sys a (some (.ret t c r)) { a with pcs := Function.update a.pcs t .idle }

/-- Nothing recorded, nobody busy. -/
def ainit (n : Nat) : AState n := ⟨[], 0, fun _ => .idle⟩

/-! ### The code -/

/-- Where a thread is in the code. -/
inductive PC where
  | idle
  | start (c : Call)
  /-- holds `write_lock`, database.rs:86 -/
  | locked (b : List (List UInt8))
  /-- has loaded `initial_size`, database.rs:88 -/
  | began (b : List (List UInt8)) (d0 : Nat)
  /-- in the data appender, has loaded `actual_size`, appender.rs:73 -/
  | loaded (b : List (List UInt8)) (d0 sz : Nat)
  /-- data written and flushed, appender.rs:77 -/
  | grown (b : List (List UInt8)) (d0 sz : Nat)
  /-- data size stored, appender.rs:78 -/
  | stored (b : List (List UInt8)) (d0 : Nat)
  /-- has loaded the current number, seqno.rs:50 -/
  | numbered (b : List (List UInt8)) (d0 k : Nat)
  /-- in the index appender, has loaded `actual_size`, appender.rs:73 -/
  | idxLoaded (b : List (List UInt8)) (d0 k sz : Nat)
  /-- index written and flushed, appender.rs:77 -/
  | idxGrown (b : List (List UInt8)) (k sz : Nat)
  /-- about to drop the guard -/
  | unlocking (b : List (List UInt8)) (r : Except Err (Option Nat))
  /-- has found the place of the record, database.rs:119 -/
  | found (i o l : Nat)
  | finished (c : Call) (r : Resp)

/-- Shared database, holder of the write lock, threads. -/
structure CState (n : Nat) where
  db : DB
  lock : Option (Fin n)
  pcs : Fin n → PC

/-- The database after the mappings of the data were replaced. -/
def DB.setData (db : DB) (g : GM) : DB := { db with data := { db.data with g := g } }
/-- The database after the mappings of the index were replaced. -/
def DB.setIdx (db : DB) (g : GM) : DB := { db with idx := { db.idx with g := g } }
/-- Atomic store of the data size. -/
def DB.setDataSize (db : DB) (k : Nat) : DB := { db with data := { db.data with size := k } }
/-- Atomic store of the index size. -/
def DB.setIdxSize (db : DB) (k : Nat) : DB := { db with idx := { db.idx with size := k } }

/-- Thread `t` moves on. -/
def CState.goto {n : Nat} (s : CState n) (t : Fin n) (pc : PC) : CState n :=
  { s with pcs := Function.update s.pcs t pc }

/-- What the system may refuse: nothing, or (`sys`) to extend and to map files. -/
def MayRefuse (sys : Bool) (ft : Faults) : Prop :=
  ft = Faults.none ∨ (sys = true ∧ ft.protect = false ∧ ft.flush = false ∧ ft.remap = false)

/-- Steps of the code; the system refuses nothing, or (`sys`) now and then to extend or to map a file.
`append_get_seqno`: database.rs:81-102, flatfile.rs:33-52,
seqno.rs:40-69, appender.rs:63-81; `get_by_seqno`: database.rs:118-125; `len`: database.rs:145-147. -/
inductive CStep (p : Params) (sys : Bool) {n : Nat} : CState n → Option (Ev n) → CState n → Prop
  | invoke {s : CState n} {t : Fin n} {c : Call} : s.pcs t = .idle →
      CStep p sys s (some (.inv t c)) (s.goto t (.start c))
  | empty {s : CState n} {t : Fin n} : s.pcs t = .start (.append []) →
      CStep p sys s none (s.goto t (.finished (.append []) (.seqno (.ok none))))
  | lock {s : CState n} {t : Fin n} {b : List (List UInt8)} : s.pcs t = .start (.append b) → b ≠ [] →
      s.lock = none → CStep p sys s none { s.goto t (.locked b) with lock := some t }
  | begin {s : CState n} {t : Fin n} {b : List (List UInt8)} : s.pcs t = .locked b →
      CStep p sys s none (s.goto t (.began b s.db.data.size))
  | refuse {s : CState n} {t : Fin n} {b : List (List UInt8)} {d0 : Nat} : s.pcs t = .began b d0 →
      b.any List.isEmpty = true → CStep p sys s none (s.goto t (.unlocking b (.error .emptyRecord)))
  | loadData {s : CState n} {t : Fin n} {b : List (List UInt8)} {d0 : Nat} : s.pcs t = .began b d0 →
      b.any List.isEmpty = false → CStep p sys s none (s.goto t (.loaded b d0 s.db.data.size))
  | growData {s : CState n} {t : Fin n} {b : List (List UInt8)} {d0 sz : Nat} {g : GM} {ft : Faults} :
      s.pcs t = .loaded b d0 sz →
      MayRefuse sys ft → s.db.data.g.grow p ft (b.map List.length).sum (writeRecords b) = (.ok (), g) →
      CStep p sys s none { s.goto t (.grown b d0 sz) with db := s.db.setData g }
  | failData {s : CState n} {t : Fin n} {b : List (List UInt8)} {d0 sz : Nat} {g : GM} {e : Err} {ft : Faults} :
      s.pcs t = .loaded b d0 sz →
      MayRefuse sys ft → s.db.data.g.grow p ft (b.map List.length).sum (writeRecords b) = (.error e, g) →
      CStep p sys s none { s.goto t (.unlocking b (.error e)) with db := s.db.setData g }
  | storeData {s : CState n} {t : Fin n} {b : List (List UInt8)} {d0 sz : Nat} : s.pcs t = .grown b d0 sz →
      CStep p sys s none { s.goto t (.stored b d0) with db := s.db.setDataSize (sz + (b.map List.length).sum) }
  | number {s : CState n} {t : Fin n} {b : List (List UInt8)} {d0 : Nat} : s.pcs t = .stored b d0 →
      CStep p sys s none (s.goto t (.numbered b d0 (idxLen s.db.idx)))
  | loadIdx {s : CState n} {t : Fin n} {b : List (List UInt8)} {d0 k : Nat} : s.pcs t = .numbered b d0 k →
      CStep p sys s none (s.goto t (.idxLoaded b d0 k s.db.idx.size))
  | growIdx {s : CState n} {t : Fin n} {b : List (List UInt8)} {d0 k sz : Nat} {g : GM} {ft : Faults} :
      s.pcs t = .idxLoaded b d0 k sz →
      MayRefuse sys ft → s.db.idx.g.grow p ft (16 * b.length) (writeEntries (entriesFrom d0 b)) = (.ok (), g) →
      CStep p sys s none { s.goto t (.idxGrown b k sz) with db := s.db.setIdx g }
  | failIdx {s : CState n} {t : Fin n} {b : List (List UInt8)} {d0 k sz : Nat} {g : GM} {e : Err} {ft : Faults} :
      s.pcs t = .idxLoaded b d0 k sz →
      MayRefuse sys ft → s.db.idx.g.grow p ft (16 * b.length) (writeEntries (entriesFrom d0 b)) = (.error e, g) →
      CStep p sys s none { s.goto t (.unlocking b (.error e)) with db := s.db.setIdx g }
  | storeIdx {s : CState n} {t : Fin n} {b : List (List UInt8)} {k sz : Nat} : s.pcs t = .idxGrown b k sz →
      CStep p sys s none { s.goto t (.unlocking b (.ok (some k))) with
        db := s.db.setIdxSize (sz + 16 * b.length) }
  | unlock {s : CState n} {t : Fin n} {b : List (List UInt8)} {r : Except Err (Option Nat)} :
      s.pcs t = .unlocking b r →
      CStep p sys s none { s.goto t (.finished (.append b) (.seqno r)) with lock := none }
  | findFails {s : CState n} {t : Fin n} {i : Nat} {e : Err} : s.pcs t = .start (.get i) →
      getEntry p s.db.idx i = .error e →
      CStep p sys s none (s.goto t (.finished (.get i) (.record (.error e))))
  | findNone {s : CState n} {t : Fin n} {i : Nat} : s.pcs t = .start (.get i) →
      getEntry p s.db.idx i = .ok none →
      CStep p sys s none (s.goto t (.finished (.get i) (.record (.ok none))))
  | find {s : CState n} {t : Fin n} {i o l : Nat} : s.pcs t = .start (.get i) →
      getEntry p s.db.idx i = .ok (some (o, l)) → CStep p sys s none (s.goto t (.found i o l))
  | readData {s : CState n} {t : Fin n} {i o l : Nat} : s.pcs t = .found i o l →
      CStep p sys s none (s.goto t (.finished (.get i) (.record (getRecord s.db.data o l))))
  | count {s : CState n} {t : Fin n} : s.pcs t = .start .len →
      CStep p sys s none (s.goto t (.finished .len (.number s.db.len)))
  | answer {s : CState n} {t : Fin n} {c : Call} {r : Resp} : s.pcs t = .finished c r →
      CStep p sys s (some (.ret t c r)) (s.goto t .idle)

/-- All threads idle, lock free. -/
def cinit (n : Nat) (db : DB) : CState n := ⟨db, none, fun _ => .idle⟩

/-- Bytes a call brings. -/
def Call.bytes : Call → Nat
  | .append b => (b.map List.length).sum
  | _ => 0

/-- Sequence numbers asked for are below `2^60`. -/
def Call.small : Call → Prop
  | .get i => i < 2 ^ 60
  | _ => True

/-- Bytes brought by an event. -/
def Ev.bytes {n : Nat} : Ev n → Nat
  | .inv _ c => c.bytes
  | .ret _ _ _ => 0

/-- The calls of a trace ask for numbers below `2^60`. -/
def Ev.small {n : Nat} : Ev n → Prop
  | .inv _ c => c.small
  | .ret _ _ _ => True

/-- The thread of an event. -/
def Ev.tid {n : Nat} : Ev n → Fin n
  | .inv t _ => t
  | .ret t _ _ => t

end Verif.Fraos
