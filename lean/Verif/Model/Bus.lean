import Verif.Model.Bytes
import Verif.Model.TestSet
/-!
# How processes tell each other of new packets

Models `crates/ipcbus/src/udp_procbus.rs`: the table of ports, the value of a bus, and the threads and datagrams that change it.  The threads take their steps in any
order: an execution is a list of actions, each the next step of one thread, and an action that is not possible changes nothing.

Simplified: the bytes of numbers are little endian (`to_ne_bytes`); a read that is `Relaxed` gives any value the atomic has had, which allows more than the memory model
does; the writes and the reads that are `SeqCst` are in one order.  A datagram can be lost and can arrive in any order.
-/
namespace Verif.Bus
open Verif Verif.Pred

/-! ## The table of ports -/

/-- The loop of `get_port`, `crates/ipcbus/src/udp_procbus.rs:38-45`, over the chunks of 10 bytes: the port found, or the largest port so far. -/
def findPort (id : UInt64) : Nat → Nat → Bytes → Nat × Bool
  | 0, port, _ => (port, false)
  | fuel + 1, port, bs =>
    if bs.length < 10 then (port, false)
    else
      let saved := leNat ((bs.drop 8).take 2)
      let port := max port saved
      if leNat (bs.take 8) = id.toNat then (saved, true)
      else findPort id fuel port (bs.drop 10)

/-- `get_port`, 20-52: the port, and what `procbus.map` then holds.  The lock makes this one step.  Simplified: reading and writing the file does not fail. -/
def getPort (file : Bytes) (id : UInt64) : Nat × Bytes :=
  match findPort id (file.length + 1) 10501 file with
  | (p, true) => (p, file)
  | (p, false) => (min (p + 1) 65535, file ++ leBytes 8 id.toNat ++ leBytes 2 (min (p + 1) 65535))

/-- The ports of calls one after the other, and the file after them. -/
def getPorts (file : Bytes) : List UInt64 → List Nat × Bytes
  | [] => ([], file)
  | id :: ids =>
    let r := getPorts (getPort file id).2 ids
    ((getPort file id).1 :: r.1, r.2)

/-! ## Messages -/

/-- The message of `_emit`, 109-114. -/
def message (bus : UInt64) (pid : UInt32) (v : UInt64) : Bytes :=
  leBytes 8 bus.toNat ++ leBytes 4 pid.toNat ++ leBytes 8 v.toNat

/-- The closure of `init`, 128-141, up to `_emit`: the value to emit, if any. -/
def handle (bus : UInt64) (pid : UInt32) (b : Bytes) : PRes (Option UInt64) :=
  if b.length < 8 then .error .panic
  else if leNat (b.take 8) ≠ bus.toNat then .ok none
  else if b.length < 12 then .error .panic
  else if (b.drop 8).take 4 = leBytes 4 pid.toNat then .ok none
  else if (b.drop 12).length ≠ 8 then .error .panic
  else .ok (some (UInt64.ofNat (leNat (b.drop 12))))

/-! ## Threads -/

/-- Where a thread is.  `loading` to `returned` are the stages of `_emit`, 92-123: called, at the head of the loop with `old`, after the exchange, before `notify`, and
returned; `udp` is `!SKIP_UDP`.  `looked` to `timedOut` are a round of `Linkspace::run_while`, `crates/common/src/runtime/rx.rs:180-253`: the log is processed up to `h`,
`next_deadline` (148-166) listens, is notified, and returns. -/
inductive Thr where
  | idle
  | loading (p : Nat) (udp : Bool) (v : UInt64)
  | testing (p : Nat) (udp : Bool) (v old : UInt64)
  | sending (p : Nat) (v : UInt64)
  | notifying (p : Nat) (v : UInt64)
  | returned (p : Nat) (v r : UInt64)
  | looked (p : Nat) (h : UInt64)
  | listening (p : Nat) (h : UInt64)
  | notified (p : Nat) (h : UInt64)
  | awake (p : Nat) (h r : UInt64)
  | timedOut (p : Nat) (h : UInt64)
deriving DecidableEq

/-- What does not change: the id of the bus, the processes that have it open, and their process ids. -/
structure Setup where
  bus : UInt64
  members : List Nat
  pid : Nat → UInt32

/-- The atomic of process `p` has had the values `past p` and has `val p`; `flying` is the datagrams under way and to whom; `deaf` the processes whose thread that reads
datagrams has ended; `db` the last stamp in the log of the database, which the processes share. -/
structure World where
  val : Nat → UInt64
  past : Nat → List UInt64
  thr : Nat → Thr
  flying : List (Nat × Bytes)
  deaf : Nat → Bool
  db : UInt64

/-- A new value at a key. -/
def upd {α : Type} (f : Nat → α) (k : Nat) (a : α) : Nat → α := fun i => if i = k then a else f i

/-- `Event::notify(usize::MAX)`, 121: every listener of the process. -/
def notifyAll (p : Nat) (thr : Nat → Thr) : Nat → Thr := fun u =>
  match thr u with
  | .listening q h => if q = p then .notified q h else .listening q h
  | s => s

/-- The next step of a thread, or what the network does.  `choice` picks what a `Relaxed` read gives: the value the atomic has, or the `i`-th of those it had. -/
inductive Act where
  /-- `emit` is called, 89. -/
  | emit (t p : Nat) (v : UInt64)
  /-- `BTreeEnv::save` commits packets of which the last has stamp `s`, and calls `emit`, `crates/core/src/env/lmdb/mod.rs:83-90`.  Stamps only
  grow (C24). -/
  | save (t p : Nat) (s : UInt64)
  /-- 93 -/
  | load (t : Nat) (choice : Option Nat)
  /-- 96-106; with `fail` the exchange fails although it need not. -/
  | test (t : Nat) (choice : Option Nat) (fail : Bool)
  /-- 108-119; with `lost` it is an error, which is logged. -/
  | send (t : Nat) (lost : Bool)
  /-- 121-122 -/
  | notify (t : Nat)
  /-- The `i`-th datagram arrives, and thread `t` has it: `recv`, `crates/ipcbus/src/udp_multicast.rs:48-62`. -/
  | recv (t i : Nat)
  /-- The `i`-th datagram is lost. -/
  | lose (i : Nat)
  /-- Another program sends a datagram to the port. -/
  | stray (p : Nat) (b : Bytes)
  /-- `process` of `run_while`, `crates/common/src/runtime/rx.rs:181`. -/
  | look (t p : Nat)
  /-- `listen`, 153 -/
  | listen (t : Nat)
  /-- 163-165 -/
  | wake (t : Nat)
  /-- 156-158 -/
  | timeout (t : Nat)
deriving DecidableEq

/-- What a `Relaxed` read gives. -/
def readAny (w : World) (p : Nat) : Option Nat → UInt64
  | none => w.val p
  | some i => (w.past p).getD i (w.val p)

/-- One step.  Simplified: datagrams are handled by a thread each; in the code there is one for a process, which handles them in turn. -/
def act (s : Setup) (w : World) : Act → World
  | .emit t p v =>
    match w.thr t with
    | .idle => if p ∈ s.members then { w with thr := upd w.thr t (.loading p true v) } else w
    | _ => w
  | .save t p v =>
    match w.thr t with
    | .idle => if p ∈ s.members ∧ w.db < v then { w with db := v, thr := upd w.thr t (.loading p true v) } else w
    | _ => w
  | .load t c =>
    match w.thr t with
    | .loading p udp v => { w with thr := upd w.thr t (.testing p udp v (readAny w p c)) }
    | _ => w
  | .test t c fail =>
    match w.thr t with
    | .testing p udp v old =>
      if old > v then { w with thr := upd w.thr t (.returned p v old) }
      else if w.val p = old ∧ fail = false then
        { w with val := upd w.val p v, past := upd w.past p (w.val p :: w.past p)
                 thr := upd w.thr t (if udp then .sending p v else .notifying p v) }
      else { w with thr := upd w.thr t (.testing p udp v (readAny w p c)) }
    | _ => w
  | .send t lost =>
    match w.thr t with
    | .sending p v =>
      { w with thr := upd w.thr t (.notifying p v)
               flying := if lost then w.flying else w.flying ++ s.members.map fun q => (q, message s.bus (s.pid p) v) }
    | _ => w
  | .notify t =>
    match w.thr t with
    | .notifying p v => { w with thr := upd (notifyAll p w.thr) t (.returned p v v) }
    | _ => w
  | .recv t i =>
    match w.flying[i]? with
    | none => w
    | some (p, b) =>
      match w.deaf p, w.thr t, handle s.bus (s.pid p) b with
      | false, .idle, .ok none => { w with flying := w.flying.eraseIdx i }
      | false, .idle, .ok (some v) => { w with flying := w.flying.eraseIdx i, thr := upd w.thr t (.loading p false v) }
      | false, .idle, .error _ => { w with flying := w.flying.eraseIdx i, deaf := upd w.deaf p true }
      | _, _, _ => w
  | .lose i => { w with flying := w.flying.eraseIdx i }
  | .stray p b => { w with flying := w.flying ++ [(p, b)] }
  | .look t p =>
    match w.thr t with
    | .idle => { w with thr := upd w.thr t (.looked p w.db) }
    | _ => w
  | .listen t =>
    match w.thr t with
    | .looked p h => { w with thr := upd w.thr t (.listening p h) }
    | _ => w
  | .wake t =>
    match w.thr t with
    | .notified p h => { w with thr := upd w.thr t (.awake p h (w.val p)) }
    | _ => w
  | .timeout t =>
    match w.thr t with
    | .listening p h => { w with thr := upd w.thr t (.timedOut p h) }
    | _ => w

/-- An execution. -/
def exec (s : Setup) (w : World) : List Act → World
  | [] => w
  | a :: as => exec s (act s w a) as

/-- The processes have opened the database, whose last stamp is `db`; a bus starts at 0, `ProcBus::new`, 67-87.  Left out: a process that opens it later. -/
def start (db : UInt64) : World where
  val _ := 0
  past _ := []
  thr _ := .idle
  flying := []
  deaf _ := false
  db := db

end Verif.Bus
