import Verif.Model.TreeKey
/-!
# The database: log, hash index, tree index and `save`

`crates/core/src/env/lmdb/{save,get,db,mod}.rs`.

LMDB itself is not modelled from its source. What is assumed of it: a table is a list sorted by its key; a
write transaction sees its own writes, and nothing of it reaches the disk before `commit`; `commit` is
atomic; write transactions exclude each other. Every LMDB call of `save` may fail or may be the moment the
process dies (`Call`).
-/
namespace Verif.Env
open Verif Verif.Pkt Verif.Tree

/-- The three tables, `crates/core/src/env/lmdb/db.rs:117-124`. `log`: stamp to packet, numeric order of stamps
    (`INTEGER_KEY`); `hash`: hash to stamp, byte order; `tree`: key to its sorted set of values (`DUP_SORT`).
    Simplified: the log holds the packet instead of its bytes (they determine each other, C01), and the two
    constant-width native-endian numbers are kept as numbers. -/
structure Db where
  log : List (Nat × NetParts) := []
  hash : List (Bytes × Nat) := []
  tree : List (Bytes × List Bytes) := []
deriving DecidableEq, Repr

/-- `SaveState`, `crates/core/src/env/misc.rs:7-15`. -/
inductive SaveState where
  | pending | error | exists | written
deriving DecidableEq, Repr
/-- `is_written`, `crates/core/src/env/misc.rs:16-20`. -/
def SaveState.isWritten : SaveState → Bool
  | .written => true
  | _ => false

/-- What happens at one call into LMDB: it succeeds, returns an error other than `KeyExist`, or the process dies
    before or after the call took effect. -/
inductive Call where
  | ok | fail | dieBefore | dieAfter
deriving DecidableEq, Repr

/-- Why `save` did not finish normally. -/
inductive Stop where
  | err | panic | died
deriving DecidableEq, Repr

/-! ### table operations -/

/-- The place of a key in a byte-ordered table (`mdb_put` on the `hash` table, whose key is known to be absent). -/
def hashIns (h : Bytes) (i : Nat) : List (Bytes × Nat) → List (Bytes × Nat)
  | [] => [(h, i)]
  | (k, j) :: r => if bytesLt h k then (h, i) :: (k, j) :: r else (k, j) :: hashIns h i r
/-- `MDB_SET` on the hash table: `HashCursor::read_uniq`, `crates/core/src/env/lmdb/db.rs:276-282`. -/
def hashGet (t : List (Bytes × Nat)) (h : Bytes) : Option Nat := (t.find? (fun e => e.1 == h)).map (·.2)
/-- `MDB_SET` on the log: `PktLogCursor::read_uniq`, `crates/core/src/env/lmdb/db.rs:247-253`. -/
def logGet (t : List (Nat × NetParts)) (i : Nat) : Option NetParts := (t.find? (fun e => e.1 == i)).map (·.2)

/-- Adding a value to the sorted set of values of one key. -/
def dupIns (v : Bytes) : List Bytes → List Bytes
  | [] => [v]
  | x :: r => if v = x then x :: r else if bytesLt v x then v :: x :: r else x :: dupIns v r
/-- `mdb_put` without flags on a `DUP_SORT` table. -/
def treeIns (k v : Bytes) : List (Bytes × List Bytes) → List (Bytes × List Bytes)
  | [] => [(k, [v])]
  | (k', vs) :: r =>
    if k = k' then (k', dupIns v vs) :: r
    else if bytesLt k k' then (k, [v]) :: (k', vs) :: r
    else (k', vs) :: treeIns k v r

/-- The last key of the log: `MDB_LAST`. -/
def lastStamp (t : List (Nat × NetParts)) : Option Nat := t.getLast?.map (·.1)

/-- `u64::MAX + 1`. -/
def u64End : Nat := 2 ^ 64

/-! ### `save` -/

/-- The stamp to begin with, `crates/core/src/env/lmdb/save.rs:26-39`. -/
def startStamp (now : Nat) (log : List (Nat × NetParts)) : Except Stop Nat :=
  match lastStamp log with
  | none => .ok now
  | some last => if last > now then (if last + 1 < u64End then .ok (last + 1) else .error .panic) else .ok now

/-- First pass, `crates/core/src/env/lmdb/save.rs:41-57`: put the hashes. Yields the states, and the number of the
    next call, the transaction's tables and the next stamp. -/
def putHashes (io : Nat → Call) : Nat → Db → Nat → List (NetParts × SaveState) →
    List (NetParts × SaveState) × Except Stop (Nat × Db × Nat)
  | n, db, at_, [] => ([], .ok (n, db, at_))
  | n, db, at_, (p, s) :: rest =>
    if s = .pending then
      match io n with
      | .fail => ((p, s) :: rest, .error .err)
      | .dieBefore | .dieAfter => ((p, s) :: rest, .error .died)
      | .ok =>
        match hashGet db.hash p.hash with
        | some _ =>
          let (r, o) := putHashes io (n + 1) db at_ rest
          ((p, .exists) :: r, o)
        | none =>
          if at_ + 1 < u64End then
            let (r, o) := putHashes io (n + 1) { db with hash := hashIns p.hash at_ db.hash } (at_ + 1) rest
            ((p, s) :: r, o)
          else ((p, s) :: rest, .error .panic)
    else
      let (r, o) := putHashes io n db at_ rest
      ((p, s) :: r, o)

/-- Second pass, `crates/core/src/env/lmdb/save.rs:65-93`: append to the log. `MDB_APPEND` refuses a key that does
    not come after the last one. -/
def putLog (io : Nat → Call) : Nat → Db → Nat → List (NetParts × SaveState) → Except Stop (Nat × Db)
  | n, db, _, [] => .ok (n, db)
  | n, db, at_, (p, s) :: rest =>
    if s = .pending then
      match io n with
      | .fail => .error .err
      | .dieBefore | .dieAfter => .error .died
      | .ok =>
        match lastStamp db.log with
        | some last => if at_ ≤ last then .error .err
            else putLog io (n + 1) { db with log := db.log ++ [(at_, p)] } (at_ + 1) rest
        | none => putLog io (n + 1) { db with log := db.log ++ [(at_, p)] } (at_ + 1) rest
    else putLog io n db at_ rest

/-- Third pass, `crates/core/src/env/lmdb/save.rs:96-111`: mark as written and put the tree entries. -/
def putTree (io : Nat → Call) : Nat → Db → Nat → List (NetParts × SaveState) →
    List (NetParts × SaveState) × Except Stop (Nat × Db × Nat)
  | n, db, at_, [] => ([], .ok (n, db, at_))
  | n, db, at_, (p, s) :: rest =>
    if s = .pending then
      match TreeEntry.fromPkt at_ p with
      | none =>
        let (r, o) := putTree io n db (at_ + 1) rest
        ((p, .written) :: r, o)
      | some e =>
        match io n with
        | .fail => ((p, .written) :: rest, .error .err)
        | .dieBefore | .dieAfter => ((p, .written) :: rest, .error .died)
        | .ok =>
          let (r, o) := putTree io (n + 1) { db with tree := treeIns e.key e.val db.tree } (at_ + 1) rest
          ((p, .written) :: r, o)
    else
      let (r, o) := putTree io n db at_ rest
      ((p, s) :: r, o)

/-- What is left when `save` is over: the tables on disk, the states handed back, and the result. -/
structure Saved where
  disk : Db
  pkts : List (NetParts × SaveState)
  out : Except Stop (Nat × Nat)

/-- `txn.commit()?; Ok(start..at)`, `crates/core/src/env/lmdb/save.rs:114-115`. -/
def commit (io : Nat → Call) (n : Nat) (disk txn : Db) (pkts : List (NetParts × SaveState)) (range : Nat × Nat) : Saved :=
  match io n with
  | .ok => ⟨txn, pkts, .ok range⟩
  | .fail => ⟨disk, pkts, .error .err⟩
  | .dieBefore => ⟨disk, pkts, .error .died⟩
  | .dieAfter => ⟨txn, pkts, .error .died⟩

/-- `LMDBEnv::save`, `crates/core/src/env/lmdb/save.rs:17-116`. `io n` is what the `n`-th call into LMDB does: call 0
    opens the transaction and its cursors and reads the last stamp. Simplified: opening the other two cursors does not fail on its own. -/
def save (io : Nat → Call) (now : Nat) (disk : Db) (pkts : List (NetParts × SaveState)) : Saved :=
  match io 0 with
  | .fail => ⟨disk, pkts, .error .err⟩
  | .dieBefore | .dieAfter => ⟨disk, pkts, .error .died⟩
  | .ok =>
    match startStamp now disk.log with
    | .error e => ⟨disk, pkts, .error e⟩
    | .ok start =>
      match putHashes io 1 disk start pkts with
      | (pkts, .error e) => ⟨disk, pkts, .error e⟩
      | (pkts, .ok (n, txn, at_)) =>
        if at_ - start = 0 then ⟨disk, pkts, .ok (start, at_)⟩
        else
          match putLog io n txn start pkts with
          | .error e => ⟨disk, pkts, .error e⟩
          | .ok (n, txn) =>
            match putTree io n txn start pkts with
            | (pkts, .error e) => ⟨disk, pkts, .error e⟩
            | (pkts, .ok (n, txn, at_)) => commit io n disk txn pkts (start, at_)

/-- `BTreeEnv::save`, `crates/core/src/env/lmdb/mod.rs:83-90`: the value handed to the bus that wakes the watchers. -/
def emitted (r : Saved) : Option Nat :=
  match r.out with
  | .ok (a, b) => if a < b then some (b - 1) else none
  | .error _ => none

/-- `save_dyn_iter`, `crates/core/src/env/lmdb/mod.rs:134-141`, and `save_dyn_one`, 121-125. -/
def saveAll (io : Nat → Call) (now : Nat) (disk : Db) (pkts : List NetParts) : Saved :=
  save io now disk (pkts.map (fun p => (p, .pending)))

/-- `lk_save`, `crates/linkspace/src/lib.rs:796-798`. -/
def lkSave (io : Nat → Call) (now : Nat) (disk : Db) (p : NetParts) : Db × Except Stop Bool :=
  let r := saveAll io now disk [p]
  (r.disk, match r.out with
    | .error e => .error e
    | .ok _ => match r.pkts with
      | (_, s) :: _ => .ok s.isWritten
      | [] => .error .panic)
/-- `lk_save_all`, `crates/linkspace/src/lib.rs:800-803`; the range is that of `lk_save_all_ext`, 805-811. -/
def lkSaveAll (io : Nat → Call) (now : Nat) (disk : Db) (pkts : List NetParts) : Db × Except Stop Nat :=
  let r := saveAll io now disk pkts
  (r.disk, match r.out with
    | .error e => .error e
    | .ok (a, b) => .ok (b - a))

/-! ### reading -/

/-- `read_ptr`, `crates/core/src/env/lmdb/get.rs:45-50`. -/
def Db.readPtr (db : Db) (h : Bytes) : Option Nat := hashGet db.hash h
/-- `read`, `crates/core/src/env/lmdb/get.rs:52-58`. -/
def Db.read (db : Db) (h : Bytes) : Option (Nat × NetParts) :=
  match db.readPtr h with
  | none => none
  | some i => (logGet db.log i).map (fun p => (i, p))
/-- `log_head`, `crates/core/src/env/lmdb/get.rs:59-62`, `PktLogCursor::last`, `crates/core/src/env/lmdb/db.rs:254-262`. -/
def Db.logHead (db : Db) : Nat := (lastStamp db.log).getD 0
/-- `local_pkt_log`, `crates/core/src/env/lmdb/get.rs:77-80`, and `range_uniq`, `crates/core/src/env/lmdb/db.rs:219-230`. -/
def Db.logFrom (db : Db) (i : Nat) : List (Nat × NetParts) := db.log.dropWhile (fun e => e.1 < i)
/-- `pkts_after`, `crates/core/src/env/lmdb/get.rs:81-83`: the addition overflows at `u64::MAX`. -/
def Db.pktsAfter (db : Db) (i : Nat) : Except Stop (List (Nat × NetParts)) :=
  if i + 1 < u64End then .ok (db.logFrom (i + 1)) else .error .panic
/-- `get_pkts_by_hash`, `crates/core/src/env/lmdb/get.rs:96-105`. -/
def Db.getByHash (db : Db) (hs : List Bytes) : List NetParts :=
  (hs.filterMap db.readPtr).filterMap (logGet db.log)
/-- `get_pkts_by_logidx`, `crates/core/src/env/lmdb/get.rs:106-113`. -/
def Db.getByLogidx (db : Db) (is : List Nat) : List NetParts := is.filterMap (logGet db.log)

/-! ### histories -/

/-- One call of `save` in the life of a database, by any process. -/
structure SaveEv where
  io : Nat → Call
  now : Nat
  pkts : List (NetParts × SaveState)

/-- A database after a sequence of saves. -/
def runSaves : Db → List SaveEv → Db
  | db, [] => db
  | db, e :: es => runSaves (save e.io e.now db e.pkts).disk es

end Verif.Env
