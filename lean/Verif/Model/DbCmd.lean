import Verif.Model.PktCmd
/-!
# Checking a database and importing a file of packets

Models `linkspace_info`, `crates/core/src/env/lmdb/db_info.rs`, and the commands `db-check` and `db-import` of `cli/linkspace/src/main.rs`.
-/
namespace Verif.DbCmd
open Verif Verif.Pkt Verif.Env Verif.Tree Verif.Pred Verif.Cmd

/-- One step of a stable sort by the stamp. -/
def insStamp (e : Nat × Bytes) : List (Nat × Bytes) → List (Nat × Bytes)
  | [] => [e]
  | x :: r => if e.1 ≤ x.1 then e :: x :: r else x :: insStamp e r
/-- `sort_by_key`, `crates/core/src/env/lmdb/db_info.rs:117`: stable. -/
def sortStamp : List (Nat × Bytes) → List (Nat × Bytes)
  | [] => []
  | e :: r => insStamp e (sortStamp r)

/-- The log as the check collects it, `crates/core/src/env/lmdb/db_info.rs:98-109`.  What is only evaluated for a trace is left out. -/
def logPairs (db : Db) : List (Nat × Bytes) := (db.logFrom 0).map fun e => (e.1, e.2.hash)
/-- The hash index from the all-zero hash on, in the order of the stamps, 111-117. -/
def hashPairs (db : Db) : List (Nat × Bytes) :=
  sortStamp ((db.hash.dropWhile fun e => bytesLt e.1 (zeros 32)).map fun e => (e.2, e.1))
/-- `get_next_entry` until there is none, 120-123 and `crates/core/src/env/lmdb/db.rs:307-316`.  It is `MDB_NEXT_DUP` on a new cursor, which
LMDB takes to the first entry; after that it gives the values of the same key and then nothing. -/
def walked (db : Db) : List Bytes :=
  match db.tree with
  | [] => []
  | (_, vs) :: _ => vs
/-- The log has an entry at the stamp a value of the tree leads to, `crates/core/src/env/lmdb/db_info.rs:124-127`.  The binary search finds it where
the log is in order, which it is as a table. -/
def pointsTo (log : List (Nat × Bytes)) (v : Bytes) : Bool := log.any fun e => e.1 == (TreeValue.ofBytes v).logptr

/-- `linkspace_info`, 95-162, and with it `db-check`, `cli/linkspace/src/main.rs:527-541`.  The two loops at the end only warn. -/
def linkspaceInfo (db : Db) : Except Stop Unit :=
  if (walked db).all (pointsTo (logPairs db)) && decide (logPairs db = hashPairs db) then
    match db.pktsAfter db.logHead with
    | .ok _ => .ok ()
    | .error e => .error e
  else .error .err

/-- The loop of `db-import`, `cli/linkspace/src/main.rs:549-557`, with the offset into the mapped file, whose start is aligned: away from a
multiple of 8 `read_pkt` copies the packet and the command panics (`todo!`).  Each packet has bytes, so `fuel` need not be
more than there are bytes. -/
def scan (C : Crypto) (dbg skip : Bool) : Nat → Nat → Bytes → PRes (List NetPkt)
  | _, _, [] => .ok []
  | 0, _, _ => .error .panic
  | fuel + 1, off, b =>
    match readPkt C dbg b skip with
    | .error .panic => .error .panic
    | .error (.err _) => .error (.err ())
    | .ok p =>
      if off % 8 = 0 then
        match scan C dbg skip fuel (off + p.size) (b.drop p.size) with
        | .ok ps => .ok (p :: ps)
        | .error e => .error e
      else .error .panic

/-- The packets as they are saved. -/
def itemsOf (dbg : Bool) : List NetPkt → PRes (List NetParts)
  | [] => .ok []
  | p :: ps =>
    match Item.ofPkt dbg p, itemsOf dbg ps with
    | .ok x, .ok xs => .ok (x.parts :: xs)
    | .error e, _ => .error e
    | _, .error e => .error e

/-- What an import prints: hash and state of each packet, their number, and the range of stamps. -/
structure Report where
  lines : List (Bytes × SaveState)
  count : Nat
  range : Nat × Nat

/-- `db-import`, `cli/linkspace/src/main.rs:543-563`: the database after it and what it prints. -/
def dbImport (C : Crypto) (dbg : Bool) (y : Sys) (o : IoOpts) (file : Bytes) (w : World) : World × PRes Report :=
  match scan C dbg o.skipHash file.length 0 file with
  | .error e => (w, .error e)
  | .ok ps =>
    match itemsOf dbg ps with
    | .error e => (w, .error e)
    | .ok xs =>
      let r := saveAll (y.io w.saves) (y.now w.saves) w.db xs
      ({ w with db := r.disk, saves := w.saves + 1 }, match r.out with
        | .ok range => .ok ⟨r.pkts.map fun e => (e.1.hash, e.2), r.pkts.length, range⟩
        | .error e => .error (ofStop e))

end Verif.DbCmd
