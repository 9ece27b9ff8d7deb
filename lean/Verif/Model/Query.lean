import Verif.Model.Env
import Verif.Model.Predicates
/-!
# Queries on the database

`crates/core/src/env/lmdb/{queries,tree_iter,get,db}.rs`, `crates/core/src/stamp_range.rs`,
`crates/core/src/predicate/{bitset_test,treekey}.rs`.

The iterators of the code are lazy; here a query yields the list of everything its iterator would yield. The sets are
used with debug assertions on, as in the shipped profile.  Simplified: an abort at any candidate is an abort of the
query, even where a limit would have stopped the reading before it.
-/
namespace Verif.Query
open Verif Verif.Pkt Verif.Tree Verif.Pred Verif.Env

/-! ### stamp ranges -/

/-- `StampRange`, `crates/core/src/stamp_range.rs:15-18`. -/
structure StampRange where
  start : Nat
  stop : Nat
deriving DecidableEq, Repr
/-- `Bound<u64>::stamp_range`, `crates/core/src/predicate/value_test.rs:637-645`. -/
def stampRange (b : Bound 64) (asc : Bool) : StampRange :=
  if asc then ⟨b.low.toNat, b.high.toNat⟩ else ⟨b.high.toNat, b.low.toNat⟩
/-- `after` and `asc_from`, `crates/core/src/stamp_range.rs:36-50`: both add one, which overflows at the last stamp. -/
def StampRange.after (s : Nat) : Option StampRange := if s + 1 < 2 ^ 64 then some ⟨s + 1, 2 ^ 64 - 1⟩ else none
def StampRange.ascFrom (s : Nat) : Option StampRange := if s + 1 < 2 ^ 64 then some ⟨s + 1, 2 ^ 64 - 1⟩ else none
/-- `rev`, 51-57. -/
def StampRange.rev (r : StampRange) : StampRange := ⟨r.stop, r.start⟩
/-- `is_ascending`, 58-60. -/
def StampRange.isAscending (r : StampRange) : Bool := decide (r.start < r.stop)
/-- `bound_cmp`, 73-81. -/
def StampRange.boundCmp (r : StampRange) (i : Nat) : Ordering :=
  match compare r.start i, compare r.stop i with
  | .lt, .lt => .lt
  | .gt, .gt => .gt
  | _, _ => .eq
/-- `contains`, 67-72. -/
def StampRange.contains (r : StampRange) (i : Nat) : Bool := r.boundCmp i == .eq
/-- `IterCmp`, 151-155. -/
inductive IterCmp where
  | pre | inside | post
deriving DecidableEq, Repr
/-- An `Ordering` as the `i8` of the code. -/
def ordInt : Ordering → Int
  | .lt => -1
  | .eq => 0
  | .gt => 1
/-- `iter_cmp_u64`, 89-99, with `unchecked_from`, 157-164. -/
def StampRange.iterCmp (r : StampRange) (i : Nat) : IterCmp :=
  let start := ordInt (compare r.start i)
  let stop := ordInt (compare r.stop i)
  let v := if start = stop then start else 0
  let dir := ordInt (compare r.start r.stop)
  let x := if dir = 0 then - v else dir * v
  if x = -1 then .pre else if x = 0 then .inside else .post
/-- `lower_bound`, `upper_bound`, 100-106. -/
def StampRange.lower (r : StampRange) : Nat := min r.start r.stop
def StampRange.upper (r : StampRange) : Nat := max r.start r.stop

/-! ### the set of depths -/

/-- `BitTestSet`, `crates/core/src/predicate/bitset_test.rs:10`. -/
abbrev BitSet := BitVec 32
/-- `contains`, 64-66. -/
def BitSet.has (b : BitSet) (d : Nat) : Bool := decide (d < 32) && b.getLsbD d
/-- `from_el_iter`, 67-72. -/
def BitSet.ofList (l : List Nat) : BitSet := l.foldl (fun b i => b ||| (if i < 32 then 1#32 <<< i else 0#32)) 0#32
/-- `from_rules`, 58-60. -/
def BitSet.fromRules (t : TestSet 8) : PRes BitSet :=
  match t.rules true with
  | .error e => .error e
  | .ok rs => .ok (BitSet.ofList ((List.range 9).filter (fun d => rs.all (fun r => r.1.holds (BitVec.ofNat 8 d) r.2))))
/-- `next_depth`, 78-85: the lowest bit above `d`, as the search from below for the trailing zeros. -/
def BitSet.next (b : BitSet) (d : Nat) : Option Nat := ((List.range 32).filter (fun i => decide (d < i))).find? (fun i => b.has i)
/-- `info`, 86-96. -/
structure DepthInfo where
  inSet : Bool
  val : Option Nat
deriving DecidableEq, Repr
def BitSet.info (b : BitSet) (d : Nat) : DepthInfo := ⟨b.has d, if b.has d then some d else b.next d⟩

/-! ### the keys a query asks for -/

/-- `TreeKeys`, `crates/core/src/predicate/treekey.rs:20-27`. -/
structure TreeKeys where
  domain : TestSet 128
  group : TestSet 256
  rspace : Bytes
  depth : BitSet
  pubkey : TestSet 256
  cstamp : StampRange

/-- Why a query does not yield a list. `hang`: it loops for ever. `stray`: the code reads on from a cursor whose last
move failed, and what LMDB answers then is not modelled. -/
inductive QStop where
  | panic | hang | stray
deriving DecidableEq, Repr
abbrev QRes (α : Type) := Except QStop α

/-- A failure of a set operation is a panic here (`unwrap`). -/
def lift {α} : PRes α → QRes α
  | .ok a => .ok a
  | .error _ => .error .panic

/-- `compile_tree_keys`, `crates/core/src/predicate/pkt_predicates.rs:333-343`. -/
def treeKeys (s : Preds) (asc : Bool) : PRes TreeKeys :=
  match BitSet.fromRules (s.set .depth) with
  | .error e => .error e
  | .ok d => .ok ⟨s.set .domain, s.set .group, s.rspace, d, s.set .pubkey, stampRange (s.set .create).bound asc⟩

/-- The bytes of a number: `to_be_bytes::<32>()`, `to_be_bytes::<16>()`. -/
def be {w : Nat} (v : BitVec w) : Bytes := beBytes (w / 8) v.toNat
/-- The number of bytes read big-endian. -/
def num (w : Nat) (b : Bytes) : BitVec w := BitVec.ofNat w (beNat b)

/-- `lower_bound`, `crates/core/src/predicate/treekey.rs:30-52`; the error is unwrapped by the caller. -/
def TreeKeys.lowerBound (q : TreeKeys) : PRes Bytes :=
  match q.group.info true (minV 256), q.domain.info true (minV 128), q.pubkey.info true (minV 256) with
  | .ok g, .ok d, .ok k =>
    match g.val, d.val, (q.depth.info 0).val, k.val with
    | some gv, some dv, some n, some kv => .ok (be gv ++ be dv ++ [UInt8.ofNat n] ++ spaceOf q.rspace ++ be kv)
    | _, _, _, _ => .error .panic
  | _, _, _ => .error .panic

/-! ### the cursor -/

/-- The tree table. -/
abbrev Table := List (Bytes × List Bytes)

/-- `IterDup`, `crates/core/src/env/lmdb/db.rs:285-288`, with the entry it stands on: the values of the same key still
ahead in the direction of the iteration, and the keys ahead. -/
structure Cur where
  key : Bytes
  val : Bytes
  more : List Bytes
  after : Table
deriving DecidableEq, Repr

/-- On the first key of a rest of the table, at its first value, or its last one when going backwards in time. -/
def seat (asc : Bool) : Table → Option Cur
  | [] => none
  | (k, vs) :: r =>
    match (if asc then vs else vs.reverse) with
    | [] => none
    | v :: m => some ⟨k, v, m, r⟩
/-- `set_range`, `crates/core/src/env/lmdb/db.rs:304-312`. -/
def setRange (t : Table) (asc : Bool) (start : Bytes) : Option Cur := seat asc (t.dropWhile (fun e => bytesLt e.1 start))
/-- `get_next_range`, 323-331. -/
def Cur.nextRange (c : Cur) (asc : Bool) : Option Cur := seat asc c.after

/-- `create()` of an entry. -/
def createOf (v : Bytes) : Nat := (TreeValue.ofBytes v).create

/-- `next_stamp_match`, `crates/core/src/env/lmdb/tree_iter.rs:29-40`. -/
def nextStamp (r : StampRange) (k : Bytes) (after : Table) : Bytes → List Bytes → Option Cur
  | v, more =>
    match r.iterCmp (createOf v) with
    | .inside => some ⟨k, v, more, after⟩
    | .post => none
    | .pre => match more with
      | [] => none
      | v' :: m => nextStamp r k after v' m

/-- What `set_pointer_at_match` decides about a key. -/
inductive Look where
  | here
  | over
  | jump (b : Bytes)
deriving DecidableEq, Repr

/-- One round of the loop of `set_pointer_at_match`, `crates/core/src/env/lmdb/tree_iter.rs:47-128`, up to the jump. -/
def look (q : TreeKeys) (lb : Bytes) (k : Bytes) : PRes Look :=
  match q.group.info true (num 256 (keyGroup k)), q.domain.info true (num 128 (keyDomain k)),
      q.pubkey.info true (num 256 (keyPubkey k)) with
  | .ok group, .ok domain, .ok key =>
    let depth := q.depth.info (keyDepth k).toNat
    let prefixOk := Space.startsWith (keySpace k) (spaceOf q.rspace)
    if key.inSet && depth.inSet && prefixOk && domain.inSet && group.inSet then .ok .here
    else
      match group.val with
      | none => .ok .over
      | some gv =>
        let jump := be gv ++
          (if group.inSet then
            match domain.val with
            | none => List.replicate 16 255 ++ [255]
            | some dv => be dv ++
              (if domain.inSet then
                (if !depth.inSet || !prefixOk then [UInt8.ofNat ((q.depth.next (depth.val.getD 255)).getD 255)]
                else [UInt8.ofNat (depth.val.getD 255)] ++ keySpace k ++
                  (match key.val with | some kv => be kv | none => List.replicate 32 255))
              else [])
          else [])
        .ok (.jump (jump ++ lb.drop jump.length))
  | _, _, _ => .error .panic

/-- Where `set_pointer_at_match` and `next_scope` end: on a match; or with nothing, the cursor left on an entry or after
a failed move. -/
inductive Sought where
  | found (c : Cur)
  | nothing (left : Option Cur)
deriving DecidableEq, Repr

/-- `set_pointer_at_match`, `crates/core/src/env/lmdb/tree_iter.rs:42-134`. `MDB_SET_RANGE` searches the whole table. A
jump target that is not after the current key is the target of every key from it up to the current one, so the loop
never leaves; this is `hang`. Otherwise the search is among the keys ahead. The first argument bounds the recursion and
is the number of keys ahead plus one. -/
def seek (asc : Bool) (q : TreeKeys) (lb : Bytes) : Nat → Cur → QRes Sought
  | 0, _ => .error .hang
  | n + 1, c =>
    let go := fun (b : Bytes) =>
      if bytesLt c.key b then
        match setRange c.after asc b with
        | none => .ok (.nothing none)
        | some c' => seek asc q lb n c'
      else .error .hang
    match look q lb c.key with
    | .error _ => .error .panic
    | .ok .over => .ok (.nothing (some c))
    | .ok .here =>
      match nextStamp q.cstamp c.key c.after c.val c.more with
      | some c' => .ok (.found c')
      | none => go (c.key ++ [255])
    | .ok (.jump b) => go b

/-- `next_scope`, 136-140. -/
def nextScope (asc : Bool) (q : TreeKeys) (lb : Bytes) (c : Cur) : QRes Sought :=
  match c.nextRange asc with
  | none => .ok (.nothing none)
  | some c' => seek asc q lb (c'.after.length + 1) c'

/-! ### tree queries -/

/-- The tests on an entry, `crates/core/src/env/lmdb/queries.rs:104-108`. -/
def entryOk (s : Preds) (v : Bytes) : QRes Bool :=
  let e := TreeValue.ofBytes v
  match (s.set .create).test true (BitVec.ofNat _ e.create) with
  | .error _ => .error .panic
  | .ok false => .ok false
  | .ok true =>
    if !s.recv.test (BitVec.ofNat 64 e.logptr) then .ok false
    else match (s.set .hash).test true (num _ e.hash) with
      | .error _ => .error .panic
      | .ok false => .ok false
      | .ok true =>
        match (s.set .linksLen).test true (BitVec.ofNat _ e.linksLen) with
        | .error _ => .error .panic
        | .ok false => .ok false
        | .ok true =>
          match (s.set .dataSize).test true (BitVec.ofNat _ e.dataSize) with
          | .error _ => .error .panic
          | .ok r => .ok r

/-- `MembershipIter::peek` being `None`, `crates/core/src/predicate/value_test.rs:713-718`. -/
def spentAt (t : TestSet 32) (n : BitVec 32) : QRes Bool :=
  if t.bound.high < n then .ok true
  else match t.test true n with
    | .error _ => .error .panic
    | .ok _ => .ok false

/-- How the entries of one key are left: no entry follows, or the counter of the branch is used up. -/
inductive Exit where
  | ended | spent
deriving DecidableEq, Repr

/-- Putting results in front. -/
def consOut {α} (v : Bytes) : QRes (List Bytes × α) → QRes (List Bytes × α)
  | .ok (l, x) => .ok (v :: l, x)
  | .error e => .error e

/-- The rounds of the loop of `query_tree_entries` on the entries of one key, `crates/core/src/env/lmdb/queries.rs:74-124`,
with `next_entry`, `tree_iter.rs:23-28`: the position of the branch counter, the entry and the values ahead. After a
yield the counter is looked at first, and if it is used up one `next_entry` more is made when the first gives nothing. -/
def branch (s : Preds) (r : StampRange) : BitVec 32 → Bytes → List Bytes → QRes (List Bytes × Exit)
  | n, v, more =>
    match entryOk s v with
    | .error e => .error e
    | .ok false =>
      match more with
      | [] => .ok ([], .ended)
      | v' :: m => if r.contains (createOf v') then branch s r n v' m else .ok ([], .ended)
    | .ok true =>
      match (s.state .branch).memberNext true n with
      | .error _ => .error .panic
      | .ok none => .ok ([], .spent)
      | .ok (some (false, n')) =>
        match more with
        | [] => .ok ([], .ended)
        | v' :: m => if r.contains (createOf v') then branch s r n' v' m else .ok ([], .ended)
      | .ok (some (true, n')) =>
        match spentAt (s.state .branch) n' with
        | .error e => .error e
        | .ok b =>
          consOut v (match more with
            | [] => .ok ([], .ended)
            | v' :: m =>
              if r.contains (createOf v') then branch s r n' v' m
              else if b then
                match m with
                | [] => .ok ([], .ended)
                | v'' :: m' => if r.contains (createOf v'') then branch s r n' v'' m' else .ok ([], .ended)
              else .ok ([], .ended))

/-- The whole of `query_tree_entries` from a match on, `crates/core/src/env/lmdb/queries.rs:74-124`. When the counter of
a branch is used up and there is no further scope, the loop goes on with `next_entry` wherever the cursor was left. The
first argument bounds the recursion and is the number of keys ahead plus one. -/
def scan (asc : Bool) (s : Preds) (q : TreeKeys) (lb : Bytes) : Nat → Cur → QRes (List TreeEntry)
  | 0, _ => .error .hang
  | fuel + 1, c =>
    match branch s q.cstamp 0#32 c.val c.more with
    | .error e => .error e
    | .ok (vs, ex) =>
      let out := vs.map (TreeEntry.mk c.key)
      let rest : QRes (List TreeEntry) :=
        match nextScope asc q lb c with
        | .error e => .error e
        | .ok (.found c') => scan asc s q lb fuel c'
        | .ok (.nothing left) =>
          match ex with
          | .ended => .ok []
          | .spent =>
            match left with
            | none => .error .stray
            | some c' =>
              match c'.more with
              | [] => scanScope asc s q lb fuel c'
              | v :: m => if q.cstamp.contains (createOf v) then scan asc s q lb fuel { c' with val := v, more := m }
                  else scanScope asc s q lb fuel c'
      match rest with
      | .error e => .error e
      | .ok l => .ok (out ++ l)
where
  /-- No entry follows at the cursor: on to the next scope. -/
  scanScope (asc : Bool) (s : Preds) (q : TreeKeys) (lb : Bytes) : Nat → Cur → QRes (List TreeEntry)
    | 0, _ => .error .hang
    | fuel + 1, c =>
      match nextScope asc q lb c with
      | .error e => .error e
      | .ok (.found c') => scan asc s q lb fuel c'
      | .ok (.nothing _) => .ok []

/-- `query_tree_entries` with `scope_iter`, `crates/core/src/env/lmdb/queries.rs:40-125`. -/
def treeEntries (t : Table) (asc : Bool) (s : Preds) : QRes (List TreeEntry) :=
  match spentAt (s.state .branch) 0#32 with
  | .error e => .error e
  | .ok true => .error .panic
  | .ok false =>
    match treeKeys s asc with
    | .error _ => .error .panic
    | .ok q =>
      match q.lowerBound with
      | .error _ => .error .panic
      | .ok lb =>
        match setRange t asc lb with
        | none => .ok []
        | some c =>
          match seek asc q lb (c.after.length + 1) c with
          | .error e => .error e
          | .ok (.nothing _) => .ok []
          | .ok (.found c') => scan asc s q lb (c'.after.length + 1) c'

/-- `it.zip(set.iter(0))` or `it.zip(set.iter_contains(at))` followed by `filter_map`: the items whose position is in the
set, and the position reached. The item is taken before the set is asked. -/
def select {α} (t : TestSet 32) : BitVec 32 → List α → QRes (List α × BitVec 32)
  | n, [] => .ok ([], n)
  | n, x :: xs =>
    match t.memberNext true n with
    | .error _ => .error .panic
    | .ok none => .ok ([], n)
    | .ok (some (b, n')) =>
      match select t n' xs with
      | .error e => .error e
      | .ok (l, m) => .ok (if b then x :: l else l, m)

/-- `treekey_checked`, `crates/core/src/env/tree_key.rs:11-29`. -/
def treeChecked : VF → Bool
  | .hash | .pubkey | .group | .domain | .create | .depth | .linksLen | .dataSize => true
  | _ => false

/-- `read_pkt` of every entry, unwrapped. -/
def readAll (db : Db) : List Nat → QRes (List (Nat × NetParts))
  | [] => .ok []
  | i :: is =>
    match logGet db.log i, readAll db is with
    | _, .error e => .error e
    | none, .ok _ => .error .panic
    | some p, .ok l => .ok ((i, p) :: l)

/-- The tests that are left for the packet. -/
def restTests (s : Preds) (skip : VF → Bool) : List (NetParts → Bool) :=
  (VF.order.filter (fun f => !skip f)).flatMap s.fieldTest

/-- `query_tree`, `crates/core/src/env/lmdb/queries.rs:126-150`. -/
def queryTree (db : Db) (asc : Bool) (s : Preds) : QRes (List (Nat × NetParts)) :=
  match treeEntries db.tree asc s with
  | .error e => .error e
  | .ok es =>
    match readAll db (es.map (fun e => (TreeValue.ofBytes e.val).logptr)) with
    | .error e => .error e
    | .ok ps =>
      match select (s.state .index) 0#32 (ps.filter (fun e => (restTests s treeChecked).all (fun t => t e.2))) with
      | .error e => .error e
      | .ok (l, _) => .ok l

/-! ### log queries -/

/-- `log_range`, `crates/core/src/env/lmdb/get.rs:63-75`, with `range_uniq_rev`, `db.rs:231-246`, which starts at the end
of the log whatever the start. -/
def logRange (db : Db) (r : StampRange) : List (Nat × NetParts) :=
  if r.start ≤ r.stop then db.logFrom r.start else db.log.reverse

/-- `query_log2`, `crates/core/src/env/lmdb/queries.rs:152-168`. -/
def queryLog (db : Db) (asc : Bool) (s : Preds) : QRes (List (Nat × NetParts)) :=
  match select (s.state .branch) 0#32 (logRange db (stampRange s.recv asc)) with
  | .error e => .error e
  | .ok (l, _) =>
    match select (s.state .index) 0#32 (l.filter (fun e => s.test e.2)) with
    | .error e => .error e
    | .ok (l, _) => .ok l

/-! ### hash queries -/

/-- `query_hash_entries`, `crates/core/src/env/lmdb/queries.rs:170-203`; going backwards is `todo!()`. -/
def hashEntries (db : Db) (asc : Bool) (t : TestSet 256) (recv : Bound 64) : QRes (List Nat) :=
  if asc then
    .ok ((((db.hash.dropWhile (fun e => bytesLt e.1 (be t.bound.low))).takeWhile
      (fun e => decide (num 256 e.1 ≤ t.bound.high))).filter
      (fun e => recv.test (BitVec.ofNat 64 e.2) && t.mask.test (num 256 e.1))).map (·.2))
  else .error .panic

/-- `query_hash`, 204-226. -/
def queryHash (db : Db) (asc : Bool) (s : Preds) : QRes (List (Nat × NetParts)) :=
  match hashEntries db asc (s.set .hash) s.recv with
  | .error e => .error e
  | .ok is =>
    match readAll db is with
    | .error e => .error e
    | .ok ps =>
      let tests := restTests s (fun f => f == .hash) ++ (if s.rspace = [] then [] else [prefixTest (spaceOf s.rspace)])
      match select (s.state .index) 0#32 (ps.filter (fun e => tests.all (fun t => t e.2))) with
      | .error e => .error e
      | .ok (l, _) => .ok l

/-! ### any query -/

/-- `Table`, `Order` and `Mode`, `crates/core/src/env/query_mode.rs:8-46`. -/
inductive TableName where
  | hash | tree | log
deriving DecidableEq, Repr
structure Mode where
  table : TableName
  asc : Bool
deriving DecidableEq, Repr
/-- The default, 47-60. -/
def Mode.default : Mode := ⟨.tree, false⟩

/-- `ReadTxn::query`, `crates/core/src/env/lmdb/queries.rs:228-262`: the results and the counter after them. -/
def candidates (db : Db) (m : Mode) (s : Preds) : QRes (List (Nat × NetParts)) :=
  match m.table with
  | .hash => queryHash db m.asc s
  | .tree => queryTree db m.asc s
  | .log => queryLog db m.asc s
def query (db : Db) (m : Mode) (s : Preds) (nth : BitVec 32) : QRes (List (Nat × NetParts) × BitVec 32) :=
  match candidates db m s with
  | .error e => .error e
  | .ok l => select (s.state .query) nth l

/-- `lk_get_all`, `crates/linkspace/src/lib.rs:819-838`, with a callback that never stops, and `lk_get`, 841-850. -/
def getAll (db : Db) (m : Mode) (s : Preds) : QRes (List (Nat × NetParts)) :=
  match query db m s 0#32 with
  | .error e => .error e
  | .ok (l, _) => .ok l
def getFirst (db : Db) (m : Mode) (s : Preds) : QRes (Option (Nat × NetParts)) :=
  match getAll db m s with
  | .error e => .error e
  | .ok l => .ok l.head?

end Verif.Query
