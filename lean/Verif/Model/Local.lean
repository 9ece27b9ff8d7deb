import Verif.Model.Votes
/-!
# Local names (`crates/common/src/protocols/lns/{local_claim,admin,mod}.rs`)

A call reads the clock and opens a reader several times; here there is one time and one state of the database for all of a call.
-/
namespace Verif.Query
open Verif Verif.Pkt Verif.Tree Verif.Pred Verif.Env

/-- The first call of the iterator of `query_tree_entries` on the entries of one key, `crates/core/src/env/lmdb/queries.rs:74-124`: as
`branch`, up to the first entry that is given. -/
def branchFirst (s : Preds) (r : StampRange) : BitVec 32 → Bytes → List Bytes → QRes (Option Bytes × Exit)
  | n, v, more =>
    match entryOk s v with
    | .error e => .error e
    | .ok false =>
      match more with
      | [] => .ok (none, .ended)
      | v' :: m => if r.contains (createOf v') then branchFirst s r n v' m else .ok (none, .ended)
    | .ok true =>
      match (s.state .branch).memberNext true n with
      | .error _ => .error .panic
      | .ok none => .ok (none, .spent)
      | .ok (some (false, n')) =>
        match more with
        | [] => .ok (none, .ended)
        | v' :: m => if r.contains (createOf v') then branchFirst s r n' v' m else .ok (none, .ended)
      | .ok (some (true, _)) => .ok (some v, .ended)

/-- The first entry from a match on: as `scan`. -/
def scanFirst (asc : Bool) (s : Preds) (q : TreeKeys) (lb : Bytes) : Nat → Cur → QRes (Option TreeEntry)
  | 0, _ => .error .hang
  | fuel + 1, c =>
    match branchFirst s q.cstamp 0#32 c.val c.more with
    | .error e => .error e
    | .ok (some v, _) => .ok (some ⟨c.key, v⟩)
    | .ok (none, ex) =>
      match nextScope asc q lb c with
      | .error e => .error e
      | .ok (.found c') => scanFirst asc s q lb fuel c'
      | .ok (.nothing left) =>
        match ex with
        | .ended => .ok none
        | .spent =>
          match left with
          | none => .error .stray
          | some c' =>
            match c'.more with
            | [] => scanScope asc s q lb fuel c'
            | v :: m => if q.cstamp.contains (createOf v) then scanFirst asc s q lb fuel { c' with val := v, more := m }
                else scanScope asc s q lb fuel c'
where
  scanScope (asc : Bool) (s : Preds) (q : TreeKeys) (lb : Bytes) : Nat → Cur → QRes (Option TreeEntry)
    | 0, _ => .error .hang
    | fuel + 1, c =>
      match nextScope asc q lb c with
      | .error e => .error e
      | .ok (.found c') => scanFirst asc s q lb fuel c'
      | .ok (.nothing _) => .ok none

/-- `query_tree_entries(..).next()`, `crates/core/src/env/lmdb/queries.rs:40-125`. -/
def treeFirst (t : Table) (asc : Bool) (s : Preds) : QRes (Option TreeEntry) :=
  match spentAt (s.state .branch) 0#32 with
  | .error e => .error e
  | .ok true => .error .panic
  | .ok false =>
    match treeKeys s asc with
    | .error _ => .error .panic
    | .ok q =>
      match q.lowerBound with
      | .error _ => .error .panic
      | .ok lb =>
        match setRange t asc lb with
        | none => .ok none
        | some c =>
          match seek asc q lb (c.after.length + 1) c with
          | .error e => .error e
          | .ok (.nothing _) => .ok none
          | .ok (.found c') => scanFirst asc s q lb (c'.after.length + 1) c'

/-- `query_tree(..).next()`, `crates/core/src/env/lmdb/queries.rs:126-150`, for predicates with nothing to test in the packet itself and
no `i_db`, as all of this file are (`spot_rest`): the packet of the first entry. -/
def queryFirst (db : Db) (asc : Bool) (s : Preds) : QRes (Option (Nat × NetParts)) :=
  match treeFirst db.tree asc s with
  | .error e => .error e
  | .ok none => .ok none
  | .ok (some e) =>
    match logGet db.log (TreeValue.ofBytes e.val).logptr with
    | none => .error .panic
    | some p => .ok (some ((TreeValue.ofBytes e.val).logptr, p))

end Verif.Query

namespace Verif.Lns
open Verif Verif.Pkt Verif.Pred Verif.Env Verif.Query Verif.Shake Verif.Tree

/-- Why a call did not finish: an error is returned, or the query or something else stops (`QStop`). -/
inductive LStop
  | err
  | stop (q : QStop)
  deriving DecidableEq, Repr
abbrev LRes (α : Type) := Except LStop α

/-- `unwrap`, and passing a query on. -/
def unwrapL {ε α : Type} : Except ε α → LRes α
  | .ok a => .ok a
  | .error _ => .error (.stop .panic)
def runL {α : Type} : QRes α → LRes α
  | .ok a => .ok a
  | .error q => .error (.stop q)
/-- `?`. -/
def tryL {ε α : Type} : Except (Fault ε) α → LRes α
  | .ok a => .ok a
  | .error (.err _) => .error .err
  | .error .panic => .error (.stop .panic)

/-- The predicates for one space of the private group and the domain `lns`: `from_gdp` with `exact`,
`crates/core/src/predicate/builder.rs:13-22`, and `from_gd` with `space`, 24-32; `create_before`, 58-61; and the key of the admin.  `space` returns
an error where `from_gdp` unwraps; its caller unwraps it. -/
def spotPreds (sp : Bytes) (now : Nat) (admin : Option Bytes) : LRes Preds :=
  let s := Preds.default
  let s := s.put .group ((s.set .group).add .equal (num _ privateGroup))
  let s := s.put .domain ((s.set .domain).add .equal (num _ lnsDomain))
  match unwrapL (s.addPrefix true sp) with
  | .error e => .error e
  | .ok s =>
    match unwrapL (s.addTo true .depth .equal (BitVec.ofNat _ s.preDepth.toNat)) with
    | .error e => .error e
    | .ok s =>
      match tryL (s.addTo true .create .less (BitVec.ofNat _ now)) with
      | .error e => .error e
      | .ok s =>
        match admin with
        | none => .ok s
        | some k => .ok (s.put .pubkey ((s.set .pubkey).add .equal (num _ k)))

/-- `get_private_claim`, `local_claim.rs:11-32`. -/
def privateClaim (db : Db) (now : Nat) (name : Name) (admin : Option Bytes) : LRes (Option (Nat × NetParts)) :=
  match unwrapL name.claimSpace with
  | .error e => .error e
  | .ok path =>
    match spotPreds (spaceOf path) now admin with
    | .error e => .error e
    | .ok s => runL (queryFirst db false (s.putState .branch ((TestSet.default 32).add .equal 0#32)))

/-- `BY_TAG_P`, `mod.rs:58`, and the space `/by-tag/TAG/PTR`, `admin.rs:157`. -/
def byTag : Bytes := [1, 7, 7, 7, 7, 7, 7, 7, 6] ++ ascii "by-tag"
def byTagSpace (tag ptr : Bytes) : LRes Bytes :=
  match unwrapL (Space.tryPush (spaceOf byTag) tag) with
  | .error e => .error e
  | .ok sp => unwrapL (Space.tryPush sp ptr)

/-- `ptr_lookup_entry`, `admin.rs:152-173`.  The time being 0 would be an unwrapped error here. -/
def tagEntry (db : Db) (now : Nat) (tag ptr : Bytes) (admin : Option Bytes) : LRes (Option (Nat × NetParts)) :=
  match byTagSpace tag ptr with
  | .error e => .error e
  | .ok sp =>
    match spotPreds sp now admin with
    | .error _ => .error (.stop .panic)
    | .ok s => runL (queryFirst db false s)

/-- `Claim::read`, `claim.rs:108-110`. -/
def Claim.read (db : Db) (h : Bytes) : LRes (Option Claim) :=
  match db.read h with
  | none => .ok none
  | some e =>
    match tryL (Claim.ofPkt e.2) with
    | .error e => .error e
    | .ok c => .ok (some c)

/-- The `find_map` of `ptr_lookup`, `admin.rs:147-149`, over `read_claims`, 176-186: the first link that has not ended and whose packet is a
claim. -/
def firstClaim (db : Db) (now : Nat) : List Link → LRes (Option Claim)
  | [] => .ok none
  | l :: ls =>
    if (asStampTag l.tag).1 > now then
      match Claim.read db l.ptr with
      | .ok (some c) => .ok (some c)
      | .ok none => firstClaim db now ls
      | .error .err => firstClaim db now ls
      | .error (.stop q) => .error (.stop q)
    else firstClaim db now ls
/-- `ptr_lookup`, `admin.rs:139-150`. -/
def tagLookup (db : Db) (now : Nat) (tag ptr : Bytes) (admin : Option Bytes) : LRes (Option Claim) :=
  match tagEntry db now tag ptr admin with
  | .error e => .error e
  | .ok none => .ok none
  | .ok (some e) => firstClaim db now e.2.getLinks

/-- `dummy_root`, `mod.rs:106-121`: an unwrapped claim of the name. -/
def dummyRoot (C : Crypto) (nh : Bytes) (name : Name) : LRes Claim :=
  unwrapL (Claim.new C nh name (u64End - 1) [⟨List.replicate 16 255, List.replicate 32 0⟩] [])

/-- `lookup_claim`, `mod.rs:174-176`, through `lookup_live_chain`, 124-147. -/
def lookupClaim (C : Crypto) (nh : Bytes) (db : Db) (iter : List Tally → List Tally) (now : Nat) (name : Name) : LRes (Option Claim) :=
  if name.isLocal then
    match privateClaim db now name none with
    | .error e => .error e
    | .ok (some p) =>
      match tryL (Claim.ofPkt p.2) with
      | .error e => .error e
      | .ok c => .ok (some c)
    | .ok none =>
      match dummyRoot C nh name with
      | .error e => .error e
      | .ok _ => .ok none
  else
    match runL (lookupPublic db iter name) with
    | .error e => .error e
    | .ok ((ok, s, _), _) => .ok (if ok then some s.claim else none)

/-- `lookup_pubkey` and `lookup_group`, `mod.rs:166-172`. -/
def lookupPubkey (C : Crypto) (nh : Bytes) (db : Db) (iter : List Tally → List Tally) (now : Nat) (name : Name) : LRes (Option Bytes) :=
  match lookupClaim C nh db iter now name with
  | .error e => .error e
  | .ok c => .ok (c.bind Claim.pubkey)
def lookupGroup (C : Crypto) (nh : Bytes) (db : Db) (iter : List Tally → List Tally) (now : Nat) (name : Name) : LRes (Option Bytes) :=
  match lookupClaim C nh db iter now name with
  | .error e => .error e
  | .ok c => .ok (c.bind Claim.group)

/-- `reverse_lookup`, `mod.rs:179-194`. -/
def reverseLookup (C : Crypto) (nh : Bytes) (db : Db) (iter : List Tally → List Tally) (now : Nat) (tag ptr : Bytes) : LRes (Option Claim) :=
  match tagLookup db now tag ptr none with
  | .error e => .error e
  | .ok none => .ok none
  | .ok (some claim) =>
    match lookupClaim C nh db iter now claim.name with
    | .error e => .error e
    | .ok none => .ok none
    | .ok (some byName) => if (firstTail byName.pkt.getLinks tag).map (·.ptr) = some ptr then .ok (some byName) else .error .err

/-- The links of `mut_ptrlookup_entry`, `admin.rs:228-238`. -/
def entryLinks (links : List Link) (remove : Option Bytes) (add : Option (Bool × Link)) (now : Nat) : List Link :=
  let kept := (links.filter fun l => decide (some l.ptr ≠ remove)).filter fun l => decide ((asStampTag l.tag).1 > now)
  match add with
  | some (true, l) => l :: kept
  | some (false, l) => kept ++ [l]
  | none => kept

/-- `mut_ptrlookup_entry`, `admin.rs:218-240`; `point` unwraps, `crates/pkt/src/builder.rs:46-67`. -/
def mutEntry (C : Crypto) (nh : Bytes) (links : List Link) (path : Bytes) (remove : Option Bytes) (add : Option (Bool × Link))
    (admin : Option C.Key) (now : Nat) : LRes NetParts :=
  unwrapL (match admin with
    | none => tryLinkpoint C privateGroup lnsDomain path (entryLinks links remove add now) [] now nh
    | some k => tryKeypoint C privateGroup lnsDomain path (entryLinks links remove add now) [] now k nh)

/-- Removing the old claim from the entry of what it pointed to, `admin.rs:46-58` and 86-98. -/
def dropEntry (C : Crypto) (nh : Bytes) (db : Db) (now : Nat) (admin : Option C.Key) (oldHash : Option Bytes) (tag : Bytes)
    (old new : Option Bytes) : LRes (Option NetParts) :=
  match old with
  | none => .ok none
  | some ptr =>
    if some ptr = new then .ok none
    else match tagEntry db now tag ptr (admin.map C.pubkey) with
      | .error e => .error e
      | .ok none => .ok none
      | .ok (some e) =>
        match mutEntry C nh e.2.getLinks (getRspace e.2) oldHash none admin now with
        | .error e => .error e
        | .ok p => .ok (some p)

/-- Adding the new claim to the entry of what it points to, `admin.rs:62-80` and 103-125. -/
def addEntry (C : Crypto) (nh : Bytes) (db : Db) (now : Nat) (admin : Option C.Key) (oldHash : Option Bytes) (tag : Bytes)
    (priority : Bool) (claim : Claim) (new : Option Bytes) : LRes (Option NetParts) :=
  match new with
  | none => .ok none
  | some ptr =>
    match tagEntry db now tag ptr (admin.map C.pubkey) with
    | .error e => .error e
    | .ok entry =>
      match byTagSpace tag ptr with
      | .error e => .error e
      | .ok sp =>
        match unwrapL (Rooted.tryIntoRooted true sp) with
        | .error e => .error e
        | .ok path =>
          match unwrapL claim.until with
          | .error e => .error e
          | .ok until_ =>
            match mutEntry C nh ((entry.map (·.2.getLinks)).getD []) path oldHash
                (some (priority, ⟨stampTag until_ (List.replicate 8 0), claim.pkt.hash⟩)) admin now with
            | .error e => .error e
            | .ok p => .ok (some p)

/-- What `save_private_claim` saves, `admin.rs:19-137`, or nothing if the claim is the current one. -/
def privateBatch (C : Crypto) (nh : Bytes) (db : Db) (iter : List Tally → List Tally) (now : Nat) (claim : Claim) (admin : Option C.Key)
    (extra : List NetParts) (priority : Bool) : LRes (Option (List NetParts)) :=
  match lookupClaim C nh db iter now claim.name with
  | .error e => .error e
  | .ok old =>
    let oldHash := old.map (·.pkt.hash)
    if oldHash = some claim.pkt.hash then .ok none
    else
      match dropEntry C nh db now admin oldHash groupTag (old.bind Claim.group) claim.group with
      | .error e => .error e
      | .ok dg =>
        match addEntry C nh db now admin oldHash groupTag priority claim claim.group with
        | .error e => .error e
        | .ok ag =>
          match dropEntry C nh db now admin oldHash pubkeyTag (old.bind Claim.pubkey) claim.pubkey with
          | .error e => .error e
          | .ok dp =>
            match addEntry C nh db now admin oldHash pubkeyTag priority claim claim.pubkey with
            | .error e => .error e
            | .ok ap => .ok (some (claim.pkt :: (dg.toList ++ ag.toList ++ dp.toList ++ ap.toList ++ extra)))

/-- `save_private_claim`: the database after it and whether something was saved.  The result of the write is passed on. -/
def savePrivate (C : Crypto) (nh : Bytes) (db : Db) (iter : List Tally → List Tally) (io : Nat → Call) (now : Nat) (claim : Claim)
    (admin : Option C.Key) (extra : List NetParts) (priority : Bool) : Db × LRes Bool :=
  match privateBatch C nh db iter now claim admin extra priority with
  | .error e => (db, .error e)
  | .ok none => (db, .ok false)
  | .ok (some b) =>
    let r := saveAll io now db b
    (r.disk, match r.out with
      | .ok _ => .ok true
      | .error .panic => .error (.stop .panic)
      | .error _ => .error .err)

/-- The last part of `setup_special_keyclaim`, `mod.rs:208-229`: make the claim and save it. -/
def saveKeyclaim (C : Crypto) (nh : Bytes) (db : Db) (iter : List Tally → List Tally) (io : Nat → Call) (now : Nat) (name : Name)
    (enckey : Bytes) (pubkey : Option Bytes) : Db × LRes Bytes :=
  match pubkey with
  | none => (db, .error .err)
  | some pk =>
    match tryL (Claim.new C nh name (u64End - 1) [⟨List.replicate 9 0 ++ pubkeyTag, pk⟩] enckey) with
    | .error e => (db, .error e)
    | .ok claim =>
      match unwrapL (Space.toArray claim.name.space) with
      | .error e => (db, .error e)
      | .ok cs =>
        if cs.length > 2 then (db, .error .err)
        else match savePrivate C nh db iter io now claim none [] true with
          | (db', .error e) => (db', .error e)
          | (db', .ok _) => (db', .ok pk)

/-- `setup_special_keyclaim`, `mod.rs:196-229`, with `setup_local_keyclaim`, `local_claim.rs:34-42`.  `pubkey` is the key in the text of the
encrypted key, if it can be read (`Verif.Model.Identity`). -/
def setupKeyclaim (C : Crypto) (nh : Bytes) (db : Db) (iter : List Tally → List Tally) (io : Nat → Call) (now : Nat) (name : Name)
    (enckey : Bytes) (pubkey : Option Bytes) (overwrite : Bool) : Db × LRes Bytes :=
  if ¬ name.isLocal then (db, .error .err)
  else
    match lookupClaim C nh db iter now name with
    | .error (.stop q) => (db, .error (.stop q))
    | .error .err => saveKeyclaim C nh db iter io now name enckey pubkey
    | .ok none => saveKeyclaim C nh db iter io now name enckey pubkey
    | .ok (some _) => if overwrite then saveKeyclaim C nh db iter io now name enckey pubkey else (db, .error .err)

end Verif.Lns
