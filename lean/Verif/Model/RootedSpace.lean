import Verif.Model.Space
/-!
# Rooted spaces (`crates/pkt/src/rooted_space.rs`)

A rooted space is either empty or `[depth, e1..e7] ++ space`.
-/
namespace Verif.Rooted
open Verif Verif.Space

/-- `MAX_ROOTED_SPACENAME_SIZE`, `crates/pkt/src/consts.rs`. -/
def maxRooted : Nat := 250

/-- `RootedSpaceBuf::try_append_component`, `crates/pkt/src/rooted_space.rs:115-142`.  Returns the new
value of `self`; on an error `self` is unchanged (the replacement of an empty value by eight zero bytes at
line 124 cannot be followed by an error because a component has at most 200 bytes).  The slice
`bs[new_len..8]` panics on a value shorter than 8 bytes. -/
def tryAppendComponent (bs c : Bytes) : Res Bytes :=
  if c.length > maxComponent then .error (.err .componentSize)
  else if c.isEmpty then .error (.err .zeroComponent)
  else
    let bs := if bs.isEmpty then List.replicate 8 0 else bs
    let d := (bs.headD 0).toNat
    if d ≥ maxDepth then .error (.err .capacityError)
    else if bs.length + c.length + 1 > maxRooted then .error (.err .maxDepth)
    else
      let newLen := d + 1
      let bs' := (UInt8.ofNat newLen :: bs.drop 1) ++ UInt8.ofNat c.length :: c
      if bs'.length < 8 then .error .panic
      else
        let len := bs'.length - 8
        .ok (bs'.take newLen ++ List.replicate (8 - newLen) (UInt8.ofNat len) ++ bs'.drop 8)

/-- `RootedSpaceBuf::extend_from_iter`, `crates/pkt/src/rooted_space.rs:150-158`. -/
def extendFromIter (bs : Bytes) : List Bytes → Res Bytes
  | [] => .ok bs
  | c :: cs =>
    match tryAppendComponent bs c with
    | .error e => .error e
    | .ok bs' => extendFromIter bs' cs

/-- `RootedSpaceBuf::try_from_iter`, `crates/pkt/src/rooted_space.rs:160-166`. -/
def tryFromIter (cs : List Bytes) : Res Bytes := extendFromIter [] cs

/-- `RootedSpace::fields`, `crates/pkt/src/rooted_space.rs:242-258`: depth byte, the nine offsets and the
space.  `split_at(8)` panics on a value of 1..7 bytes. -/
def fields (bs : Bytes) : Res (UInt8 × List UInt8 × Bytes) :=
  if bs.isEmpty then .ok (0, List.replicate 9 0, [])
  else if bs.length < 8 then .error .panic
  else
    let sp := bs.drop 8
    .ok (bs.headD 0,
      0 :: (bs.take 8).drop 1 ++ [if sp.length > 255 then 255 else UInt8.ofNat sp.length], sp)

/-- The loop of `RootedSpace::check_components`, `crates/pkt/src/rooted_space.rs:215-233`.  The list holds
`idx[i+1]..idx[8]`, so "while i < 8" is the recursion over it. -/
def checkLoop : (ends : List UInt8) → (i len ptr : Nat) → (it : Bytes) → Except SpaceError Unit
  | [], _, _, _, _ => .ok ()
  | e :: es, i, len, ptr, it =>
    match nextSpC it with
    | some (.error er) => .error er
    | some (.ok (segm, next)) =>
      let ptr' := ptr + segm.length
      if e.toNat ≠ ptr' then .error .badOffset else checkLoop es (i + 1) len ptr' next
    | none =>
      if len ≠ i then .error .emptyComponentIdx
      else if e.toNat ≠ ptr then .error .badOffset
      else checkLoop es (i + 1) (len + 1) ptr it

/-- `RootedSpace::check_components`, `crates/pkt/src/rooted_space.rs:198-235` (also `RootedSpace::from`
175-181).  After the length tests `fields` cannot panic. -/
def checkComponents (bs : Bytes) : Except SpaceError Unit :=
  if bs.isEmpty then .ok ()
  else if bs.length < 8 then .error .missingIdx
  else if bs.length > maxRooted then .error .maxDepth
  else
    match fields bs with
    | .error _ => .error .missingIdx
    | .ok (len, idx, sp) =>
      if sp.length > maxSize then .error .maxDepth
      else checkLoop (idx.drop 1) 0 len.toNat 0 sp

/-- `RootedSpace::space`, `crates/pkt/src/rooted_space.rs:237-239`. -/
def space (bs : Bytes) : Res Bytes :=
  match fields bs with
  | .error e => .error e
  | .ok (_, _, sp) => .ok sp

/-- `RootedSpace::depth` / `space_depth`, `crates/pkt/src/rooted_space.rs:261-273`. -/
def depth (bs : Bytes) : Nat := (bs.headD 0).toNat

/-- `pre_idx_comp(b)[i]`, `crates/pkt/src/rooted_space.rs:336-366` for `i < 8`.  The unsafe
`from_raw_parts(p + ptrs[i], ptrs[i+1] - ptrs[i])` reads out of bounds unless the range lies in the value;
this undefined behaviour is reported as a panic here. -/
def preIdxComp (b : Bytes) (i : Nat) : Res Bytes :=
  if b.isEmpty then .ok []
  else if b.length < 8 then .error .panic
  else
    let rest := b.drop 8
    let ptrs := 0 :: (b.take 8).drop 1 ++ [UInt8.ofNat rest.length]
    let s := ptrs.getD i 0
    let len := (ptrs.getD (i + 1) 0 - s).toNat
    if s.toNat + len > rest.length then .error .panic
    else .ok ((rest.drop s.toNat).take len)

/-- `RootedSpace::comp`, `crates/pkt/src/rooted_space.rs:295-331`; `COMPS[i]` panics from 8 on. -/
def comp (bs : Bytes) (i : Nat) : Res Bytes :=
  if i ≥ 8 then .error .panic
  else match preIdxComp bs i with
    | .error e => .error e
    | .ok s => first s

/-- `RootedSpace::iter` collected, `crates/pkt/src/rooted_space.rs:278-280`. -/
def iter (bs : Bytes) : Res (List Bytes) := (List.range (depth bs)).mapM (comp bs)

/-- `RootedSpace::range`, `crates/pkt/src/rooted_space.rs:285-289`; both indexing operations panic when
out of range. -/
def range (bs : Bytes) (a b : Nat) : Res Bytes :=
  match fields bs with
  | .error e => .error e
  | .ok (_, segm, sp) =>
    match segm[a]?, segm[b]? with
    | some s, some e =>
      if s.toNat > e.toNat ∨ e.toNat > sp.length then .error .panic
      else .ok ((sp.drop s.toNat).take (e.toNat - s.toNat))
    | _, _ => .error .panic

/-- `RootedSpace::last`, `crates/pkt/src/rooted_space.rs:291-293`. -/
def last (bs : Bytes) : Res Bytes := comp bs (depth bs - 1)

/-- `rspace1`, `crates/pkt/src/rooted_space.rs:39-58`. -/
def rspace1 (c : Bytes) : Res Bytes :=
  if ¬ c.length < maxComponent then .error .panic
  else
    let r := 1 :: List.replicate 7 (UInt8.ofNat (c.length + 1)) ++ UInt8.ofNat c.length :: c
    match checkComponents r with
    | .error _ => .error .panic
    | .ok () => .ok r

/-- One iteration of the loop in `Space::try_into_rooted`, `crates/pkt/src/space.rs:702-714`, over the
remaining `n` rounds: collects the eight recorded offsets, the copied space and the count. -/
def rootLoop : (n : Nat) → (offs : List UInt8) → (copied : Bytes) → (count : Nat) → (it : Bytes) →
    Except SpaceError (List UInt8 × Bytes × Nat)
  | 0, offs, copied, count, _ => .ok (offs, copied, count)
  | n + 1, offs, copied, count, it =>
    let offs := offs ++ [UInt8.ofNat copied.length]
    match nextSpC it with
    | none => rootLoop n offs copied count it
    | some (.error e) => .error e
    | some (.ok (segm, rest)) => rootLoop n offs (copied ++ segm) (count + 1) rest

/-- `Space::try_into_rooted`, `crates/pkt/src/space.rs:693-725`.  `dbg` is `cfg!(debug_assertions)`, which
the release profile of the workspace turns on. -/
def tryIntoRooted (dbg : Bool) (sp : Bytes) : Res Bytes :=
  if sp.isEmpty then .ok []
  else if sp.length > maxSize then .error (.err .maxDepth)
  else match rootLoop 8 [] [] 0 sp with
    | .error e => .error (.err e)
    | .ok (offs, copied, count) =>
      let data := UInt8.ofNat count :: offs.drop 1 ++ copied
      if dbg then
        match checkComponents data with
        | .error _ => .error .panic
        | .ok () => .ok data
      else .ok data

end Verif.Rooted
