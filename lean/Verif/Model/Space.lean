import Verif.Model.Bytes
/-!
# Spaces (`crates/pkt/src/space.rs`)

A `Space` is a byte string, the concatenation of `[len][bytes]` for every component.  All functions
work on the raw bytes as the Rust does.
-/
namespace Verif

/-- Outcome of a Rust function that can return an error or panic. -/
inductive Fault (ε : Type) where
  | err (e : ε)
  | panic
deriving DecidableEq, Repr

namespace Space

/-- `MAX_SPACENAME_COMPONENT_SIZE`, `crates/pkt/src/consts.rs`. -/
def maxComponent : Nat := 200
/-- `MAX_SPACENAME_SIZE`, `crates/pkt/src/consts.rs`. -/
def maxSize : Nat := 242
/-- `MAX_SPACE_DEPTH`, `crates/pkt/src/consts.rs`. -/
def maxDepth : Nat := 8

/-- `SpaceError`, `crates/pkt/src/space.rs:31-51`. -/
inductive SpaceError where
  | maxDepth | componentSize | zeroComponent | tailLength | capacityError
  | missingIdx | emptyComponentIdx | badOffset
deriving DecidableEq, Repr

abbrev Res (α : Type) := Except (Fault SpaceError) α

/-- `SpaceBuf::try_push`, `crates/pkt/src/space.rs:258-271`. -/
def tryPush (sp c : Bytes) : Except SpaceError Bytes :=
  if c.length > maxComponent then .error .componentSize
  else if c.isEmpty then .error .zeroComponent
  else if sp.length + c.length + 1 > maxSize then .error .capacityError
  else .ok (sp ++ UInt8.ofNat c.length :: c)

/-- `SpaceBuf::try_push_front`, `crates/pkt/src/space.rs:276-293`. -/
def tryPushFront (sp c : Bytes) : Except SpaceError Bytes :=
  if c.length > maxComponent then .error .componentSize
  else if c.isEmpty then .error .zeroComponent
  else if sp.length + c.length + 1 > maxSize then .error .capacityError
  else .ok ((UInt8.ofNat c.length :: c) ++ sp)

/-- `SpaceBuf::try_prepend`, `crates/pkt/src/space.rs:251-257`. -/
def tryPrepend (sp p : Bytes) : Except SpaceError Bytes :=
  if sp.length + p.length > maxSize then .error .capacityError else .ok (p ++ sp)

/-- Result of one step of the unchecked iterator. -/
inductive Next where
  | done
  | panic
  | item (c rest : Bytes)
deriving DecidableEq

/-- `<&SpaceIter as Iterator>::next`, `crates/pkt/src/space.rs:504-521`.  `get(1..=len)?` gives `None`
when the tail is too short, which ends the iteration; then `get(len+1..)` cannot fail. -/
def iterNext (sp : Bytes) : Next :=
  match sp with
  | [] => .done
  | l :: tl =>
    if l.toNat > maxComponent ∨ l.toNat = 0 then .panic
    else if tl.length < l.toNat then .done
    else .item (tl.take l.toNat) (tl.drop l.toNat)

theorem iterNext_lt {sp c rest : Bytes} (h : iterNext sp = .item c rest) :
    rest.length < sp.length := by
  unfold iterNext at h
  split at h
  · cases h
  · split at h
    · cases h
    · split at h
      · cases h
      · injection h with _ h; subst h; simp; omega

/-- Collecting `Space::iter` (`crates/pkt/src/space.rs:401-403`): the components, or a panic. -/
def iter (sp : Bytes) : Except (Fault SpaceError) (List Bytes) :=
  match _h : iterNext sp with
  | .done => .ok []
  | .panic => .error .panic
  | .item c rest => do
    let cs ← iter rest
    return c :: cs
termination_by sp.length
decreasing_by exact iterNext_lt _h

/-- The loop of `SpaceBuf::extend_from_iter`, `crates/pkt/src/space.rs:213-216`. -/
def pushAll (sp : Bytes) : List Bytes → Except SpaceError Bytes
  | [] => .ok sp
  | c :: cs =>
    match tryPush sp c with
    | .error e => .error e
    | .ok sp' => pushAll sp' cs

/-- `SpaceBuf::extend_from_iter`, `crates/pkt/src/space.rs:208-221`.  The counter `depth` is the number
of components before plus the number pushed. -/
def extendFromIter (sp : Bytes) (cs : List Bytes) : Res Bytes :=
  match iter sp with
  | .error e => .error e
  | .ok old =>
    match pushAll sp cs with
    | .error e => .error (.err e)
    | .ok sp' => if old.length + cs.length > maxDepth then .error (.err .maxDepth) else .ok sp'

/-- `SpaceBuf::try_from_iter`, `crates/pkt/src/space.rs:222-226` (also `space_buf`, `FromIterator`). -/
def tryFromIter (cs : List Bytes) : Res Bytes := extendFromIter [] cs

/-- `SpaceBuf::try_append` / `try_join`, `crates/pkt/src/space.rs:185-187,248-250`. -/
def tryAppend (sp p : Bytes) : Res Bytes :=
  match iter p with
  | .error e => .error e
  | .ok cs => extendFromIter sp cs

/-- `SpaceBuf::truncate_last`, `crates/pkt/src/space.rs:228-232`. -/
def truncateLast (sp : Bytes) : Res Bytes :=
  match iter sp with
  | .error e => .error e
  | .ok cs =>
    match cs.getLast? with
    | none => .ok sp
    | some c => .ok (sp.take (sp.length - (c.length + 1)))

/-- `CheckedSpaceIter::next_sp_c`, `crates/pkt/src/space.rs:445-462`: `none` at the end, otherwise the
first segment (with its length byte) and the rest. -/
def nextSpC (sp : Bytes) : Option (Except SpaceError (Bytes × Bytes)) :=
  match sp with
  | [] => none
  | l :: tl =>
    if l.toNat > maxComponent then some (.error .componentSize)
    else if l.toNat = 0 then some (.error .zeroComponent)
    else if tl.length + 1 ≤ l.toNat then some (.error .tailLength)
    else some (.ok (l :: tl.take l.toNat, tl.drop l.toNat))

theorem nextSpC_lt {sp s rest : Bytes} (h : nextSpC sp = some (.ok (s, rest))) :
    rest.length < sp.length := by
  unfold nextSpC at h
  split at h
  · cases h
  · split at h
    · cases h
    · split at h
      · cases h
      · split at h
        · cases h
        · injection h with h; injection h with h; injection h with _ h; subst h; simp; omega

/-- The loop of `Space::check_components`, `crates/pkt/src/space.rs:340-348`.  The `u8` counter cannot
overflow: a component takes at least two of at most 242 bytes. -/
def checkLoop (sp : Bytes) (i : Nat) : Except SpaceError Nat :=
  match _h : nextSpC sp with
  | none => .ok i
  | some (.error e) => .error e
  | some (.ok (_, rest)) => checkLoop rest (i + 1)
termination_by sp.length
decreasing_by exact nextSpC_lt _h

/-- `Space::check_components`, `crates/pkt/src/space.rs:336-351` with `checked_iter` (404-409).  Also
`Space::from_slice` (117-123) and `SpaceBytes::try_from_inner` (24-28). -/
def checkComponents (sp : Bytes) : Except SpaceError Nat :=
  if sp.length > maxSize then .error .maxDepth else checkLoop sp 0

/-- The loop of `Space::split_last`, `crates/pkt/src/space.rs:322-326`: the suffix that starts at the
last component.  `this.inner_bytes[len + 1..]` panics when out of range. -/
def lastSuffix (this : Bytes) (last : Option Bytes) : Res (Option Bytes) :=
  match this with
  | [] => .ok last
  | l :: tl =>
    if tl.length < l.toNat then .error .panic
    else lastSuffix (tl.drop l.toNat) (some (l :: tl))
termination_by this.length
decreasing_by simp; omega

/-- `Space::split_last`, `crates/pkt/src/space.rs:318-335`. -/
def splitLast (sp : Bytes) : Res (Bytes × Option Bytes) :=
  match lastSuffix sp none with
  | .error e => .error e
  | .ok none => .ok ([], none)
  | .ok (some v) =>
    let mid := sp.length - v.length
    .ok (sp.take mid, some (sp.drop mid))

/-- `Space::parent`, `crates/pkt/src/space.rs:308-313`. -/
def parent (sp : Bytes) : Res (Option Bytes) :=
  if sp.isEmpty then .ok none
  else match splitLast sp with
    | .error e => .error e
    | .ok (a, _) => .ok (some a)

/-- `self.iter().next()`: `Space::head`, `crates/pkt/src/space.rs:300-302`. -/
def head (sp : Bytes) : Res (Option Bytes) :=
  match iterNext sp with
  | .done => .ok none
  | .panic => .error .panic
  | .item c _ => .ok (some c)

/-- `Space::tail`, `crates/pkt/src/space.rs:303-307`: an exhausted iterator keeps its position. -/
def tail (sp : Bytes) : Res Bytes :=
  match iterNext sp with
  | .done => .ok sp
  | .panic => .error .panic
  | .item _ rest => .ok rest

/-- `Space::pop`, `crates/pkt/src/space.rs:314-317`. -/
def pop (sp : Bytes) : Res (Bytes × Option Bytes) :=
  match splitLast sp with
  | .error e => .error e
  | .ok (a, none) => .ok (a, none)
  | .ok (a, some v) =>
    match head v with
    | .error e => .error e
    | .ok c => .ok (a, c)

/-- `Space::split_first`, `crates/pkt/src/space.rs:353-360`. -/
def splitFirst (sp : Bytes) : Res (Option (Bytes × Bytes)) :=
  match sp with
  | [] => .ok none
  | l :: tl =>
    if tl.length < l.toNat then .error .panic
    else .ok (some (tl.take l.toNat, tl.drop l.toNat))

/-- `Space::first`, `crates/pkt/src/space.rs:362-367`. -/
def first (sp : Bytes) : Res Bytes :=
  match sp with
  | [] => .ok []
  | l :: tl => if tl.length < l.toNat then .error .panic else .ok (tl.take l.toNat)

/-- `Iterator::advance_by` on the iterator (used in `crates/pkt/src/space.rs:371`): the remaining bytes,
or `none` when the iterator ended first. -/
def advanceBy (sp : Bytes) : Nat → Res (Option Bytes)
  | 0 => .ok (some sp)
  | n + 1 =>
    match iterNext sp with
    | .done => .ok none
    | .panic => .error .panic
    | .item _ rest => advanceBy rest n

/-- `Space::split_at`, `crates/pkt/src/space.rs:369-375`. -/
def splitAt (sp : Bytes) (n : Nat) : Res (Bytes × Bytes) :=
  match advanceBy sp n with
  | .error e => .error e
  | .ok none => .ok (sp, [])
  | .ok (some r) => .ok (sp.take (sp.length - r.length), sp.drop (sp.length - r.length))

/-- `Space::starts_with`, `crates/pkt/src/space.rs:383-385`. -/
def startsWith (sp p : Bytes) : Bool := p.isPrefixOf sp

/-- `Space::strip_prefix`, `crates/pkt/src/space.rs:386-393`. -/
def stripPrefix (sp p : Bytes) : Option Bytes :=
  if !p.isPrefixOf sp then none else some (sp.drop p.length)

/-- `Space::drop_prefix`, `crates/pkt/src/space.rs:394-397`. -/
def dropPrefix (sp p : Bytes) : Res Bytes :=
  match stripPrefix sp p with
  | none => .error .panic
  | some r => .ok r

/-- `SpaceBuf::components`, `crates/pkt/src/space.rs:234-242`.  `iter` is a shared reference, hence `Copy`:
`iter.map(..)` consumes a copy, and the emptiness test at line 237 looks at the untouched original. -/
def components (sp : Bytes) : Res (List Bytes) :=
  match iter sp with
  | .error e => .error e
  | .ok cs => if sp.isEmpty then .ok cs else .error (.err .tailLength)

/-- `Space::to_array`, `crates/pkt/src/space.rs:398-400`: `ArrayVec::from_iter` panics over capacity. -/
def toArray (sp : Bytes) : Res (List Bytes) :=
  match iter sp with
  | .error e => .error e
  | .ok cs => if cs.length > maxDepth then .error .panic else .ok cs

/-- The iteration of `Space::scan_space`, `crates/pkt/src/space.rs:418-428` through `Track::next` and
`Track::upto` (675-686): the space up to each component. -/
def scanFrom (full at_ : Bytes) : Res (List Bytes) :=
  match _h : iterNext at_ with
  | .done => .ok []
  | .panic => .error .panic
  | .item _ rest =>
    match scanFrom full rest with
    | .error e => .error e
    | .ok l => .ok (full.take (full.length - rest.length) :: l)
termination_by at_.length
decreasing_by exact iterNext_lt _h

def scanSpace (sp : Bytes) : Res (List Bytes) := scanFrom sp sp

end Space
end Verif
