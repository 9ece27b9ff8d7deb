import Verif.Model.Eval
import Verif.Model.RootedSpace
/-!
# The scopes of `core_scope`

The function tables of `crates/abe/src/scope/*.rs`, `StaticLNS` of `crates/core/src/eval.rs` and `SpaceFE` of
`crates/pkt/src/space_fmt.rs`.  Left as parameters: the text of `help`, the stamp functions and the lossy UTF-8 conversion
of `~utf8`.
-/
namespace Verif.Eval
open Verif Verif.Ast Verif.Abl Verif.Abe Verif.Abtxt Verif.Num Verif.Fit

/-- A function of the first argument that can fail. -/
def fn1 (f : Bytes → Option Bytes) : Top → List Bytes → Bool → AR Bytes :=
  fun _ inp _ => .ofOption (f (inp.headD []))
def fnAll (f : List Bytes → Option Bytes) : Top → List Bytes → Bool → AR Bytes := fun _ inp _ => .ofOption (f inp)

/-- `[{id}:{st}]`. -/
def bracket (id st : Bytes) : Bytes := 0x5b :: (id ++ 0x3a :: (st ++ [0x5d]))

/-- `encode_a`, `crates/abe/src/scope/bytes.rs:89-97`. -/
def encodeA (b : Bytes) (_ : List ABE) : AR Bytes :=
  let cut := asAbtxt (cutPrefixNulls b)
  .value (if b.length = 16 then bracket (ascii "a") cut else bracket (ascii "a") (cut ++ 0x3a :: dec b.length))

/-- `replace` of three arguments, `crates/abe/src/scope/bytes.rs:127-142`. -/
def replace3 : List Bytes → AR Bytes
  | [b, src, dst] =>
    match replace b src dst with
    | some r => .value r
    | none => .abort
  | _ => .abort

/-- `BytesFE`, `crates/abe/src/scope/bytes.rs:99-124`. -/
def bytesFns (utf8 : Bytes → Bytes) : List Fn := [
  { id := ascii "?a", lo := 1, hi := 1, apply := fn1 fun b => some (asAbtxt b) },
  { id := ascii "?a0", lo := 1, hi := 1, apply := fn1 fun b => some (asAbtxt (cutPrefixNulls b)) },
  { id := ascii "a", lo := 1, hi := 3, apply := fnAll fun i => pad i true 0 true false, toAbe := some encodeA },
  { id := ascii "f", lo := 1, hi := 3, apply := fnAll fun i => pad i true 255 true false },
  { id := ascii "lpad", lo := 1, hi := 3, apply := fnAll fun i => pad i true 0 true false },
  { id := ascii "rpad", lo := 1, hi := 3, apply := fnAll fun i => pad i false 0 true false },
  { id := ascii "~lpad", lo := 1, hi := 3, apply := fnAll fun i => pad i true 0 false false },
  { id := ascii "~rpad", lo := 1, hi := 3, apply := fnAll fun i => pad i false 0 false false },
  { id := ascii "lcut", lo := 1, hi := 2, apply := fnAll fun i => cut i true true },
  { id := ascii "rcut", lo := 1, hi := 2, apply := fnAll fun i => cut i false true },
  { id := ascii "~lcut", lo := 1, hi := 2, apply := fnAll fun i => cut i true false },
  { id := ascii "~rcut", lo := 1, hi := 2, apply := fnAll fun i => cut i false false },
  { id := ascii "lfixed", lo := 1, hi := 3, apply := fnAll fun i => pad i true 0 false true },
  { id := ascii "rfixed", lo := 1, hi := 3, apply := fnAll fun i => pad i false 0 false true },
  { id := ascii "replace", lo := 3, hi := 3, apply := fun _ i _ => replace3 i },
  { id := ascii "slice", lo := 1, hi := 4, apply := fun _ i _ => slice (i.headD []) (i.drop 1) },
  { id := ascii "~utf8", lo := 1, hi := 1, apply := fn1 fun b => some (utf8 b) }]

/-- The `{ id : .. }` encoder of `fnc!`, `crates/abe/src/eval.rs:1021-1033`. -/
def idEnc (id : Bytes) (f : Bytes → Option Bytes) : Bytes → List ABE → AR Bytes := fun b _ =>
  match f b with
  | none => .noValue
  | some st => .value (bracket id st)

/-- One of `u8` .. `u128`, `crates/abe/src/scope/uint.rs:81-95`. -/
def uintFn (id : Bytes) (n : Nat) : Fn :=
  { id := id, lo := 1, hi := 1, apply := fn1 (parseUint n), toAbe := some (idEnc id (encUint n)) }

/-- `UIntFE`, `crates/abe/src/scope/uint.rs:53-121`. -/
def uintFns : List Fn := [
  { id := ascii "+", lo := 1, hi := 16, apply := fun _ i _ => plus i },
  { id := ascii "-", lo := 1, hi := 16, apply := fun _ i _ => minus i },
  uintFn (ascii "u8") 1, uintFn (ascii "u16") 2, uintFn (ascii "u32") 4, uintFn (ascii "u64") 8, uintFn (ascii "u128") 16,
  { id := ascii "?u", lo := 1, hi := 1, apply := fn1 printUint },
  { id := ascii "lu", lo := 1, hi := 1, apply := fn1 parseLu },
  { id := ascii "lu8", lo := 1, hi := 1, apply := fn1 (parseUintLe 1) },
  { id := ascii "lu16", lo := 1, hi := 1, apply := fn1 (parseUintLe 2) },
  { id := ascii "lu32", lo := 1, hi := 1, apply := fn1 (parseUintLe 4) },
  { id := ascii "lu64", lo := 1, hi := 1, apply := fn1 (parseUintLe 8) },
  { id := ascii "lu128", lo := 1, hi := 1, apply := fn1 (parseUintLe 16) },
  { id := ascii "?lu", lo := 1, hi := 1, apply := fn1 printUintLe }]

/-- One length option, `crates/abe/src/scope/base.rs:26-30`. -/
def lenOpt (bound : Nat) : ABE → Option Nat
  | .bytes b => parseU 10 bound b
  | _ => none

/-- `enc_bin` for radix 2 and 16, `crates/abe/src/scope/base.rs:24-52`. -/
def encBin (id : Bytes) (radix : Nat) (b : Bytes) (opts : List ABE) : AR Bytes :=
  match opts.mapM (lenOpt (2 ^ 64)) with
  | none => .err
  | some lens =>
    if !lens.isEmpty && !lens.contains b.length then .noValue else .value (bracket id (encDigits radix b))

/-- The loop over the length options of the `b` encoder, 80-86; options that are not plain bytes are skipped. -/
def encBLoop (b : Bytes) : List ABE → AR Bytes
  | [] => .noValue
  | .bytes l :: r =>
    match parseU 10 (2 ^ 32) l with
    | none => .err
    | some n => if n = b.length then .value (bracket (ascii "b") (base64 b)) else encBLoop b r
  | _ :: r => encBLoop b r
/-- The `b` encoder, 75-88. -/
def encB (b : Bytes) (opts : List ABE) : AR Bytes :=
  if opts.isEmpty then .value (bracket (ascii "b") (base64 b)) else encBLoop b opts

/-- `str::replace('/', "\\/")`. -/
def escSlash (s : Bytes) : Bytes := s.flatMap fun c => if c = 0x2f then [0x5c, 0x2f] else [c]

/-- `mini_b64`, 104-118. -/
def miniB64 (v : Bytes) : Bytes :=
  let st := base64 v
  if v.length ≤ 12 then st
  else
    let padc := v.length / 8
    st.take 6 ++ List.replicate (padc / 2) 0x3a ++ (if padc % 2 ≠ 0 then [0x2e] else []) ++ st.drop (st.length - 2)

/-- `BaseNScope`, 65-96. -/
def baseFns : List Fn := [
  { id := ascii "b2", lo := 1, hi := 1, apply := fn1 (bin 2), toAbe := some (encBin (ascii "b2") 2) },
  { id := ascii "b8", lo := 1, hi := 1, apply := fn1 (bin 8) },
  { id := ascii "b16", lo := 1, hi := 1, apply := fn1 (bin 16), toAbe := some (encBin (ascii "b16") 16) },
  { id := ascii "?b", lo := 1, hi := 1, apply := fn1 fun b => some (base64 b) },
  { id := ascii "2mini", lo := 1, hi := 1, apply := fn1 fun b => some (miniB64 b) },
  { id := ascii "b", lo := 1, hi := 1, apply := fn1 base64Decode, toAbe := some encB },
  { id := ascii "?bs", lo := 1, hi := 1, apply := fn1 fun b => some (base64Std b) },
  { id := ascii "bs", lo := 1, hi := 1, apply := fn1 base64StdDecode,
    toAbe := some fun b _ => .value (bracket (ascii "bs") (escSlash (base64Std b))) }]

/-- `Comment`, `crates/abe/src/scope/comment.rs:17-24`. -/
def commentFns : List Fn := [{ id := ascii "C", lo := 1, hi := 16, apply := fun _ _ _ => .value [] }]

/-- `size?`, `crates/abe/src/scope/logic.rs:19-38`. -/
def sizeTest : List Bytes → Option Bytes
  | [b, op, v] =>
    match parseUsize v with
    | none => none
    | some n => if op = ascii "=" then (if b.length ≠ n then none else some b) else none
  | _ => none
/-- `val?`, 39-57. -/
def valTest : List Bytes → Option Bytes
  | [b, op, v] => if op = ascii "=" then (if b ≠ v then none else some b) else none
  | _ => none
def logicFns : List Fn := [
  { id := ascii "size?", lo := 3, hi := 3, apply := fnAll sizeTest },
  { id := ascii "val?", lo := 3, hi := 3, apply := fnAll valTest }]

/-- The loop of the macro `or`, 67-73. -/
def orLoop (top : Top) : List (List ABE) → AR Bytes
  | [] => .err
  | o :: r =>
    match top.eval o with
    | .ok l => .value (concat l)
    | .err => orLoop top r
    | .abort => .abort
/-- The macro `or`, 61-78. -/
def orMac (top : Top) (abe : List ABE) : AR Bytes :=
  match splitBy isColon abe with
  | [] :: r => orLoop top r
  | _ => .err

/-- `eval`, `crates/abe/src/scope/encode.rs:36-39`. -/
def evalFn (top : Top) (inp : List Bytes) : ER Bytes :=
  match parseStrict (inp.headD []) with
  | .error _ => .err
  | .ok abe => (top.eval abe).map concat
/-- `encode`, 10-16, and the function `?`, 49-57. -/
def encFn (top : Top) (inp : List Bytes) : ER Bytes :=
  if inp.length > 2 then .err else encode top (inp.headD []) (inp[1]?.getD []) false
/-- Without `[` and `]`, 69-75 and 88-90. -/
def unbracket (s : Bytes) : Option Bytes :=
  match s with
  | 0x5b :: r => if r.getLast? = some 0x5d then some r.dropLast else none
  | _ => none
/-- `??`, 67-77. -/
def encFn2 (s : Bytes) : Bytes := (unbracket s).getD s
/-- `???`, 86-97: what follows the first `:`. -/
def encFn3 (s : Bytes) : Bytes :=
  match unbracket s with
  | some v => (v.dropWhile (· != 0x3a)).drop 1
  | none => s

/-- The macro `?` (and `~?` with `ignore`), 103-126. -/
def encMac (ignore : Bool) (top : Top) : List ABE → AR Bytes
  | .ctr .colon :: abe =>
    let id := abe.takeWhile (fun e => !isFslash e)
    let rest := (abe.dropWhile (fun e => !isFslash e)).drop 1
    ((top.eval id).bind fun l => encodeAbe top (concat l) rest ignore).toAR
  | _ => .err
/-- The macro `e`, 127-134. -/
def eMac (top : Top) : List ABE → AR Bytes
  | .ctr .colon :: abe => ((top.eval abe).map concat).toAR
  | _ => .err

def encodeFns : List Fn := [
  { id := ascii "eval", lo := 1, hi := 1, apply := fun top i _ => (evalFn top i).toAR },
  { id := ascii "?", lo := 2, hi := 8, apply := fun top i _ => (encFn top i).toAR },
  { id := ascii "??", lo := 2, hi := 8, apply := fun top i _ => ((encFn top i).map encFn2).toAR },
  { id := ascii "???", lo := 2, hi := 8, apply := fun top i _ => ((encFn top i).map encFn3).toAR }]
def encodeMacs : List (Bytes × (Top → List ABE → AR Bytes)) := [
  (ascii "?", encMac false), (ascii "~?", encMac true), (ascii "e", eMac)]

/-- The parts that stay abstract: lossy UTF-8, the text of `help`, what the stamp functions compute, and the group
constants (`PRIVATE` is all zeros, `crates/pkt/src/consts.rs`). -/
structure Params where
  utf8 : Bytes → Bytes
  help : Top → List Bytes → Bool → AR Bytes
  helpMac : Top → List ABE → AR Bytes
  us : Top → List Bytes → Bool → AR Bytes
  now : Top → List Bytes → Bool → AR Bytes
  epoch : Top → List Bytes → Bool → AR Bytes
  usMax : Top → List Bytes → Bool → AR Bytes
  publicGrp : Bytes
  testGrp : Bytes

/-- `Help`, `crates/abe/src/scope/help.rs:17-67`. -/
def helpFns (p : Params) : List Fn := [{ id := ascii "help", lo := 0, hi := 16, apply := p.help }]

/-- `StampEF`, `crates/core/src/stamp_fmt.rs:299-308`; the encoder of `us` always answers `NoValue`. -/
def stampFns (p : Params) : List Fn := [
  { id := ascii "us", lo := 0, hi := 16, apply := p.us, toAbe := some fun _ _ => .noValue },
  { id := ascii "now", lo := 0, hi := 16, init := some true, apply := p.now },
  { id := ascii "epoch", lo := 0, hi := 16, init := some true, apply := p.epoch },
  { id := ascii "us++", lo := 0, hi := 16, init := some true, apply := p.usMax }]

/-- `basic_scope`, `crates/abe/src/scope/mod.rs:28-37`. -/
def basicScope (p : Params) : Scope :=
  (((table (bytesFns p.utf8) []).pair (table uintFns [])).pair (table baseFns [])).pair
    ((((table commentFns []).pair (table (helpFns p) [(ascii "help", p.helpMac)])).pair
      (table logicFns [(ascii "or", orMac)])).pair (table encodeFns encodeMacs))

def zeros32 : Bytes := List.replicate 32 0

/-- `StaticLNS`, `crates/core/src/eval.rs:40-89`. -/
def lnsFns (p : Params) : List Fn := [
  { id := ascii "#", lo := 1, hi := 16, init := some true,
    apply := fun _ i _ =>
      let v := i.headD []
      if v = ascii "0" then .value zeros32 else if v = ascii "pub" then .value p.publicGrp
      else if v = ascii "test" then .value p.testGrp else .noValue
    toAbe := some fun b _ =>
      match fit 32 b with
      | none => .noValue
      | some g =>
        if g = zeros32 then .value (bracket (ascii "#") (ascii "0"))
        else if g = p.publicGrp then .value (bracket (ascii "#") (ascii "pub"))
        else if g = p.testGrp then .value (bracket (ascii "#") (ascii "test")) else .noValue },
  { id := ascii "@", lo := 1, hi := 16, init := some true,
    apply := fun _ i _ => if i.headD [] = ascii "none" then .value zeros32 else .noValue
    toAbe := some fun b _ => if b = zeros32 then .value (bracket (ascii "@") (ascii "none")) else .noValue }]

/-- `x_prefix_cut` and `to_abe_str` of `AB`, `crates/byte-fmt/src/lib.rs:131-138,170-180`. -/
def abToAbeStr (b : Bytes) : Bytes :=
  let (mode, cut) := if b.headD 0 = 255 then (ascii "f", cutPrefixEq 255 b) else (ascii "a", cutPrefixNulls b)
  if b.length = 16 then bracket mode (asAbtxt cut) else bracket mode (asAbtxt cut ++ 0x3a :: dec b.length)

/-- `write_abe` of `AB`, `crates/byte-fmt/src/lib.rs:159-169`: the same as a tree. -/
def abToAbe (b : Bytes) : List ABE :=
  let (mode, cut) := if b.headD 0 = 255 then (ascii "f", cutPrefixEq 255 b) else (ascii "a", cutPrefixNulls b)
  if b.length = 16 then [.lst [.bytes mode, .ctr .colon, .bytes (asAbtxt cut)]]
  else [.lst [.bytes mode, .ctr .colon, .bytes (asAbtxt cut), .ctr .colon, .bytes (dec b.length)]]

/-- `write_abe` of `B64`, `crates/byte-fmt/src/lib.rs:403-406`. -/
def b64ToAbe (b : Bytes) : List ABE := [.lst [.bytes (ascii "b"), .ctr .colon, .bytes (base64 b)]]

/-- `fmt_segm2`, `crates/pkt/src/space_fmt.rs:129-142`; `as_abtxt` borrows when nothing needs escaping. -/
def fmtSegm (seg : Bytes) : Bytes :=
  0x2f :: (if seg.length = 32 then bracket (ascii "b") (base64 seg)
    else if seg.length = 16 then (if asAbtxt seg = seg then seg else abToAbeStr seg)
    else asAbtxt seg)

/-- `Space::display_fmt`, 160-166, on the components. -/
def displayComps (cs : List Bytes) : Bytes := cs.flatMap fmtSegm
/-- `Display for Space`, 169-173. -/
def displaySpace (sp : Bytes) : Except (Fault Space.SpaceError) Bytes := (Space.iter sp).map displayComps

/-- `ToABE for Space`, 144-159, on the components. -/
def compsToAbe (cs : List Bytes) : List ABE :=
  cs.flatMap fun c => .ctr .fslash :: (if c.length = 32 then b64ToAbe c else if c.length = 16 then abToAbe c else [.bytes c])

/-- The components collected in `try_from_ablist`, 76-88. -/
def ablComps : ABList → Option (List Bytes)
  | [] => some []
  | (some .fslash, b) :: r => if b.isEmpty then ablComps r else (ablComps r).map (b :: ·)
  | _ :: _ => none

/-- Dropping a first entry that is empty and not after a `/`, 66-72. -/
def popSilent : ABList → ABList
  | (some .fslash, b) :: r => (some .fslash, b) :: r
  | (c, b) :: r => if b.isEmpty then r else (c, b) :: r
  | [] => []

def ofSpace : Except (Fault Space.SpaceError) Bytes → ER Bytes
  | .ok b => .ok b
  | .error (.err _) => .err
  | .error .panic => .abort

/-- `SpaceBuf::try_from_ablist`, `crates/pkt/src/space_fmt.rs:64-90`. -/
def spaceOfAblist (l : ABList) : ER Bytes :=
  if l.isEmpty then .ok []
  else
    let l := popSilent l
    match asExactBytes l with
    | some b =>
      match Space.checkComponents b with
      | .ok _ => .ok b
      | .error _ => .err
    | none =>
      match ablComps l with
      | none => .err
      | some cs => ofSpace (Space.tryFromIter cs)

/-- The loop of `SpaceBuf::check`, 103-108. -/
def checkPairs : List ABE → Bool
  | [] => true
  | .ctr .fslash :: .bytes _ :: r => checkPairs r
  | .ctr .fslash :: .lst _ :: r => checkPairs r
  | _ => false
/-- `ABEValidator for SpaceBuf`, 97-110. -/
def checkSpaceExpr : List ABE → Bool
  | [.ctr _] => false
  | [_] => true
  | l => checkPairs l

/-- `space_str`, `crates/pkt/src/space_fmt.rs:112-114` with `TypedABE::eval`, `crates/abe/src/convert.rs:68-71`. -/
def spaceStr (dbg : Bool) (sc : Scope) (n : Nat) (s : Bytes) : ER Bytes :=
  match parseStrict s with
  | .error _ => .err
  | .ok abe => if checkSpaceExpr abe then (eval dbg sc n abe).bind spaceOfAblist else .err

/-- `parse_range`, `crates/pkt/src/space_fmt.rs:314-325`; the addition overflows into a panic. -/
def parseRange (i : List Bytes) : ER (Nat × Nat) :=
  match parseUsize (i[1]?.getD []) with
  | none => .err
  | some start =>
    let stop : ER Nat := match i[2]? with
      | some t =>
        match parseUsize t with
        | some v => .ok v
        | none => .err
      | none => if start + 1 < 2 ^ 64 then .ok (start + 1) else .abort
    stop.bind fun stop => if start > 8 then .err else if max stop 9 < start then .err else .ok (start, max stop 9)

/-- `encode_sp`, 326-328. -/
def encodeSp (b : Bytes) (_ : List ABE) : AR Bytes :=
  match Space.checkComponents b with
  | .error _ => .noValue
  | .ok _ =>
    match displaySpace b with
    | .ok s => .value (0x5b :: 0x2f :: (s ++ [0x5d]))
    | .error _ => .abort

/-- `?space`, 331-333. -/
def spaceText (i : List Bytes) : ER Bytes :=
  match Space.checkComponents (i.headD []) with
  | .error _ => .err
  | .ok _ => ofSpace (displaySpace (i.headD []))

/-- `si`, 334-345.  `rooted` unwraps. -/
def spaceIdx (dbg : Bool) (i : List Bytes) : ER Bytes :=
  match Space.checkComponents (i.headD []) with
  | .error _ => .err
  | .ok _ =>
    match Rooted.tryIntoRooted dbg (i.headD []) with
    | .error _ => .abort
    | .ok r =>
      (parseRange i).bind fun (a, b) =>
        match Rooted.range r a b with
        | .ok s => .ok s
        | .error _ => .abort

def spaceFns : List Fn := [
  { id := ascii "?space", lo := 1, hi := 1, apply := fun _ i _ => (spaceText i).toAR },
  { id := ascii "si", lo := 2, hi := 3, apply := fun top i _ => (spaceIdx top.dbg i).toAR },
  { id := ascii "s", lo := 1, hi := 8, apply := fun _ i _ => (ofSpace (Space.tryFromIter i)).toAR, toAbe := some encodeSp }]

/-- The macros `//` and `/~`, 356-377. -/
def spaceMacs : List (Bytes × (Top → List ABE → AR Bytes)) := [
  ([], fun top abe => ((top.eval abe).bind spaceOfAblist).toAR),
  (ascii "~", fun top abe => ((top.eval abe).bind fun l => spaceOfAblist (l.filter fun e => !e.2.isEmpty)).toAR)]

/-- `core_scope`, `crates/core/src/eval.rs:22-28`. -/
def coreScope (p : Params) : Scope :=
  ((basicScope p).pair (table (lnsFns p) [])).pair
    ((table (stampFns p) []).pair (table spaceFns spaceMacs))

end Verif.Eval
