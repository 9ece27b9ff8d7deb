import Verif.Model.ReadHash
import Verif.Lemmas.PktPage
import Verif.Lemmas.ReadAt
import Verif.Props.Pipe
/-!
# Lemmas about packets read in expressions
-/
namespace Verif.Tpl
open Verif Verif.Ast Verif.Abl Verif.Abe Verif.Abtxt Verif.Num Verif.Fit Verif.Pkt Verif.Eval Verif.Env Verif.Repr Verif.Spec Verif.Props

/-- The scope has none of these names. -/
def Mute (names : List Bytes) (sc : Scope) : Prop :=
  ∀ top id, id ∈ names → (∀ args init, sc.func top id args init = .noValue) ∧ ∀ abe, sc.mac top id abe = .noValue

/-- The names of the functions of the core scope. -/
def coreNames : List Bytes := ids (bytesFns id) ++ ids uintFns ++ ids baseFns ++ ids commentFns ++ [ascii "help"] ++ ids logicFns ++ ids encodeFns ++
  ["#", "@", "us", "now", "epoch", "us++"].map ascii ++ ids spaceFns

theorem core_none (p : Params) {id : Bytes} (h : id ∉ coreNames) (top : Top) (args : List Bytes) (init : Bool) :
    (coreScope p).func top id args init = .noValue := by
  have hn : ∀ (fns : List Fn), (∀ x ∈ ids fns, x ∈ coreNames) → tableFunc fns top id args init = .noValue :=
    fun fns h1 => tableFunc_none (ids_ne fun hx => h (h1 _ hx)) top args init
  rw [core_func]
  have hb : (basicScope p).func top id args init = .noValue := by
    show AR.orElse (AR.orElse (AR.orElse (tableFunc (bytesFns p.utf8) top id args init) fun _ => tableFunc uintFns top id args init)
      fun _ => tableFunc baseFns top id args init) (fun _ => AR.orElse (AR.orElse (AR.orElse (tableFunc commentFns top id args init)
      fun _ => tableFunc (helpFns p) top id args init) fun _ => tableFunc logicFns top id args init) fun _ => tableFunc encodeFns top id args init) = _
    rw [hn (bytesFns p.utf8) (by have : ids (bytesFns p.utf8) = ids (bytesFns _root_.id) := rfl
                                 rw [this]; decide +kernel),
      hn uintFns (by decide +kernel), hn baseFns (by decide +kernel), hn commentFns (by decide +kernel), hn logicFns (by decide +kernel),
      hn encodeFns (by decide +kernel), hn (helpFns p) (by have : ids (helpFns p) = [ascii "help"] := rfl
                                                           rw [this]; decide +kernel)]
    rfl
  rw [hb, hn (lnsFns p) (by have : ids (lnsFns p) = [ascii "#", ascii "@"] := rfl
                            rw [this]; decide +kernel),
    hn (stampFns p) (by have : ids (stampFns p) = [ascii "us", ascii "now", ascii "epoch", ascii "us++"] := rfl
                        rw [this]; decide +kernel), hn spaceFns (by decide +kernel)]
  rfl

section
variable {k : PktParams} {p : Params} {names : Ev → Dyn → Scope} {files : Scope} {en : Bool} {o : Outside}

def readNames : List Bytes := [ascii "readhash", ascii "read"]

theorem base_read (hn : ∀ ev d, Mute readNames (names ev d)) (hf : Mute readNames files) (ev : Ev) (d : Dyn) (top : Top) {id : Bytes}
    (hid : id ∈ readNames) (args : List Bytes) (init : Bool) :
    (lkBase k p names files en o ev d).func top id args init = tableFunc (readFns k ev d o) top id args init := by
  have h1 : (coreScope p).func top id args init = .noValue := core_none p (by clear hn hf; revert id; decide +kernel) top args init
  have h2 : (if en then table (envFns o) [] else Scope.unit).func top id args init = .noValue := by
    cases en
    · rfl
    · refine tableFunc_none (ids_ne ?_) top args init
      have : ids (envFns o) = [ascii "env"] := rfl
      rw [this]; clear hn hf h1; revert id; decide +kernel
  show AR.orElse ((coreScope p).func top id args init) (fun _ => AR.orElse ((names ev d).func top id args init) fun _ =>
    AR.orElse (AR.orElse (files.func top id args init) fun _ => tableFunc (readFns k ev d o) top id args init) fun _ =>
      (if en then table (envFns o) [] else Scope.unit).func top id args init) = _
  rw [h1, (hn ev d top id hid).1, (hf top id hid).1, h2]
  simp only [AR.orElse]
  cases tableFunc (readFns k ev d o) top id args init <;> rfl

theorem base_readmac (hn : ∀ ev d, Mute readNames (names ev d)) (hf : Mute readNames files) (ev : Ev) (d : Dyn) (top : Top) (abe : List ABE) :
    (lkBase k p names files en o ev d).mac top (ascii "readhash") abe = readMac ev d o abe := by
  have h1 : (coreScope p).mac top (ascii "readhash") abe = .noValue := rfl
  have h2 : (if en then table (envFns o) [] else Scope.unit).mac top (ascii "readhash") abe = .noValue := by cases en <;> rfl
  have h3 : tableMac [(ascii "readhash", fun (_ : Top) abe => readMac ev d o abe)] top (ascii "readhash") abe = readMac ev d o abe := by
    simp [tableMac]
  show AR.orElse ((coreScope p).mac top (ascii "readhash") abe) (fun _ => AR.orElse ((names ev d).mac top (ascii "readhash") abe) fun _ =>
    AR.orElse (AR.orElse (files.mac top (ascii "readhash") abe) fun _ => tableMac [(ascii "readhash", fun (_ : Top) abe => readMac ev d o abe)] top (ascii "readhash") abe) fun _ =>
      (if en then table (envFns o) [] else Scope.unit).mac top (ascii "readhash") abe) = _
  rw [h1, (hn ev d top _ (by simp [readNames])).2, (hf top _ (by simp [readNames])).2, h2, h3]
  simp only [AR.orElse]
  cases readMac ev d o abe <;> rfl

theorem denote_read (hn : ∀ ev d, Mute readNames (names ev d)) (hf : Mute readNames files) (ev : Ev) (d : Dyn) (top : Top) {id : Bytes}
    (hid : id ∈ readNames) (args : List Bytes) (init : Bool) :
    (denote k (lkBase k p names files en o) ev d).func top id args init = tableFunc (readFns k ev d o) top id args init := by
  rw [denote_func k _ ev d (by clear hn hf; revert id; decide +kernel), base_read hn hf ev d top hid]

theorem denote_readmac (hn : ∀ ev d, Mute readNames (names ev d)) (hf : Mute readNames files) (ev : Ev) (d : Dyn) (top : Top) (abe : List ABE) :
    (denote k (lkBase k p names files en o) ev d).mac top (ascii "readhash") abe = readMac ev d o abe := by
  rw [denote_mac k _ ev d (by decide +kernel), base_readmac hn hf]

end

/-! ### calls as text -/

theorem callText_args (id : Bytes) (args : List Bytes) (dbg : Bool) (k : PktParams) (base : Ev → Dyn → Scope) (n : Nat) (d : Dyn)
    (hid : id ≠ []) {t : Bytes} (ht : AbeText t [.lst (toAbe (callList id args))]) (hl : args.length ≤ 15) :
    evalText dbg k base (n + 1) d t =
      call (denote k base (evalD dbg k base n) d) ⟨evalD dbg k base n d, (denote k base (evalD dbg k base n) d).enc, dbg⟩ id ([] :: args) true := by
  have hp : parseStrict t = .ok _ := parse_of_text ht false
  unfold evalText
  rw [hp]
  show ER.map _ ((evalItems _ _ [_]).map fromItems) = _
  rw [evalItems, match_callList _ _ id hid args hl]
  cases call (denote k base (evalD dbg k base n) d) _ id ([] :: args) true <;>
    simp [ER.map, ER.bind, evalItems, fromItems, push, pushBytes, concat, asStr]

end Verif.Tpl
