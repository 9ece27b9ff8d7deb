import Verif.Spec.EvalCmd
import Verif.Props.ReadHash
import Verif.Props.CliData
import Verif.Props.Loose
/-!
# The command `eval` (C91)
-/
namespace Verif.Props
open Verif Verif.Abtxt Verif.Ast Verif.Abl Verif.Abe Verif.Eval Verif.Pred Verif.Num Verif.Tpl Verif.Rd Verif.Spec Verif.EvalCmd

/-! ## JSON texts are read back -/

/-- The text does not go on with a digit. -/
def NoDigit (s : Bytes) : Prop := ∀ c r, s = c :: r → ¬ (0x30 ≤ c ∧ c ≤ 0x39)

theorem readNum_stop (n : Nat) {s : Bytes} (h : NoDigit s) : readNum n s = (n, s) := by
  cases s with
  | nil => rfl
  | cons c r => simp only [readNum, if_neg (h c r rfl)]

theorem readNum_digit (acc : Nat) {d : Nat} (hd : d < 10) (s : Bytes) :
    readNum acc (UInt8.ofNat (0x30 + d) :: s) = readNum (acc * 10 + d) s := by
  have key : ∀ n : Fin 10, (0x30 ≤ UInt8.ofNat (0x30 + n.1) ∧ UInt8.ofNat (0x30 + n.1) ≤ 0x39) ∧
      (UInt8.ofNat (0x30 + n.1)).toNat - 0x30 = n.1 := by decide
  obtain ⟨h1, h2⟩ := key ⟨d, hd⟩
  conv => lhs; unfold readNum
  rw [if_pos h1, h2]

theorem readNum_dec (n : Nat) : ∀ s, readNum 0 (dec n ++ s) = readNum n s := by
  induction n using Nat.strongRecOn with
  | _ n ih =>
    intro s
    rw [dec]
    by_cases h : n < 10
    · rw [if_pos h]
      show readNum 0 (_ :: s) = _
      rw [readNum_digit 0 h]
      simp
    · rw [if_neg h, List.append_assoc, ih (n / 10) (by omega)]
      show readNum _ (_ :: s) = _
      rw [readNum_digit _ (by omega)]
      congr 1
      omega

theorem hexOf_char (n : UInt8) (h : n < 16) : hexOf (hexChar n) = some n.toNat := by
  revert n; apply Abtxt.all_u8; decide +kernel

/-- One byte of a string is read back. -/
theorem readStr_byte (b : UInt8) (n : Nat) (s : Bytes) :
    readStr (n + 1) (jsonByte b ++ s) = (readStr n s).map fun x => (b :: x.1, x.2) := by
  have esc : ∀ (c : UInt8) (t : Bytes), readEscape (c :: t) = some (b, s) →
      readStr (n + 1) (0x5c :: c :: t) = (readStr n s).map fun x => (b :: x.1, x.2) := by
    intro c t h
    conv => lhs; unfold readStr
    rw [if_neg (by decide), if_pos (by decide), h]
  have hi : ∀ b : UInt8, b >>> 4 < 16 := by apply Abtxt.all_u8; decide +kernel
  have lo : ∀ b : UInt8, b &&& 0xf < 16 := by apply Abtxt.all_u8; decide +kernel
  have both : ∀ b : UInt8, ((0 * 16 + 0) * 16 + (b >>> 4).toNat) * 16 + (b &&& 0xf).toNat = b.toNat := by
    apply Abtxt.all_u8; decide +kernel
  unfold jsonByte
  split
  · rename_i h; subst h; exact esc _ _ rfl
  split
  · rename_i h; subst h; exact esc _ _ rfl
  split
  · rename_i h; subst h; exact esc _ _ rfl
  split
  · rename_i h; subst h; exact esc _ _ rfl
  split
  · rename_i h; subst h; exact esc _ _ rfl
  split
  · rename_i h; subst h; exact esc _ _ rfl
  split
  · rename_i h; subst h; exact esc _ _ rfl
  split
  · rename_i hb
    refine esc _ (0x30 :: 0x30 :: hexChar (b >>> 4) :: hexChar (b &&& 0xf) :: s) ?_
    have h1 : hexOf (hexChar (b >>> 4)) = some (b >>> 4).toNat :=
      hexOf_char _ (hi b)
    have h2 : hexOf (hexChar (b &&& 0xf)) = some (b &&& 0xf).toNat :=
      hexOf_char _ (lo b)
    have h0 : hexOf 0x30 = some 0 := rfl
    simp only [readEscape, h0, h1, h2]
    have h3 : ((0 * 16 + 0) * 16 + (b >>> 4).toNat) * 16 + (b &&& 0xf).toNat = b.toNat := both b
    rw [if_neg (by decide), if_neg (by decide), if_neg (by decide), if_neg (by decide), if_neg (by decide), if_neg (by decide),
      if_pos (by decide), h3, if_pos (by have : b.toNat < 32 := hb; omega)]
    simp
  · rename_i h1 h2 _ _ _ _ _ h8
    simp only [List.cons_append, List.nil_append, readStr, if_neg h1, if_neg h2, if_neg h8]

theorem readStr_text (b : Bytes) : ∀ (n : Nat) (s : Bytes), b.length < n →
    readStr n (b.flatMap jsonByte ++ 0x22 :: s) = some (b, s) := by
  induction b with
  | nil =>
    intro n s hn
    obtain ⟨m, rfl⟩ : ∃ m, n = m + 1 := ⟨n - 1, by simp at hn; omega⟩
    simp [readStr]
  | cons c b ih =>
    intro n s hn
    simp only [List.length_cons] at hn
    obtain ⟨m, rfl⟩ : ∃ m, n = m + 1 := ⟨n - 1, by omega⟩
    rw [List.flatMap_cons, List.append_assoc, readStr_byte, ih m s (by omega)]
    rfl

theorem jsonByte_len (b : UInt8) : 1 ≤ (jsonByte b).length := by
  revert b; apply Abtxt.all_u8; decide +kernel

theorem flat_len (b : Bytes) : b.length ≤ (b.flatMap jsonByte).length := by
  induction b with
  | nil => simp
  | cons c b ih =>
    rw [List.flatMap_cons, List.length_append, List.length_cons]
    have := jsonByte_len c
    omega

/-- The first character of a value is none of `]` and `,`. -/
theorem text_head (v : JVal) : ∃ c r, v.text = c :: r ∧ c ≠ 0x5d ∧ c ≠ 0x2c := by
  cases v with
  | null => exact ⟨_, _, rfl, by decide, by decide⟩
  | num n =>
    cases h : dec n with
    | nil => exact absurd h (dec_ne n)
    | cons c r =>
      have := mem_dec (n := n) (c := c) (by rw [h]; exact List.mem_cons_self)
      refine ⟨c, r, by rw [JVal.text, h], ?_, ?_⟩ <;> rintro rfl <;> exact absurd this (by decide)
  | str b => exact ⟨0x22, _, rfl, by decide, by decide⟩
  | arr l => exact ⟨0x5b, _, rfl, by decide, by decide⟩

theorem text_len (v : JVal) : 1 ≤ v.text.length := by
  obtain ⟨c, r, h, -⟩ := text_head v
  rw [h]; simp

theorem noDigit_of {c : UInt8} (h : ¬ (0x30 ≤ c ∧ c ≤ 0x39)) (s : Bytes) : NoDigit (c :: s) := by
  rintro c' r h'
  injection h' with h1 _
  rw [← h1]; exact h

mutual
theorem readVal_text : (v : JVal) → ∀ (n : Nat) (s : Bytes), NoDigit s → 2 * v.text.length ≤ n + 1 →
    readVal n (v.text ++ s) = some (v, s)
  | .null, n, s, _, hn => by
    obtain ⟨m, rfl⟩ : ∃ m, n = m + 1 := ⟨n - 1, by
      have := text_len .null
      omega⟩
    show readVal (m + 1) (0x6e :: 0x75 :: 0x6c :: 0x6c :: s) = _
    unfold readVal
    rw [if_neg (by decide), if_neg (by decide), if_neg (by decide), if_pos]
    · rfl
    · rfl
  | .num k, n, s, hs, hn => by
    obtain ⟨m, rfl⟩ : ∃ m, n = m + 1 := ⟨n - 1, by
      have := text_len (.num k)
      omega⟩
    have hr : readNum 0 (dec k ++ s) = (k, s) := by rw [readNum_dec, readNum_stop k hs]
    show readVal (m + 1) (dec k ++ s) = _
    cases h : dec k with
    | nil => exact absurd h (dec_ne k)
    | cons c r =>
      have hc := mem_dec (n := k) (c := c) (by rw [h]; exact List.mem_cons_self)
      have hc' : 0x30 ≤ c ∧ c ≤ 0x39 := ⟨UInt8.le_iff_toNat_le.2 hc.1, UInt8.le_iff_toNat_le.2 hc.2⟩
      rw [h] at hr
      rw [List.cons_append] at hr ⊢
      unfold readVal
      rw [if_neg (by rintro rfl; exact absurd hc (by decide)), if_neg (by rintro rfl; exact absurd hc (by decide)), if_pos hc', hr]
  | .str b, n, s, _, hn => by
    obtain ⟨m, rfl⟩ : ∃ m, n = m + 1 := ⟨n - 1, by
      have := text_len (.str b)
      omega⟩
    have hlen : (JVal.str b).text.length = (b.flatMap jsonByte).length + 2 := by
      simp only [JVal.text, List.length_append]
      simp [ascii]; omega
    have h2 := flat_len b
    have ht : (JVal.str b).text ++ s = 0x22 :: (b.flatMap jsonByte ++ 0x22 :: s) := by
      simp [JVal.text, ascii]
    rw [ht]
    unfold readVal
    rw [if_pos rfl, readStr_text b m s (by omega)]
    rfl
  | .arr [], n, s, _, hn => by
    obtain ⟨m, rfl⟩ : ∃ m, n = m + 1 := ⟨n - 1, by
      have := text_len (.arr [])
      omega⟩
    show readVal (m + 1) (0x5b :: 0x5d :: s) = _
    unfold readVal
    rw [if_neg (by decide), if_pos (by decide)]
    rfl
  | .arr (v :: l), n, s, _, hn => by
    obtain ⟨m, rfl⟩ : ∃ m, n = m + 1 := ⟨n - 1, by
      have := text_len (.arr (v :: l))
      omega⟩
    have hlen : (JVal.arr (v :: l)).text.length = (JVal.texts (v :: l)).length + 2 := by
      simp only [JVal.text, List.length_append]
      simp [ascii]; omega
    have ht : (JVal.arr (v :: l)).text ++ s = 0x5b :: (JVal.texts (v :: l) ++ 0x5d :: s) := by
      simp [JVal.text, ascii]
    have hi := readItems_text (v :: l) (by simp) m s (by omega)
    have hd : ∃ c r, JVal.texts (v :: l) = c :: r ∧ c ≠ 0x5d := by
      obtain ⟨c, r, h, h5, -⟩ := text_head v
      cases l with
      | nil => exact ⟨c, r, h, h5⟩
      | cons u l => exact ⟨c, _, by rw [JVal.texts, h]; rfl, h5⟩
    obtain ⟨c, r, hc, h5⟩ := hd
    rw [ht]
    rw [hc, List.cons_append] at hi ⊢
    unfold readVal
    rw [if_neg (by decide), if_pos (by decide)]
    simp only
    rw [if_neg (show ¬ c = UInt8.ofNat ']'.toNat from h5), hi]
    rfl
theorem readItems_text : (l : List JVal) → l ≠ [] → ∀ (n : Nat) (s : Bytes), 2 * (JVal.texts l).length ≤ n →
    readItems n (JVal.texts l ++ 0x5d :: s) = some (l, s)
  | [], h, _, _, _ => absurd rfl h
  | [v], _, n, s, hn => by
    have hl := text_len v
    rw [JVal.texts] at hn ⊢
    obtain ⟨m, rfl⟩ : ∃ m, n = m + 1 := ⟨n - 1, by omega⟩
    unfold readItems
    rw [readVal_text v m (0x5d :: s) (noDigit_of (by decide) s) (by omega)]
    simp only
    rw [if_neg (by decide), if_pos (by decide)]
  | v :: u :: l, _, n, s, hn => by
    have hl := text_len v
    rw [JVal.texts] at hn ⊢
    have hlen : (v.text ++ ascii "," ++ JVal.texts (u :: l)).length = v.text.length + 1 + (JVal.texts (u :: l)).length := by
      simp only [List.length_append]; rfl
    rw [hlen] at hn
    obtain ⟨m, rfl⟩ : ∃ m, n = m + 1 := ⟨n - 1, by omega⟩
    have ht : v.text ++ ascii "," ++ JVal.texts (u :: l) ++ 0x5d :: s = v.text ++ 0x2c :: (JVal.texts (u :: l) ++ 0x5d :: s) := by
      simp [ascii]
    rw [ht]
    unfold readItems
    rw [readVal_text v m _ (noDigit_of (by decide) _) (by omega)]
    simp only
    rw [if_pos (by decide), readItems_text (u :: l) (by simp) m s (by omega)]
    rfl
end

theorem bytesOf_back (utf8 : Bytes → Bool) (b : Bytes) : bytesOf (.ofBytes utf8 b) = some b := by
  unfold JVal.ofBytes
  split
  · rfl
  · rename_i hu
    clear hu
    show List.mapM _ _ = _
    rw [List.mapM_map]
    induction b with
    | nil => rfl
    | cons c b ih =>
      rw [List.mapM_cons, ih]
      have : c.toNat < 256 := c.toNat_lt
      simp [this]

theorem sepOf_back (c : Option Ctr) : sepOf (.ofCtr c) = some c := by
  cases c with
  | none => rfl
  | some c => cases c <;> rfl

theorem listOf_back (utf8 : Bytes → Bool) (l : ABList) : listOf (.ofList utf8 l) = some l := by
  unfold JVal.ofList listOf
  simp only
  rw [List.mapM_map]
  induction l with
  | nil => rfl
  | cons e l ih =>
    rw [List.mapM_cons, ih]
    simp [sepOf_back, bytesOf_back]

/-- **C91** The line that `--json` prints stands for exactly the list of the value, whichever bytes it
has. -/
theorem json_read_back (utf8 : Bytes → Bool) (val : ABList) : readLine (printed utf8 true val) = some val := by
  have ht : printed utf8 true val = (JVal.ofList utf8 val).text ++ [0x0a] := rfl
  unfold readLine
  rw [ht, readVal_text _ _ _ (noDigit_of (by decide) []) (by simp; omega)]
  exact listOf_back utf8 val

/-- **C91** So different values print differently. -/
theorem json_injective (utf8 : Bytes → Bool) (a b : ABList) (h : printed utf8 true a = printed utf8 true b) : a = b := by
  have h1 := json_read_back utf8 a
  rw [h, json_read_back] at h1
  injection h1 with h1
  exact h1.symm

/-! ## The arguments -/

/-- **C91** With a delimiter the arguments are the records in order, each evaluated (with `--data-eval`) where
those before it are known; without, they are the records themselves. -/
theorem args_records (w : Where) {r : Reader} {d : UInt8} {all t : Bytes} {rs out : List Bytes} (hd : r.delim = some d)
    (hi : r.input = some ⟨all, t⟩) (hn : r.next = none) (hc : r.cycle = false) (ht : r.takeMax = none) (hr : Records d t rs)
    {args : List Bytes} (hv : ArgsFrom (fun a => recordValue (recordEval w a) r) args rs out) (hk : rs.length ≤ r.calls)
    {rounds : Nat} (hl : rs.length < rounds) : readArgs w rounds r args = .ok out := by
  generalize hE : (fun a => recordValue (recordEval w a) r) = E at hv
  induction hv generalizing r t rounds with
  | nil =>
    obtain ⟨m, rfl⟩ : ∃ m, rounds = m + 1 := ⟨rounds - 1, by omega⟩
    rename_i a
    unfold readArgs
    by_cases hc0 : r.calls = 0
    · have e : readNext (recordEval w a) r (2 ^ 64 - 1) [] = .ok (false, r, []) := by unfold readNext; rw [if_pos hc0]
      rw [e]
    · cases hr
      obtain ⟨r', e⟩ := fresh_none (ev := recordEval w a) hd hi hc (2 ^ 64 - 1)
      rw [(readNext_fresh hc0 hn).trans e]
  | @cons a x v rs out hxl hvl hev hv ih =>
    simp only [List.length_cons] at hk hl
    obtain ⟨m, rfl⟩ : ∃ m, rounds = m + 1 := ⟨rounds - 1, by omega⟩
    obtain ⟨rest, hrest, e⟩ := fresh_record (ev := recordEval w a) hd hi hr (f := 2 ^ 64 - 1) (by rw [ht]; simp; omega)
    have hE' : recordValue (recordEval w a) r = E a := congrFun hE a
    rw [hE', hev] at e
    simp only [afterValue, checkSize_small (r := { r with calls := r.calls - 1, input := some ⟨all, rest⟩ }) (free := 2 ^ 64 - 1) (buf := v) (by omega) hn] at e
    unfold readArgs
    rw [(readNext_fresh (by omega) hn).trans e]
    simp only
    exact ih (r := { r with calls := r.calls - 1, input := some ⟨all, rest⟩ }) hd rfl hn hc ht hrest (by simp only; omega) (by omega) hE

theorem argsFrom_self (E : List Bytes → Bytes → PRes Bytes) (he : ∀ a b, E a b = .ok b) (rs : List Bytes) (hl : ∀ x ∈ rs, x.length < 2 ^ 64) (args : List Bytes) :
    ArgsFrom E args rs (args ++ rs) := by
  induction rs generalizing args with
  | nil => rw [List.append_nil]; exact .nil
  | cons x rs ih =>
    have := ih (fun y hy => hl y (List.mem_cons_of_mem _ hy)) (args ++ [x])
    rw [List.append_assoc] at this
    exact .cons (hl x List.mem_cons_self) (hl x List.mem_cons_self) (he _ _) this

theorem args_plain (w : Where) {r : Reader} {d : UInt8} {all t : Bytes} {rs : List Bytes} (hd : r.delim = some d)
    (hi : r.input = some ⟨all, t⟩) (hn : r.next = none) (hc : r.cycle = false) (ht : r.takeMax = none) (he : r.eval = false) (hr : Records d t rs)
    (hx : ∀ x ∈ rs, x.length < 2 ^ 64) (hk : rs.length ≤ r.calls) {rounds : Nat} (hl : rs.length < rounds) :
    readArgs w rounds r [] = .ok rs := by
  refine args_records w hd hi hn hc ht hr ?_ hk hl
  have := argsFrom_self (fun a => recordValue (recordEval w a) r) (by intro a b; unfold recordValue; rw [he]; rfl) rs hx []
  simpa using this

/-- **C91 finding** With `--no-data` the loop does not end within any number of rounds the machine can make. -/
theorem no_data_endless (utf8 : Bytes → Bool) (w : Where) (o : Opts) (k : Nat) (hd : o.data = some { input := none, calls := k })
    (hp : ∃ abe, parse (!o.noLoose) o.abe = .ok abe) (rounds : Nat) (h : rounds ≤ k) : evalCmd utf8 w o rounds = .error .running := by
  obtain ⟨abe, hp⟩ := hp
  have go : ∀ (n k : Nat) (args : List Bytes), n ≤ k → readArgs w n { input := none, calls := k } args = .error .running := by
    intro n
    induction n with
    | zero => intros; rfl
    | succ n ih =>
      intro k args hk
      unfold readArgs
      rw [readNext_fresh (by simp only; omega) rfl]
      unfold readFresh
      exact ih (k - 1) _ (by omega)
  unfold evalCmd
  rw [hp]
  simp only [argsFor, hd, go rounds k [] h]

/-! ## What is printed -/

theorem evalCmd_text (utf8 : Bytes → Bool) (w : Where) {t : Bytes} {abe : List ABE} (ht : AbeText t abe) (loose : Bool) (data : Option Reader)
    (rounds : Nat) (args : List Bytes) (ha : argsFor w data rounds = .ok args) :
    evalCmd utf8 w { abe := t, noLoose := loose, data := data } rounds =
      (match evalText w.dbg w.k (withArgs w.base (some (argList args))) w.depth ⟨[], []⟩ t with
      | .ok b => .ok b
      | .err => .error (.stop (.err ()))
      | .abort => .error (.stop .panic)) := by
  unfold evalCmd evalText
  have h2 : parseStrict t = .ok abe := parse_of_text ht false
  rw [parse_of_text ht, h2]
  simp only [ha]
  unfold Where.eval
  cases evalD w.dbg w.k (withArgs w.base (some (argList args))) w.depth ⟨[], []⟩ abe <;> rfl

/-- **C91** A word prints itself, in any language and on any number of lines, whatever the scope. -/
theorem eval_word (utf8 : Bytes → Bool) (w : Where) (hw : w.depth ≠ 0) (s : Bytes) (h : Wordy s) (hne : s ≠ []) (data : Option Reader)
    (rounds : Nat) (args : List Bytes) (ha : argsFor w data rounds = .ok args) :
    evalCmd utf8 w { abe := s, data := data } rounds = .ok s := by
  obtain ⟨n, hn⟩ : ∃ n, w.depth = n + 1 := ⟨w.depth - 1, by omega⟩
  unfold evalCmd
  rw [show (!({ abe := s, data := data } : Opts).noLoose) = true from rfl, loose_words s h hne]
  simp only [ha]
  unfold Where.eval
  rw [hn]
  simp [evalD, evalItems, matchExpr, ER.map, ER.bind, fromItems, push, pushBytes, ended, printed, concat, asStr]

theorem digit_name (i : Nat) : dec i ≠ [] ∧ ∀ c ∈ dec i, Self c := by
  refine ⟨dec_ne i, fun c hc => ?_⟩
  have key : ∀ c : UInt8, 0x30 ≤ c.toNat ∧ c.toNat ≤ 0x39 → Self c := by apply Abtxt.all_u8; decide +kernel
  exact key c (mem_dec hc)

theorem digit_other (i : Nat) : dec i ∉ frameNames ∧ dec i ∉ coreNames ++ readNames ∧ dec i ≠ ascii "env" ∧ dec i ≠ ascii "argv" := by
  have key : ∀ x ∈ frameNames ++ (coreNames ++ readNames) ++ [ascii "env", ascii "argv"], ¬ ∀ c ∈ x, 0x30 ≤ c.toNat ∧ c.toNat ≤ 0x39 ∧ x ≠ [] := by
    decide +kernel
  have hd : ∀ c ∈ dec i, 0x30 ≤ c.toNat ∧ c.toNat ≤ 0x39 ∧ dec i ≠ [] := fun c hc => ⟨(mem_dec hc).1, (mem_dec hc).2, dec_ne i⟩
  have hno : dec i ∉ frameNames ++ (coreNames ++ readNames) ++ [ascii "env", ascii "argv"] := fun h => key _ h hd
  simp only [List.mem_append, not_or, List.mem_cons, List.not_mem_nil, or_false] at hno
  obtain ⟨⟨h1, h2, h3⟩, h4, h5⟩ := hno
  exact ⟨h1, by simp only [List.mem_append, not_or]; exact ⟨h2, h3⟩, h4, h5⟩

section
variable {p : Params} {names : Ev → Dyn → Scope} {files : Scope} {en : Bool} {o : Outside} (k : PktParams)

/-- What a call gives. -/
def given : AR Bytes → ER Bytes
  | .value b => .ok b
  | .abort => .abort
  | _ => .err

/-- A call that only the arguments take. -/
theorem args_take {x : Bytes} (hs : x ≠ [] ∧ ∀ c ∈ x, Self c) (hf : x ∉ frameNames) (hc : x ∉ coreNames ++ readNames) (he : x ≠ ascii "env")
    (hn : ∀ ev d, Mute [x] (names ev d)) (hfi : Mute [x] files) (args : List Bytes) (dbg : Bool) (n : Nat) (d : Dyn)
    (r : AR Bytes) (hr : ∀ top, (argList args).func top x [] true = r) :
    evalText dbg k (withArgs (lkBase k p names files en o) (some (argList args))) (n + 1) d (callText x []) =
      given r := by
  rw [callText_args _ _ dbg k _ n d hs.1 (callText_text hs _) (by simp), call_ar, denote_func k _ _ d hf]
  show (match AR.orElse ((lkBase k p names files en o _ d).func _ x [] true) (fun _ => (argList args).func _ x [] true) with
    | .value b => ER.ok b
    | .abort => .abort
    | _ => .err) = _
  rw [base_other k hn hfi (fun y hy => by rw [List.mem_singleton.1 hy]; exact hc) _ _ _ (List.mem_singleton.2 rfl)]
  have h5 : ∀ top, (if en then table (envFns o) [] else Scope.unit).func top x [] true = .noValue := by
    intro top
    cases en
    · rfl
    · refine tableFunc_none (ids_ne ?_) top [] true
      have : ids (envFns o) = [ascii "env"] := rfl
      rw [this]; simpa using he
  rw [h5]
  show (match (argList args).func _ x [] true with
    | .value b => ER.ok b
    | .abort => .abort
    | _ => .err) = _
  rw [hr]
  cases r <;> rfl

/-- **C91** `[i]` prints the `i`-th argument and fails if there are fewer, for any number of arguments. -/
theorem eval_nth (utf8 : Bytes → Bool) (w : Where) (hw : w.depth ≠ 0) (hk : w.k = k) (hb : w.base = lkBase k p names files en o) {i : Nat} (hi : i < 2 ^ 64)
    (hn : ∀ ev d, Mute [dec i] (names ev d)) (hfi : Mute [dec i] files) (loose : Bool) (data : Option Reader) (rounds : Nat) (args : List Bytes)
    (ha : argsFor w data rounds = .ok args) :
    evalCmd utf8 w { abe := callText (dec i) [], noLoose := loose, data := data } rounds =
      (match args[i]? with | some v => .ok v | none => .error (.stop (.err ()))) := by
  obtain ⟨n, hd⟩ : ∃ n, w.depth = n + 1 := ⟨w.depth - 1, by omega⟩
  obtain ⟨h1, h2, h3, -⟩ := digit_other i
  rw [evalCmd_text utf8 w (callText_text (digit_name i) []) loose data rounds args ha, hb, hd, hk,
    args_take k (digit_name i) h1 h2 h3 hn hfi args w.dbg n ⟨[], []⟩ _ (fun top => (arg_list_partial args top true).2 i hi)]
  cases args[i]? <;> rfl

theorem slice_all {α : Type} (l : List α) (hl : (l.length : Int) < 2 ^ 63) : Abe.slice l [] = .value l := by
  obtain ⟨out, h1, h2⟩ := slice_py_partial l [] none none 1 rfl rfl (.inl ⟨rfl, rfl⟩) (fun _ h => nomatch h) (fun _ h => nomatch h)
    (by decide) (by decide) (by decide) (by omega) hl
  rw [h1]
  congr 1
  apply List.ext_getElem?
  intro m
  have := h2 m
  simp only [pyStart, pyStop] at this
  rw [this]
  by_cases hm : m < l.length
  · simp [hm]
  · simp [hm]

/-- **C91** `[argv]` prints all arguments one after the other. -/
theorem eval_argv (utf8 : Bytes → Bool) (w : Where) (hw : w.depth ≠ 0) (hk : w.k = k) (hb : w.base = lkBase k p names files en o)
    (hn : ∀ ev d, Mute [ascii "argv"] (names ev d)) (hfi : Mute [ascii "argv"] files) (loose : Bool) (data : Option Reader) (rounds : Nat) (args : List Bytes)
    (ha : argsFor w data rounds = .ok args) (hl : args.length < 2 ^ 63) :
    evalCmd utf8 w { abe := callText (ascii "argv") [], noLoose := loose, data := data } rounds = .ok args.flatten := by
  obtain ⟨n, hd⟩ : ∃ n, w.depth = n + 1 := ⟨w.depth - 1, by omega⟩
  have hs : ascii "argv" ≠ [] ∧ ∀ c ∈ ascii "argv", Self c := ⟨by decide +kernel, by decide +kernel⟩
  rw [evalCmd_text utf8 w (callText_text hs []) loose data rounds args ha, hb, hd, hk,
    args_take k hs (by decide +kernel) (by decide +kernel) (by decide +kernel) hn hfi args w.dbg n ⟨[], []⟩ (.value args.flatten)
      (fun top => by simp only [argList, if_pos, slice_all args (by omega)])]
  rfl

/-- With `--data-eval`, a record `[i]` is the argument before it with that number. -/
theorem record_nth (w : Where) (hw : w.depth ≠ 0) (hk : w.k = k) (hb : w.base = lkBase k p names files en o) {i : Nat} (hi : i < 2 ^ 64)
    (hn : ∀ ev d, Mute [dec i] (names ev d)) (hfi : Mute [dec i] files) (args : List Bytes) :
    recordEval w args (callText (dec i) []) = (match args[i]? with | some v => .ok v | none => .error (.err ())) := by
  obtain ⟨n, hd⟩ : ∃ n, w.depth = n + 1 := ⟨w.depth - 1, by omega⟩
  obtain ⟨h1, h2, h3, -⟩ := digit_other i
  have ht := callText_text (digit_name i) []
  have h := args_take (en := en) (o := o) (p := p) k (digit_name i) h1 h2 h3 hn hfi args w.dbg n ⟨[], []⟩ _ (fun top => (arg_list_partial args top true).2 i hi)
  have h4 : parseStrict (callText (dec i) []) = .ok _ := parse_of_text ht false
  unfold evalText at h
  unfold recordEval
  rw [h4] at h ⊢
  simp only at h ⊢
  unfold Where.eval
  rw [hb, hd, hk]
  revert h
  cases evalD w.dbg k (withArgs (lkBase k p names files en o) (some (argList args))) (n + 1) ⟨[], []⟩ _ <;> cases args[i]? <;>
    simp [ER.map, ER.bind, given, ended, Except.map]

end

/-- **C91** What `--json` prints stands for a value whose bytes are what is printed without it; both fail together. -/
theorem json_same (utf8 : Bytes → Bool) (w : Where) (o : Opts) (rounds : Nat) :
    (∀ line, evalCmd utf8 w { o with json := true } rounds = .ok line →
      ∃ val, readLine line = some val ∧ evalCmd utf8 w { o with json := false } rounds = .ok (inOne val)) ∧
    ∀ e, evalCmd utf8 w { o with json := true } rounds = .error e ↔ evalCmd utf8 w { o with json := false } rounds = .error e := by
  have hc : ∀ l : ABList, concat l = inOne l := by
    have hs : ∀ e : ABLV, asStr e.1 ++ e.2 = sepText e.1 ++ e.2 := by
      rintro ⟨c, b⟩
      cases c with
      | none => rfl
      | some c => cases c <;> rfl
    intro l
    cases l with
    | nil => rfl
    | cons e l =>
      obtain ⟨c, b⟩ := e
      unfold inOne
      rw [List.flatMap_cons, ← hs (c, b)]
      show asStr c ++ b ++ _ = _
      congr 2
      funext e
      exact hs e
  unfold evalCmd
  simp only
  cases parse (!o.noLoose) o.abe with
  | error e => cases e <;> exact ⟨fun _ h => (nomatch h), fun e => Iff.rfl⟩
  | ok abe =>
    simp only
    cases argsFor w o.data rounds with
    | error e => exact ⟨fun _ h => (nomatch h), fun e => Iff.rfl⟩
    | ok args =>
      simp only
      cases ended (w.eval args abe) with
      | error e => exact ⟨fun _ h => (nomatch h), fun e => Iff.rfl⟩
      | ok val =>
        refine ⟨fun line h => ?_, fun e => ⟨fun h => (nomatch h), fun h => (nomatch h)⟩⟩
        injection h with h
        subst h
        exact ⟨val, json_read_back utf8 val, by rw [← hc]; rfl⟩

/-- **C91** Without a delimiter the data is one argument. -/
theorem args_whole (w : Where) {r : Reader} {all t : Bytes} (hd : r.delim = none) (hi : r.input = some ⟨all, t⟩) (hn : r.next = none)
    (hc : r.cycle = false) (ht : r.takeMax = none) (he : r.eval = false) (hne : t ≠ []) (hl : t.length < 2 ^ 64) (hk : 1 < r.calls) {rounds : Nat}
    (hr : 1 < rounds) : readArgs w rounds r [] = .ok [t] := by
  obtain ⟨m, rfl⟩ : ∃ m, rounds = m + 2 := ⟨rounds - 2, by omega⟩
  obtain ⟨next, takeMax, calls, input, cycle, eval, delim, mode⟩ := r
  simp only at hd hi hn hc ht he hk
  subst hd hi hn hc ht he
  have h1 : readNext (recordEval w []) { next := none, takeMax := none, calls := calls, input := some ⟨all, t⟩, cycle := false, eval := false, delim := none, onOverflow := mode }
      (2 ^ 64 - 1) [] = .ok (true, { next := none, takeMax := none, calls := calls - 1, input := some ⟨all, []⟩, cycle := false, eval := false, delim := none, onOverflow := mode }, t) := by
    rw [readNext_fresh (by simp only; omega) rfl]
    unfold readFresh
    simp only [Option.getD_none, read_plain]
    rw [List.take_of_length_le (by omega), if_neg (by rw [List.isEmpty_iff]; exact hne)]
    unfold haveRead
    simp only [Option.isSome_none, Bool.false_eq_true, false_and, if_false, List.nil_append]
    rw [checkSize_small (buf := t) (free := 2 ^ 64 - 1) (by omega) rfl, List.drop_eq_nil_of_le (by omega)]
  have h2 : ∃ r', readNext (recordEval w [t]) { next := none, takeMax := none, calls := calls - 1, input := some ⟨all, []⟩, cycle := false, eval := false, delim := none, onOverflow := mode }
      (2 ^ 64 - 1) [] = .ok (false, r', []) := by
    rw [readNext_fresh (by simp only; omega) rfl]
    unfold readFresh
    simp only [read_plain, Option.getD_none, List.take_nil, List.isEmpty_nil, if_true, Bool.false_eq_true, if_false]
    exact ⟨_, rfl⟩
  obtain ⟨r', h2⟩ := h2
  unfold readArgs
  rw [h1]
  simp only
  unfold readArgs
  rw [List.nil_append, h2]

/-- **C91 finding** Without `--json` different values may print the same: `a:b` and `a\:b`. -/
theorem plain_ambiguous (utf8 : Bytes → Bool) (w : Where) (hw : w.depth ≠ 0) :
    (∃ a b, w.eval [] a = .ok [(none, ascii "a"), (some .colon, ascii "b")] ∧ w.eval [] b = .ok [(none, ascii "a:b")] ∧
      parseStrict (ascii "a:b") = .ok a ∧ parseStrict (ascii "a\\:b") = .ok b) ∧
    evalCmd utf8 w { abe := ascii "a:b" } 0 = evalCmd utf8 w { abe := ascii "a\\:b" } 0 := by
  obtain ⟨n, hn⟩ : ∃ n, w.depth = n + 1 := ⟨w.depth - 1, by omega⟩
  have t1 : AbeText (ascii "a:b") [.bytes (ascii "a"), .ctr .colon, .bytes (ascii "b")] :=
    AbeText.bytes (w := ascii "a") (s := ascii ":b") (Spells.cons (Spells1.plain 97 (by decide) (by decide) (by decide)) .nil) (by decide) trivial
      (AbeText.colon (AbeText.bytes (w := ascii "b") (s := []) (Spells.cons (Spells1.plain 98 (by decide) (by decide) (by decide)) .nil) (by decide) trivial .nil))
  have t2 : AbeText (ascii "a\\:b") [.bytes (ascii "a:b")] :=
    AbeText.bytes (w := ascii "a\\:b") (s := []) (Spells.cons (w := ascii "a") (Spells1.plain 97 (by decide) (by decide) (by decide))
      (Spells.cons (w := ascii "\\:") (Spells1.esc ':' 58 (by decide)) (Spells.cons (w := ascii "b") (Spells1.plain 98 (by decide) (by decide) (by decide)) .nil)))
      (by decide) trivial .nil
  have e1 : w.eval [] [.bytes (ascii "a"), .ctr .colon, .bytes (ascii "b")] = .ok [(none, ascii "a"), (some .colon, ascii "b")] := by
    unfold Where.eval
    rw [hn]
    simp [evalD, evalItems, matchExpr, ER.map, ER.bind, fromItems, push, pushBytes, pushCtr]
  have e2 : w.eval [] [.bytes (ascii "a:b")] = .ok [(none, ascii "a:b")] := by
    unfold Where.eval
    rw [hn]
    simp [evalD, evalItems, matchExpr, ER.map, ER.bind, fromItems, push, pushBytes, pushCtr]
  refine ⟨⟨_, _, e1, e2, parse_of_text t1 false, parse_of_text t2 false⟩, ?_⟩
  unfold evalCmd
  rw [parse_of_text t1, parse_of_text t2]
  simp only [argsFor, e1, e2, ended, printed]
  rfl

/-! ## Concrete cases -/

/-- A command with only the functions of `lk_scope`. -/
def bareWhere (k : PktParams) (p : Params) (o : Outside) : Where := ⟨true, k, lkBase k p (fun _ _ => .unit) .unit false o, 5⟩
theorem mute_unit (l : List Bytes) : Mute l Scope.unit := fun _ _ _ => ⟨fun _ _ => rfl, fun _ => rfl⟩
/-- Two lines. -/
def twoLines : Reader := { input := some ⟨ascii "ab\ncd\n", ascii "ab\ncd\n"⟩, delim := some 10 }
theorem twoLines_args (w : Where) : argsFor w (some twoLines) 5 = .ok [ascii "ab", ascii "cd"] :=
  args_plain w (r := twoLines) rfl rfl rfl rfl rfl rfl (.cons (w := ascii "ab") (s := ascii "cd\n") (by decide) (.cons (w := ascii "cd") (s := []) (by decide) .nil))
    (by decide) (by decide) (by decide)

example (utf8 : Bytes → Bool) (k : PktParams) (p : Params) (o : Outside) :
    evalCmd utf8 (bareWhere k p o) { abe := callText (dec 1) [], data := some twoLines } 5 = .ok (ascii "cd") ∧
    evalCmd utf8 (bareWhere k p o) { abe := callText (dec 2) [], data := some twoLines } 5 = .error (.stop (.err ())) ∧
    evalCmd utf8 (bareWhere k p o) { abe := callText (ascii "argv") [], data := some twoLines } 5 = .ok (ascii "abcd") :=
  ⟨eval_nth k utf8 _ (by simp [bareWhere]) rfl rfl (by decide) (fun _ _ => mute_unit _) (mute_unit _) _ _ _ _ (twoLines_args _),
   eval_nth k utf8 _ (by simp [bareWhere]) rfl rfl (by decide) (fun _ _ => mute_unit _) (mute_unit _) _ _ _ _ (twoLines_args _),
   eval_argv k utf8 _ (by simp [bareWhere]) rfl rfl (fun _ _ => mute_unit _) (mute_unit _) _ _ _ _ (twoLines_args _) (by decide)⟩

/-- A record that names the one before it. -/
example (k : PktParams) (p : Params) (o : Outside) : readArgs (bareWhere k p o) 5
    { input := some ⟨[], ascii "[0]\n"⟩, delim := some 10, eval := true } [ascii "ab"] = .ok [ascii "ab", ascii "ab"] := by
  have h := record_nth (i := 0) k (bareWhere k p o) (by simp [bareWhere]) rfl rfl (by decide) (fun _ _ => mute_unit _) (mute_unit _) [ascii "ab"]
  rw [show callText (dec 0) [] = ascii "[0]" from by decide +kernel] at h
  refine args_records (r := { input := some ⟨[], ascii "[0]\n"⟩, delim := some 10, eval := true }) (rs := [ascii "[0]"]) _ rfl rfl rfl rfl rfl
    (.cons (w := ascii "[0]") (s := []) (by decide) .nil) (.cons (by decide) (v := ascii "ab") (by decide) ?_ .nil) (by decide) (by decide)
  exact h

example (w : Where) : readArgs w 5 { input := some ⟨[], ascii "a\nb"⟩ } [] = .ok [ascii "a\nb"] :=
  args_whole w rfl rfl rfl rfl rfl rfl (by decide) (by decide) (by decide) (by decide)

/-- A quote, a newline and bytes that are not text. -/
example : printed (fun b => b.all (· < 128)) true [(none, ascii "a\"\n"), (some .colon, [0xff, 0]), (some .fslash, [1])] =
    ascii "[[null,\"a\\\"\\n\"],[\":\",[255,0]],[\"/\",\"\\u0001\"]]\n" := by decide +kernel

example : ∃ o : Opts, o.data = some { input := none, calls := 2 ^ 64 - 1 } ∧ ∃ abe, parse (!o.noLoose) o.abe = .ok abe :=
  ⟨{ abe := [], data := some { input := none } }, rfl, [], (loose_iff_grammar [] []).2 .nil⟩

end Verif.Props
