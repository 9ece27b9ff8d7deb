import Verif.Spec.CliQuery
import Verif.Lemmas.QueryText
import Verif.Props.Sugar
import Verif.Props.Stamp
import Verif.Props.TreeQuery
/-!
# Lemmas about queries from command line arguments
-/
namespace Verif.Cli
open Verif Verif.Ast Verif.Abl Verif.Abe Verif.Abtxt Verif.Pkt Verif.Pred Verif.Opt Verif.Eval Verif.Num Verif.QText Verif.Query Verif.Fit Verif.Spec Verif.Props

/-- The functions the arguments are written with. -/
structure HasCli (sc : Scope) : Prop where
  text : HasText sc
  u8 : ∀ top x, sc.func top (ascii "u8") [x] true = .ofOption (parseUint 1 x)
  u32 : ∀ top x, sc.func top (ascii "u32") [x] true = .ofOption (parseUint 4 x)
  b2 : ∀ top x, sc.func top (ascii "b2") [x] true = .ofOption (bin 2 x)

theorem core_hasCli (p : Params) : HasCli (coreScope p) :=
  ⟨core_hasText p, fun top x => (core_uint p top x).1, fun top x => (core_uint p top x).2.2.1, fun top x => (core_base p top x).1⟩

/-- `lk_scope`, `crates/common/src/eval/mod.rs:48-64`: further functions behind those of the core. -/
theorem HasCli.pair {sc : Scope} (h : HasCli sc) (s : Scope) : HasCli (sc.pair s) := by
  have key : ∀ {top id args} {r : Option Bytes}, sc.func top id args true = .ofOption r → (sc.pair s).func top id args true = .ofOption r := by
    intro top id args r hr
    show AR.orElse (sc.func top id args true) _ = _
    rw [hr]
    cases r <;> rfl
  exact ⟨⟨fun _ _ => key (h.text.b _ _), fun _ _ => key (h.text.a _ _), fun _ _ _ => key (h.text.a2 _ _ _), fun _ _ => key (h.text.f _ _)⟩,
    fun _ _ => key (h.u8 _ _), fun _ _ => key (h.u32 _ _), fun _ _ => key (h.b2 _ _)⟩

/-! ### evaluation -/

theorem split_one {c d : Option Ctr} {a b : Bytes} (h : d ≠ some .fslash) : splitFslash [(c, a), (d, b)] = [[(c, a), (d, b)]] := by
  have h1 : (d != some Ctr.fslash) = true := bne_iff_ne.2 h
  rw [splitFslash, segRest]
  simp only [List.takeWhile_cons, List.dropWhile_cons, h1, if_true, List.takeWhile_nil, List.dropWhile_nil]
  rw [splitFslash]

/-- A bracket with one argument. -/
theorem match_call (sc : Scope) (top : Top) {id x b : Bytes} (hf : sc.func top id [x] true = .value b) :
    matchExpr sc top (.lst [.bytes id, .ctr .colon, .bytes x]) = .ok (.bytes b) := by
  rw [matchExpr]
  show (evalItems sc top [.bytes id, .ctr .colon, .bytes x]).bind _ = _
  simp only [evalItems, matchExpr, ER.bind, ER.map]
  have h1 : fromItems [.bytes id, .ctr .colon, .bytes x] = [(none, id), (some .colon, x)] := by
    simp [fromItems, push, pushBytes, pushCtr]
  rw [h1, split_one (by decide)]
  rw [applySegs.eq_def]
  simp [call, hf, ER.bind, applySegs]

theorem eval_succ (dbg : Bool) (sc : Scope) (n : Nat) (e : List ABE) : eval dbg sc (n + 1) e = (evalItems sc (topAt dbg sc n) e).map fromItems := rfl

theorem evalItems_append (sc : Scope) (top : Top) {a b : List ABE} {is js : List ABItem} (ha : evalItems sc top a = .ok is)
    (hb : evalItems sc top b = .ok js) : evalItems sc top (a ++ b) = .ok (is ++ js) := by
  induction a generalizing is with
  | nil => cases ha; exact hb
  | cons e a ih =>
    rw [evalItems] at ha
    rw [List.cons_append, evalItems]
    cases he : matchExpr sc top e with
    | err => rw [he] at ha; cases ha
    | abort => rw [he] at ha; cases ha
    | ok i =>
      rw [he] at ha
      cases hr : evalItems sc top a with
      | err => simp [ER.bind, ER.map, hr] at ha
      | abort => simp [ER.bind, ER.map, hr] at ha
      | ok js' =>
        simp only [ER.bind, ER.map, hr, ER.ok.injEq] at ha
        subst ha
        rw [ih hr]
        rfl

/-- The value of a statement. -/
theorem eval_stmt {sc : Scope} {n : Nat} {v : List ABE} {is : List ABItem} (name op : Bytes) (h : evalItems sc (topAt true sc n) v = .ok is) :
    eval true sc (n + 1) (stmtOf name op v) = .ok (is.foldl push [(none, name), (some .colon, op), (some .colon, [])]) := by
  rw [eval_succ, stmtOf]
  simp only [evalItems, matchExpr, h, ER.bind, ER.map]
  rfl

theorem fold_bytes {is : List ABItem} (h : ∀ i ∈ is, ∃ b, i = .bytes b) (l : ABList) (c : Option Ctr) (v : Bytes) :
    ∃ w, is.foldl push (l ++ [(c, v)]) = l ++ [(c, v ++ w)] ∧ ∀ l' c' v', is.foldl push (l' ++ [(c', v')]) = l' ++ [(c', v' ++ w)] := by
  suffices h2 : ∃ w, ∀ (l' : ABList) c' v', is.foldl push (l' ++ [(c', v')]) = l' ++ [(c', v' ++ w)] by
    obtain ⟨w, hw⟩ := h2
    exact ⟨w, hw _ _ _, hw⟩
  clear l c v
  induction is with
  | nil => exact ⟨[], fun _ _ _ => by simp⟩
  | cons i is ih =>
    obtain ⟨b, rfl⟩ := h i List.mem_cons_self
    obtain ⟨w, hw⟩ := ih fun j hj => h j (List.mem_cons_of_mem _ hj)
    refine ⟨b ++ w, fun l' c' v' => ?_⟩
    rw [List.foldl_cons]
    have : push (l' ++ [(c', v')]) (.bytes b) = l' ++ [(c', v' ++ b)] := by
      simp [push, pushBytes]
    rw [this, hw]
    simp

theorem items_bytes {sc : Scope} {top : Top} {e : List ABE} {is : List ABItem} (he : ∀ x ∈ e, IsExpr x) (h : evalItems sc top e = .ok is) :
    ∀ i ∈ is, ∃ b, i = .bytes b := by
  induction e generalizing is with
  | nil => cases h; exact fun _ h => nomatch h
  | cons x e ih =>
    rw [evalItems] at h
    have hx : ∀ i, matchExpr sc top x = .ok i → ∃ b, i = .bytes b := by
      intro i hi
      cases x with
      | ctr c => exact absurd rfl (he _ List.mem_cons_self c)
      | bytes b => rw [matchExpr] at hi; cases hi; exact ⟨_, rfl⟩
      | lst ls =>
        rw [matchExpr] at hi
        have key : ∀ r : ER Bytes, r.map ABItem.bytes = .ok i → ∃ b, i = .bytes b := by
          intro r hr
          cases r with
          | ok v => cases hr; exact ⟨_, rfl⟩
          | err => cases hr
          | abort => cases hr
        split at hi
        · exact key _ hi
        · cases hi
        · cases hl : evalItems sc top ls with
          | ok is => rw [hl] at hi; exact key _ hi
          | err => rw [hl] at hi; cases hi
          | abort => rw [hl] at hi; cases hi
    cases hm : matchExpr sc top x with
    | err => rw [hm] at h; cases h
    | abort => rw [hm] at h; cases h
    | ok i =>
      rw [hm] at h
      cases hr : evalItems sc top e with
      | err => simp [ER.bind, ER.map, hr] at h
      | abort => simp [ER.bind, ER.map, hr] at h
      | ok js =>
        simp only [ER.bind, ER.map, hr, ER.ok.injEq] at h
        subst h
        intro j hj
        rcases List.mem_cons.1 hj with rfl | hj
        · exact hx _ hm
        · exact ih (fun y hy => he y (List.mem_cons_of_mem _ hy)) hr j hj

/-- Expressions standing for bytes evaluate to them behind anything. -/
theorem value_items {sc : Scope} {n : Nat} {e : List ABE} {b : Bytes} (he : ∀ x ∈ e, IsExpr x) (h : IsValue sc (n + 1) e b) :
    ∃ is, evalItems sc (topAt true sc n) e = .ok is ∧ ∀ (l : ABList) c v, is.foldl push (l ++ [(c, v)]) = l ++ [(c, v ++ b)] := by
  unfold IsValue at h
  rw [eval_succ] at h
  cases hi : evalItems sc (topAt true sc n) e with
  | err => rw [hi] at h; cases h
  | abort => rw [hi] at h; cases h
  | ok is =>
    rw [hi] at h
    have h1 : is.foldl push [] = [(none, b)] := ER.ok.inj h
    have hb := items_bytes he hi
    refine ⟨is, rfl, ?_⟩
    cases is with
    | nil => cases h1
    | cons i is =>
      obtain ⟨v, rfl⟩ := hb i List.mem_cons_self
      obtain ⟨w, h2, h3⟩ := fold_bytes (fun j hj => hb j (List.mem_cons_of_mem _ hj)) [] none v
      have h4 : (ABItem.bytes v :: is).foldl push [] = is.foldl push ([] ++ [(none, v)]) := rfl
      rw [h4, h2] at h1
      have h5 : v ++ w = b := by simpa using h1
      intro l c u
      have h6 : push (l ++ [(c, u)]) (.bytes v) = l ++ [(c, u ++ v)] := by simp [push, pushBytes]
      rw [List.foldl_cons, h6, h3, ← h5, List.append_assoc]

/-- A statement with one value. -/
theorem stmt_value {sc : Scope} {n : Nat} {e : List ABE} {b : Bytes} (name op : Bytes) (he : ∀ x ∈ e, IsExpr x) (h : IsValue sc (n + 1) e b) :
    eval true sc (n + 1) (stmtOf name op e) = .ok [(none, name), (some .colon, op), (some .colon, b)] := by
  obtain ⟨is, h1, h2⟩ := value_items he h
  rw [eval_stmt name op h1]
  exact congrArg ER.ok (h2 [(none, name), (some .colon, op)] (some .colon) [])

theorem call_isValue {sc : Scope} {n : Nat} {id x b : Bytes} (hf : sc.func (topAt true sc n) id [x] true = .value b) :
    IsValue sc (n + 1) (callAbe id x) b := by
  unfold IsValue
  rw [eval_succ, callAbe, evalItems, match_call sc _ hf]
  rfl
theorem call_expr (id x : Bytes) : ∀ e ∈ callAbe id x, IsExpr e := by
  intro e he
  rw [List.mem_singleton.1 he]
  exact fun _ h => nomatch h

theorem uint_isValue {sc : Scope} {n : Nat} {name : Bytes} {k m : Nat} (hf : ∀ top x, sc.func top name [x] true = .ofOption (parseUint k x))
    (hm : m < 256 ^ k) : IsValue sc (n + 1) (callAbe name (dec m)) (beBytes k m) := by
  refine call_isValue ?_
  rw [hf]
  have hl := beBytes_length k m
  obtain ⟨s, hs, hp⟩ := uint_text_roundtrip k (beBytes k m) hl
  rw [encUint, if_pos hl, beNat_beBytes k m hm] at hs
  cases hs
  rw [hp]; rfl

theorem bits_isValue {sc : Scope} (hc : HasCli sc) {n : Nat} {x : UInt8} (hx : x ≠ 0) : IsValue sc (n + 1) (bitsAbe [x]) [x] := by
  refine call_isValue ?_
  rw [hc.b2, (bin_enc 2 (.inl rfl) [x]).2 (.inr ⟨nofun, by simp, by simpa using hx⟩)]
  rfl

/-! ### adding expressions -/

theorem _root_.Verif.Spec.AsksFor.append {sc : Scope} {n : Nat} {a b : List (List ABE)} {rs qs : List Stmt} {os ps : List ABList} (h1 : AsksFor sc n a rs os)
    (h2 : AsksFor sc n b qs ps) : AsksFor sc n (a ++ b) (rs ++ qs) (os ++ ps) := by
  induction h1 with
  | nil => exact h2
  | option he _ ih => exact .option he ih
  | stmt he hx hs _ ih => rw [List.append_assoc]; exact .stmt he hx hs ih

theorem asks_one {sc : Scope} {n : Nat} {e : List ABE} {k : Kind} (hk : ∀ n, k ≠ .todo n) {o : TestOp} {b : Bytes} {r : ABList}
    (h : eval true sc n e = .ok ((none, kindName k) :: (some .colon, [opByte o]) :: (some .colon, b) :: r)) :
    AsksFor sc n [e] [⟨k, o, (none, b) :: r⟩] [] :=
  .stmt h (ext_reads hk o b r) (rs1 := [⟨k, o, (none, b) :: r⟩]) (rs := []) rfl .nil

/-- Adding what was asked for: the statements in order, and the options. -/
def withAll (q : QText.Query) (os : List ABList) : PRes Preds → PRes QText.Query
  | .ok p => .ok ⟨p, q.conf ++ os⟩
  | .error e => .error e

theorem asks_run {sc : Scope} {n : Nat} {es : List (List ABE)} {rs : List Stmt} {os : List ABList} (h : AsksFor sc n es rs os) (q : QText.Query) :
    addExprs true sc n q es = withAll q os (q.preds.run true rs) := by
  induction h generalizing q with
  | nil => simp [addExprs, Preds.run, withAll]
  | option he _ ih =>
    rw [addExprs, he]
    simp only [Query.addStmt, addOptionAbl]
    rw [ih]
    simp only
    cases q.preds.run true _ <;> simp [withAll]
  | @stmt e b l x rs1 es rs os he hx hs _ ih =>
    rw [addExprs, he]
    simp only [Query.addStmt, hx, Preds.addExt, hs]
    rw [run_append]
    cases q.preds.run true rs1 with
    | error e => rfl
    | ok p => exact ih ⟨p, q.conf⟩

/-! ### the place -/

theorem depth_word {w : Option Bytes} {k : Nat} (h : DepthText w k) : k ≤ 8 ∧ ∀ x, w = some x → depthWord x = some k := by
  cases w with
  | none => exact ⟨by rw [show k = 0 from h]; omega, nofun⟩
  | some w =>
    have key : ∀ k, k < 9 → depthWord [UInt8.ofNat (0x30 + k)] = some k := by decide +kernel
    rcases h with ⟨h1, rfl⟩ | ⟨rfl, rfl⟩ | ⟨rfl, rfl⟩
    · exact ⟨h1, fun x hx => by cases hx; exact key k (by omega)⟩
    · exact ⟨by decide, fun x hx => by cases hx; decide +kernel⟩
    · exact ⟨by decide, fun x hx => by cases hx; decide +kernel⟩

theorem expr_noColon {l : List ABE} (h : ∀ x ∈ l, IsExpr x) : (∀ x ∈ l, (!isColon x) = true) ∧ noCtrs l = true := by
  constructor
  · intro x hx
    have := h x hx
    cases x with
    | ctr c => exact absurd rfl (this c)
    | bytes b => rfl
    | lst l => rfl
  · refine List.all_eq_true.2 fun x hx => ?_
    have := h x hx
    cases x with
    | ctr c => exact absurd rfl (this c)
    | bytes b => rfl
    | lst l => rfl

theorem nextPart_colon {l r : List ABE} (h : ∀ x ∈ l, (!isColon x) = true) : nextPart (some (l ++ .ctr .colon :: r)) = (l, some r) := by
  unfold nextPart
  simp only
  rw [List.takeWhile_append_of_pos h, List.dropWhile_append_of_pos h]
  simp [isColon]
theorem nextPart_last {l : List ABE} (h : ∀ x ∈ l, (!isColon x) = true) : nextPart (some l) = (l, none) := by
  have h2 := nextPart_colon h (r := [])
  unfold nextPart at h2 ⊢
  simp only
  have h3 : l.takeWhile (fun e => !isColon e) = l := by
    have := List.takeWhile_append_of_pos (l₂ := []) h
    simpa using this
  have h4 : l.dropWhile (fun e => !isColon e) = [] := by
    have := List.dropWhile_append_of_pos (l₂ := []) h
    simpa using this
  rw [h3, h4]

/-- The space of the argument. -/
def compNodes (comps : List ABE) : List ABE := comps.flatMap fun c => [.ctr .fslash, c]

theorem comp_nodes {comps : List ABE} (h : ∀ x ∈ comps, IsExpr x) : (∀ x ∈ compNodes comps, (!isColon x) = true) ∧ spaceLoop (compNodes comps) = true ∧
    ((compNodes comps).filter isFslash).length = comps.length := by
  induction comps with
  | nil => exact ⟨nofun, rfl, rfl⟩
  | cons c comps ih =>
    obtain ⟨i1, i2, i3⟩ := ih fun x hx => h x (List.mem_cons_of_mem _ hx)
    have hc := h c List.mem_cons_self
    have he : compNodes (c :: comps) = .ctr .fslash :: c :: compNodes comps := rfl
    rw [he]
    refine ⟨?_, ?_, ?_⟩
    · intro x hx
      rcases List.mem_cons.1 hx with rfl | hx
      · rfl
      rcases List.mem_cons.1 hx with rfl | hx
      · cases x with
        | ctr c => exact absurd rfl (hc c)
        | bytes b => rfl
        | lst l => rfl
      · exact i1 x hx
    · cases c with
      | ctr c => exact absurd rfl (hc c)
      | bytes b => exact i2
      | lst l => exact i2
    · have h1 : isFslash c = false := by
        cases c with
        | ctr c => exact absurd rfl (hc c)
        | bytes b => rfl
        | lst l => rfl
      rw [List.filter_cons_of_pos rfl, List.filter_cons_of_neg (by rw [h1]; decide), List.length_cons, i3]
      rfl

theorem comp_check {comps : List ABE} (h : ∀ x ∈ comps, IsExpr x) : spaceCheck (compNodes comps) = true := by
  have := (comp_nodes h).2.1
  unfold spaceCheck
  cases comps with
  | nil => rfl
  | cons c comps => exact this

/-- The argument as it is read. -/
theorem place_reads (d : Defaults) {domain group comps : List ABE} {depth : Option Bytes} {k : Nat} (hd : ∀ x ∈ domain, IsExpr x)
    (hg : ∀ x ∈ group, IsExpr x) (hs : ∀ x ∈ comps, IsExpr x) (hk : DepthText depth k) :
    dgpd d (placeArg domain group comps depth) =
      some ⟨⟨if domain.isEmpty then abToAbe d.domain else domain, if group.isEmpty then b64ToAbe d.group else group, compNodes comps⟩, k⟩ := by
  obtain ⟨d1, d2⟩ := expr_noColon hd
  obtain ⟨g1, g2⟩ := expr_noColon hg
  obtain ⟨c1, -, -⟩ := comp_nodes hs
  unfold dgpd tryTakeDgs placeArg
  simp only [nextPart_colon d1, nextPart_colon g1]
  have ec : (comps.flatMap fun c => [ABE.ctr .fslash, c]) = compNodes comps := rfl
  rw [ec]
  cases depth with
  | none =>
    have h0 : k = 0 := hk
    simp only [List.append_nil, nextPart_last c1, d2, g2, comp_check hs, Bool.and_self, if_true, Option.getD_none, List.isEmpty_nil, h0]
  | some w =>
    have := (depth_word hk).2 w rfl
    simp only [nextPart_colon c1, d2, g2, comp_check hs, Bool.and_self, if_true, Option.getD_some, List.isEmpty_cons, tryTakeDepth, this, Option.map_some]
    rfl

/-- The statements of a place: as many slashes as `bs`. -/
def placeStmts (db gb : Bytes) (bs : List Bytes) (k : Nat) : List Stmt :=
  [⟨.field .domain, .equal, [(none, db)]⟩, ⟨.field .group, .equal, [(none, gb)]⟩] ++
    (if bs = [] then [] else [⟨.pre, .equal, (none, []) :: slashed bs⟩]) ++
    (if k < 8 then [⟨.field .depth, .less, [(none, beBytes 1 (min (bs.length + k) 8 + 1))]⟩] else [])

theorem _root_.Verif.Spec.PartsAre.length {sc : Scope} {n : Nat} {cs : List ABE} {bs : List Bytes} (h : PartsAre sc n cs bs) : cs.length = bs.length := by
  induction h with
  | nil => rfl
  | cons _ _ _ ih => simp [ih]
theorem _root_.Verif.Spec.PartsAre.expr {sc : Scope} {n : Nat} {cs : List ABE} {bs : List Bytes} (h : PartsAre sc n cs bs) : ∀ x ∈ cs, IsExpr x := by
  induction h with
  | nil => exact fun _ h => nomatch h
  | cons h1 _ _ ih =>
    intro x hx
    rcases List.mem_cons.1 hx with rfl | hx
    · exact h1
    · exact ih x hx

theorem comps_eval {sc : Scope} {n : Nat} {cs : List ABE} {bs : List Bytes} (h : PartsAre sc (n + 1) cs bs) :
    ∃ is, evalItems sc (topAt true sc n) (compNodes cs) = .ok is ∧ ∀ l : ABList, is.foldl push l = l ++ slashed bs := by
  induction h with
  | nil => exact ⟨[], rfl, fun l => by simp [slashed]⟩
  | @cons c b cs bs h1 h2 _ ih =>
    obtain ⟨js, k1, k2⟩ := ih
    obtain ⟨is, j1, j2⟩ := value_items (e := [c]) (by intro x hx; rw [List.mem_singleton.1 hx]; exact h1) h2
    refine ⟨.ctr .fslash :: (is ++ js), ?_, fun l => ?_⟩
    · have e : compNodes (c :: cs) = .ctr .fslash :: ([c] ++ compNodes cs) := rfl
      rw [e, evalItems, matchExpr, evalItems_append _ _ j1 k1]
      rfl
    · rw [List.foldl_cons, List.foldl_append]
      have : push l (.ctr .fslash) = l ++ [(some .fslash, [])] := rfl
      rw [this, j2 l (some .fslash) [], k2]
      simp [slashed]

theorem place_asks {sc : Scope} {n : Nat} (hc : HasCli sc) {dom grp comps : List ABE} {db gb : Bytes} {bs : List Bytes} {k : Nat}
    (hd : ∀ x ∈ dom, IsExpr x) (hg : ∀ x ∈ grp, IsExpr x) (hdv : IsValue sc (n + 1) dom db) (hgv : IsValue sc (n + 1) grp gb)
    (hs : PartsAre sc (n + 1) comps bs) (hk : k ≤ 8) :
    ∃ l, (Dgsd.mk ⟨dom, grp, compNodes comps⟩ k).exprs = some l ∧ AsksFor sc (n + 1) l (placeStmts db gb bs k) [] := by
  have hn := comp_nodes hs.expr
  have hlen := hs.length
  have hcond : ¬ (k ≠ 8 ∧ ¬ (compNodes comps).isEmpty ∧ ¬ (compNodes comps).any isFslash) := by
    rintro ⟨-, h1, h2⟩
    cases comps with
    | nil => exact h1 rfl
    | cons c cs => exact h2 rfl
  refine ⟨_, by unfold Dgsd.exprs; rw [if_neg hcond], ?_⟩
  have a1 : AsksFor sc (n + 1) [stmtOf (ascii "domain") (ascii "=") dom] [⟨.field .domain, .equal, [(none, db)]⟩] [] :=
    asks_one (k := .field .domain) (fun _ h => by cases h) (o := .equal) (r := []) (stmt_value _ _ hd hdv)
  have a2 : AsksFor sc (n + 1) [stmtOf (ascii "group") (ascii "=") grp] [⟨.field .group, .equal, [(none, gb)]⟩] [] :=
    asks_one (k := .field .group) (fun _ h => by cases h) (o := .equal) (r := []) (stmt_value _ _ hg hgv)
  have a3 : AsksFor sc (n + 1) (if (compNodes comps).isEmpty then [] else [stmtOf (ascii "prefix") (ascii "=") (compNodes comps)])
      (if bs = [] then [] else [⟨.pre, .equal, (none, []) :: slashed bs⟩]) [] := by
    cases hs with
    | nil => exact .nil
    | @cons c b cs bs h1 h2 h3 =>
      obtain ⟨is, k1, k2⟩ := comps_eval (.cons h1 h2 h3)
      refine asks_one (k := .pre) (fun _ h => by cases h) (o := .equal) (b := []) ?_
      rw [eval_stmt _ _ k1, k2]
      rfl
  have a4 : AsksFor sc (n + 1) (if k < 8 then
        let len := min ((compNodes comps).filter isFslash).length 8
        let exclude := min (len + k) 8 + 1
        [stmtOf (ascii "depth") (ascii "<") (callAbe (ascii "u8") (dec exclude))]
      else []) (if k < 8 then [⟨.field .depth, .less, [(none, beBytes 1 (min (bs.length + k) 8 + 1))]⟩] else []) [] := by
    by_cases h8 : k < 8
    · rw [if_pos h8, if_pos h8]
      have e : min (min ((compNodes comps).filter isFslash).length 8 + k) 8 = min (bs.length + k) 8 := by
        rw [hn.2.2, hlen]; omega
      simp only [e]
      refine asks_one (k := .field .depth) (fun _ h => by cases h) (o := .less) (r := []) ?_
      refine stmt_value _ _ (call_expr _ _) (uint_isValue hc.u8 ?_)
      omega
    · rw [if_neg h8, if_neg h8]; exact .nil
  have := ((a1.append a2).append a3).append a4
  simpa [placeStmts, Dgs.exprs] using this

theorem field_sat {f : VF} {op : TestOp} {b : Bytes} {m : Nat} (h : ValueIs f [(none, b)] m) (x : Seen) :
    Sat ⟨.field f, op, [(none, b)]⟩ x ↔ HasType x (needs f) ∧ Allows op (x.num f) m := by
  show (HasType x (needs f) ∧ ∃ n, ValueIs f [(none, b)] n ∧ Allows op (x.num f) n) ↔ _
  obtain ⟨y, h1, h2⟩ := (read_iff f _ m).2 h
  constructor
  · rintro ⟨t, n, hn, ha⟩
    obtain ⟨z, h3, h4⟩ := (read_iff f _ n).2 hn
    rw [h1] at h3
    cases h3
    rw [h4, ← h2] at ha
    exact ⟨t, ha⟩
  · rintro ⟨t, ha⟩
    exact ⟨t, m, h, ha⟩

theorem slashed_spaceIs {bs : List Bytes} (h : IsSpace (encodeSpace (named bs)) (named bs)) (h8 : (named bs).length ≤ 8) (cs : List Bytes) :
    SpaceIs ((none, []) :: slashed bs) cs ↔ cs = named bs := by
  have h0 : SpaceIs ((none, []) :: slashed bs) (named bs) := ⟨h, _, .inr ⟨none, by decide, rfl⟩, .inr ⟨bs, rfl, rfl, h8⟩⟩
  constructor
  · intro hc
    obtain ⟨b, k1, k2⟩ := (spaceIs_iff _ _).1 h0
    obtain ⟨b', k3, k4⟩ := (spaceIs_iff _ _).1 hc
    rw [k1] at k3
    cases k3
    exact k4.unique k2
  · rintro rfl; exact h0

theorem place_sat {db gb : Bytes} {bs : List Bytes} {k d g : Nat} (hd : ValueIs .domain [(none, db)] d) (hg : ValueIs .group [(none, gb)] g)
    (hs : IsSpace (encodeSpace (named bs)) (named bs)) (h8 : (named bs).length ≤ 8) {p : NetParts} {x : Seen} (hx : Shows p x) :
    (∀ r ∈ placeStmts db gb bs k, Sat r x) ↔ InPlace d g (named bs) (most bs.length k) x := by
  have hw := wf_shown hx
  have hlink : ∀ xs, x.space = some xs → HasType x 2 ∧ xs.length ≤ 8 := by
    intro xs h
    obtain ⟨c, cs, hp, rfl, hroot⟩ := hx
    have hty : ∀ n, n = 3 ∨ n = 7 → Allows .mask1 n 2 := by
      intro n hn j hj
      have hj' : j = 1 := by
        rw [show (2 : Nat) = 2 ^ 1 from rfl, Nat.testBit_two_pow] at hj
        have := of_decide_eq_true hj
        omega
      subst hj'
      rcases hn with rfl | rfl <;> rfl
    cases c with
    | data b => cases h
    | error b => cases h
    | link l => cases h; exact ⟨hty _ (.inl rfl), hroot.depth⟩
    | key l pk sig => cases h; exact ⟨hty _ (.inr rfl), hroot.depth⟩
  have hdep : ∀ v, v < 256 → ValueIs .depth [(none, beBytes 1 v)] v := fun v hv =>
    ⟨_, .inl rfl, beBytes_length 1 v, (beNat_beBytes 1 v (by simpa using hv)).symm⟩
  simp only [placeStmts, List.forall_mem_append, List.forall_mem_cons, List.not_mem_nil, false_implies, implies_true, and_true]
  rw [field_sat hd, field_sat hg]
  have hp : (∀ r ∈ (if bs = [] then [] else [(⟨.pre, .equal, (none, []) :: slashed bs⟩ : Stmt)]), Sat r x) ↔
      (named bs = [] ∨ ∃ xs, x.space = some xs ∧ named bs <+: xs) := by
    by_cases hb : bs = []
    · subst hb
      simp [named]
    · rw [if_neg hb]
      simp only [List.forall_mem_cons, List.not_mem_nil, false_implies, implies_true, and_true]
      constructor
      · rintro ⟨cs, k1, k2⟩
        rwa [(slashed_spaceIs hs h8 cs).1 k1] at k2
      · intro k2
        exact ⟨_, (slashed_spaceIs hs h8 _).2 rfl, k2⟩
  have hq : (∀ r ∈ (if k < 8 then [(⟨.field .depth, .less, [(none, beBytes 1 (min (bs.length + k) 8 + 1))]⟩ : Stmt)] else []), Sat r x) ↔
      (k < 8 → HasType x 2 ∧ x.num .depth < min (bs.length + k) 8 + 1) := by
    by_cases hb : k < 8
    · rw [if_pos hb]
      simp only [List.forall_mem_cons, List.not_mem_nil, false_implies, implies_true, and_true, hb, forall_const]
      exact field_sat (hdep _ (by omega)) x
    · rw [if_neg hb]
      simp [hb]
  rw [hp, hq]
  constructor
  · rintro ⟨⟨⟨⟨t, a⟩, -, b⟩, c⟩, e⟩
    obtain ⟨xs, hxs⟩ := hw.link t
    refine ⟨xs, hxs, a, b, ?_, ?_⟩
    · rcases c with c | ⟨ys, h1, h2⟩
      · rw [c]; exact List.nil_prefix
      · rw [hxs] at h1; cases h1; exact h2
    · unfold most
      split
      · rename_i hk
        have := (e hk).2
        rw [hw.depth _ hxs] at this
        omega
      · exact (hlink xs hxs).2
  · rintro ⟨xs, hxs, a, b, c, e⟩
    have t := (hlink xs hxs).1
    refine ⟨⟨⟨⟨t, a⟩, t, b⟩, .inr ⟨xs, hxs, c⟩⟩, fun hk => ⟨t, ?_⟩⟩
    rw [hw.depth _ hxs]
    unfold most at e
    rw [if_pos hk] at e
    omega

theorem place_plain {db gb : Bytes} {bs : List Bytes} {k : Nat} (hs : IsSpace (encodeSpace (named bs)) (named bs)) (h8 : (named bs).length ≤ 8) :
    ∀ r ∈ placeStmts db gb bs k, Plain r := by
  intro r hr
  unfold placeStmts at hr
  rcases List.mem_append.1 hr with hr | hr
  · rcases List.mem_append.1 hr with hr | hr
    · simp only [List.mem_cons, List.not_mem_nil, or_false] at hr
      rcases hr with rfl | rfl <;> exact field_plain rfl
    · split at hr
      · cases hr
      · rw [List.mem_singleton.1 hr]
        exact ⟨fun _ cs hcs => by rw [(slashed_spaceIs hs h8 cs).1 hcs]; exact h8, fun _ => rfl, nofun⟩
  · split at hr
    · rw [List.mem_singleton.1 hr]; exact field_plain rfl
    · cases hr

/-! ### the flags -/

/-- The function `us`, as far as `--until` uses it. -/
def HasUs (sc : Scope) : Prop := ∀ top now args r, now.length = 8 → UsArgs (beNat now) args r → args.length < 16 → sc.func top (ascii "us") (now :: args) false = .value (beBytes 8 r)

theorem core_hasUs (p : Params) (e : Stamp.Ef) (he : AsciiOk e.utf8) (hp : p.us = usFn e) : HasUs (coreScope p) := by
  intro top now args r hn hr ha
  have h1 : usFn e top (now :: args) false = .value (beBytes 8 r) := by
    unfold usFn
    simp only [hn, if_true]
    rw [us_computes e he hr (by have := beNat_lt now; rw [hn] at this; simpa using this)]
    rfl
  have h2 : tableFunc (stampFns p) top (ascii "us") (now :: args) false = .value (beBytes 8 r) := by
    rw [← h1, ← hp]
    have hf : (stampFns p).find? (fun f => f.id == ascii "us") =
        some { id := ascii "us", lo := 0, hi := 16, apply := p.us, toAbe := some fun _ _ => .noValue } := rfl
    rw [tableFunc, hf]
    simp
    omega
  have h3 : (basicScope p).func top (ascii "us") (now :: args) false = .noValue := rfl
  have h4 : tableFunc (lnsFns p) top (ascii "us") (now :: args) false = .noValue := rfl
  show AR.orElse (AR.orElse ((basicScope p).func top (ascii "us") (now :: args) false) fun _ => tableFunc (lnsFns p) top (ascii "us") (now :: args) false)
    (fun _ => AR.orElse (tableFunc (stampFns p) top (ascii "us") (now :: args) false) _) = _
  rw [h3, h4, h2]
  rfl

theorem until_isValue {sc : Scope} (hu : HasUs sc) {n : Nat} {now v : Bytes} {d u : Nat} (hn : now.length = 8) (hv : DurText unitMicros v d)
    (he : u = beNat now + d) (h64 : u < 2 ^ 64) :
    IsValue sc (n + 1) [.lst [.ctr .colon, .bytes now, .ctr .fslash, .bytes (ascii "us"), .ctr .colon, .bytes (ascii "+"), .bytes v]] (beBytes 8 u) := by
  have hf : sc.func (topAt true sc n) (ascii "us") [now, ascii "+" ++ v] false = .value (beBytes 8 u) := by
    refine hu _ _ [_] _ hn ?_ (by simp)
    subst he
    exact .plus hv h64 .done
  unfold IsValue
  rw [eval_succ, evalItems, matchExpr]
  have hsh : shape [.ctr .colon, .bytes now, .ctr .fslash, .bytes (ascii "us"), .ctr .colon, .bytes (ascii "+"), .bytes v] = .plain := rfl
  rw [hsh]
  simp only [evalItems, matchExpr, ER.bind, ER.map]
  have h1 : fromItems [.ctr .colon, .bytes now, .ctr .fslash, .bytes (ascii "us"), .ctr .colon, .bytes (ascii "+"), .bytes v] =
      [(some .colon, now), (some .fslash, ascii "us"), (some .colon, ascii "+" ++ v)] := by
    simp [fromItems, push, pushBytes, pushCtr]
  have h2 : splitFslash [(some .colon, now), (some .fslash, ascii "us"), (some .colon, ascii "+" ++ v)] =
      [[(some .colon, now)], [(some .fslash, ascii "us"), (some .colon, ascii "+" ++ v)]] := by
    rw [splitFslash, segRest]
    simp only [List.takeWhile_cons, List.dropWhile_cons]
    rw [if_neg (by decide), if_neg (by decide), split_one (by decide)]
  rw [h1, h2]
  simp [applySegs, call, hf, ER.bind, fromItems, push, pushBytes]

/-- The statements of the flags. -/
def flagStmts (a : Aliases) (u : Option Nat) : List Stmt :=
  (u.map fun t => ⟨.recv, .less, [(none, beBytes 8 t)]⟩).toList
    ++ whenSet a.signed ⟨.field .type, .mask1, [(none, [4])]⟩
    ++ whenSet a.unsigned ⟨.field .type, .mask0, [(none, [0xfb])]⟩
    ++ (a.max.map fun m => ⟨.limit .query, .less, [(none, beBytes 4 m.toNat)]⟩).toList
    ++ (a.maxNew.map fun m => ⟨.limit .new, .less, [(none, beBytes 4 m.toNat)]⟩).toList
    ++ (a.maxIndex.map fun m => ⟨.limit .index, .less, [(none, beBytes 4 m.toNat)]⟩).toList
    ++ (a.maxBranch.map fun m => ⟨.limit .branch, .less, [(none, beBytes 4 m.toNat)]⟩).toList
    ++ whenSet a.dbOnly ⟨.limit .new, .less, [(none, beBytes 4 0)]⟩
    ++ whenSet a.newOnly ⟨.limit .index, .less, [(none, beBytes 4 0)]⟩

theorem asks_when {sc : Scope} {n : Nat} {e : List ABE} {r : Stmt} (c : Bool) (h : AsksFor sc n [e] [r] []) :
    AsksFor sc n (whenSet c e) (whenSet c r) [] := by
  cases c
  · exact .nil
  · exact h
theorem asks_map {sc : Scope} {n : Nat} {α : Type} {f : α → List ABE} {g : α → Stmt} (o : Option α) (h : ∀ a, o = some a → AsksFor sc n [f a] [g a] []) :
    AsksFor sc n (o.map f).toList (o.map g).toList [] := by
  cases o with
  | none => exact .nil
  | some a => exact h a rfl

theorem limit_asks {sc : Scope} (hc : HasCli sc) {n : Nat} (q : QScope) (m : BitVec 32) :
    AsksFor sc (n + 1) [limitExpr q m] [⟨.limit q, .less, [(none, beBytes 4 m.toNat)]⟩] [] := by
  refine asks_one (k := .limit q) (fun _ h => by cases h) (o := .less) (r := []) ?_
  exact stmt_value _ _ (call_expr _ _) (uint_isValue hc.u32 (by have := m.isLt; simpa using this))

theorem flags_ask {sc : Scope} (hc : HasCli sc) (hu : HasUs sc) {n : Nat} {a : Aliases} {now : Bytes} {u : Option Nat} {qb : Option Bytes}
    (hn : now.length = 8) (h1 : UntilIs a now u) (h2 : QidIs sc (n + 1) a qb) :
    AsksFor sc (n + 1) (a.exprs now) (flagStmts a u) (flagOptions a qb) := by
  have qv : ∀ v b, (∀ x ∈ v, IsExpr x) → IsValue sc (n + 1) v b →
      AsksFor sc (n + 1) [.ctr .colon :: .bytes (ascii "qid") :: .ctr .colon :: v] [] [[(some .colon, ascii "qid"), (some .colon, b)]] := by
    intro v b hv hb
    obtain ⟨is, k1, k2⟩ := value_items hv hb
    refine .option ?_ .nil
    rw [eval_succ]
    simp only [evalItems, matchExpr, k1, ER.bind, ER.map]
    exact congrArg ER.ok (k2 [(some .colon, ascii "qid")] (some .colon) [])
  have b1 : AsksFor sc (n + 1) ((a.qid.or (if a.watch then some [.bytes (ascii "default")] else none)).map fun v =>
      .ctr .colon :: .bytes (ascii "qid") :: .ctr .colon :: v).toList [] (qb.map fun b => [(some Ctr.colon, ascii "qid"), (some .colon, b)]).toList := by
    cases qb with
    | none => rw [h2.1, h2.2]; exact .nil
    | some b =>
      rcases h2 with ⟨v, e, hv, hb⟩ | ⟨e, ew, rfl⟩
      · rw [e]; exact qv v b hv hb
      · rw [e, ew]
        exact qv _ _ (by intro x hx; rw [List.mem_singleton.1 hx]; exact fun _ h => nomatch h) rfl
  have b2 : AsksFor sc (n + 1) (a.until_.map fun v => stmtOf (ascii "recv") (ascii "<")
        [.lst [.ctr .colon, .bytes now, .ctr .fslash, .bytes (ascii "us"), .ctr .colon, .bytes (ascii "+"), .bytes v]]).toList
      (u.map fun t => (⟨.recv, .less, [(none, beBytes 8 t)]⟩ : Stmt)).toList [] := by
    cases u with
    | none => rw [show a.until_ = none from h1]; exact .nil
    | some t =>
      obtain ⟨v, d, e, hv, he, h64⟩ := h1
      rw [e]
      refine asks_one (k := .recv) (fun _ h => by cases h) (o := .less) (r := []) ?_
      refine stmt_value _ _ ?_ (until_isValue hu hn hv he h64)
      intro x hx; rw [List.mem_singleton.1 hx]; exact fun _ h => nomatch h
  have b3 : AsksFor sc (n + 1) (whenSet a.follow [.ctr .colon, .bytes (ascii "follow")]) [] (if a.follow then [[(some .colon, ascii "follow")]] else []) := by
    cases a.follow
    · exact .nil
    · exact .option rfl .nil
  have b4 := asks_when a.signed (asks_one (sc := sc) (n := n + 1) (k := .field .type) (fun _ h => by cases h) (o := .mask1) (r := [])
    (stmt_value (ascii "type") (ascii "1") (call_expr _ _) (bits_isValue hc (x := 4) (by decide))))
  have b5 := asks_when a.unsigned (asks_one (sc := sc) (n := n + 1) (k := .field .type) (fun _ h => by cases h) (o := .mask0) (r := [])
    (stmt_value (ascii "type") (ascii "0") (call_expr _ _) (bits_isValue hc (x := 0xfb) (by decide))))
  have lm : ∀ q (o : Option (BitVec 32)), AsksFor sc (n + 1) (o.map (limitExpr q)).toList
      (o.map fun m => (⟨.limit q, .less, [(none, beBytes 4 m.toNat)]⟩ : Stmt)).toList [] := fun q o => asks_map o fun m _ => limit_asks hc q m
  have := (((((((((b1.append b2).append b3).append b4).append b5).append (lm .query a.max)).append (lm .new a.maxNew)).append (lm .index a.maxIndex)).append
    (lm .branch a.maxBranch)).append (asks_when a.dbOnly (limit_asks hc .new 0#32))).append (asks_when a.newOnly (limit_asks hc .index 0#32))
  simpa [flagStmts, flagOptions, Aliases.exprs, bitsAbe, List.append_assoc] using this

theorem forall_when {α : Type} {P : α → Prop} (c : Bool) (x : α) : (∀ r ∈ whenSet c x, P r) ↔ (c = true → P x) := by
  cases c <;> simp [whenSet]
theorem forall_map {α β : Type} {P : β → Prop} (o : Option α) (f : α → β) : (∀ r ∈ (o.map f).toList, P r) ↔ ∀ m ∈ o, P (f m) := by
  cases o <;> simp

theorem flags_plain (a : Aliases) (u : Option Nat) : ∀ r ∈ flagStmts a u, Plain r := by
  have hl : ∀ q b, Plain ⟨.limit q, .less, b⟩ := fun q b => ⟨fun h => (by rcases h with h | h <;> cases h), fun h => (by rcases h with h | h <;> cases h), nofun⟩
  simp only [flagStmts, List.forall_mem_append, forall_when, forall_map]
  refine ⟨⟨⟨⟨⟨⟨⟨⟨fun _ _ => ?_, fun _ => field_plain rfl⟩, fun _ => field_plain rfl⟩, fun _ _ => hl _ _⟩, fun _ _ => hl _ _⟩, fun _ _ => hl _ _⟩,
    fun _ _ => hl _ _⟩, fun _ => hl _ _⟩, fun _ => hl _ _⟩
  exact ⟨fun h => (by rcases h with h | h <;> cases h), fun h => (by rcases h with h | h <;> cases h), fun _ => ⟨nofun, nofun⟩⟩

theorem flags_sat (a : Aliases) (u : Option Nat) {p : NetParts} {x : Seen} (hs : Shows p x) : (∀ r ∈ flagStmts a u, Sat r x) ↔ FlagType a x := by
  have ht : ∀ b : UInt8, ValueIs .type [(none, [b])] b.toNat := fun b => ⟨_, .inl rfl, rfl, by simp [beNat]⟩
  have htr : ∀ q v, Sat ⟨.limit q, .less, v⟩ x ↔ True := fun _ _ => Iff.rfl
  have htv : ∀ v, Sat ⟨.recv, .less, v⟩ x ↔ True := fun _ => Iff.rfl
  simp only [flagStmts, List.forall_mem_append, forall_when, forall_map, htr, htv, implies_true, and_true, true_and]
  rw [field_sat (ht 4), field_sat (ht 0xfb)]
  have small : x.num .type < 256 := (wf_shown hs).small .type
  have hm : Allows .mask0 (x.num .type) 0xfb ↔ ¬ HasType x 4 := by
    unfold HasType
    have key : ∀ t, t < 256 → ((∀ i, t.testBit i = true → (0xfb : Nat).testBit i = true) ↔ ¬ ∀ i, (4 : Nat).testBit i = true → t.testBit i = true) := by
      intro t ht
      have h4 : ∀ i, (4 : Nat).testBit i = true → i = 2 := by
        intro i hi
        rw [show (4 : Nat) = 2 ^ 2 from rfl, Nat.testBit_two_pow] at hi
        exact (of_decide_eq_true hi).symm
      constructor
      · intro h h'
        exact absurd (h 2 (h' 2 rfl)) (by decide)
      · intro h i hi
        have hi8 : i < 8 := by
          apply Classical.byContradiction
          intro h8
          rw [Nat.testBit_lt_two_pow (Nat.lt_of_lt_of_le ht (show 2 ^ 8 ≤ 2 ^ i from Nat.pow_le_pow_right (by decide) (by omega)))] at hi
          cases hi
        have h2 : i ≠ 2 := by
          rintro rfl
          exact h fun j hj => by rw [h4 j hj]; exact hi
        have all : ∀ i, i < 8 → i ≠ 2 → (0xfb : Nat).testBit i = true := by decide
        exact all i hi8 h2
    exact key _ small
  have e4 : (Allows .mask1 (x.num .type) (4 : UInt8).toNat) = HasType x 4 := rfl
  have e1 : HasType x (needs .type) = HasType x 1 := rfl
  have e5 : (0xfb : UInt8).toNat = 0xfb := rfl
  have sub : HasType x 4 → HasType x 1 := by
    intro h
    obtain ⟨c, cs, hp, rfl, -⟩ := hs
    have h2 : Nat.testBit c.type.toNat 2 = true := h 2 rfl
    cases c with
    | data b => exact absurd h2 (by show ¬ Nat.testBit 1 2 = true; decide)
    | error b => exact absurd h2 (by show ¬ Nat.testBit 128 2 = true; decide)
    | link l => exact absurd h2 (by show ¬ Nat.testBit 3 2 = true; decide)
    | key l pk sig =>
      intro i hi
      have h0 : i = 0 := by
        rw [show (1 : Nat) = 2 ^ 0 from rfl, Nat.testBit_two_pow] at hi
        exact (of_decide_eq_true hi).symm
      subst h0
      show Nat.testBit 7 0 = true
      decide
  rw [e4, e1, e5, hm]
  unfold FlagType
  constructor
  · rintro ⟨h1, h2⟩; exact ⟨fun h => (h1 h).2, fun h => ⟨(h2 h).2, (h2 h).1⟩⟩
  · rintro ⟨h1, h2⟩; exact ⟨fun h => ⟨sub (h1 h), h1 h⟩, fun h => ⟨(h2 h).2, (h2 h).1⟩⟩

theorem less_recv {b : Bytes} (hb : b.length = 8) (i : Nat) : RecvOk ⟨.recv, .less, [(none, b)]⟩ i ↔ i < beNat b := by
  constructor
  · intro h
    obtain ⟨c, _, h2, h3⟩ := h rfl
    cases h2; exact h3
  · exact fun h _ => ⟨b, hb, rfl, h⟩
theorem less_count {q q' : QScope} {b : Bytes} (hb : b.length = 4) (n : Nat) : CountOk q ⟨.limit q', .less, [(none, b)]⟩ n ↔ (q' = q → n < beNat b) := by
  constructor
  · rintro ⟨h, -⟩ rfl
    obtain ⟨c, _, h2, h3⟩ := h rfl
    cases h2; exact h3
  · refine fun h => ⟨fun hk => ⟨b, hb, rfl, h (by cases hk; rfl)⟩, fun _ hk => by cases hk⟩

theorem flags_recv (a : Aliases) {u : Option Nat} (hu : ∀ t ∈ u, t < 2 ^ 64) (i : Nat) : (∀ r ∈ flagStmts a u, RecvOk r i) ↔ ∀ t ∈ u, i < t := by
  have hl : ∀ q v, RecvOk ⟨.limit q, .less, v⟩ i ↔ True := fun _ _ => ⟨fun _ => trivial, fun _ h => nomatch h⟩
  have hf : ∀ f op v, RecvOk ⟨.field f, op, v⟩ i ↔ True := fun _ _ _ => ⟨fun _ => trivial, fun _ h => nomatch h⟩
  simp only [flagStmts, List.forall_mem_append, forall_when, forall_map, hl, hf, implies_true, and_true]
  constructor
  · intro h t ht
    have := h t ht
    rwa [less_recv (beBytes_length 8 t), beNat_beBytes 8 t (by have := hu t ht; simpa using this)] at this
  · intro h t ht
    rw [less_recv (beBytes_length 8 t), beNat_beBytes 8 t (by have := hu t ht; simpa using this)]
    exact h t ht

theorem flags_count (a : Aliases) (u : Option Nat) (q : QScope) (n : Nat) : (∀ r ∈ flagStmts a u, CountOk q r n) ↔ FlagCount a q n := by
  have hf : ∀ op v, CountOk q ⟨.field .type, op, v⟩ n ↔ True := fun _ _ => ⟨fun _ => trivial, fun _ => ⟨(fun h => nomatch h), (fun _ h => nomatch h)⟩⟩
  have hr : ∀ v, CountOk q ⟨.recv, .less, v⟩ n ↔ True := fun _ => ⟨fun _ => trivial, fun _ => ⟨(fun h => nomatch h), (fun _ h => nomatch h)⟩⟩
  have hm : ∀ (m : BitVec 32), beNat (beBytes 4 m.toNat) = m.toNat := fun m => beNat_beBytes 4 _ (by have := m.isLt; simpa using this)
  have h0 : beNat (beBytes 4 0) = 0 := by decide
  simp only [flagStmts, List.forall_mem_append, forall_when, forall_map, hr, hf, less_count (beBytes_length 4 _), hm, h0, implies_true, and_true, true_and]
  cases q <;> simp [FlagCount]

theorem place_recv {db gb : Bytes} {bs : List Bytes} {k : Nat} (i : Nat) : ∀ r ∈ placeStmts db gb bs k, RecvOk r i := by
  intro r hr hk
  unfold placeStmts at hr
  rcases List.mem_append.1 hr with hr | hr
  · rcases List.mem_append.1 hr with hr | hr
    · simp only [List.mem_cons, List.not_mem_nil, or_false] at hr
      rcases hr with rfl | rfl <;> cases hk
    · split at hr
      · cases hr
      · rw [List.mem_singleton.1 hr] at hk; cases hk
  · split at hr
    · rw [List.mem_singleton.1 hr] at hk; cases hk
    · cases hr
theorem place_count {db gb : Bytes} {bs : List Bytes} {k : Nat} (q : QScope) (i : Nat) : ∀ r ∈ placeStmts db gb bs k, CountOk q r i := by
  intro r hr
  unfold placeStmts at hr
  rcases List.mem_append.1 hr with hr | hr
  · rcases List.mem_append.1 hr with hr | hr
    · simp only [List.mem_cons, List.not_mem_nil, or_false] at hr
      rcases hr with rfl | rfl <;> exact ⟨(fun h => nomatch h), (fun _ h => nomatch h)⟩
    · split at hr
      · cases hr
      · rw [List.mem_singleton.1 hr]; exact ⟨(fun h => nomatch h), (fun _ h => nomatch h)⟩
  · split at hr
    · rw [List.mem_singleton.1 hr]; exact ⟨(fun h => nomatch h), (fun _ h => nomatch h)⟩
    · cases hr

/-! ### the whole line -/

theorem domain_value {sc : Scope} (hc : HasCli sc) {n : Nat} {e : List ABE} {dflt b : Bytes} (h : PartIs sc (n + 1) e dflt b)
    (ht : e = [] → dflt.length = 16 ∧ PlainFilled dflt) :
    (∀ x ∈ (if e.isEmpty then abToAbe dflt else e), IsExpr x) ∧ IsValue sc (n + 1) (if e.isEmpty then abToAbe dflt else e) b := by
  obtain ⟨h1, h2, h3⟩ := h
  cases e with
  | nil =>
    rw [h3 rfl]
    obtain ⟨t1, t2⟩ := ht rfl
    obtain ⟨id, x, e1, -, e2⟩ := ab_call sc hc.text (topAt true sc n) t1 t2
    show (∀ x ∈ abToAbe dflt, IsExpr x) ∧ IsValue sc (n + 1) (abToAbe dflt) dflt
    rw [e1]
    exact ⟨call_expr _ _, call_isValue e2⟩
  | cons x e => exact ⟨h1, h2 nofun⟩
theorem group_value {sc : Scope} (hc : HasCli sc) {n : Nat} {e : List ABE} {dflt b : Bytes} (h : PartIs sc (n + 1) e dflt b) :
    (∀ x ∈ (if e.isEmpty then b64ToAbe dflt else e), IsExpr x) ∧ IsValue sc (n + 1) (if e.isEmpty then b64ToAbe dflt else e) b := by
  obtain ⟨h1, h2, h3⟩ := h
  cases e with
  | nil =>
    rw [h3 rfl]
    show (∀ x ∈ callAbe (ascii "b") (base64 dflt), IsExpr x) ∧ IsValue sc (n + 1) (callAbe (ascii "b") (base64 dflt)) dflt
    refine ⟨call_expr _ _, call_isValue ?_⟩
    rw [hc.text.b, b64_roundtrip]
    rfl
  | cons x e => exact ⟨h1, h2 nofun⟩

/-- The statements of a line. -/
def lineStmts (db gb : Bytes) (a : Aliases) (m : CliMeaning) : List Stmt := placeStmts db gb m.parts m.depth ++ flagStmts a m.until_ ++ m.stmts

theorem line_asks {sc : Scope} (hc : HasCli sc) (hu : HasUs sc) {n : Nat} {dflt : Defaults} {now : Bytes} (hn : now.length = 8) {l : CliLine} {m : CliMeaning}
    (h : CliMeans sc (n + 1) dflt now l m) :
    ∃ e db gb, dgpd dflt (placeArg l.domain l.group l.comps l.depth) = some e ∧ ValueIs .domain [(none, db)] m.domain ∧ ValueIs .group [(none, gb)] m.group ∧
      ∃ es, (Opts.mk (some e) l.flags l.exprs false).stmts now = some es ∧
        AsksFor sc (n + 1) es (lineStmts db gb l.flags m) (flagOptions l.flags m.qid ++ m.options) := by
  obtain ⟨db, d1, d2⟩ := h.domain
  obtain ⟨gb, g1, g2⟩ := h.group
  obtain ⟨k8, -⟩ := depth_word h.depth
  obtain ⟨v1, v2⟩ := domain_value hc d1 h.text
  obtain ⟨w1, w2⟩ := group_value hc g1
  obtain ⟨ls, p1, p2⟩ := place_asks hc v1 w1 v2 w2 h.parts k8
  refine ⟨_, db, gb, place_reads dflt d1.1 g1.1 h.parts.expr h.depth, d2, g2, ls ++ l.flags.exprs now ++ l.exprs, ?_, ?_⟩
  · unfold Opts.stmts
    simp only [p1, Option.map_some, Bool.false_eq_true, if_false]
  · have := (p2.append (flags_ask hc hu hn h.until_ h.qid)).append h.rest
    simpa [lineStmts] using this

theorem _root_.Verif.Spec.AsksFor.options {sc : Scope} {n : Nat} {es : List (List ABE)} {rs : List Stmt} {os : List ABList} (h : AsksFor sc n es rs os) :
    ∀ x ∈ os, IsOption x := by
  induction h with
  | nil => exact fun _ h => nomatch h
  | option _ _ ih => exact List.forall_mem_cons.2 ⟨⟨_, _, _, rfl⟩, ih⟩
  | stmt _ _ _ _ ih => exact ih

theorem until_small {a : Aliases} {now : Bytes} {u : Option Nat} (h : UntilIs a now u) : ∀ t ∈ u, t < 2 ^ 64 := by
  intro t ht
  cases u with
  | none => cases ht
  | some u =>
    cases ht
    obtain ⟨_, _, _, _, _, h6⟩ := h
    exact h6

end Verif.Cli
