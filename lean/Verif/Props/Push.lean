import Verif.Lemmas.Place
import Verif.Props.Options
import Verif.Props.QueryText
import Verif.Props.Sugar
/-!
# C62: statements added one by one, and the query for one hash
-/
namespace Verif.Props
open Verif Verif.Pkt Verif.Tree Verif.Pred Verif.Env Verif.Spec Verif.Query Verif.QText Verif.Opt Verif.Abe

/-- The texts of the operators. -/
def operatorText : ExtOp → Bytes
  | .greaterEq => ascii ">="
  | .lessEq => ascii "<="
  | .headMask => ascii "=*"
  | .tailMask => ascii "*="
  | .op .nop => ascii "?"
  | .op .equal => ascii "="
  | .op .less => ascii "<"
  | .op .greater => ascii ">"
  | .op .mask0 => ascii "0"
  | .op .mask1 => ascii "1"

/-- The operators are exactly these texts. -/
theorem operator_iff (s : Bytes) (o : ExtOp) : extOpOf s = some o ↔ s = operatorText o := by
  constructor
  · intro h
    unfold extOpOf at h
    split at h
    · cases h; assumption
    · split at h
      · cases h; assumption
      · split at h
        · cases h; assumption
        · split at h
          · cases h; assumption
          · unfold opOf at h
            split at h <;> cases h <;> rfl
  · rintro rfl
    cases o with
    | op o => cases o <;> decide +kernel
    | _ => decide +kernel

/-- The comparisons. -/
inductive Compares : ExtOp → Nat → Nat → Prop
  | eq {a b} : a = b → Compares (.op .equal) a b
  | lt {a b} : a < b → Compares (.op .less) a b
  | gt {a b} : b < a → Compares (.op .greater) a b
  | le {a b} : a ≤ b → Compares .lessEq a b
  | ge {a b} : b ≤ a → Compares .greaterEq a b

/-- The names of the fields. -/
def fieldText : VF → Bytes
  | .hash => ascii "hash"
  | .group => ascii "group"
  | .domain => ascii "domain"
  | .pubkey => ascii "pubkey"
  | .create => ascii "create"
  | .depth => ascii "depth"
  | .linksLen => ascii "links_len"
  | .dataSize => ascii "data_size"
  | .hop => ascii "hop"
  | .stamp => ascii "stamp"
  | .ubits 0 => ascii "ubits0"
  | .ubits 1 => ascii "ubits1"
  | .ubits 2 => ascii "ubits2"
  | .ubits 3 => ascii "ubits3"
  | .type => ascii "type"
  | .netflags => ascii "netflags"
  | .size => ascii "size"

theorem fieldText_rule (f : VF) : fieldText f ≠ [] ∧ ruleOf (fieldText f) = some (.field f) := by
  cases f with
  | ubits i =>
    match i with
    | 0 => decide +kernel
    | 1 => decide +kernel
    | 2 => decide +kernel
    | 3 => decide +kernel
  | _ => decide +kernel

/-- **C62**: a comparison of a field, given as name, operator and bytes of the full size, adds to the query statements that say this comparison of
every packet with the field, and no more; the options stay. -/
theorem push_compares {q : Query} {rs : List Stmt} (hq : Preds.default.run true rs = .ok q.preds) (f : VF) {b : Bytes} (hb : b.length = f.bytes)
    {o : ExtOp} (ho : o = .op .equal ∨ o = .op .less ∨ o = .op .greater ∨ o = .lessEq ∨ o = .greaterEq) :
    ∃ add, (∀ x : Seen, x.num f < 2 ^ f.width → HasType x (needs f) → ((∀ r ∈ add, Sat r x) ↔ Compares o (x.num f) (beNat b))) ∧
      ∀ q', q.push true (fieldText f) (operatorText o) b = .ok q' ↔ Preds.default.run true (rs ++ add) = .ok q'.preds ∧ q'.conf = q.conf := by
  obtain ⟨add, h1, h2⟩ : ∃ add, ExtStmt.stmts ⟨.field f, o, [(none, b)]⟩ = .ok add ∧
      ∀ x : Seen, x.num f < 2 ^ f.width → HasType x (needs f) → ((∀ r ∈ add, Sat r x) ↔ Compares o (x.num f) (beNat b)) := by
    have single : ∀ op (x : Seen), HasType x (needs f) → ((∀ r ∈ [Stmt.mk (.field f) op [(none, b)]], Sat r x) ↔ Allows op (x.num f) (beNat b)) := by
      intro op x ht
      simp only [List.mem_singleton, forall_eq]
      rw [sat_field_full f op b hb]
      exact and_iff_right ht
    rcases ho with rfl | rfl | rfl | rfl | rfl
    · refine ⟨_, rfl, fun x _ ht => (single _ x ht).trans ⟨fun h => .eq h, fun h => ?_⟩⟩
      cases h; assumption
    · refine ⟨_, rfl, fun x _ ht => (single _ x ht).trans ⟨fun h => .lt h, fun h => ?_⟩⟩
      cases h; assumption
    · refine ⟨_, rfl, fun x _ ht => (single _ x ht).trans ⟨fun h => .gt h, fun h => ?_⟩⟩
      cases h; assumption
    · obtain ⟨add, a1, a2⟩ := le_exact f b hb
      refine ⟨add, a1, fun x hx ht => (a2 x hx).trans ⟨fun h => .le h.2, fun h => ⟨.inr ht, ?_⟩⟩⟩
      cases h; assumption
    · obtain ⟨add, a1, a2⟩ := ge_exact f b hb
      refine ⟨add, a1, fun x _ ht => (a2 x).trans ⟨fun h => .ge h.2, fun h => ⟨.inr ht, ?_⟩⟩⟩
      cases h; assumption
  refine ⟨add, h2, fun q' => ?_⟩
  rw [run_append, hq]
  unfold Query.push
  rw [if_neg (fieldText_rule f).1, (fieldText_rule f).2, (operator_iff _ o).2 rfl]
  simp only [Preds.addExt, Abl.ofBytes, h1]
  cases q.preds.run true add with
  | error e => simp
  | ok s =>
    obtain ⟨p, c⟩ := q'
    simp only [Except.ok.injEq, Query.mk.injEq]
    exact ⟨fun h => ⟨h.1, h.2.symm⟩, fun h => ⟨h.1, h.2.symm⟩⟩

/-- **C62**: an empty name sets an option: it then has the value, all others and the statements stay as they were. -/
theorem push_option (dbg : Bool) (q : Query) (name val : Bytes) : ∃ q', q.push dbg [] name val = .ok q' ∧ q'.preds = q.preds ∧
    getOption q'.conf name = .ok (some (some val)) ∧ ∀ other, name ≠ other → getOption q'.conf other = getOption q.conf other :=
  ⟨{ q with conf := addOption q.conf name [val] }, if_pos rfl, rfl, option_set _ _ _, fun other h => option_set_other _ _ _ _ h⟩

/-! ### the query for one hash -/

/-- The query for one hash, and its counter. -/
theorem hash_eq_query {db : Db} (hc : Consistent db) (hw : AllShow db) {h : Bytes} (hh : h.length = 32) :
    query db ⟨.hash, true⟩ (Query.hashEq h).preds 0#32 = .ok ((db.read h).toList, if (db.read h).isSome then 1#32 else 0#32) := by
  have hT : (Query.hashEq h).preds.set .hash = (TestSet.default 256).add .equal (num 256 h) := rfl
  have hother : ∀ f, f ≠ .hash → (Query.hashEq h).preds.set f = TestSet.default f.width := by
    intro f hf
    show (if h' : f = .hash then _ else _) = _
    rw [dif_neg hf]
    rfl
  have hrest : restTests (Query.hashEq h).preds (fun f => f == .hash) = [] := by
    unfold restTests
    rw [List.flatMap_eq_nil_iff]
    intro f hf
    have hf : f ≠ .hash := by simpa using (List.mem_filter.1 hf).2
    unfold Preds.fieldTest
    rw [hother f hf]
    have : compileTest (TestSet.default f.width) = none := by
      unfold compileTest
      rw [if_pos rfl]
    rw [this]
  have hent := hash_entries ((TestSet.default 256).add .equal (num 256 h)) (Query.hashEq h).preds.recv hc hw
  have hfil : db.hash.filter (fun e => decide (((TestSet.default 256).add .equal (num 256 h)).bound.low.toNat ≤ beNat e.1) &&
      (decide (beNat e.1 ≤ ((TestSet.default 256).add .equal (num 256 h)).bound.high.toNat) &&
      ((Query.hashEq h).preds.recv.test (BitVec.ofNat 64 e.2) && ((TestSet.default 256).add .equal (num 256 h)).mask.test (num 256 e.1)))) =
      db.hash.filter (fun e => e.1 == h) := by
    apply List.filter_congr
    intro e he
    obtain ⟨p, hp, hph⟩ := (hc.hashLog e.1 e.2).1 he
    obtain ⟨x, hx⟩ := hw _ _ hp
    have hl : e.1.length = 32 := by rw [← hph]; exact (shows_hash hx).1
    have hn : (num 256 e.1).toNat = beNat e.1 := num_toNat (by rw [hl]; decide)
    have hmem := eq_mem (w := 256) (by decide) (num 256 h) (num 256 e.1)
    have hr : (Query.hashEq h).preds.recv.test (BitVec.ofNat 64 e.2) = true := by
      refine (bound_test_iff (Query.hashEq h).preds.recv _).2 ?_
      exact (default_mem 64 _).1
    rw [hr, Bool.true_and, Bool.eq_iff_iff, beq_iff_eq]
    simp only [Bool.and_eq_true, decide_eq_true_eq]
    unfold TestSet.Mem Bound.Mem at hmem
    rw [hn] at hmem
    constructor
    · rintro ⟨a, b, c⟩
      exact num_inj (w := 256) (by omega) (by omega) (hmem.1 ⟨⟨a, b⟩, c⟩)
    · rintro rfl
      obtain ⟨⟨a, b⟩, c⟩ := hmem.2 rfl
      exact ⟨a, b, c⟩
  rw [hfil] at hent
  have hidx : (TestSet.default 32).memberNext true 0#32 = .ok (some (true, 1#32)) := by decide +kernel
  have hqry : ((TestSet.default 32).add .equal 0#32).memberNext true 0#32 = .ok (some (true, 1#32)) := by decide +kernel
  cases hrd : db.read h with
  | none =>
    have hnil : db.hash.filter (fun e => e.1 == h) = [] := by
      rw [List.filter_eq_nil_iff]
      intro e he hee
      rw [beq_iff_eq] at hee
      obtain ⟨p, hp, hph⟩ := (hc.hashLog e.1 e.2).1 he
      rw [(read_hash_iff hc h e.2 p).2 ⟨hp, hph.trans hee⟩] at hrd
      cases hrd
    rw [hnil] at hent
    simp only [query, candidates, queryHash, hT, hent, List.map_nil, Query.readAll, List.filter_nil, select, Option.toList_none, Option.isSome_none, Bool.false_eq_true, if_false]
  | some e =>
    obtain ⟨i, p⟩ := e
    have hp := (read_hash_iff hc h i p).1 hrd
    have hin : (h, i) ∈ db.hash := (hc.hashLog h i).2 ⟨p, hp.1, hp.2⟩
    have hone : db.hash.filter (fun e => e.1 == h) = [(h, i)] := by
      have hpw := hc.hashSorted.filter (fun e => e.1 == h)
      have hm : ∀ e ∈ db.hash.filter (fun e => e.1 == h), e = (h, i) := by
        intro e he
        obtain ⟨h1, h2⟩ := List.mem_filter.1 he
        rw [beq_iff_eq] at h2
        obtain ⟨p', hp', hph⟩ := (hc.hashLog e.1 e.2).1 h1
        have := (log_unique hc hp' hp.1 (by rw [hph, hp.2, h2])).1
        exact Prod.ext h2 this
      have hi : (h, i) ∈ db.hash.filter (fun e => e.1 == h) := List.mem_filter.2 ⟨hin, by simp⟩
      generalize db.hash.filter (fun e => e.1 == h) = L at *
      match L with
      | [] => cases hi
      | [a] => rw [hm a (by simp)]
      | a :: b :: r =>
        have ha := hm a (by simp)
        have hb := hm b (by simp)
        have := (List.pairwise_cons.1 hpw).1 b (by simp)
        rw [ha, hb, bytesLt_irrefl] at this
        cases this
    rw [hone] at hent
    have hlog : logGet db.log i = some p := (logGet_iff db.log hc.logSorted i p).2 hp.1
    have hs1 : (Query.hashEq h).preds.state .index = TestSet.default 32 := rfl
    have hs2 : (Query.hashEq h).preds.state .query = (TestSet.default 32).add .equal 0#32 := rfl
    have hs3 : (Query.hashEq h).preds.rspace = [] := rfl
    simp only [query, candidates, queryHash, hT, hent, List.map_cons, List.map_nil, Query.readAll, hlog, hrest, hs3, if_true, List.nil_append,
      List.all_nil, List.filter_cons, List.filter_nil, select, hs1, hs2, hidx, hqry, Option.toList_some, Option.isSome_some, if_true]

/-- **C30**: the query for one hash is answered with the stored packet of this hash, error points included, and with nothing if there is none. -/
theorem hash_eq_finds {db : Db} (hc : Consistent db) (hw : AllShow db) {h : Bytes} (hh : h.length = 32) :
    getMode (Query.hashEq h).conf = .ok ⟨.hash, true⟩ ∧ ∃ out, getAll db ⟨.hash, true⟩ (Query.hashEq h).preds = .ok out ∧
      (∀ i p, out = [(i, p)] ↔ (i, p) ∈ db.log ∧ p.hash = h) ∧ (out = [] ↔ ∀ i p, (i, p) ∈ db.log → p.hash ≠ h) := by
  refine ⟨(by decide +kernel : getMode (addOption [] (ascii "mode") [modeText ⟨.hash, true⟩]) = .ok ⟨.hash, true⟩), ?_⟩
  have hall : getAll db ⟨.hash, true⟩ (Query.hashEq h).preds = .ok (db.read h).toList := by
    simp only [getAll, hash_eq_query hc hw hh]
  refine ⟨_, hall, fun i p => ?_, ?_⟩
  · rw [← read_hash_iff hc]
    cases db.read h <;> simp
  · constructor
    · intro he i p hp hh'
      rw [(read_hash_iff hc h i p).2 ⟨hp, hh'⟩] at he
      cases he
    · intro hno
      cases hrd : db.read h with
      | none => rfl
      | some e =>
        obtain ⟨h1, h2⟩ := (read_hash_iff hc h e.1 e.2).1 hrd
        exact absurd h2 (hno _ _ h1)

/-! ### cases -/

example : Preds.default.run true [] = .ok Query.empty.preds ∧ (beBytes 8 5).length = VF.create.bytes ∧
    (Query.empty.push true (ascii "create") (ascii "<=") (beBytes 8 5)).toOption.isSome = true := by
  refine ⟨rfl, by decide, by decide +kernel⟩
example : Consistent exDb ∧ AllShow exDb ∧ (exDb.log.map fun e => (getAll exDb ⟨.hash, true⟩ (Query.hashEq e.2.hash).preds).toOption) =
    exDb.log.map fun e => some [e] := ⟨exDb_consistent, exDb_shows, by decide +kernel⟩

end Verif.Props
