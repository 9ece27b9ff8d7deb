import Verif.Lemmas.MultiWatch
import Verif.Model.Matcher
import Verif.Props.Pull
/-!
# C68: a watch under a constraint stays inside of the constraint
-/
namespace Verif.Props
open Verif Verif.Abl Verif.Abe Verif.Pkt Verif.Pred Verif.QText Verif.Opt Verif.Eval Verif.Spec Verif.Multi Verif.Matcher Verif.Conv

variable {req cli : Scope} {n : Nat} {or : List Bytes} {data : Bytes} {q : Query}

theorem setup_or (h : setupWatch true req cli n or data = .ok q) (hor : or ≠ []) :
    ∃ o ∈ or, ∃ rs os, TextSays cli n o rs os ∧ ∃ a b es, a.Good ∧ q.preds = b.preds ∧ effsOf rs = some es ∧ Step a b es := by
  unfold setupWatch at h
  split at h
  · cases h
  · rename_i q0 hq
    rw [if_neg hor] at h
    obtain ⟨_, _, _, hrun, _⟩ := (addLines_says _ _ _ _ _).1 hq
    obtain ⟨o, ho, q1, ⟨a, hg, ha⟩, hp⟩ := tryOr_ok (sound_of_run sound_default hrun) h
    obtain ⟨rs, os, hs, hr, _⟩ := (addLines_says _ _ _ _ _).1 hp
    rw [ha] at hr
    obtain ⟨es, b, he, hb, st⟩ := step_run hg hr
    exact ⟨o, ho, rs, os, hs, a, b, es, hg, hb, he, st⟩

/-- **C68**: if there are alternatives and a request is accepted, then there is an alternative such that every packet the watch passes
satisfies all its statements.  Whatever the request says, and whatever the refused alternatives left behind. -/
theorem or_enforced (h : setupWatch true req cli n or data = .ok q) (hor : or ≠ []) :
    ∃ o ∈ or, ∃ rs os, TextSays cli n o rs os ∧
      ∀ p x, Shows p x → q.preds.test p = true → ∀ r ∈ rs, Plain r → Sat r x := by
  obtain ⟨o, ho, rs, os, hs, a, b, es, hg, hb, he, st⟩ := setup_or h hor
  refine ⟨o, ho, rs, os, hs, fun p x hx ht r hr hpl => ?_⟩
  rw [hb] at ht
  obtain ⟨h1, h2⟩ := test_passes (st.good hg) hx ht
  have hsat := passes_sat st (wf_shown hx) h1 h2
  obtain ⟨m1, m2⟩ := effsOf_mem he
  obtain ⟨fs, hf⟩ := m1 r hr
  exact (effs_packet hf hpl (wf_shown hx)).1 ((m2 fun e => e.Packet x).1 (fun e he => (hsat e he).1) r hr fs hf)

theorem test_mem {w : Nat} (h0 : 1 < w) (h32 : w < 2 ^ 32) {t : TestSet w} {v : BitVec w} (h : t.test true v = .ok true) : t.Mem v := by
  by_cases ha : t.mask.hasAny = true
  · rcases test_iff h0 h32 true t v (.inr ha) with ⟨_, h⟩ | ⟨e, _⟩
    · exact h
    · rw [e] at h; cases h
  · have e : t.hasAny true = .error .panic := by simp [TestSet.hasAny, TestSet.minValue, Mask.inSetD, ha]
    unfold TestSet.test TestSet.rules at h
    rw [e] at h
    cases h

theorem effs_states {r : Stmt} {es : List Eff} (h : r.effs = some es) {q : QScope} {op : TestOp} {v : BitVec 32} (he : Eff.st q op v ∈ es) :
    q = .query ∨ r.kind = .limit q := by
  unfold Stmt.effs at h
  split at h
  · split at h
    · cases h
      rcases List.mem_append.1 he with he | he
      · simp at he
      · split at he
        · have := List.mem_singleton.1 he
          cases this
          exact .inl rfl
        · cases he
    · cases h
  · split at h
    · cases hc : spaceArg r.val with
      | none => rw [hc] at h; cases h
      | some cs => rw [hc] at h; cases h; simp at he
    · cases h
  · cases h
  · split at h
    · cases h; simp at he
    · cases h
  · split at h
    · cases hc : spaceArg r.val with
      | none => rw [hc] at h; cases h
      | some cs => rw [hc] at h; cases h; simp at he
    · cases h
  · rename_i q' hk
    split at h
    · cases h
      have := List.mem_singleton.1 he
      cases this
      exact .inr hk
    · cases h

/-- **C68**: the same for the watch that is started: with whatever counters, a packet is given to the client only if it and the moment
satisfy the statements of the alternative.  The counters of the database, which the watch does not use, are left out. -/
theorem or_watch (h : setupWatch true req cli n or data = .ok q) (hor : or ≠ []) :
    ∃ o ∈ or, ∃ rs os, TextSays cli n o rs os ∧
      ∀ {C : Type} (id : Bytes) (nth i j : BitVec 32) (ctx : C) (w w' : Watch C) (t : Nat) (p : NetParts) (x : Seen) (over : Bool),
        Watch.new id q.preds nth ctx = .ok w → Watch.test { w with nthNew := i, nthQuery := j } t p = .ok (w', true, over) → Shows p x →
        ∀ r ∈ rs, Plain r → Sat r x ∧
          (r.kind ≠ .limit .branch → r.kind ≠ .limit .index → SatWhen r t (fun | .new => i.toNat | _ => j.toNat)) := by
  obtain ⟨o, ho, rs, os, hs, a, b, es, hg, hb, he, st⟩ := setup_or h hor
  refine ⟨o, ho, rs, os, hs, ?_⟩
  intro C id nth i j ctx w w' t p x over hw ht hx r hr hpl
  have hnew : w.preds = q.preds ∧ w.iNew = q.preds.state .new ∧ w.iQuery = q.preds.state .query ∧ w.recv = q.preds.recv := by
    unfold Watch.new Watch.updateTests at hw
    simp only at hw
    repeat' split at hw
    all_goals cases hw
    exact ⟨rfl, rfl, rfl, rfl⟩
  obtain ⟨e1, e2, e3, e4⟩ := hnew
  have hparts : w.recv.low.toNat ≤ t ∧ t ≤ w.recv.high.toNat ∧ w.preds.test p = true ∧ w.iNew.test true i = .ok true ∧ w.iQuery.test true j = .ok true := by
    unfold Watch.test at ht
    split at ht
    · cases ht
    · rename_i w1 r1 h1
      cases ht
      unfold Watch.test' at h1
      simp only at h1
      split at h1
      · cases h1
      · rename_i c1
        split at h1
        · cases h1
        · rename_i c2
          split at h1
          · cases h1
          · rename_i c3
            cases ha : w.iNew.test true i with
            | error e => rw [ha] at h1; cases h1
            | ok b1 =>
              rw [ha] at h1
              simp only at h1
              cases b1 with
              | false =>
                simp only [Bool.false_eq_true, if_false] at h1
                split at h1
                · cases h1
                · cases h1
              | true =>
                simp only [if_true] at h1
                cases hq : w.iQuery.test true j with
                | error e => rw [hq] at h1; cases h1
                | ok b2 =>
                  rw [hq] at h1
                  simp only at h1
                  split at h1
                  · cases h1
                    exact ⟨by omega, by omega, by simpa using c3, rfl, rfl⟩
                  · cases h1
  obtain ⟨p1, p2, p3, p4, p5⟩ := hparts
  rw [e1, hb] at p3
  rw [e2, hb] at p4
  rw [e3, hb] at p5
  rw [e4, hb] at p1 p2
  obtain ⟨h1, h2⟩ := test_passes (st.good hg) hx p3
  have hsat := passes_sat st (wf_shown hx) h1 h2
  obtain ⟨m1, m2⟩ := effsOf_mem he
  obtain ⟨fs, hf⟩ := m1 r hr
  have hmem : ∀ e ∈ fs, e ∈ es := (m2 fun e => e ∈ es).1 (fun _ h => h) r hr fs hf
  refine ⟨(effs_packet hf hpl (wf_shown hx)).1 fun e he => (hsat e (hmem e he)).1, fun k1 k2 => ?_⟩
  have hlt : t < 2 ^ 64 := Nat.lt_of_le_of_lt p2 (BitVec.isLt _)
  have ht64 : (BitVec.ofNat 64 t).toNat = t := by rw [BitVec.toNat_ofNat]; exact Nat.mod_eq_of_lt hlt
  have hrecv : b.recv.Mem (BitVec.ofNat 64 t) := ⟨by rw [ht64]; exact p1, by rw [ht64]; exact p2⟩
  have := (effs_sat hf hpl (wf_shown hx) (BitVec.ofNat 64 t) (fun | .new => i | _ => j)).1 fun e he => (hsat e (hmem e he)).2 _ _ hrecv (by
    intro q' op v heq
    subst heq
    rcases effs_states hf he with rfl | hk
    · exact test_mem (by decide) (by decide) p5
    · cases q' with
      | new => exact test_mem (by decide) (by decide) p4
      | query => exact test_mem (by decide) (by decide) p5
      | branch => exact absurd hk k1
      | index => exact absurd hk k2)
  have h2 := this.2
  rw [ht64] at h2
  have : (fun q' => ((match q' with | .new => i | _ => j : BitVec 32)).toNat) = (fun | .new => i.toNat | _ => j.toNat : QScope → Nat) := by
    funext q'; cases q' <;> rfl
  rw [this] at h2
  exact h2

/-- **C68**: without alternatives the query is the request. -/
theorem or_none {rs : List Stmt} {os : List ABList} (hs : TextSays req n data rs os) :
    setupWatch true req cli n [] data = .ok q ↔ Preds.default.run true rs = .ok q.preds ∧ q.conf = os := by
  have : setupWatch true req cli n [] data = Query.empty.parse true req n data := by
    unfold setupWatch
    cases Query.empty.parse true req n data <;> rfl
  rw [this]
  unfold Query.parse
  rw [addLines_says]
  constructor
  · rintro ⟨rs', os', h, h1, h2⟩
    obtain ⟨rfl, rfl⟩ := says_unique hs h
    exact ⟨h1, h2⟩
  · rintro ⟨h1, h2⟩
    exact ⟨rs, os, hs, h1, h2⟩

/-- **C68**: the first alternative is taken if the code accepts the request together with it, and then the query is exactly the two
together: the packets that satisfy the statements of both, with the options of both. -/
theorem or_first {o : Bytes} {or : List Bytes} {rs rs' : List Stmt} {os os' : List ABList} (hs : TextSays req n data rs os)
    (ho : TextSays cli n o rs' os') {s : Preds} (hr : Preds.default.run true (rs ++ rs') = .ok s) :
    setupWatch true req cli n (o :: or) data = .ok ⟨s, os ++ os'⟩ := by
  rw [run_append] at hr
  cases h1 : Preds.default.run true rs with
  | error e => rw [h1] at hr; cases hr
  | ok s1 =>
    rw [h1] at hr
    have hp : Query.empty.parse true req n data = .ok ⟨s1, os⟩ := (addLines_says _ _ _ _ _).2 ⟨rs, os, hs, h1, rfl⟩
    have hq : (⟨s1, os⟩ : Query).parse true cli n o = .ok ⟨s, os ++ os'⟩ := (addLines_says _ _ _ _ _).2 ⟨rs', os', ho, hr, rfl⟩
    unfold setupWatch
    rw [hp]
    simp only
    rw [if_neg (by simp)]
    unfold tryOr
    rw [← parse_res] at hq
    generalize parse true cli n ⟨s1, os⟩ o = y at *
    obtain ⟨q2, u⟩ := y
    cases u with
    | ok _ => cases hq; rfl
    | error e => cases hq

/-- **C68**: a request that something satisfies together with the first alternative is accepted, and it selects exactly what satisfies
both. -/
theorem or_first_accepts {o : Bytes} {or : List Bytes} {rs rs' : List Stmt} {os os' : List ABList} (hs : TextSays req n data rs os)
    (ho : TextSays cli n o rs' os') (hpl : ∀ r ∈ rs ++ rs', Plain r) {x : Seen} (hx : Wf x) {t : BitVec 64} {c : QScope → BitVec 32}
    (hsat : ∀ r ∈ rs ++ rs', Sat r x) (hw : ∀ r ∈ rs ++ rs', SatWhen r t.toNat (fun q => (c q).toNat)) :
    ∃ q, setupWatch true req cli n (o :: or) data = .ok q ∧ q.conf = os ++ os' ∧
      ∀ p x, Shows p x → (q.preds.test p = true ↔ (∀ r ∈ rs, Sat r x) ∧ ∀ r ∈ rs', Sat r x) := by
  obtain ⟨s, hr⟩ := query_accepts hpl hx hsat hw
  refine ⟨_, or_first hs ho hr, rfl, fun p x hx => ?_⟩
  rw [filter_exact hr hpl hx]
  simp only [List.mem_append, or_imp, forall_and]

/-! ### what the refused alternatives leave behind -/

/-- The line `field:op:value`. -/
def oneLine (field op val : Bytes) : Bytes := display [(none, field), (some .colon, op), (some .colon, val)]

theorem oneLine_eval (sc : Scope) (n : Nat) {field op val : Bytes} (hf : field ≠ []) :
    evalLine true sc (n + 1) (oneLine field op val) = .ok [(none, field), (some .colon, op), (some .colon, val)] := by
  apply evalLine_display
  · intro e he
    simp only [List.tail_cons, List.mem_cons, List.not_mem_nil, or_false] at he
    rcases he with rfl | rfl <;> nofun
  · intro h
    cases h
    exact hf rfl

theorem oneLine_ext {field op val : Bytes} {k : Kind} {o : TestOp} (hk : kindOf field = some k) (ho : extOpOf op = some (.op o)) :
    extOf [(none, field), (some .colon, op), (some .colon, val)] = .ok ⟨k, .op o, [(none, val)]⟩ := by
  simp [extOf, hk, ho, Abl.isEmpty, asExactBytes]

/-- Reading one line that is one statement. -/
theorem multi_line (sc : Scope) (n : Nat) (q : Query) {field op val t : Bytes} {k : Kind} {o : TestOp} (hf : field ≠ []) (hk : kindOf field = some k)
    (ho : extOpOf op = some (.op o)) (ht : splitLines t = [oneLine field op val]) (hne : oneLine field op val ≠ []) :
    Multi.parse true sc (n + 1) q t = ({ q with preds := (Multi.and true q.preds ⟨k, o, [(none, val)]⟩).1 },
      (Multi.and true q.preds ⟨k, o, [(none, val)]⟩).2) := by
  unfold Multi.parse
  rw [ht, Multi.addLines, if_neg hne, oneLine_eval sc n hf]
  have hx := oneLine_ext (val := val) hk ho
  simp only [Left.get, Multi.addStmt, hx, Multi.addExt, ExtStmt.stmts, Multi.run]
  generalize Multi.and true q.preds ⟨k, o, [(none, val)]⟩ = y
  obtain ⟨s, u⟩ := y
  cases u <;> rfl

/-- The same, as text. -/
theorem says_line (sc : Scope) (n : Nat) {field op val t : Bytes} {k : Kind} {o : TestOp} (hf : field ≠ []) (hk : kindOf field = some k)
    (ho : extOpOf op = some (.op o)) (ht : splitLines t = [oneLine field op val]) (hne : oneLine field op val ≠ []) :
    TextSays sc (n + 1) t [⟨k, o, [(none, val)]⟩] [] := by
  unfold TextSays
  rw [ht]
  have hx := oneLine_ext (val := val) hk ho
  exact .stmt hne (oneLine_eval sc n hf) hx rfl .nil

def outcome : PRes Unit → Nat
  | .ok _ => 0
  | .error (.err _) => 1
  | .error .panic => 2
theorem outcome_ok {r : PRes Unit} (h : outcome r = 0) : r = .ok () := by
  unfold outcome at h; split at h <;> first | rfl | cases h
theorem outcome_err {r : PRes Unit} (h : outcome r = 1) : r = .error (.err ()) := by
  unfold outcome at h; split at h <;> first | rfl | cases h

/-- What reading statements one after the other leaves behind, whether or not they are accepted. -/
def leftBy (rs : List Stmt) : Preds := rs.foldl (fun s r => (Multi.and true s r).1) .default

/-- A request of one statement that is accepted. -/
theorem setup_one (req cli : Scope) (n : Nat) {or : List Bytes} (hor : or ≠ []) {field op val t : Bytes} {k : Kind} {o : TestOp} (hf : field ≠ []) (hk : kindOf field = some k)
    (ho : extOpOf op = some (.op o)) (ht : splitLines t = [oneLine field op val]) (hne : oneLine field op val ≠ [])
    (hok : outcome (Multi.and true Preds.default ⟨k, o, [(none, val)]⟩).2 = 0) :
    setupWatch true req cli (n + 1) or t = tryOr true cli (n + 1) ⟨leftBy [⟨k, o, [(none, val)]⟩], []⟩ or := by
  have h := multi_line req n Query.empty hf hk ho ht hne
  have hok := outcome_ok hok
  have hp : Query.empty.parse true req (n + 1) t = .ok ⟨leftBy [⟨k, o, [(none, val)]⟩], []⟩ := by
    rw [← parse_res, h]
    have e : (Multi.and true Query.empty.preds ⟨k, o, [(none, val)]⟩).2 = .ok () := hok
    rw [e]
    rfl
  unfold setupWatch
  rw [hp]
  simp only
  rw [if_neg hor]

/-- One alternative of one statement. -/
theorem tryOr_one (cli : Scope) (n : Nat) (rs : List Stmt) (c : Conf) (os : List Bytes) {field op val t : Bytes} {k : Kind} {o : TestOp} (hf : field ≠ []) (hk : kindOf field = some k)
    (ho : extOpOf op = some (.op o)) (ht : splitLines t = [oneLine field op val]) (hne : oneLine field op val ≠ []) :
    (outcome (Multi.and true (leftBy rs) ⟨k, o, [(none, val)]⟩).2 = 0 →
      tryOr true cli (n + 1) ⟨leftBy rs, c⟩ (t :: os) = .ok ⟨leftBy (rs ++ [⟨k, o, [(none, val)]⟩]), c⟩) ∧
    (outcome (Multi.and true (leftBy rs) ⟨k, o, [(none, val)]⟩).2 = 1 →
      tryOr true cli (n + 1) ⟨leftBy rs, c⟩ (t :: os) = tryOr true cli (n + 1) ⟨leftBy (rs ++ [⟨k, o, [(none, val)]⟩]), c⟩ os) := by
  have h := multi_line cli n ⟨leftBy rs, c⟩ hf hk ho ht hne
  have e : (Multi.and true (leftBy rs) ⟨k, o, [(none, val)]⟩).1 = leftBy (rs ++ [⟨k, o, [(none, val)]⟩]) := by
    simp [leftBy, List.foldl_append]
  constructor
  · intro hh
    have hh := outcome_ok hh
    rw [tryOr, h]
    simp only [hh, e]
  · intro hh
    have hh := outcome_err hh
    rw [tryOr, h]
    simp only [hh, e]

/-- **C68** (finding): the request asks for what the second alternative allows and is refused: the first alternative, although refused, has left
the set of domains empty.  With the second alternative alone the request is accepted. -/
theorem or_second_refused (req cli : Scope) (n : Nat) :
    setupWatch true req cli (n + 1) [ascii "domain:=:example", ascii "domain:=:hello"] (ascii "domain:=:hello") = .error (.err ()) ∧
    ∃ q, setupWatch true req cli (n + 1) [ascii "domain:=:hello"] (ascii "domain:=:hello") = .ok q := by
  have t1 : splitLines (ascii "domain:=:hello") = [oneLine (ascii "domain") (ascii "=") (ascii "hello")] := by decide +kernel
  have t2 : splitLines (ascii "domain:=:example") = [oneLine (ascii "domain") (ascii "=") (ascii "example")] := by decide +kernel
  have hk : kindOf (ascii "domain") = some (.field .domain) := by decide +kernel
  have ho : extOpOf (ascii "=") = some (.op .equal) := by decide +kernel
  constructor
  · rw [setup_one req cli n (by simp) (by decide) hk ho t1 (by decide) (by decide +kernel),
      (tryOr_one cli n _ _ _ (by decide) hk ho t2 (by decide)).2 (by decide +kernel),
      (tryOr_one cli n _ _ _ (by decide) hk ho t1 (by decide)).2 (by decide +kernel)]
    rfl
  · rw [setup_one req cli n (by simp) (by decide) hk ho t1 (by decide) (by decide +kernel),
      (tryOr_one cli n _ _ _ (by decide) hk ho t1 (by decide)).1 (by decide +kernel)]
    exact ⟨_, rfl⟩

/-- The request for the private group, with an alternative for another group and one for the domain of exchanges. -/
def deadData : Bytes := oneLine (ascii "group") (ascii "=") zeroGroup
def deadOr : List Bytes := [oneLine (ascii "group") (ascii "=") (List.replicate 32 1), oneLine (ascii "domain") (ascii "=") (List.replicate 8 255 ++ ascii "exchange")]


def deadContent : LinkContent := ⟨zeroGroup, List.replicate 8 255 ++ ascii "exchange", 5, [], [], []⟩
def deadPkt (hop : Bytes) : NetParts := ⟨List.replicate 4 0 ++ hop ++ List.replicate 24 0, List.replicate 32 0, (Content.link deadContent).parts⟩
theorem dead_shows {hop : Bytes} (h : hop.length = 4) : Shows (deadPkt hop) (seenOf (deadPkt hop).netHeader (deadPkt hop).hash (.link deadContent) []) :=
  ⟨.link deadContent, [], ⟨rfl, ⟨by decide, rfl, by decide, by decide, fun _ h => (nomatch h), rfl⟩, rfl, by simp [deadPkt, h]⟩, rfl,
    ⟨⟨fun _ h => (nomatch h), rfl, by decide⟩, by decide, .inl rfl⟩⟩

/-- **C68** (finding): a request is accepted under the second alternative and the watch passes nothing at all, although there are packets that satisfy
both: the refused first alternative has left the set of groups empty.  Under the second alternative alone the watch passes them. -/
theorem or_dead (req cli : Scope) (n : Nat) :
    (∃ q, setupWatch true req cli (n + 1) deadOr deadData = .ok q ∧ ∀ p, q.preds.test p = false) ∧
    ∃ q p x, setupWatch true req cli (n + 1) deadOr.tail deadData = .ok q ∧ Shows p x ∧ q.preds.test p = true := by
  have t1 : splitLines deadData = [oneLine (ascii "group") (ascii "=") zeroGroup] := by decide +kernel
  have t2 : splitLines (oneLine (ascii "group") (ascii "=") (List.replicate 32 1)) = [oneLine (ascii "group") (ascii "=") (List.replicate 32 1)] := by
    decide +kernel
  have t3 : splitLines (oneLine (ascii "domain") (ascii "=") (List.replicate 8 255 ++ ascii "exchange")) =
      [oneLine (ascii "domain") (ascii "=") (List.replicate 8 255 ++ ascii "exchange")] := by decide +kernel
  have hd : kindOf (ascii "domain") = some (.field .domain) := by decide +kernel
  have hk : kindOf (ascii "group") = some (.field .group) := by decide +kernel
  have ho : extOpOf (ascii "=") = some (.op .equal) := by decide +kernel
  constructor
  · refine ⟨_, by
      rw [setup_one req cli n (by simp [deadOr]) (by decide) hk ho t1 (by decide +kernel) (by decide +kernel), deadOr,
        (tryOr_one cli n _ _ _ (by decide) hk ho t2 (by decide +kernel)).2 (by decide +kernel),
        (tryOr_one cli n _ _ _ (by decide) hd ho t3 (by decide +kernel)).1 (by decide +kernel)], fun p => ?_⟩
    rw [Bool.eq_false_iff]
    intro h
    have := test_bound h .group
    have e : ((leftBy ([⟨.field .group, .equal, [(none, zeroGroup)]⟩] ++ [⟨.field .group, .equal, [(none, List.replicate 32 1)]⟩] ++
      [⟨.field .domain, .equal, [(none, List.replicate 8 255 ++ ascii "exchange")]⟩])).set .group).bound.high.toNat <
      ((leftBy ([⟨.field .group, .equal, [(none, zeroGroup)]⟩] ++ [⟨.field .group, .equal, [(none, List.replicate 32 1)]⟩] ++
      [⟨.field .domain, .equal, [(none, List.replicate 8 255 ++ ascii "exchange")]⟩])).set .group).bound.low.toNat := by decide +kernel
    obtain ⟨h1, h2⟩ := this
    exact absurd (Nat.le_trans h1 h2) (Nat.not_le.2 e)
  · refine ⟨_, deadPkt [0, 0, 0, 0], _, by
      rw [setup_one req cli n (by simp [deadOr]) (by decide) hk ho t1 (by decide +kernel) (by decide +kernel)]
      show tryOr _ _ _ _ [_] = _
      rw [(tryOr_one cli n _ _ _ (by decide) hd ho t3 (by decide +kernel)).1 (by decide +kernel)], dead_shows rfl, ?_⟩
    decide +kernel

/-- **C68** (finding): a watch passes packets that do not satisfy the request: after a first alternative that was refused, the mask of the
request is not looked at. -/
theorem or_request_dropped (req cli : Scope) (n : Nat) :
    ∃ q p x, setupWatch true req cli (n + 1) [oneLine (ascii "hop") (ascii "=") (ascii "BBBB"), oneLine (ascii "domain") (ascii "=") (List.replicate 8 255 ++ ascii "exchange")]
        (oneLine (ascii "hop") (ascii "1") (ascii "AAAA")) = .ok q ∧
      Shows p x ∧ q.preds.test p = true ∧ TextSays req (n + 1) (oneLine (ascii "hop") (ascii "1") (ascii "AAAA")) [⟨.field .hop, .mask1, [(none, ascii "AAAA")]⟩] [] ∧
      ¬ Sat ⟨.field .hop, .mask1, [(none, ascii "AAAA")]⟩ x := by
  have t1 : splitLines (oneLine (ascii "hop") (ascii "1") (ascii "AAAA")) = [oneLine (ascii "hop") (ascii "1") (ascii "AAAA")] := by decide +kernel
  have t2 : splitLines (oneLine (ascii "hop") (ascii "=") (ascii "BBBB")) = [oneLine (ascii "hop") (ascii "=") (ascii "BBBB")] := by decide +kernel
  have t3 : splitLines (oneLine (ascii "domain") (ascii "=") (List.replicate 8 255 ++ ascii "exchange")) =
      [oneLine (ascii "domain") (ascii "=") (List.replicate 8 255 ++ ascii "exchange")] := by decide +kernel
  have hd : kindOf (ascii "domain") = some (.field .domain) := by decide +kernel
  have hk : kindOf (ascii "hop") = some (.field .hop) := by decide +kernel
  have ho : extOpOf (ascii "=") = some (.op .equal) := by decide +kernel
  have h1 : extOpOf (ascii "1") = some (.op .mask1) := by decide +kernel
  refine ⟨_, deadPkt (ascii "BBBB"), _, by
      rw [setup_one req cli n (by simp) (by decide) hk h1 t1 (by decide +kernel) (by decide +kernel),
        (tryOr_one cli n _ _ _ (by decide) hk ho t2 (by decide +kernel)).2 (by decide +kernel),
        (tryOr_one cli n _ _ _ (by decide) hd ho t3 (by decide +kernel)).1 (by decide +kernel)], dead_shows rfl, ?_, 
    says_line req n (by decide) hk h1 t1 (by decide +kernel), ?_⟩
  · decide +kernel
  · rw [sat_field_full _ _ _ rfl]
    rintro ⟨_, h⟩
    exact absurd (h 0 (by decide +kernel)) (by decide +kernel)

/-- **C68** (finding): an option of a refused alternative stays: the request is accepted under the second alternative, which says nothing about
following links, and the watch follows links because the first alternative said so. -/
theorem or_option_kept (req cli : Scope) (n : Nat) :
    ∃ q, setupWatch true req cli (n + 1) [display [(some .colon, ascii "follow")] ++ [10] ++ oneLine (ascii "domain") (ascii "=") (ascii "example"),
        oneLine (ascii "hop") (ascii "=") (ascii "BBBB")] (oneLine (ascii "domain") (ascii "=") (ascii "hello")) = .ok q ∧ q.conf = [[(some .colon, ascii "follow")]] := by
  have t1 : splitLines (oneLine (ascii "domain") (ascii "=") (ascii "hello")) = [oneLine (ascii "domain") (ascii "=") (ascii "hello")] := by decide +kernel
  have t2 : splitLines (display [(some .colon, ascii "follow")] ++ [10] ++ oneLine (ascii "domain") (ascii "=") (ascii "example")) =
      [display [(some .colon, ascii "follow")], oneLine (ascii "domain") (ascii "=") (ascii "example")] := by decide +kernel
  have t3 : splitLines (oneLine (ascii "hop") (ascii "=") (ascii "BBBB")) = [oneLine (ascii "hop") (ascii "=") (ascii "BBBB")] := by decide +kernel
  have hd : kindOf (ascii "domain") = some (.field .domain) := by decide +kernel
  have hk : kindOf (ascii "hop") = some (.field .hop) := by decide +kernel
  have ho : extOpOf (ascii "=") = some (.op .equal) := by decide +kernel
  have he : evalLine true cli (n + 1) (display [(some .colon, ascii "follow")]) = .ok [(some .colon, ascii "follow")] := by
    apply evalLine_display
    · intro e he; cases he
    · nofun
  have hx := oneLine_ext (val := ascii "example") hd ho
  have hp : Multi.parse true cli (n + 1) ⟨leftBy [⟨.field .domain, .equal, [(none, ascii "hello")]⟩], []⟩
      (display [(some .colon, ascii "follow")] ++ [10] ++ oneLine (ascii "domain") (ascii "=") (ascii "example")) =
      (⟨leftBy ([⟨.field .domain, .equal, [(none, ascii "hello")]⟩] ++ [⟨.field .domain, .equal, [(none, ascii "example")]⟩]),
        [[(some .colon, ascii "follow")]]⟩, .error (.err ())) := by
    have hh : (Multi.and true (leftBy [⟨.field .domain, .equal, [(none, ascii "hello")]⟩]) ⟨.field .domain, .equal, [(none, ascii "example")]⟩).2 = .error (.err ()) :=
      outcome_err (by decide +kernel)
    unfold Multi.parse
    rw [t2, Multi.addLines, if_neg (by decide +kernel), he]
    simp only [Left.get, Multi.addStmt, addOptionAbl, Left.next]
    rw [Multi.addLines, if_neg (by decide +kernel), oneLine_eval cli n (by decide)]
    simp only [Left.get, Multi.addStmt, hx, Multi.addExt, ExtStmt.stmts, Multi.run]
    have e : (Multi.and true (leftBy [⟨.field .domain, .equal, [(none, ascii "hello")]⟩]) ⟨.field .domain, .equal, [(none, ascii "example")]⟩).1 =
      leftBy ([⟨.field .domain, .equal, [(none, ascii "hello")]⟩] ++ [⟨.field .domain, .equal, [(none, ascii "example")]⟩]) := rfl
    rw [← e]
    revert hh
    generalize Multi.and true (leftBy [⟨.field .domain, .equal, [(none, ascii "hello")]⟩]) ⟨.field .domain, .equal, [(none, ascii "example")]⟩ = y
    obtain ⟨s, u⟩ := y
    intro hh
    cases (show u = _ from hh)
    rfl
  refine ⟨_, by
    rw [setup_one req cli n (by simp) (by decide) hd ho t1 (by decide +kernel) (by decide +kernel), tryOr, hp]
    simp only
    rw [(tryOr_one cli n _ _ _ (by decide) hk ho t3 (by decide +kernel)).1 (by decide +kernel)], rfl⟩

/-- The hypotheses of `or_first_accepts` and `or_enforced` are met: the request for the private group under the domain of exchanges. -/
theorem or_case (req cli : Scope) (n : Nat) : ∃ q, setupWatch true req cli (n + 1) deadOr.tail deadData = .ok q ∧
    (∃ p x, Shows p x ∧ q.preds.test p = true) ∧ ∀ p x, Shows p x → (q.preds.test p = true ↔
      Sat ⟨.field .group, .equal, [(none, zeroGroup)]⟩ x ∧ Sat ⟨.field .domain, .equal, [(none, List.replicate 8 255 ++ ascii "exchange")]⟩ x) := by
  have hd : kindOf (ascii "domain") = some (.field .domain) := by decide +kernel
  have hk : kindOf (ascii "group") = some (.field .group) := by decide +kernel
  have ho : extOpOf (ascii "=") = some (.op .equal) := by decide +kernel
  have s1 := says_line req n (t := deadData) (val := zeroGroup) (by decide) hk ho (by decide +kernel) (by decide +kernel)
  have s2 := says_line cli n (t := oneLine (ascii "domain") (ascii "=") (List.replicate 8 255 ++ ascii "exchange")) (val := List.replicate 8 255 ++ ascii "exchange")
    (by decide) hd ho (by decide +kernel) (by decide +kernel)
  have h1 : Sat ⟨.field .group, .equal, [(none, zeroGroup)]⟩ (seenOf (deadPkt [0, 0, 0, 0]).netHeader (deadPkt [0, 0, 0, 0]).hash (.link deadContent) []) :=
    (sat_field_full _ _ _ (by decide) _).2 ⟨link_type _ _ _ _, rfl⟩
  have h2 : Sat ⟨.field .domain, .equal, [(none, List.replicate 8 255 ++ ascii "exchange")]⟩
      (seenOf (deadPkt [0, 0, 0, 0]).netHeader (deadPkt [0, 0, 0, 0]).hash (.link deadContent) []) :=
    (sat_field_full _ _ _ (by decide) _).2 ⟨link_type _ _ _ _, rfl⟩
  obtain ⟨q, hq, _, ht⟩ := or_first_accepts (or := []) s1 s2 (t := 0) (c := fun _ => 0) (x := seenOf (deadPkt [0, 0, 0, 0]).netHeader (deadPkt [0, 0, 0, 0]).hash (.link deadContent) [])
    (by intro r hr; simp only [List.cons_append, List.nil_append, List.mem_cons, List.not_mem_nil, or_false] at hr; rcases hr with rfl | rfl <;> exact field_plain rfl)
    (wf_shown (dead_shows rfl))
    (by intro r hr; simp only [List.cons_append, List.nil_append, List.mem_cons, List.not_mem_nil, or_false] at hr; rcases hr with rfl | rfl <;> assumption)
    (by intro r hr; simp only [List.cons_append, List.nil_append, List.mem_cons, List.not_mem_nil, or_false] at hr
        rcases hr with rfl | rfl
        · intro h; cases h
        · intro h; cases h)
  simp only [List.mem_singleton, forall_eq] at ht
  exact ⟨q, hq, ⟨_, _, dead_shows (hop := [0, 0, 0, 0]) rfl, (ht _ _ (dead_shows rfl)).2 ⟨h1, h2⟩⟩, ht⟩

end Verif.Props
