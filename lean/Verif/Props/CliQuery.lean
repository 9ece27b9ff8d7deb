import Verif.Lemmas.CliQuery
/-!
# C71: what a command line asks for
-/
namespace Verif.Props
open Verif Verif.Ast Verif.Abl Verif.Abe Verif.Pkt Verif.Pred Verif.Opt Verif.Eval Verif.Num Verif.QText Verif.Query Verif.Fit Verif.Env Verif.Tree Verif.Spec Verif.Cli

/-! ## which statements are accepted -/

theorem effs_shown_some {a : Abs} {es : List Eff} {x : Seen} (hx : Wf x) (hg : a.pc.length ≤ 8) (he : ∀ e ∈ es, e.Ok) (h : a.Shown x)
    (hs : ∀ e ∈ es, e.Packet x) : ∃ a', a.effs es = some a' ∧ a'.Shown x := by
  induction es generalizing a with
  | nil => exact ⟨a, rfl, h⟩
  | cons e es ih =>
    have ok1 := he e List.mem_cons_self
    have hb : ∃ b, a.eff e = some b := by
      cases e with
      | add f op v => exact ⟨_, rfl⟩
      | st q op v => exact ⟨_, rfl⟩
      | rcv op v => exact ⟨_, rfl⟩
      | pre cs =>
        have h1 : cs = [] ∨ ∃ xs, x.space = some xs ∧ cs <+: xs := hs _ List.mem_cons_self
        have h2 : ∃ q, joinPre a.pc cs = some q := by
          unfold joinPre
          rcases h1 with rfl | ⟨xs, e1, e2⟩
          · exact ⟨_, if_pos List.nil_prefix⟩
          · rcases h.space with e3 | ⟨ys, e3, e4⟩
            · rw [e3]
              by_cases hc : cs <+: []
              · exact ⟨_, if_pos hc⟩
              · exact ⟨_, (if_neg hc).trans (if_pos List.nil_prefix)⟩
            · rw [e1] at e3
              cases e3
              by_cases hc : cs <+: a.pc
              · exact ⟨_, if_pos hc⟩
              · refine ⟨_, (if_neg hc).trans (if_pos ?_)⟩
                rcases List.prefix_or_prefix_of_prefix e2 e4 with k | k
                · exact absurd k hc
                · exact k
        obtain ⟨q, hq⟩ := h2
        exact ⟨_, by show (joinPre a.pc cs).map _ = _; rw [hq]; rfl⟩
    obtain ⟨b, hb⟩ := hb
    have hb' := (eff_shown hx hg ok1 hb).2 ⟨h, hs e List.mem_cons_self⟩
    obtain ⟨a', ha, hh⟩ := ih (Abs.eff_short hg ok1 hb) (fun e h => he e (List.mem_cons_of_mem _ h)) hb' (fun e h => hs e (List.mem_cons_of_mem _ h))
    exact ⟨a', by simp only [Abs.effs, hb]; exact ha, hh⟩

/-- Statements that a packet and a receive stamp satisfy are accepted if they leave a position in the result, and one among
the new packets or among the stored ones. -/
theorem query_accepts_counts {rs : List Stmt} (hr : ∀ r ∈ rs, Plain r) {x : Seen} (hx : Wf x) (hs : ∀ r ∈ rs, Sat r x) {t : Nat} (ht : t < 2 ^ 64)
    (hv : ∀ r ∈ rs, RecvOk r t) (hl : ∀ r ∈ rs, ∀ q, r.kind = .limit q → ∃ b, b.length = 4 ∧ r.val = [(none, b)])
    (hq : SomePosition .query rs) (hn : SomePosition .new rs ∨
      (SomePosition .index rs ∧ SomePosition .branch rs ∧ ∀ r ∈ rs, r.kind = .limit .new → r.op ≠ .mask0 ∧ r.op ≠ .mask1)) :
    ∃ s, Preds.default.run true rs = .ok s := by
  have hfx : ∀ r ∈ rs, ∃ fs, r.effs = some fs := by
    intro r hm
    obtain ⟨k, op, val⟩ := r
    cases k with
    | limit q =>
      obtain ⟨b, h1, h2⟩ := hl _ hm q rfl
      have h2' : val = [(none, b)] := h2
      subst h2'
      refine ⟨[.st q op (BitVec.ofNat 32 (beNat b))], ?_⟩
      simp [Stmt.effs, Pred.readExact, exactOr, fit, fitFront, asExactBytes, h1]
    | recv =>
      obtain ⟨b, h1, h2, h3⟩ := hv _ hm rfl
      exact effs_of_sat (hr _ hm) (hs _ hm) (t := t) (c := fun _ => 0) ⟨b, h1, h2, h3⟩
    | field f => exact effs_of_sat (hr _ hm) (hs _ hm) (t := t) (c := fun _ => 0) (fun _ _ => rfl)
    | spacename => exact effs_of_sat (hr _ hm) (hs _ hm) (t := t) (c := fun _ => 0) trivial
    | pre => exact effs_of_sat (hr _ hm) (hs _ hm) (t := t) (c := fun _ => 0) trivial
    | todo n => exact (hs _ hm).elim
  obtain ⟨es, he⟩ := effsOf_some hfx
  obtain ⟨m1, m2⟩ := effsOf_mem he
  have hd : Abs.default.Shown x := ⟨fun _ => default_mem _ _, .inl rfl⟩
  obtain ⟨a, ha, hsh⟩ := effs_shown_some hx default_short (effsOf_ok he) hd
    ((m2 _).2 fun r hm fs hfs => (effs_packet hfs (hr r hm) hx).2 (hs r hm))
  have hrec : a.recv.Mem (BitVec.ofNat 64 t) := by
    rw [effs_recv ha]
    refine ⟨(default_mem 64 _).1, (m2 _).2 fun r hm fs hfs => (stmt_recv hfs (hr r hm) _).2 ?_⟩
    rw [BitVec.toNat_ofNat, Nat.mod_eq_of_lt ht]
    exact hv r hm
  have hst : ∀ q, SomePosition q rs → ∃ n, (a.state q).Mem n := by
    rintro q ⟨n, hn, hc⟩
    refine ⟨BitVec.ofNat 32 n, ?_⟩
    rw [effs_count ha]
    refine ⟨default_mem 32 _, (m2 _).2 fun r hm fs hfs => (stmt_count hfs q _).2 ?_⟩
    rw [BitVec.toNat_ofNat, Nat.mod_eq_of_lt hn]
    exact hc r hm
  refine ⟨a.preds, run_default.2 ⟨es, a, he, ha, ⟨fun f => ⟨_, hsh.sets f⟩, ⟨_, hrec⟩, ?_⟩, rfl⟩⟩
  rw [isValid_iff]
  refine ⟨hst _ hq, ?_⟩
  rcases hn with hn | ⟨h1, h2, h3⟩
  · exact .inl (hst _ hn)
  · refine .inr ⟨?_, hst _ h1, hst _ h2⟩
    have : (a.state .new).mask = .default 32 :=
      effs_mask ha .new ((m2 (fun e => ∀ op v, e = .st .new op v → op ≠ .mask0 ∧ op ≠ .mask1)).2 fun r hr fs hfs => stmt_masks hfs (h3 r hr))
    show (a.state .new).mask.hasAny = true
    rw [this]
    decide +kernel

/-- An accepted query leaves a position in the result, and one among the new packets or among the stored ones. -/
theorem query_leaves_position {rs : List Stmt} {s : Preds} (h : Preds.default.run true rs = .ok s) :
    SomePosition .query rs ∧ (SomePosition .new rs ∨ SomePosition .index rs ∧ SomePosition .branch rs) := by
  obtain ⟨a, hl, -, rfl⟩ := run_live h
  have key : ∀ q, (∃ n, (a.preds.state q).Mem n) → SomePosition q rs := fun q ⟨n, hn⟩ => ⟨n.toNat, n.isLt, (run_count h q n).1 hn⟩
  obtain ⟨h1, h2⟩ := (isValid_iff _).1 hl.valid
  refine ⟨key _ h1, ?_⟩
  rcases h2 with h2 | ⟨-, h2, h3⟩
  · exact .inl (key _ h2)
  · exact .inr ⟨key _ h2, key _ h3⟩

/-! ## the query of a line -/

section
variable {sc : Scope} {n : Nat} {dflt : Defaults} {now : Bytes} {l : CliLine} {m : CliMeaning}

/-- The statements of a line, what they say, and the query they give. -/
theorem cli_rules (hc : HasCli sc) (hu : HasUs sc) (hn : now.length = 8) (h : CliMeans sc (n + 1) dflt now l m) (hp : ∀ r ∈ m.stmts, Plain r) :
    ∃ e all, dgpd dflt (placeArg l.domain l.group l.comps l.depth) = some e ∧
      (∀ q, (Opts.mk (some e) l.flags l.exprs false).query true sc (n + 1) now = .ok q ↔
        Preds.default.run true all = .ok q.preds ∧ q.conf = flagOptions l.flags m.qid ++ m.options) ∧
      (∀ r ∈ all, Plain r) ∧ (∀ p x, Shows p x → ((∀ r ∈ all, Sat r x) ↔ m.Wants l.flags x)) ∧
      (∀ t, (∀ r ∈ all, RecvOk r t) ↔ m.Recv t) ∧ ∀ q i, (∀ r ∈ all, CountOk q r i) ↔ m.Count l.flags q i := by
  obtain ⟨e, db, gb, h1, h2, h3, es, h4, h5⟩ := line_asks hc hu hn h
  refine ⟨e, lineStmts db gb l.flags m, h1, fun q => ?_, ?_, fun p x hx => ?_, fun t => ?_, fun q i => ?_⟩
  rotate_left 1
  · intro r hr
    rcases List.mem_append.1 hr with hr | hr
    · rcases List.mem_append.1 hr with hr | hr
      · exact place_plain h.space h.eight r hr
      · exact flags_plain _ _ r hr
    · exact hp r hr
  · rw [lineStmts, List.forall_mem_append, List.forall_mem_append, place_sat h2 h3 h.space h.eight hx, flags_sat _ _ hx, and_assoc]
    rfl
  · rw [lineStmts, List.forall_mem_append, List.forall_mem_append, flags_recv _ (until_small h.until_), and_iff_right (place_recv t)]
    rfl
  · rw [lineStmts, List.forall_mem_append, List.forall_mem_append, flags_count, and_iff_right (place_count q i)]
    rfl
  · unfold Opts.query
    rw [h4]
    simp only
    rw [asks_run h5]
    show withAll .empty _ (Preds.default.run true (lineStmts db gb l.flags m)) = _ ↔ _
    cases Preds.default.run true (lineStmts db gb l.flags m) with
    | error e => exact ⟨nofun, nofun⟩
    | ok p =>
      constructor
      · intro hq
        cases hq
        exact ⟨rfl, by simp [Query.empty]⟩
      · rintro ⟨e1, e2⟩
        cases q
        cases e1
        simp only at e2
        simp [withAll, Query.empty, e2]

/-- The query of a line selects exactly the packets in the place it names, that satisfy its flags and further statements. -/
theorem cli_selects (hc : HasCli sc) (hu : HasUs sc) (hn : now.length = 8) (h : CliMeans sc (n + 1) dflt now l m) (hp : ∀ r ∈ m.stmts, Plain r) :
    ∃ e, dgpd dflt (placeArg l.domain l.group l.comps l.depth) = some e ∧
      ∀ q, (Opts.mk (some e) l.flags l.exprs false).query true sc (n + 1) now = .ok q →
        (∀ p x, Shows p x → (q.preds.test p = true ↔ m.Wants l.flags x)) ∧
        (∀ t : BitVec 64, q.preds.recv.Mem t ↔ m.Recv t.toNat) ∧
        (∀ s (i : BitVec 32), (q.preds.state s).Mem i ↔ m.Count l.flags s i.toNat) ∧
        q.conf = flagOptions l.flags m.qid ++ m.options := by
  obtain ⟨e, all, h1, h2, h3, h4, h5, h6⟩ := cli_rules hc hu hn h hp
  refine ⟨e, h1, fun q hq => ?_⟩
  obtain ⟨k1, k2⟩ := (h2 q).1 hq
  exact ⟨fun p x hx => (filter_exact k1 h3 hx).trans (h4 p x hx), fun t => (run_recv k1 h3 t).trans (h5 _),
    fun s i => (run_count k1 s i).trans (h6 _ _), k2⟩

/-- A line that some packet and moment satisfy is accepted, unless it leaves no position in the result, or none both among the
new and the stored packets. -/
theorem cli_accepts (hc : HasCli sc) (hu : HasUs sc) (hn : now.length = 8) (h : CliMeans sc (n + 1) dflt now l m) (hp : ∀ r ∈ m.stmts, Plain r)
    (hm : ∀ r ∈ m.stmts, ∀ q, r.kind = .limit q → (∃ b, b.length = 4 ∧ r.val = [(none, b)]) ∧ r.op ≠ .mask0 ∧ r.op ≠ .mask1) {p : NetParts} {x : Seen} (hx : Shows p x) (hw : m.Wants l.flags x) {t : Nat} (ht : t < 2 ^ 64) (hr : m.Recv t)
    (hq : ∃ i < 2 ^ 32, m.Count l.flags .query i)
    (hi : (∃ i < 2 ^ 32, m.Count l.flags .new i) ∨ (∃ i < 2 ^ 32, m.Count l.flags .index i) ∧ ∃ i < 2 ^ 32, m.Count l.flags .branch i) :
    ∃ e q, dgpd dflt (placeArg l.domain l.group l.comps l.depth) = some e ∧
      (Opts.mk (some e) l.flags l.exprs false).query true sc (n + 1) now = .ok q := by
  obtain ⟨e, db, gb, h1, h2, h3, es, h4, h5⟩ := line_asks hc hu hn h
  have hpl := flags_plain l.flags m.until_
  have lim : ∀ r ∈ lineStmts db gb l.flags m, ∀ q, r.kind = .limit q → (∃ b, b.length = 4 ∧ r.val = [(none, b)]) ∧ r.op ≠ .mask0 ∧ r.op ≠ .mask1 := by
    rw [lineStmts, List.forall_mem_append, List.forall_mem_append]
    refine ⟨⟨?_, ?_⟩, hm⟩
    · simp only [placeStmts, List.forall_mem_append, List.forall_mem_cons, List.not_mem_nil, false_implies, implies_true, and_true]
      refine ⟨⟨⟨(fun q hk => nomatch hk), (fun q hk => nomatch hk)⟩, ?_⟩, ?_⟩
      · intro r hr q hk
        split at hr
        · cases hr
        · rw [List.mem_singleton.1 hr] at hk; cases hk
      · intro r hr q hk
        split at hr
        · rw [List.mem_singleton.1 hr] at hk; cases hk
        · cases hr
    · have hb : ∀ v, (beBytes 4 v).length = 4 := beBytes_length 4
      simp only [flagStmts, List.forall_mem_append, forall_when, forall_map]
      refine ⟨⟨⟨⟨⟨⟨⟨⟨?_, ?_⟩, ?_⟩, ?_⟩, ?_⟩, ?_⟩, ?_⟩, ?_⟩, ?_⟩
      · exact fun _ _ q hk => nomatch hk
      · exact fun _ q hk => nomatch hk
      · exact fun _ q hk => nomatch hk
      all_goals first
        | exact fun _ _ q hk => ⟨⟨_, hb _, rfl⟩, nofun, nofun⟩
        | exact fun _ q hk => ⟨⟨_, hb _, rfl⟩, nofun, nofun⟩
  have cnt : ∀ q, (∃ i < 2 ^ 32, m.Count l.flags q i) → SomePosition q (lineStmts db gb l.flags m) := by
    rintro q ⟨i, hi, hc0⟩
    refine ⟨i, hi, ?_⟩
    rw [lineStmts, List.forall_mem_append, List.forall_mem_append, flags_count]
    exact ⟨⟨place_count q i, hc0.1⟩, hc0.2⟩
  obtain ⟨s, hs⟩ := query_accepts_counts (rs := lineStmts db gb l.flags m) (x := x) (t := t)
    (by
      rw [lineStmts, List.forall_mem_append, List.forall_mem_append]
      exact ⟨⟨place_plain h.space h.eight, hpl⟩, hp⟩)
    (wf_shown hx)
    (by
      rw [lineStmts, List.forall_mem_append, List.forall_mem_append, place_sat h2 h3 h.space h.eight hx, flags_sat _ _ hx]
      exact ⟨⟨hw.1, hw.2.1⟩, hw.2.2⟩)
    ht
    (by
      rw [lineStmts, List.forall_mem_append, List.forall_mem_append, flags_recv _ (until_small h.until_)]
      exact ⟨⟨place_recv t, hr.1⟩, hr.2⟩)
    (fun r hm q hk => (lim r hm q hk).1) (cnt _ hq)
    (by
      rcases hi with hi | ⟨i1, i2⟩
      · exact .inl (cnt _ hi)
      · exact .inr ⟨cnt _ i1, cnt _ i2, fun r hm hk => (lim r hm _ hk).2⟩)
  refine ⟨e, ⟨s, flagOptions l.flags m.qid ++ m.options⟩, h1, ?_⟩
  unfold Opts.query
  rw [h4]
  simp only
  rw [asks_run h5]
  show withAll .empty _ (Preds.default.run true (lineStmts db gb l.flags m)) = _
  rw [hs]
  simp [withAll, Query.empty]

/-- A line whose limits leave nothing is refused. -/
theorem cli_refuses_nothing (hc : HasCli sc) (hu : HasUs sc) (hn : now.length = 8) (h : CliMeans sc (n + 1) dflt now l m) (hp : ∀ r ∈ m.stmts, Plain r)
    (hl : l.flags.max = some 0#32 ∨ (l.flags.dbOnly = true ∧ l.flags.newOnly = true)) :
    ∃ e, dgpd dflt (placeArg l.domain l.group l.comps l.depth) = some e ∧
      ∀ q, (Opts.mk (some e) l.flags l.exprs false).query true sc (n + 1) now ≠ .ok q := by
  obtain ⟨e, all, h1, h2, h3, h4, h5, h6⟩ := cli_rules hc hu hn h hp
  refine ⟨e, h1, fun q hq => ?_⟩
  obtain ⟨k1, k2⟩ := query_leaves_position ((h2 q).1 hq).1
  rcases hl with hl | ⟨l1, l2⟩
  · obtain ⟨i, -, hi⟩ := k1
    have := ((h6 .query i).1 hi).1 0#32 hl
    simp at this
  · rcases k2 with ⟨i, -, hi⟩ | ⟨⟨i, -, hi⟩, -⟩
    · have := ((h6 .new i).1 hi).1.2
      rw [l1] at this; cases this
    · have := ((h6 .index i).1 hi).1.2
      rw [l2] at this; cases this

/-! ## what is answered in the order of the tree -/

/-- Every stored packet that the line asks for is answered, in the order of the tree, when no further statement is given, no
limit is set inside a key, and either the line names no space or no deeper points.  Missing: for a space and the points below it
this is false (`cli_prefix_misses`). -/
theorem cli_tree_partial (hc : HasCli sc) (hu : HasUs sc) (hn : now.length = 8) (h : CliMeans sc (n + 1) dflt now l m) (hp : m.stmts = [])
    (hb : l.flags.maxBranch = none) (hi : m.Count l.flags .index 0) (hd : m.parts = [] ∨ (m.depth = 0 ∧ ∀ b ∈ m.parts, b ≠ []))
    {db : Db} (hdb : Consistent db) (hw : AllShow db) (asc : Bool) (nth : BitVec 32) :
    ∃ e, dgpd dflt (placeArg l.domain l.group l.comps l.depth) = some e ∧
      ∀ q, (Opts.mk (some e) l.flags l.exprs false).query true sc (n + 1) now = .ok q →
        ∃ sel out i, query db ⟨.tree, asc⟩ q.preds nth = .ok (out, i) ∧ m.Chosen l.flags nth.toNat sel out ∧
          sel.Pairwise (fun e f => TreeBefore asc e.2 f.2) ∧
          ∀ e, e ∈ sel ↔ e ∈ db.log ∧ (∃ x, Shows e.2 x ∧ m.Wants l.flags x) ∧ m.Recv e.1 := by
  obtain ⟨e, gdb, gb, h1, h2, h3, es, h4, h5⟩ := line_asks hc hu hn h
  have hpl : ∀ r ∈ m.stmts, Plain r := by rw [hp]; exact fun _ h => nomatch h
  refine ⟨e, h1, fun q hq => ?_⟩
  have hrun : Preds.default.run true (lineStmts gdb gb l.flags m) = .ok q.preds := by
    unfold Opts.query at hq
    rw [h4] at hq
    simp only at hq
    rw [asks_run h5] at hq
    have hq' : withAll .empty (flagOptions l.flags m.qid ++ m.options) (Preds.default.run true (lineStmts gdb gb l.flags m)) = .ok q := hq
    cases hr : Preds.default.run true (lineStmts gdb gb l.flags m) with
    | error e => rw [hr] at hq'; cases hq'
    | ok p => rw [hr] at hq'; cases hq'; rfl
  have hall : lineStmts gdb gb l.flags m = placeStmts gdb gb m.parts m.depth ++ flagStmts l.flags m.until_ := by rw [lineStmts, hp, List.append_nil]
  have cnt : ∀ s i, (∀ r ∈ lineStmts gdb gb l.flags m, CountOk s r i) ↔ m.Count l.flags s i := by
    intro s i
    rw [lineStmts, List.forall_mem_append, List.forall_mem_append, flags_count, and_iff_right (place_count s i)]
    rfl
  -- the fields of the flags
  have ff : ∀ f i, f ≠ .type → ∀ r ∈ flagStmts l.flags m.until_, FieldOk f r i := by
    intro f i hf
    have hlim : ∀ s o v, FieldOk f ⟨.limit s, o, v⟩ i := fun _ _ _ => ⟨(fun h => nomatch h), (fun _ h => nomatch h), (fun _ h => nomatch h)⟩
    simp only [flagStmts, List.forall_mem_append, forall_when, forall_map]
    refine ⟨⟨⟨⟨⟨⟨⟨⟨fun _ _ => ?_, fun _ => field_other rfl hf _⟩, fun _ => field_other rfl hf _⟩, fun _ _ => hlim _ _ _⟩, fun _ _ => hlim _ _ _⟩,
      fun _ _ => hlim _ _ _⟩, fun _ _ => hlim _ _ _⟩, fun _ => hlim _ _ _⟩, fun _ => hlim _ _ _⟩
    exact ⟨(fun h => nomatch h), (fun _ h => nomatch h), (fun _ h => nomatch h)⟩
  -- the fields of the place
  have pf : ∀ f i, f ≠ .domain → f ≠ .group → f ≠ .depth → ∀ r ∈ placeStmts gdb gb m.parts m.depth, FieldOk f r i := by
    intro f i f1 f2 f3 r hr
    unfold placeStmts at hr
    rcases List.mem_append.1 hr with hr | hr
    · rcases List.mem_append.1 hr with hr | hr
      · simp only [List.mem_cons, List.not_mem_nil, or_false] at hr
        rcases hr with rfl | rfl
        · exact field_other rfl f1 _
        · exact field_other rfl f2 _
      · split at hr
        · cases hr
        · rw [List.mem_singleton.1 hr]; exact field_pre (.inl rfl) f3 _
    · split at hr
      · rw [List.mem_singleton.1 hr]; exact field_other rfl f3 _
      · cases hr
  have one : ∀ f b v, ValueIs f [(none, b)] v → (⟨.field f, .equal, [(none, b)]⟩ : Stmt) ∈ lineStmts gdb gb l.flags m → One (lineStmts gdb gb l.flags m) f := by
    intro f b v hv hmem
    have key : ∀ i, Allowed (lineStmts gdb gb l.flags m) f i → i = v := by
      intro i ha
      obtain ⟨w, hw, he⟩ := (ha _ hmem).1 rfl
      have he : i = w := he
      obtain ⟨y, r1, r2⟩ := (Pred.read_iff f _ v).2 hv
      obtain ⟨z, r3, r4⟩ := (Pred.read_iff f _ w).2 hw
      rw [r1] at r3
      cases r3
      rw [he, r4, r2]
    intro i j _ _ h1 h2
    rw [key i h1, key j h2]
  have hdep : ∀ v, v < 256 → ∀ i, FieldOk .depth ⟨.field .depth, .less, [(none, beBytes 1 v)]⟩ i ↔ i < v := by
    intro v hv i
    exact depth_field (op := .less) hv
  have depthOk : ∀ i, Allowed (lineStmts gdb gb l.flags m) .depth i ↔
      (m.parts = [] ∨ (named m.parts).length ≤ i) ∧ (m.depth < 8 → i < min (m.parts.length + m.depth) 8 + 1) := by
    intro i
    unfold Allowed
    rw [hall, List.forall_mem_append, and_iff_left (ff .depth i nofun)]
    simp only [placeStmts, List.forall_mem_append, List.forall_mem_cons, List.not_mem_nil, false_implies, implies_true, and_true]
    rw [and_iff_right (show FieldOk .depth ⟨.field .domain, .equal, [(none, gdb)]⟩ i ∧ FieldOk .depth ⟨.field .group, .equal, [(none, gb)]⟩ i from
      ⟨field_other (g := .domain) rfl (by decide) _, field_other (g := .group) rfl (by decide) _⟩)]
    refine and_congr ?_ ?_
    · by_cases hb : m.parts = []
      · rw [if_pos hb]; exact ⟨fun _ => .inl hb, fun _ _ h => nomatch h⟩
      · rw [if_neg hb]
        simp only [List.forall_mem_cons, List.not_mem_nil, false_implies, implies_true, and_true, hb, false_or]
        constructor
        · rintro ⟨-, -, h3⟩
          obtain ⟨cs, k1, k2⟩ := h3 rfl rfl
          rwa [(slashed_spaceIs h.space h.eight cs).1 k1] at k2
        · intro hle
          exact ⟨(fun h => nomatch h), (fun _ h => nomatch h), fun _ _ => ⟨_, (slashed_spaceIs h.space h.eight _).2 rfl, hle⟩⟩
    · by_cases hb : m.depth < 8
      · rw [if_pos hb]
        simp only [List.forall_mem_cons, List.not_mem_nil, false_implies, implies_true, and_true, hb, forall_const]
        exact hdep _ (by omega) i
      · rw [if_neg hb]
        exact ⟨fun _ h => absurd h hb, fun _ _ h => nomatch h⟩
  have free : ∀ f i, f ≠ .domain → f ≠ .group → f ≠ .depth → f ≠ .type → Allowed (lineStmts gdb gb l.flags m) f i := by
    intro f i f1 f2 f3 f4
    unfold Allowed
    rw [hall, List.forall_mem_append]
    exact ⟨pf f i f1 f2 f3, ff f i f4⟩
  have hnamed : named m.parts = m.parts ∨ m.parts = [] := by
    rcases hd with hd | ⟨-, hd⟩
    · exact .inr hd
    · left
      unfold named
      rw [List.filter_eq_self]
      intro b hb
      cases b with
      | nil => exact absurd rfl (hd _ hb)
      | cons x b => rfl
  have ask : TreeAsk (lineStmts gdb gb l.flags m) asc := by
    refine ⟨?_, ?_, ⟨0, by decide, (cnt _ _).2 hi⟩, .inr ⟨0, 1, by decide, by decide, free _ _ nofun nofun nofun nofun, free _ _ nofun nofun nofun nofun⟩, ?_⟩
    · rw [lineStmts, List.forall_mem_append, List.forall_mem_append]
      exact ⟨⟨place_plain h.space h.eight, flags_plain _ _⟩, hpl⟩
    · intro i _
      rw [cnt]
      refine ⟨?_, by rw [hp]; exact fun _ h => nomatch h⟩
      show ∀ v ∈ l.flags.maxBranch, _
      rw [hb]; exact fun _ h => nomatch h
    · refine ⟨(named m.parts).length, h.eight, (depthOk _).2 ⟨.inr (Nat.le_refl _), fun _ => ?_⟩⟩
      have : (named m.parts).length ≤ m.parts.length := List.length_filter_le _ _
      have := h.eight
      omega
  have hlast : NoLastKey db (lineStmts gdb gb l.flags m) := .inl (free _ _ nofun nofun nofun nofun)
  have mem1 : (⟨.field .domain, .equal, [(none, gdb)]⟩ : Stmt) ∈ lineStmts gdb gb l.flags m := by simp [lineStmts, placeStmts]
  have mem2 : (⟨.field .group, .equal, [(none, gb)]⟩ : Stmt) ∈ lineStmts gdb gb l.flags m := by simp [lineStmts, placeStmts]
  have ans : TreeAnswer db (lineStmts gdb gb l.flags m) asc q.preds nth := by
    rcases hd with hd | ⟨hd, hne⟩
    · refine tree_query_any_depth_partial hrun ask ?_ ?_ hdb hw hlast nth
      · unfold NoSpace
        rw [hall, List.forall_mem_append]
        constructor
        · intro r hr
          unfold placeStmts at hr
          rw [if_pos hd, List.append_nil] at hr
          rcases List.mem_append.1 hr with hr | hr
          · simp only [List.mem_cons, List.not_mem_nil, or_false] at hr
            rcases hr with rfl | rfl <;> exact ⟨nofun, nofun⟩
          · split at hr
            · rw [List.mem_singleton.1 hr]; exact ⟨nofun, nofun⟩
            · cases hr
        · simp only [flagStmts, List.forall_mem_append, forall_when, forall_map]
          refine ⟨⟨⟨⟨⟨⟨⟨⟨?_, ?_⟩, ?_⟩, ?_⟩, ?_⟩, ?_⟩, ?_⟩, ?_⟩, ?_⟩
          all_goals first
            | exact fun _ _ => ⟨nofun, nofun⟩
            | exact fun _ => ⟨nofun, nofun⟩
      · intro i j hij _ hj
        rw [depthOk] at hj ⊢
        exact ⟨.inl hd, fun h8 => by have := hj.2 h8; omega⟩
    · refine tree_query_one_depth_partial hrun ask (one _ _ _ h3 mem2) (one _ _ _ h2 mem1) ?_ (.inr ⟨0, by decide, free _ _ nofun nofun nofun nofun⟩)
        hdb hw hlast nth
      have key : ∀ i, Allowed (lineStmts gdb gb l.flags m) .depth i → i = m.parts.length := by
        intro i ha
        obtain ⟨a1, a2⟩ := (depthOk i).1 ha
        have a3 := a2 (by omega)
        rw [hd] at a3
        rcases hnamed with hnm | hnm
        · rw [hnm] at a1
          rcases a1 with a1 | a1
          · rw [a1] at a3 ⊢; simp at a3 ⊢; omega
          · omega
        · rw [hnm] at a3 ⊢; simp at a3 ⊢; omega
      intro i j _ _ hi hj
      rw [key i hi, key j hj]
  obtain ⟨sel, out, i, a1, ⟨mid, a2, a3⟩, a4, a5⟩ := ans
  refine ⟨sel, out, i, a1, ⟨mid, ?_, ?_⟩, a4, fun e => (a5 e).trans (and_congr_right fun he => ?_)⟩
  · exact picks_congr (fun j _ => cnt .index (position j)) a2
  · exact picks_congr (fun j _ => cnt .query (position j)) a3
  · have hsat : ∀ x, Shows e.2 x → ((∀ r ∈ lineStmts gdb gb l.flags m, Sat r x) ↔ m.Wants l.flags x) := by
      intro x hx
      rw [lineStmts, List.forall_mem_append, List.forall_mem_append, place_sat h2 h3 h.space h.eight hx, flags_sat _ _ hx, and_assoc]
      rfl
    have hrec : (∀ r ∈ lineStmts gdb gb l.flags m, RecvOk r e.1) ↔ m.Recv e.1 := by
      rw [lineStmts, List.forall_mem_append, List.forall_mem_append, flags_recv _ (until_small h.until_), and_iff_right (place_recv _)]
      rfl
    constructor
    · rintro ⟨⟨x, k1, k2, k3⟩, -⟩
      exact ⟨⟨x, k1, (hsat x k1).1 k2⟩, hrec.1 k3⟩
    · rintro ⟨⟨x, k1, k2⟩, k3⟩
      refine ⟨⟨x, k1, (hsat x k1).2 k2, hrec.2 k3⟩, ?_⟩
      obtain ⟨xs, hxs, -⟩ := k2.1
      obtain ⟨c, cs, c1, rfl, c3⟩ := k1
      cases c with
      | link c => exact ⟨⟨c.group, c.domain, cs, List.replicate 32 0, c.stamp, e.2.hash⟩, c, c3, rfl, rfl, rfl, rfl, .inl ⟨c1, rfl⟩⟩
      | key c k sg => exact ⟨⟨c.group, c.domain, cs, k, c.stamp, e.2.hash⟩, c, c3, rfl, rfl, rfl, rfl, .inr ⟨sg, c1⟩⟩
      | data d => cases hxs
      | error d => cases hxs

/-! ## without a place -/

/-- With `--bare` the place is not asked for: the query selects by the flags and the further statements only. -/
theorem cli_bare (hc : HasCli sc) (hu : HasUs sc) (hn : now.length = 8) {a : Aliases} {u : Option Nat} {qb : Option Bytes} {exprs : List (List ABE)}
    {rs : List Stmt} {os : List ABList} (h1 : UntilIs a now u) (h2 : QidIs sc (n + 1) a qb) (h3 : AsksFor sc (n + 1) exprs rs os)
    (hp : ∀ r ∈ rs, Plain r) (d : Option Dgsd) {q : QText.Query} (hq : (Opts.mk d a exprs true).query true sc (n + 1) now = .ok q) :
    (∀ p x, Shows p x → (q.preds.test p = true ↔ FlagType a x ∧ ∀ r ∈ rs, Sat r x)) ∧
      (∀ t : BitVec 64, q.preds.recv.Mem t ↔ (∀ v ∈ u, t.toNat < v) ∧ ∀ r ∈ rs, RecvOk r t.toNat) ∧
      (∀ s (i : BitVec 32), (q.preds.state s).Mem i ↔ FlagCount a s i.toNat ∧ ∀ r ∈ rs, CountOk s r i.toNat) ∧
      q.conf = flagOptions a qb ++ os := by
  have hall := (flags_ask hc hu hn h1 h2).append h3
  have hrun : Preds.default.run true (flagStmts a u ++ rs) = .ok q.preds ∧ q.conf = flagOptions a qb ++ os := by
    have hq' : withAll .empty (flagOptions a qb ++ os) (Preds.default.run true (flagStmts a u ++ rs)) = .ok q := by
      rw [← hq]
      exact (asks_run hall .empty).symm
    cases hr : Preds.default.run true (flagStmts a u ++ rs) with
    | error e => rw [hr] at hq'; cases hq'
    | ok p => rw [hr] at hq'; cases hq'; exact ⟨rfl, by simp [Query.empty]⟩
  have hpl : ∀ r ∈ flagStmts a u ++ rs, Plain r := by
    rw [List.forall_mem_append]; exact ⟨flags_plain _ _, hp⟩
  refine ⟨fun p x hx => (filter_exact hrun.1 hpl hx).trans ?_, fun t => (run_recv hrun.1 hpl t).trans ?_, fun s i => (run_count hrun.1 s i).trans ?_, hrun.2⟩
  · rw [List.forall_mem_append, flags_sat _ _ hx]
  · rw [List.forall_mem_append, flags_recv _ (until_small h1)]
  · rw [List.forall_mem_append, flags_count]

/-- A space written as one expression, without a slash, is only taken together with all points below it. -/
theorem cli_space_refused {d g : List ABE} {e : ABE} {k : Nat} (a : Aliases) (exprs : List (List ABE)) (dbg : Bool) (he : IsExpr e) (hk : k ≠ 8) :
    (Opts.mk (some ⟨⟨d, g, [e]⟩, k⟩) a exprs false).query dbg sc n now = .error (.err ()) := by
  have hf : isFslash e = false := by
    cases e with
    | ctr c => exact absurd rfl (he c)
    | _ => rfl
  simp [Opts.query, Opts.stmts, Dgsd.exprs, hk, hf]

/-! ## options -/

/-- The mode of the query is that of the command line. -/
theorem cli_mode {o : Opts} {mode : Option Mode} {dbg : Bool} {q : QText.Query} (h : intoQuery o mode dbg sc n now = .ok q) :
    getMode q.conf = .ok (mode.getD ⟨.tree, false⟩) := by
  unfold intoQuery at h
  cases h1 : o.query dbg sc n now with
  | error e => rw [h1] at h; cases h
  | ok q0 =>
    rw [h1] at h
    simp only at h
    cases h2 : Opt.mode q0.conf with
    | error e => rw [h2] at h; cases h
    | ok inner =>
      rw [h2] at h
      simp only at h
      by_cases hi : inner = none ∨ inner ≠ mode
      · rw [if_pos hi] at h
        cases h
        have ht := (mode_text_iff (modeText (mode.getD Mode.default)) _).2 rfl
        unfold getMode Opt.mode
        rw [option_set]
        simp only [ht]
        rfl
      · rw [if_neg hi] at h
        cases h
        unfold getMode
        rw [h2]
        have : inner = mode := Classical.not_not.1 fun h => hi (.inr h)
        rw [this]
        rfl

/-- Setting the mode changes neither the statements nor another option. -/
theorem cli_mode_only {o : Opts} {mode : Option Mode} {dbg : Bool} {q : QText.Query} (h : intoQuery o mode dbg sc n now = .ok q) :
    ∃ q0, o.query dbg sc n now = .ok q0 ∧ q.preds = q0.preds ∧ ∀ name, name ≠ ascii "mode" → getOption q.conf name = getOption q0.conf name := by
  unfold intoQuery at h
  cases h1 : o.query dbg sc n now with
  | error e => rw [h1] at h; cases h
  | ok q0 =>
    rw [h1] at h
    simp only at h
    refine ⟨q0, rfl, ?_⟩
    cases h2 : Opt.mode q0.conf with
    | error e => rw [h2] at h; cases h
    | ok inner =>
      rw [h2] at h
      simp only at h
      split at h
      · cases h
        exact ⟨rfl, fun name hn => option_set_other _ _ _ _ fun h => hn h.symm⟩
      · cases h
        exact ⟨rfl, fun _ _ => rfl⟩

/-- The id of the query: `--qid`, or `default` with `--watch`, or none, when no further expression is an option `:qid:`. -/
theorem cli_qid (hc : HasCli sc) (hu : HasUs sc) (hn : now.length = 8) (h : CliMeans sc (n + 1) dflt now l m) (hp : ∀ r ∈ m.stmts, Plain r)
    (ho : ∀ x ∈ m.options, ¬ Carries (ascii "qid") x) :
    ∃ e, dgpd dflt (placeArg l.domain l.group l.comps l.depth) = some e ∧
      ∀ mode q, intoQuery (Opts.mk (some e) l.flags l.exprs false) mode true sc (n + 1) now = .ok q →
        getOption q.conf (ascii "qid") = .ok (m.qid.map some) := by
  obtain ⟨e, h1, h2⟩ := cli_selects hc hu hn h hp
  refine ⟨e, h1, fun mode q hq => ?_⟩
  obtain ⟨q0, k1, -, k3⟩ := cli_mode_only hq
  rw [k3 _ (by decide)]
  have hconf := (h2 q0 k1).2.2.2
  have hopt : ∀ x ∈ q0.conf, IsOption x := by
    rw [hconf, List.forall_mem_append]
    constructor
    · intro x hx
      unfold flagOptions at hx
      rcases List.mem_append.1 hx with hx | hx
      · cases hqid : m.qid with
        | none => rw [hqid] at hx; cases hx
        | some b => rw [hqid] at hx; simp at hx; rw [hx]; exact ⟨_, _, _, rfl⟩
      · split at hx
        · rw [List.mem_singleton.1 hx]; exact ⟨_, _, _, rfl⟩
        · cases hx
    · exact h.rest.options
  have hfol : ∀ x ∈ (if l.flags.follow then [[(some Ctr.colon, ascii "follow")]] else []), ¬ Carries (ascii "qid") x := by
    intro x hx
    split at hx
    · rw [List.mem_singleton.1 hx]; rintro ⟨_, _, _, hx⟩; cases hx
    · cases hx
  cases hqid : m.qid with
  | none =>
    refine (option_absent_iff hopt _).2 ?_
    rw [hconf, List.forall_mem_append]
    refine ⟨?_, ho⟩
    unfold flagOptions
    rw [hqid]
    exact hfol
  | some b =>
    refine (option_value_iff hopt _ _).2 ⟨[], (if l.flags.follow then [[(some Ctr.colon, ascii "follow")]] else []) ++ m.options, ?_, ⟨_, _, _, rfl⟩, ?_⟩
    · rw [hconf, flagOptions, hqid]
      rfl
    · rw [List.forall_mem_append]
      exact ⟨hfol, ho⟩

/-- The command `watch` always asks under the id `<cli>`, whatever `--qid` says. -/
theorem cli_watch_qid {o : Opts} {mode : Option Mode} {dbg : Bool} {q : QText.Query} (h : watchCmd o mode dbg sc n now = .ok q) :
    getOption q.conf (ascii "qid") = .ok (some (ascii "<cli>")) ∧ getMode q.conf = .ok (mode.getD ⟨.tree, false⟩) := by
  unfold watchCmd at h
  cases h1 : intoQuery o mode dbg sc n now with
  | error e => rw [h1] at h; cases h
  | ok q0 =>
    rw [h1] at h
    cases h
    refine ⟨option_set _ _ _, ?_⟩
    have := cli_mode h1
    unfold getMode Opt.mode at this ⊢
    rwa [option_set_other _ _ _ _ (by decide)]

/-- `--follow` is lost: the option `follow` is found exactly as when the flag is not given. -/
theorem cli_follow_lost (hc : HasCli sc) (hu : HasUs sc) (hn : now.length = 8) (h : CliMeans sc (n + 1) dflt now l m) (hp : ∀ r ∈ m.stmts, Plain r)
    (ho : ∀ x ∈ m.options, ¬ Carries (ascii "follow") x) :
    ∃ e, dgpd dflt (placeArg l.domain l.group l.comps l.depth) = some e ∧
      ∀ mode q, intoQuery (Opts.mk (some e) l.flags l.exprs false) mode true sc (n + 1) now = .ok q →
        getOption q.conf (ascii "follow") = .ok none := by
  obtain ⟨e, h1, h2⟩ := cli_selects hc hu hn h hp
  refine ⟨e, h1, fun mode q hq => ?_⟩
  obtain ⟨q0, k1, -, k3⟩ := cli_mode_only hq
  rw [k3 _ (by decide)]
  have hconf := (h2 q0 k1).2.2.2
  have hflag : ∀ x ∈ flagOptions l.flags m.qid, IsOption x ∧ ¬ Carries (ascii "follow") x := by
    intro x hx
    unfold flagOptions at hx
    rcases List.mem_append.1 hx with hx | hx
    · cases hqid : m.qid with
      | none => rw [hqid] at hx; cases hx
      | some b =>
        rw [hqid] at hx
        simp at hx
        rw [hx]
        refine ⟨⟨_, _, _, rfl⟩, ?_⟩
        rintro ⟨_, _, _, hx⟩
        have := (Prod.mk.inj (List.cons.inj hx).1).2
        exact absurd this (by decide)
    · split at hx
      · rw [List.mem_singleton.1 hx]
        refine ⟨⟨_, _, _, rfl⟩, ?_⟩
        rintro ⟨_, _, _, hx⟩
        cases hx
      · cases hx
  refine (option_absent_iff ?_ _).2 ?_
  · rw [hconf, List.forall_mem_append]
    exact ⟨fun x hx => (hflag x hx).1, h.rest.options⟩
  · rw [hconf, List.forall_mem_append]
    exact ⟨fun x hx => (hflag x hx).2, ho⟩

end

/-! ## examples -/

/-- A scope with the functions of `core_scope`. -/
def cliParams : Params where
  utf8 := id
  help := fun _ _ _ => .noValue
  helpMac := fun _ _ => .noValue
  us := usFn ⟨fun b => b.all (·.toNat < 128), 0, fun _ => none⟩
  now := fun _ _ _ => .noValue
  epoch := fun _ _ _ => .noValue
  usMax := fun _ _ _ => .noValue
  publicGrp := List.replicate 32 1
  testGrp := List.replicate 32 2
def cliScope : Scope := coreScope cliParams
theorem cliScope_cli : HasCli cliScope := core_hasCli _
theorem cliScope_us : HasUs cliScope := core_hasUs _ _ (fun _ h => List.all_eq_true.2 fun x hx => decide_eq_true (h x hx)) rfl
def cliDefaults : Defaults := ⟨List.replicate 12 0 ++ ascii "test", List.replicate 32 1⟩

/-- What the query of a place and flags answers, as receive stamps. -/
def cliAsk (db : Db) (m : Mode) (d : Option Dgsd) (a : Aliases) (es : List (List ABE)) : Option (List Nat) :=
  match d with
  | none => none
  | some e => match (Opts.mk (some e) a es false).query true cliScope 8 (beBytes 8 1000) with
    | .error _ => none
    | .ok q => match getAll db m q.preds with
      | .error _ => none
      | .ok l => some (l.map (·.1))

/-- The domain and group of the packets in `exSpaces`. -/
def exLine (comps : List ABE) (depth : Option Bytes) (a : Aliases) : CliLine :=
  ⟨[.bytes (List.replicate 16 6)], [.bytes (List.replicate 32 5)], comps, depth, a, []⟩
def exMeaning (parts : List Bytes) (depth : Nat) (u : Option Nat) : CliMeaning :=
  ⟨beNat (List.replicate 16 6), beNat (List.replicate 32 5), parts, depth, u, none, [], []⟩

theorem exDuration : DurText unitMicros (ascii "1s") 1000000 := by
  obtain ⟨d, h1, h2⟩ := (duration_parse_iff (fun _ => true) (fun _ _ => rfl) (ascii "1s") 1000000000).1 (by decide +kernel)
  rwa [show d = 1000000 by omega] at h2

/-- The line `…:…:/b:*` `--until 1s --max 5 --unsigned` meets the hypotheses. -/
theorem exLine_means : CliMeans cliScope 8 cliDefaults (beBytes 8 1000) (exLine [.bytes [98]] (some (ascii "*"))
    { until_ := some (ascii "1s"), max := some 5#32, unsigned := true }) (exMeaning [[98]] 1 (some 1001000)) where
  domain := ⟨List.replicate 16 6, ⟨by simp [exLine, IsExpr], fun _ => rfl, nofun⟩, _, .inl rfl, by decide, rfl⟩
  text := nofun
  group := ⟨List.replicate 32 5, ⟨by simp [exLine, IsExpr], fun _ => rfl, nofun⟩, _, .inl rfl, _, rfl, rfl, .inl rfl⟩
  parts := .cons nofun rfl .nil
  space := ⟨by unfold ValidComps; decide, rfl, by decide⟩
  eight := by decide
  depth := .inr (.inl ⟨rfl, rfl⟩)
  until_ := ⟨ascii "1s", 1000000, rfl, exDuration, by decide +kernel, by decide⟩
  qid := ⟨rfl, rfl⟩
  rest := .nil

/-- The argument as text. -/
theorem cli_text {s : Bytes} {d : Defaults} {dom grp comps : List ABE} {depth : Option Bytes} (h : AbeText s (placeArg dom grp comps depth)) :
    dgpdOf d s = dgpd d (placeArg dom grp comps depth) := by
  rw [dgpdOf, show parseStrict s = .ok _ from parse_of_text h false]

/-- `test::/a:**`: a written domain, the default group and everything below `/a`. -/
example : AbeText (ascii "test::/a:**") (placeArg [.bytes (ascii "test")] [] [.bytes (ascii "a")] (some (ascii "**"))) :=
  have h1 : Spells (ascii "test") (ascii "test") := spells_self _ (by decide +kernel)
  have h2 : Spells (ascii "a") (ascii "a") := spells_self _ (by decide +kernel)
  have h3 : Spells (ascii "**") (ascii "**") := spells_self _ (by decide +kernel)
  have e3 := AbeText.colon (AbeText.bytes h3 (by decide) (t := []) trivial .nil)
  have e2 := AbeText.fslash (AbeText.bytes h2 (by decide) (t := [.ctr .colon, .bytes (ascii "**")]) trivial e3)
  AbeText.bytes h1 (by decide) (t := .ctr .colon :: .ctr .colon :: .ctr .fslash :: .bytes (ascii "a") :: .ctr .colon :: [.bytes (ascii "**")]) trivial (.colon (.colon e2))

/-! ## what does not hold -/

/-- In the default order of the tree, a space and all points below it are not answered completely: `/b:**` misses `/b/c`. -/
theorem cli_prefix_misses :
    let d := dgpd cliDefaults (placeArg [.bytes (List.replicate 16 6)] [.bytes (List.replicate 32 5)] [.bytes [98]] (some (ascii "**")))
    cliAsk exSpaces ⟨.hash, true⟩ d {} [] = some [100, 102] ∧ cliAsk exSpaces ⟨.tree, false⟩ d {} [] = some [100] := by
  refine ⟨?_, ?_⟩ <;> decide +kernel

/-- A component that stands for no bytes still counts for the depth: `/b/[:]` with no more depth also selects `/b/c`. -/
theorem cli_empty_component :
    let d := fun comps => dgpd cliDefaults (placeArg [.bytes (List.replicate 16 6)] [.bytes (List.replicate 32 5)] comps none)
    cliAsk exSpaces ⟨.hash, true⟩ (d [.bytes [98]]) {} [] = some [100] ∧
      cliAsk exSpaces ⟨.hash, true⟩ (d [.bytes [98], .lst [.ctr .colon]]) {} [] = some [100, 102] := by
  refine ⟨?_, ?_⟩ <;> decide +kernel

/-- A mode among the further expressions is overridden by the default of the command line. -/
theorem cli_mode_ignored :
    ∃ q, intoQuery ⟨none, {}, [[.ctr .colon, .bytes (ascii "mode"), .ctr .colon, .bytes (ascii "log-asc")]], true⟩ (some ⟨.tree, false⟩) true cliScope 8 (beBytes 8 1000) = .ok q ∧
      getMode q.conf = .ok ⟨.tree, false⟩ := ⟨_, rfl, by decide +kernel⟩

/-- `--max`, `--unsigned` and `--signed` on `/`: the packets are unsigned. -/
example :
    let d := dgpd cliDefaults (placeArg [.bytes (List.replicate 16 6)] [.bytes (List.replicate 32 5)] [] (some (ascii "**")))
    cliAsk exSpaces ⟨.log, true⟩ d { max := some 2#32, unsigned := true } [] = some [100, 101] ∧ cliAsk exSpaces ⟨.log, true⟩ d { signed := true } [] = some [] ∧
      cliAsk exSpaces ⟨.log, true⟩ d { max := some 0#32 } [] = none ∧ cliAsk exSpaces ⟨.log, true⟩ d { until_ := some (ascii "1s") } [] = some [100, 101, 102] := by
  refine ⟨?_, ?_, ?_, ?_⟩ <;> decide +kernel

end Verif.Props
