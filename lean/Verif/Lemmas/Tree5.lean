import Verif.Lemmas.Tree4
/-!
# The results of a tree query
-/
namespace Verif.Query
open Verif Verif.Pkt Verif.Tree Verif.Pred Verif.Env Verif.Spec Verif.Props

/-- Entries that stand for packets. -/
theorem entry_pkt {db : Db} (hc : Consistent db) (hw : AllProper db) {e : TreeEntry} (h : ∃ vs, (e.key, vs) ∈ db.tree ∧ e.val ∈ vs) :
    ∃ p t, ((TreeValue.ofBytes e.val).logptr, p) ∈ db.log ∧ HasTuple p t ∧ TreeEntry.fromPkt (TreeValue.ofBytes e.val).logptr p = some e := by
  obtain ⟨i, p, hp, hpe⟩ := (hc.treeLog _ _).1 h
  obtain ⟨t, ht⟩ := proper_entry (hw i p hp) hpe
  obtain ⟨e', he', -, -, -, -, -, -, -, h8, -⟩ := tree_entry_fields ht i (hc.stamps i p hp)
  rw [hpe] at he'; cases he'
  simp only at h8
  rw [h8]
  exact ⟨p, t, hp, ht, hpe⟩

theorem entry_before {db : Db} (hc : Consistent db) {asc : Bool} {e f : TreeEntry} {i j : Nat} {p q : NetParts} {t u : TreeTuple}
    (hp : (i, p) ∈ db.log) (ht : HasTuple p t) (he : TreeEntry.fromPkt i p = some e)
    (hq : (j, q) ∈ db.log) (hu : HasTuple q u) (hf : TreeEntry.fromPkt j q = some f) (h : EntryBefore asc e f) : TreeBefore asc p q := by
  refine ⟨t, u, ht, hu, ?_⟩
  obtain ⟨e', f', he', hf', h1, h2⟩ := tree_key_order ht hu i j
  rw [he] at he'; rw [hf] at hf'; cases he'; cases hf'
  rcases h with h | ⟨h3, h4⟩
  · exact .inl (h1.1 ((bytesBefore_iff _ _).2 h))
  · right
    refine ⟨h2.1 h3, ?_⟩
    have hne : t.hash ≠ u.hash := by
      intro hh
      have e1 : p.hash = q.hash := by
        obtain ⟨_, _, _, _, _, a1, _⟩ := ht
        obtain ⟨_, _, _, _, _, a2, _⟩ := hu
        rw [← a1, ← a2, hh]
      have := log_unique hc hp hq e1
      obtain ⟨rfl, rfl⟩ := this
      rw [he] at hf; cases hf
      rw [bytesLt_irrefl] at h4
      cases asc <;> simp at h4
    obtain ⟨e', f', he', hf', h5⟩ := tree_value_order ht hu i j hne
    obtain ⟨e'', f'', he'', hf'', h6⟩ := tree_value_order hu ht j i (fun h => hne h.symm)
    rw [he] at he' hf''; rw [hf] at hf' he''; cases he'; cases hf'; cases he''; cases hf''
    cases asc with
    | true => simp only [if_true] at h4 ⊢; exact h5.1 ((bytesBefore_iff _ _).2 h4)
    | false => simp only [Bool.false_eq_true, if_false] at h4 ⊢; exact h6.1 ((bytesBefore_iff _ _).2 h4)

/-- The packets of the entries found. -/
theorem found_packets_of {a : Abs} (hl : a.Live) (hg : a.Good) {db : Db} (hc : Consistent db) (hw : AllProper db) {M : Nat × NetParts → Prop}
    (hM : ∀ e ∈ db.log, (∃ t, HasTuple e.2 t) → (a.preds.test e.2 = true ∧ a.recv.Mem (BitVec.ofNat 64 e.1) ↔ M e)) {asc : Bool} {q : TreeKeys}
    (hq : treeKeys a.preds asc = .ok q) {strict : Prop} {es : List TreeEntry} (hf : Found asc a.preds q strict db.tree es) :
    ∃ ps, readAll db (es.map (fun e => (TreeValue.ofBytes e.val).logptr)) = .ok ps ∧
      (ps.filter (fun e => (restTests a.preds treeChecked).all (fun t => t e.2))).Pairwise (fun e f => TreeBefore asc e.2 f.2) ∧
      (∀ e ∈ ps.filter (fun e => (restTests a.preds treeChecked).all (fun t => t e.2)), e ∈ db.log ∧ M e ∧ ∃ t, HasTuple e.2 t) ∧
      (strict → (∀ i, InSet (a.state .branch) i) → ∀ e ∈ db.log, M e → (∃ t, HasTuple e.2 t) →
        e ∈ ps.filter (fun e => (restTests a.preds treeChecked).all (fun t => t e.2))) := by
  have hent : ∀ e ∈ es, ∃ p t, ((TreeValue.ofBytes e.val).logptr, p) ∈ db.log ∧ HasTuple p t ∧
      TreeEntry.fromPkt (TreeValue.ofBytes e.val).logptr p = some e := fun e he => entry_pkt hc hw (hf.mem he).2.2
  obtain ⟨ps, h1, h2, h3⟩ := readAll_ok hc (fun e : TreeEntry => (TreeValue.ofBytes e.val).logptr) es
    (fun e he => by obtain ⟨p, t, hp, _⟩ := hent e he; exact ⟨p, hp⟩)
  have hback : ∀ e ∈ ps, ∃ x ∈ es, (TreeValue.ofBytes x.val).logptr = e.1 ∧ TreeEntry.fromPkt e.1 e.2 = some x ∧ ∃ t, HasTuple e.2 t := by
    intro e he
    have : e.1 ∈ ps.map (·.1) := List.mem_map.2 ⟨e, he, rfl⟩
    rw [h2] at this
    obtain ⟨x, hx, hxe⟩ := List.mem_map.1 this
    obtain ⟨p, t, hp, ht, hpe⟩ := hent x hx
    rw [hxe] at hp hpe
    have := log_at hc hp (h3 e he)
    subst this
    exact ⟨x, hx, hxe, hpe, t, ht⟩
  refine ⟨ps, h1, ?_, ?_, ?_⟩
  · refine List.Pairwise.sublist List.filter_sublist ?_
    have key : (ps.map (·.1)).Pairwise (fun i j => ∀ p q, (i, p) ∈ db.log → (j, q) ∈ db.log → TreeBefore asc p q) := by
      rw [h2, List.pairwise_map]
      refine (hf.order hc.treeSorted (fun e he => (hc.dupSorted e.1 e.2 he).2)).imp_of_mem ?_
      intro e f he hfm hb p q hp hq
      obtain ⟨p', t, hp', ht, hpe⟩ := hent e he
      obtain ⟨q', u, hq', hu, hqe⟩ := hent f hfm
      cases log_at hc hp hp'
      cases log_at hc hq hq'
      exact entry_before hc hp ht hpe hq hu hqe hb
    rw [List.pairwise_map] at key
    exact key.imp_of_mem (fun {e f} he hfm hb => hb e.2 f.2 (h3 e he) (h3 f hfm))
  · intro e he
    obtain ⟨he1, he2⟩ := List.mem_filter.1 he
    obtain ⟨x, hx, hxe, hpe, t, ht⟩ := hback e he1
    have hlog := h3 e he1
    refine ⟨hlog, ?_, t, ht⟩
    obtain ⟨m1, m2, -⟩ := hf.mem hx
    have hi := hc.stamps e.1 e.2 hlog
    exact (hM e hlog ⟨t, ht⟩).1 ((entry_passes a hl hg hq ht hi hpe).1 ⟨m1, m2, he2⟩)
  · rintro hs hb e he hm ⟨t, ht⟩
    have hi := hc.stamps e.1 e.2 he
    obtain ⟨x, hx, -, -, -, -, -, -, -, h8, -⟩ := tree_entry_fields ht e.1 hi
    obtain ⟨m1, m2, m3⟩ := (entry_passes a hl hg hq ht hi hx).2 ((hM e he ⟨t, ht⟩).2 hm)
    obtain ⟨vs, hv1, hv2⟩ := (hc.treeLog x.key x.val).2 ⟨e.1, e.2, he, hx⟩
    have hf' : Found asc a.preds q True db.tree es := by rw [eq_true hs] at hf; exact hf
    have hin := hf'.all hb m1 m2 hv1 hv2
    have : e.1 ∈ ps.map (·.1) := by
      rw [h2]; exact List.mem_map.2 ⟨_, hin, h8⟩
    obtain ⟨e', he', hee⟩ := List.mem_map.1 this
    have hl' := h3 e' he'
    have : e' = e := by
      obtain ⟨i, p⟩ := e
      obtain ⟨j, q⟩ := e'
      simp only at hee; subst hee
      cases log_at hc hl' he; rfl
    rw [List.mem_filter]
    exact ⟨this ▸ he', m3⟩

theorem found_packets {rs : List Stmt} {a : Abs} (h : Preds.default.run true rs = .ok a.preds) (hl : a.Live) (hg : a.Good)
    (hr : ∀ r ∈ rs, Plain r) {db : Db} (hc : Consistent db) (hw : AllProper db) {asc : Bool} {q : TreeKeys}
    (hq : treeKeys a.preds asc = .ok q) {strict : Prop} {es : List TreeEntry} (hf : Found asc a.preds q strict db.tree es) :
    ∃ ps, readAll db (es.map (fun e => (TreeValue.ofBytes e.val).logptr)) = .ok ps ∧
      (ps.filter (fun e => (restTests a.preds treeChecked).all (fun t => t e.2))).Pairwise (fun e f => TreeBefore asc e.2 f.2) ∧
      (∀ e ∈ ps.filter (fun e => (restTests a.preds treeChecked).all (fun t => t e.2)), e ∈ db.log ∧ Meets rs e.1 e.2 ∧ ∃ t, HasTuple e.2 t) ∧
      (strict → (∀ i, InSet (a.state .branch) i) → ∀ e ∈ db.log, Meets rs e.1 e.2 → (∃ t, HasTuple e.2 t) →
        e ∈ ps.filter (fun e => (restTests a.preds treeChecked).all (fun t => t e.2))) :=
  found_packets_of hl hg hc hw (fun e he ⟨_, ht⟩ => by
    obtain ⟨s, hs, -⟩ := tuple_shows ht
    exact test_meets h hr ⟨s, hs⟩ (hc.stamps e.1 e.2 he)) hq hf

/-- The results of a tree query. -/
theorem tree_results {rs : List Stmt} {a : Abs} (h : Preds.default.run true rs = .ok a.preds) (hl : a.Live) (hg : a.Good)
    (hr : ∀ r ∈ rs, Plain r) {db : Db} (hc : Consistent db) (hw : AllProper db) {asc : Bool}
    (hmax : InSet (a.state .branch) (2 ^ 32 - 1)) (hix : SomePosition .index rs)
    {es : List TreeEntry} (hes : treeEntries db.tree asc a.preds = .ok es) (nth : BitVec 32) {strict : Prop}
    (hst : ∀ q lb, treeKeys a.preds asc = .ok q → q.lowerBound = .ok lb → strict →
      (∀ e ∈ db.tree, bytesLt e.1 lb = true → ¬ Hit q e.1) ∧ Safe q lb (From db.tree lb) ∧ Walks asc q.cstamp) :
    ∃ sel out n, query db ⟨.tree, asc⟩ a.preds nth = .ok (out, n) ∧ Counted rs nth.toNat sel out ∧
      sel.Pairwise (fun e f => TreeBefore asc e.2 f.2) ∧
      (∀ e ∈ sel, e ∈ db.log ∧ Meets rs e.1 e.2 ∧ ∃ t, HasTuple e.2 t) ∧
      (strict → (∀ i, InSet (a.state .branch) i) → ∀ e ∈ db.log, Meets rs e.1 e.2 → (∃ t, HasTuple e.2 t) → e ∈ sel) := by
  obtain ⟨q, hq, hf⟩ := treeEntries_spec a hl hmax (tbl_of hc hw asc) hes hst
  obtain ⟨ps, h1, h2, h3, h4⟩ := found_packets h hl hg hr hc hw hq hf
  obtain ⟨sel, hsel⟩ : ∃ sel, sel = ps.filter (fun e => (restTests a.preds treeChecked).all (fun t => t e.2)) := ⟨_, rfl⟩
  rw [← hsel] at h2 h3 h4
  obtain ⟨mid, m, hm1, hm2⟩ := select_index h .index hix 0#32 sel
  obtain ⟨out, n, ho1, ho2⟩ := select_query h nth mid
  refine ⟨sel, out, n, ?_, ⟨mid, hm2, ho2⟩, h2, h3, h4⟩
  unfold query candidates queryTree
  simp only
  rw [hes]
  simp only
  rw [h1]
  simp only
  rw [← hsel, hm1]
  exact ho1

end Verif.Query
