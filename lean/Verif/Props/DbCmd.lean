import Verif.Spec.DbCmd
import Verif.Props.Env
import Verif.Props.Reads
import Verif.Props.PktCmd
/-!
# C88 checking a database, C89 importing a file
-/
namespace Verif.Props
open Verif Verif.Pkt Verif.Spec Verif.Env Verif.Cmd Verif.Pred Verif.DbCmd Verif.Tree

/-! ### sorting -/

theorem insStamp_perm (e : Nat × Bytes) (l : List (Nat × Bytes)) : (insStamp e l).Perm (e :: l) := by
  induction l with
  | nil => exact List.Perm.refl _
  | cons x r ih =>
    unfold insStamp
    split
    · exact List.Perm.refl _
    · exact (List.Perm.cons x ih).trans (List.Perm.swap e x r)

theorem sortStamp_perm (l : List (Nat × Bytes)) : (sortStamp l).Perm l := by
  induction l with
  | nil => exact List.Perm.refl _
  | cons e r ih => exact (insStamp_perm e _).trans (List.Perm.cons e ih)

theorem insStamp_sorted (e : Nat × Bytes) {l : List (Nat × Bytes)} (h : l.Pairwise (fun a b => a.1 ≤ b.1)) : (insStamp e l).Pairwise (fun a b => a.1 ≤ b.1) := by
  induction l with
  | nil => exact List.pairwise_singleton _ _
  | cons x r ih =>
    rw [List.pairwise_cons] at h
    unfold insStamp
    split
    · rename_i hle
      refine List.pairwise_cons.2 ⟨fun y hy => ?_, List.pairwise_cons.2 h⟩
      rcases List.mem_cons.1 hy with rfl | hy
      · exact hle
      · exact Nat.le_trans hle (h.1 y hy)
    · refine List.pairwise_cons.2 ⟨fun y hy => ?_, ih h.2⟩
      rcases List.mem_cons.1 ((insStamp_perm e r).mem_iff.1 hy) with rfl | hy
      · omega
      · exact h.1 y hy

theorem sortStamp_sorted (l : List (Nat × Bytes)) : (sortStamp l).Pairwise (fun a b => a.1 ≤ b.1) := by
  induction l with
  | nil => exact .nil
  | cons e r ih => exact insStamp_sorted e ih

/-- Lists in strict order with the same members are equal. -/
theorem strict_eq {l m : List (Nat × Bytes)} (hl : l.Pairwise (fun a b => a.1 < b.1)) (hm : m.Pairwise (fun a b => a.1 < b.1)) (h : ∀ x, x ∈ l ↔ x ∈ m) : l = m := by
  induction l generalizing m with
  | nil =>
    cases m with
    | nil => rfl
    | cons y m => exact absurd ((h y).2 List.mem_cons_self) (by simp)
  | cons x l ih =>
    cases m with
    | nil => exact absurd ((h x).1 List.mem_cons_self) (by simp)
    | cons y m =>
      rw [List.pairwise_cons] at hl hm
      have hxy : x = y := by
        rcases List.mem_cons.1 ((h x).1 List.mem_cons_self) with e | e
        · exact e
        · rcases List.mem_cons.1 ((h y).2 List.mem_cons_self) with e' | e'
          · exact e'.symm
          · have := hm.1 x e; have := hl.1 y e'; omega
      subst hxy
      rw [ih hl.2 hm.2]
      intro z
      constructor
      · intro hz
        rcases List.mem_cons.1 ((h z).1 (List.mem_cons_of_mem _ hz)) with e | e
        · subst e; have := hl.1 z hz; omega
        · exact e
      · intro hz
        rcases List.mem_cons.1 ((h z).2 (List.mem_cons_of_mem _ hz)) with e | e
        · subst e; have := hm.1 z hz; omega
        · exact e

/-! ### C88 -/

theorem zeros_least {h : Bytes} {n : Nat} (hl : h.length = n) : bytesLt h (zeros n) = false := by
  subst hl
  induction h with
  | nil => rfl
  | cons x r ih =>
    show (if x < 0 then true else if (0 : UInt8) < x then false else bytesLt r (zeros r.length)) = false
    rw [ih]
    have : ¬ x < 0 := by intro h; exact absurd (UInt8.lt_iff_toNat_lt.1 h) (by simp)
    simp [this]

theorem logPairs_eq (db : Db) : logPairs db = db.log.map fun e => (e.1, e.2.hash) := by
  unfold logPairs Db.logFrom
  cases db.log with
  | nil => rfl
  | cons x r => simp

theorem hashPairs_eq {db : Db} (hw : ∀ h i, (h, i) ∈ db.hash → h.length = 32) : hashPairs db = sortStamp (db.hash.map fun e => (e.2, e.1)) := by
  unfold hashPairs
  cases hd : db.hash with
  | nil => rfl
  | cons x r =>
    have := zeros_least (hw x.1 x.2 (by rw [hd]; exact List.mem_cons_self))
    simp [this]

theorem pointsTo_iff (db : Db) (v : Bytes) : pointsTo (logPairs db) v = true ↔ PointsAt db v := by
  unfold pointsTo PointsAt
  rw [logPairs_eq]
  simp only [List.any_map, List.any_eq_true, Function.comp, beq_iff_eq, Prod.exists]
  constructor
  · rintro ⟨a, b, h, rfl⟩; exact ⟨b, h⟩
  · rintro ⟨p, h⟩; exact ⟨_, p, h, rfl⟩

/-- The lists that are compared are equal exactly if the index and the log agree. -/
theorem pairs_iff {db : Db} (ht : Tables db) : logPairs db = hashPairs db ↔ HashAgrees db := by
  rw [logPairs_eq, hashPairs_eq ht.wide]
  have hp := sortStamp_perm (db.hash.map fun e => (e.2, e.1))
  have hmem : ∀ h i, (i, h) ∈ sortStamp (db.hash.map fun e => (e.2, e.1)) ↔ (h, i) ∈ db.hash := by
    intro h i
    rw [hp.mem_iff]
    simp only [List.mem_map, Prod.exists, Prod.mk.injEq]
    exact ⟨fun ⟨a, b, hm, e1, e2⟩ => by subst e1 e2; exact hm, fun hm => ⟨h, i, hm, rfl, rfl⟩⟩
  have hlog : ∀ h i, (i, h) ∈ (db.log.map fun e => (e.1, e.2.hash)) ↔ ∃ p, (i, p) ∈ db.log ∧ p.hash = h := by
    intro h i
    simp only [List.mem_map, Prod.exists, Prod.mk.injEq]
    exact ⟨fun ⟨a, b, hm, e1, e2⟩ => by subst e1; exact ⟨b, hm, e2⟩, fun ⟨p, hm, e⟩ => ⟨i, p, hm, rfl, e⟩⟩
  constructor
  · intro he h i
    rw [← hmem, ← he, hlog]
  · intro ha
    have hm : ∀ x, x ∈ (db.log.map fun e => (e.1, e.2.hash)) ↔ x ∈ sortStamp (db.hash.map fun e => (e.2, e.1)) := by
      rintro ⟨i, h⟩
      rw [hlog, hmem, ha]
    have hls : (db.log.map fun e => (e.1, e.2.hash)).Pairwise (fun a b => a.1 < b.1) := by
      rw [List.pairwise_map]; exact ht.log
    refine strict_eq hls ?_ hm
    have hnd : (sortStamp (db.hash.map fun e => (e.2, e.1))).Nodup := by
      rw [hp.nodup_iff]
      unfold List.Nodup
      rw [List.pairwise_map]
      exact ht.hash.imp fun h e => bytesLt_ne h (congrArg Prod.snd e)
    refine ((sortStamp_sorted _).and hnd).imp_of_mem ?_
    rintro ⟨i, g⟩ ⟨j, h⟩ hx hy ⟨h1, h2⟩
    refine Nat.lt_of_le_of_ne h1 fun e => h2 ?_
    obtain rfl : i = j := e
    obtain ⟨p, hp1, rfl⟩ := (hlog g i).1 ((hm _).2 hx)
    obtain ⟨q, hq1, rfl⟩ := (hlog h i).1 ((hm _).2 hy)
    have a := (logGet_iff _ ht.log i p).2 hp1
    rw [(logGet_iff _ ht.log i q).2 hq1] at a
    cases a; rfl

theorem head_bound {db : Db} (ht : Tables db) : db.logHead + 1 < 2 ^ 64 ↔ ∀ p, (2 ^ 64 - 1, p) ∉ db.log := by
  unfold Db.logHead lastStamp
  rcases List.eq_nil_or_concat db.log with h | ⟨l, e, h⟩
  · rw [h]; simp
  · have hl := ht.log
    have hs := ht.stamps e.1 e.2 (by rw [h]; simp)
    rw [h] at hl ⊢
    simp only [List.concat_eq_append, List.getLast?_concat, Option.map_some, Option.getD_some] at hl ⊢
    rw [List.pairwise_append] at hl
    constructor
    · intro hb p hp
      rcases List.mem_append.1 hp with hp | hp
      · have := hl.2.2 _ hp e (by simp); simp only at this; omega
      · simp only [List.mem_singleton] at hp; subst hp; simp only at hb; omega
    · intro hn
      apply Classical.byContradiction
      intro hb
      refine hn e.2 (List.mem_append_right _ ?_)
      rw [List.mem_singleton]
      exact Prod.ext (by simp only; omega) rfl

/-- **C88, partial**: on any tables the check ends well exactly if the hash index and the log agree, the entries under the first key of the tree lead to
packets, and the last stamp is not used up.  Missing: the rest of the tree. -/
theorem check_finds_partial {db : Db} (ht : Tables db) : linkspaceInfo db = .ok () ↔
    HashAgrees db ∧ (∀ k vs rest, db.tree = (k, vs) :: rest → ∀ v ∈ vs, PointsAt db v) ∧ ∀ p, (2 ^ 64 - 1, p) ∉ db.log := by
  rw [← pairs_iff ht, ← head_bound ht]
  have hwalk : (walked db).all (pointsTo (logPairs db)) = true ↔ ∀ k vs rest, db.tree = (k, vs) :: rest → ∀ v ∈ vs, PointsAt db v := by
    unfold walked
    cases hd : db.tree with
    | nil => simp
    | cons x r =>
      obtain ⟨k, vs⟩ := x
      rw [List.all_eq_true]
      constructor
      · intro h k' vs' rest e v hv
        cases e
        exact (pointsTo_iff db v).1 (h v hv)
      · intro h v hv
        exact (pointsTo_iff db v).2 (h k vs r rfl v hv)
  rw [← hwalk]
  unfold linkspaceInfo Db.pktsAfter u64End
  generalize (walked db).all (pointsTo (logPairs db)) = b
  by_cases h2 : logPairs db = hashPairs db <;> by_cases h3 : db.logHead + 1 < 2 ^ 64 <;> cases b <;> simp only [h2, h3, decide_true, decide_false, if_true, if_false, Bool.and_true, Bool.and_false, Bool.true_and, Bool.false_and] <;> simp

/-- The check has no other ends: a disagreement is reported as an error, and a panic means that the last stamp is used up. -/
theorem check_panics_iff {db : Db} (ht : Tables db) : linkspaceInfo db = .error .panic ↔
    HashAgrees db ∧ (∀ k vs rest, db.tree = (k, vs) :: rest → ∀ v ∈ vs, PointsAt db v) ∧ ∃ p, (2 ^ 64 - 1, p) ∈ db.log := by
  have hb := head_bound ht
  have hok := check_finds_partial ht
  constructor
  · intro h
    unfold linkspaceInfo at h
    split at h
    · rename_i hc
      unfold Db.pktsAfter u64End at h
      split at h
      · cases h
      · rename_i hx
        split at hx
        · cases hx
        · rename_i hlt
          have hex : ∃ p, (2 ^ 64 - 1, p) ∈ db.log := by
            apply Classical.byContradiction
            intro hno
            exact hlt (hb.2 fun p hp => hno ⟨p, hp⟩)
          rw [Bool.and_eq_true, decide_eq_true_eq] at hc
          refine ⟨(pairs_iff ht).1 hc.2, fun k vs rest e v hv => (pointsTo_iff db v).1 ?_, hex⟩
          have := hc.1
          unfold walked at this
          rw [e] at this
          exact List.all_eq_true.1 this v hv
    · cases h
  · rintro ⟨h1, h2, p, h3⟩
    have hc : ((walked db).all (pointsTo (logPairs db)) && decide (logPairs db = hashPairs db)) = true := by
      rw [Bool.and_eq_true, decide_eq_true_eq]
      refine ⟨?_, (pairs_iff ht).2 h1⟩
      unfold walked
      cases hd : db.tree with
      | nil => rfl
      | cons x r => exact List.all_eq_true.2 fun v hv => (pointsTo_iff db v).2 (h2 _ _ _ hd v hv)
    have hlt : ¬ db.logHead + 1 < 2 ^ 64 := fun h => hb.1 h p h3
    unfold linkspaceInfo Db.pktsAfter u64End
    rw [if_pos hc, if_neg hlt]

theorem entry_leads {i : Nat} {p : NetParts} {k v : Bytes} (h32 : p.hash.length = 32) (hi : i < 2 ^ 64) (h : TreeEntry.fromPkt i p = some ⟨k, v⟩) :
    (TreeValue.ofBytes v).logptr = i := by
  unfold TreeEntry.fromPkt at h
  cases hf : p.parts.fields.commonIdx with
  | none => rw [hf] at h; cases h
  | some x =>
    rw [hf] at h
    simp only [Option.some.injEq, TreeEntry.mk.injEq] at h
    rw [← h.2]
    simp only [TreeValue.ofBytes, TreeValue.bytes, TreeValue.fromPkt]
    have h8 : ∀ n, (beBytes 8 n).length = 8 := fun n => by simp
    rw [List.append_assoc, List.append_assoc, List.append_assoc, show (40 : Nat) = 8 + 32 from rfl, ← List.drop_drop, List.drop_append_of_le_length (by rw [h8]; exact Nat.le_refl _)]
    rw [show (beBytes 8 p.getCreate).drop 8 = [] from List.drop_eq_nil_of_le (by rw [h8]; exact Nat.le_refl _), List.nil_append,
      List.drop_append_of_le_length (by rw [h32]; exact Nat.le_refl _), show p.hash.drop 32 = [] from List.drop_eq_nil_of_le (by rw [h32]; exact Nat.le_refl _),
      List.nil_append, List.take_append_of_le_length (by rw [h8]; exact Nat.le_refl _), List.take_of_length_le (by rw [h8]; exact Nat.le_refl _)]
    exact beNat_beBytes _ _ (by simpa using hi)

theorem consistent_tables {db : Db} (hc : Consistent db) (h32 : ∀ i p, (i, p) ∈ db.log → p.hash.length = 32) : Tables db :=
  ⟨hc.logSorted, hc.stamps, hc.hashSorted, fun h i hm => by obtain ⟨p, hp, rfl⟩ := (hc.hashLog h i).1 hm; exact h32 i p hp⟩

/-- **C88**: a database in which log and indexes agree passes the check, unless the last stamp is used up. -/
theorem check_passes {db : Db} (hc : Consistent db) (h32 : ∀ i p, (i, p) ∈ db.log → p.hash.length = 32) (hl : ∀ p, (2 ^ 64 - 1, p) ∉ db.log) :
    linkspaceInfo db = .ok () := by
  refine (check_finds_partial (consistent_tables hc h32)).2 ⟨hc.hashLog, fun k vs rest e v hv => ?_, hl⟩
  obtain ⟨i, p, hp, he⟩ := (hc.treeLog k v).1 ⟨vs, by rw [e]; exact List.mem_cons_self, hv⟩
  refine ⟨p, ?_⟩
  rw [entry_leads (h32 i p hp) (hc.stamps i p hp) he]
  exact hp

/-- **C88**: the check ends well after any history of saves, with errors and crashes anywhere. -/
theorem check_history (es : List SaveEv) (h32 : ∀ e ∈ es, ∀ x ∈ e.pkts, x.1.hash.length = 32) : linkspaceInfo (runSaves {} es) = .ok () := by
  have key : ∀ (es : List SaveEv) (db : Db), Consistent db → (∀ i p, (i, p) ∈ db.log → p.hash.length = 32 ∧ i + 1 < 2 ^ 64) →
      (∀ e ∈ es, ∀ x ∈ e.pkts, x.1.hash.length = 32) → ∀ i p, (i, p) ∈ (runSaves db es).log → p.hash.length = 32 ∧ i + 1 < 2 ^ 64 := by
    intro es
    induction es with
    | nil => exact fun db _ h _ => h
    | cons e es ih =>
      intro db hc h hp
      refine ih _ (save_consistent hc _ _ _) ?_ fun e' he' => hp e' (List.mem_cons_of_mem _ he')
      intro i p hm
      rcases save_cases hc e.io e.now e.pkts with ⟨h1, -⟩ | ⟨a, -, h1, hb, -⟩
      · rw [h1] at hm; exact h i p hm
      · rw [h1] at hm
        rcases List.mem_append.1 (show (i, p) ∈ db.log ++ stamped a (newsOf db e.pkts) from hm) with hm | hm
        · exact h i p hm
        · obtain ⟨j, hj, rfl⟩ := (stamped_mem _ _ _ _).1 hm
          obtain ⟨hlt, -⟩ := List.getElem?_eq_some_iff.1 hj
          have hb' := hb (by intro e0; rw [e0] at hlt; simp at hlt)
          refine ⟨?_, by omega⟩
          obtain ⟨j', hj', -⟩ := (news_isNew _ _ p).1 (List.mem_of_getElem? hj)
          exact hp e List.mem_cons_self _ (pendings_mem.1 (List.mem_of_getElem? hj'))
  have hk := key es {} empty_consistent nofun h32
  exact check_passes (saves_consistent es) (fun i p h => (hk i p h).1) fun p h => by have := (hk _ p h).2; omega

/-- What the check does not look at: everything in the tree behind its first key. -/
theorem check_first_key (db : Db) (k : Bytes) (vs : List Bytes) (rest : List (Bytes × List Bytes)) :
    linkspaceInfo { db with tree := (k, vs) :: rest } = linkspaceInfo { db with tree := [(k, vs)] } := rfl

/-- Nor does it look at what is in the packets: only at the hash each of them claims to have. -/
theorem check_not_contents (db : Db) (f : NetParts → NetParts) (hf : ∀ p, (f p).hash = p.hash) :
    linkspaceInfo { db with log := db.log.map fun e => (e.1, f e.2) } = linkspaceInfo db := by
  have h1 : logPairs { db with log := db.log.map fun e => (e.1, f e.2) } = logPairs db := by
    rw [logPairs_eq, logPairs_eq]; simp [Function.comp_def, hf]
  have h2 : (Db.mk (db.log.map fun e => (e.1, f e.2)) db.hash db.tree).logHead = db.logHead := by
    unfold Db.logHead lastStamp
    simp [List.getLast?_map, Option.map_map, Function.comp_def]
  unfold linkspaceInfo
  rw [h1]
  show (if (walked db).all (pointsTo (logPairs db)) && decide (logPairs db = hashPairs db) then _ else _) = _
  split
  · rw [h2]
    unfold Db.pktsAfter
    by_cases hx : db.logHead + 1 < u64End
    · rw [if_pos hx, if_pos hx]
    · rw [if_neg hx, if_neg hx]
  · rfl

/-! ### C89 -/

theorem net_size (s : Sent) : (net s).size = s.bytes.length ∧ s.bytes.length % 8 = 0 := by
  have h1 : (net s).size = 64 + (s.c.size + padTo8 s.c.size) := by
    unfold NetPkt.size net
    simp only
    rw [ofBytes_layout s.valid, PointHeader.size, paddedSize_eq]
    omega
  have h2 : s.bytes.length = 64 + (s.c.size + padTo8 s.c.size) := by
    simp only [Sent.bytes, List.length_append, s.nhLen, s.hashLen, layout_length s.valid]
  refine ⟨by rw [h1, h2], ?_⟩
  rw [h2]
  unfold padTo8
  omega

theorem read_genuine (C : Crypto) (dbg : Bool) {skip : Bool} {s : Sent} (h : skip = true ∨ s.Genuine C) (t : Bytes) : readPkt C dbg (s.bytes ++ t) skip = .ok (net s) :=
  (readPkt_ok_iff C dbg skip _ _).2 ⟨s.c, t, s.valid, rfl, s.nhLen, s.hashLen, rfl, fun hs => by
    rcases h with h | h
    · rw [h] at hs; cases hs
    · exact ⟨h.1, h.2⟩⟩

/-- Options that admit what an import does. -/
def importing (skip : Bool) : IoOpts := { priv := true, skipHash := skip }

theorem importable_admits {C : Crypto} {skip : Bool} {ss : List Sent} : Admits C (importing skip) ss ↔ Importable C skip ss :=
  ⟨fun h s hs => (h s hs).1, fun h s hs => ⟨h s hs, fun _ => .inl rfl⟩⟩

/-- The loop over a file: the packets it starts with are read, and what is left decides how it ends.  A packet is never found at an offset that is not
a multiple of 8. -/
theorem scan_reads (C : Crypto) (dbg skip : Bool) {b : Bytes} {ss : List Sent} {rest : Bytes} (h : ReadsOff C (importing skip) b ss rest) {fuel off : Nat}
    (hf : b.length ≤ fuel) (ho : off % 8 = 0) :
    (rest = [] → scan C dbg skip fuel off b = .ok (ss.map net)) ∧
    (rest ≠ [] → ∃ e, scan C dbg skip fuel off b = .error e ∧ (e = .panic ↔ ShortPoint rest ∨ dbg = true ∧ BadSpacePoint rest)) := by
  obtain ⟨rfl, h2, h3⟩ := h
  induction ss generalizing fuel off with
  | nil =>
    simp only [streamOf, List.flatMap_nil, List.nil_append] at hf ⊢
    refine ⟨fun e => by subst e; cases fuel <;> rfl, fun hne => ?_⟩
    obtain ⟨x, r, rfl⟩ := List.exists_cons_of_ne_nil hne
    cases fuel with
    | zero => simp at hf
    | succ n =>
      unfold scan
      have hp := read_panic_iff C dbg skip (x :: r)
      cases hr : readPkt C dbg (x :: r) skip with
      | ok p =>
        obtain ⟨s, t, hb, -, hg⟩ := read_sent hr
        refine absurd hb (h3 s t (importable_admits.2 fun s' hs' => ?_))
        rw [List.mem_singleton] at hs'
        subst hs'
        cases skip
        · exact .inr (hg rfl)
        · exact .inl rfl
      | error e =>
        rw [hr] at hp
        cases e with
        | panic => exact ⟨.panic, rfl, by simpa using hp⟩
        | err e => exact ⟨.err (), rfl, by simpa using hp⟩
  | cons s ss ih =>
    rw [streamOf_cons, List.append_assoc] at hf ⊢
    have hl := sent_length s
    obtain ⟨hz, h8⟩ := net_size s
    obtain ⟨x, r, hx⟩ : ∃ x r, s.bytes ++ (streamOf ss ++ rest) = x :: r := List.exists_cons_of_ne_nil fun e => by
      have := congrArg List.length e
      simp only [List.length_append, List.length_nil] at this
      omega
    rw [List.length_append] at hf
    cases fuel with
    | zero => omega
    | succ n =>
      have hr := read_genuine C dbg (h2 s List.mem_cons_self).1 (streamOf ss ++ rest)
      have hd : (s.bytes ++ (streamOf ss ++ rest)).drop s.bytes.length = streamOf ss ++ rest := by simp
      have hstep : scan C dbg skip (n + 1) off (s.bytes ++ (streamOf ss ++ rest)) =
          match scan C dbg skip n (off + s.bytes.length) (streamOf ss ++ rest) with
          | .ok ps => .ok (net s :: ps)
          | .error e => .error e := by
        rw [hx] at hr hd ⊢
        conv => lhs; unfold scan
        simp only [show (importing skip).skipHash = skip from rfl] at hr
        simp only [hr, ho, if_true, hz, hd]
        cases scan C dbg skip n (off + s.bytes.length) (streamOf ss ++ rest) <;> rfl
      obtain ⟨i1, i2⟩ := ih (fuel := n) (off := off + s.bytes.length) (by omega) (fun y hy => h2 y (List.mem_cons_of_mem _ hy)) (by omega)
      rw [hstep]
      constructor
      · intro e
        rw [i1 e]; rfl
      · intro e
        obtain ⟨e', g1, g2⟩ := i2 e
        exact ⟨e', by rw [g1], g2⟩

theorem itemsOf_net (dbg : Bool) (ss : List Sent) : itemsOf dbg (ss.map net) = .ok (ss.map Sent.parts) := by
  induction ss with
  | nil => rfl
  | cons s ss ih =>
    rw [List.map_cons]
    unfold itemsOf
    rw [ofPkt_net, ih]
    rfl

theorem import_eq (C : Crypto) (dbg : Bool) (y : Sys) (o : IoOpts) (w : World) {ss : List Sent} (h : Importable C o.skipHash ss) :
    dbImport C dbg y o (streamOf ss) w =
      let r := saveAll (y.io w.saves) (y.now w.saves) w.db (ss.map Sent.parts)
      ({ w with db := r.disk, saves := w.saves + 1 }, match r.out with
        | .ok range => .ok ⟨r.pkts.map fun e => (e.1.hash, e.2), r.pkts.length, range⟩
        | .error e => .error (ofStop e)) := by
  have hr : ReadsOff C (importing o.skipHash) (streamOf ss) ss [] := by
    refine ⟨by simp, importable_admits.2 h, fun s t _ e => ?_⟩
    have := congrArg List.length e
    have := sent_length s
    simp only [List.length_append, List.length_nil] at *
    omega
  unfold dbImport
  rw [(scan_reads C dbg o.skipHash hr (Nat.le_refl _) rfl).1 rfl]
  simp only [itemsOf_net]
  cases (saveAll (y.io w.saves) (y.now w.saves) w.db (ss.map Sent.parts)).out <;> rfl

/-- **C89**: a file that is a sequence of packets is imported as one save of all of them, with all or nothing written.  Then the new packets are the
next part of the log, in the order of the file, and there is a line for each packet that tells whether it was new. -/
theorem import_all (C : Crypto) (dbg : Bool) (y : Sys) (o : IoOpts) {w : World} (hc : Consistent w.db) {ss : List Sent} (h : Importable C o.skipHash ss) :
    (dbImport C dbg y o (streamOf ss) w).1.outs = w.outs ∧ Consistent (dbImport C dbg y o (streamOf ss) w).1.db ∧
    (((dbImport C dbg y o (streamOf ss) w).1.db = w.db ∧ ∃ e, (dbImport C dbg y o (streamOf ss) w).2 = .error e) ∨
    ∃ a, (dbImport C dbg y o (streamOf ss) w).1.db.log = w.db.log ++ stamped a (news (hashesOf w.db.log) (ss.map Sent.parts)) ∧
      ((dbImport C dbg y o (streamOf ss) w).2 = .error .panic ∨
      ∃ rep, (dbImport C dbg y o (streamOf ss) w).2 = .ok rep ∧ rep.count = ss.length ∧ rep.lines.length = ss.length ∧
        rep.range = (a, a + (news (hashesOf w.db.log) (ss.map Sent.parts)).length) ∧
        ∀ j l, rep.lines[j]? = some l → LineOf (hashesOf w.db.log) (ss.map Sent.parts) j l)) := by
  rw [import_eq C dbg y o w h]
  have hnews : newsOf w.db ((ss.map Sent.parts).map fun p => (p, SaveState.pending)) = news (hashesOf w.db.log) (ss.map Sent.parts) := by
    unfold newsOf; rw [pendings_map]
  refine ⟨rfl, save_consistent hc _ _ _, ?_⟩
  have hst := fun a b => @save_states w.db hc (y.io w.saves) (y.now w.saves) (ss.map Sent.parts) a b
  simp only [saveAll] at hst ⊢
  rcases save_cases hc (y.io w.saves) (y.now w.saves) ((ss.map Sent.parts).map fun p => (p, .pending)) with ⟨h1, e, h2⟩ | ⟨a, -, h1, -, h3, h4⟩
  · exact .inl ⟨h1, by rw [h2]; exact ⟨_, rfl⟩⟩
  · rw [hnews] at h1 h4
    refine .inr ⟨a, by rw [h1]; rfl, ?_⟩
    rcases h4 with h4 | ⟨h4, -⟩
    · right
      have hlen : (save (y.io w.saves) (y.now w.saves) w.db ((ss.map Sent.parts).map fun p => (p, .pending))).pkts.length = ss.length := by
        rw [h3]
        have hf : ∀ l : List (NetParts × SaveState), (finished l).length = l.length := fun l => by
          induction l with
          | nil => rfl
          | cons x l ih => simpa [finished] using ih
        have hm : ∀ (l : List (NetParts × SaveState)) k, (marked k l).length = l.length := fun l => by
          induction l with
          | nil => intro k; rfl
          | cons x l ih => intro k; obtain ⟨p, s⟩ := x; simp only [marked]; (repeat' split) <;> simp [ih]
        rw [hf, hm]; simp
      refine ⟨_, by rw [h4], hlen, by rw [List.length_map, hlen], rfl, fun j l hj => ?_⟩
      rw [List.getElem?_map] at hj
      cases hp : (save (y.io w.saves) (y.now w.saves) w.db ((ss.map Sent.parts).map fun p => (p, .pending))).pkts[j]? with
      | none => rw [hp] at hj; cases hj
      | some x =>
        rw [hp] at hj
        cases hj
        obtain ⟨hlt, -⟩ := List.getElem?_eq_some_iff.1 hp
        have hj2 : (ss.map Sent.parts)[j]? = some ((ss.map Sent.parts)[j]'(by rw [List.length_map]; omega)) := List.getElem?_eq_getElem _
        obtain ⟨s, g1, g2, g3⟩ := hst _ _ h4 j _ hj2
        rw [hp] at g1
        cases g1
        refine ⟨_, hj2, rfl, ?_⟩
        by_cases hn : IsNew (hashesOf w.db.log) (ss.map Sent.parts) j
        · exact .inl ⟨g2.2 hn, hn⟩
        · exact .inr ⟨g3.2 hn, hn⟩
    · left
      rw [h4]; rfl

/-- **C89**: an import succeeds if LMDB does and the stamps do not run out or collide with the clock (see C24). -/
theorem import_succeeds (C : Crypto) (dbg : Bool) {y : Sys} (o : IoOpts) {w : World} (hc : Consistent w.db) {ss : List Sent} (h : Importable C o.skipHash ss)
    (hio : ∀ n, y.io w.saves n = .ok) (hne : lastStamp w.db.log ≠ some (y.now w.saves)) (h1 : y.now w.saves + ss.length < 2 ^ 64)
    (h2 : ∀ e ∈ w.db.log, e.1 + 1 + ss.length < 2 ^ 64) : ∃ rep, (dbImport C dbg y o (streamOf ss) w).2 = .ok rep := by
  rw [import_eq C dbg y o w h]
  have hlen : ∀ (l : List NetParts) k, (news k l).length ≤ l.length := by
    intro l
    induction l with
    | nil => intro k; exact Nat.le_refl _
    | cons p l ih => intro k; unfold news; split <;> simp only [List.length_cons] <;> have := ih k <;> have := ih (p.hash :: k) <;> omega
  have hn : (newsOf w.db ((ss.map Sent.parts).map fun p => (p, SaveState.pending))).length ≤ ss.length := by
    unfold newsOf; rw [pendings_map]; simpa using hlen (ss.map Sent.parts) (hashesOf w.db.log)
  obtain ⟨r, hr⟩ := save_any_clock_partial hc hio (y.now w.saves) ((ss.map Sent.parts).map fun p => (p, .pending)) hne (by omega) (fun e he => by have := h2 e he; omega)
  simp only [saveAll, hr]
  exact ⟨_, rfl⟩

/-- **C89**: any other file changes nothing.  The import then fails, with a panic exactly for the rests of C07. -/
theorem import_refuses (C : Crypto) (dbg : Bool) (y : Sys) (o : IoOpts) (w : World) {file rest : Bytes} {ss : List Sent}
    (h : ReadsOff C (importing o.skipHash) file ss rest) (hr : rest ≠ []) :
    ∃ e, dbImport C dbg y o file w = (w, .error e) ∧ (e = .panic ↔ ShortPoint rest ∨ dbg = true ∧ BadSpacePoint rest) := by
  obtain ⟨e, h1, h2⟩ := (scan_reads C dbg o.skipHash h (Nat.le_refl _) (off := 0) rfl).2 hr
  refine ⟨e, ?_, h2⟩
  unfold dbImport
  rw [h1]

/-- **C89**: what is in the database differs after an import only if the file is a sequence of packets that may be imported. -/
theorem import_changes (C : Crypto) (dbg : Bool) (y : Sys) (o : IoOpts) (w : World) (file : Bytes) (h : (dbImport C dbg y o file w).1 ≠ w) :
    ∃ ss, file = streamOf ss ∧ Importable C o.skipHash ss := by
  obtain ⟨ss, rest, hr⟩ := reads_exists C (importing o.skipHash) file
  by_cases hne : rest = []
  · subst hne
    exact ⟨ss, by rw [hr.bytes]; simp, importable_admits.1 hr.admits⟩
  · obtain ⟨e, h1, -⟩ := import_refuses C dbg y o w hr hne
    rw [h1] at h
    exact absurd rfl h

/-- The options about private points have no part in an import. -/
theorem import_not_private (C : Crypto) (dbg : Bool) (y : Sys) (o o' : IoOpts) (h : o.skipHash = o'.skipHash) (file : Bytes) (w : World) :
    dbImport C dbg y o file w = dbImport C dbg y o' file w := by
  unfold dbImport; rw [h]

/-! ### Cases that meet the hypotheses, and what the check misses -/

/-- A database with two packets, one of them in the tree. -/
def witHist : List SaveEv := [⟨fun _ => .ok, 100, [((witData 1).parts, .pending), (witPoint.parts, .pending)]⟩, ⟨fun n => if n = 3 then .dieBefore else .ok, 90, [((witData 2).parts, .pending)]⟩]
def witDb : Db := runSaves {} witHist
theorem witDb_log : witDb.log = [(100, (witData 1).parts), (101, witPoint.parts)] := by decide +kernel
theorem witHist_wide : ∀ e ∈ witHist, ∀ x ∈ e.pkts, x.1.hash.length = 32 := by
  intro e he x hx
  simp only [witHist, List.mem_cons, List.not_mem_nil, or_false] at he
  rcases he with rfl | rfl <;> simp only [List.mem_cons, List.not_mem_nil, or_false] at hx
  · rcases hx with rfl | rfl
    · exact (witData 1).hashLen
    · exact witPoint.hashLen
  · subst hx; exact (witData 2).hashLen

example : linkspaceInfo witDb = .ok () ∧ witDb.tree.length = 1 := ⟨check_history witHist witHist_wide, by decide +kernel⟩

theorem witDb_tables (tree : List (Bytes × List Bytes)) : Tables { witDb with tree } := by
  have hc : Consistent witDb := saves_consistent witHist
  have h := consistent_tables hc (by
    rw [witDb_log]
    intro i p hp
    simp only [List.mem_cons, Prod.mk.injEq, List.not_mem_nil, or_false] at hp
    rcases hp with ⟨-, rfl⟩ | ⟨-, rfl⟩
    · exact (witData 1).hashLen
    · exact witPoint.hashLen)
  exact ⟨h.log, h.stamps, h.hash, h.wide⟩

/-- Corruption that the check does find: a hash that leads elsewhere, and one that is missing. -/
example : linkspaceInfo { witDb with hash := witDb.hash.map fun e => (e.1, 201 - e.2) } = .error .err ∧
    linkspaceInfo { witDb with hash := witDb.hash.drop 1 } = .error .err ∧
    linkspaceInfo { witDb with log := witDb.log.drop 1 } = .error .err := by decide +kernel

/-- **C88 is false of the code**: without the tree, the point is not found by any query on its space, and the check says that everything is fine. -/
theorem tree_loss_missed : linkspaceInfo { witDb with tree := [] } = .ok () ∧ ¬ Consistent { witDb with tree := [] } := by
  refine ⟨by decide +kernel, fun h => ?_⟩
  have hm : (101, witPoint.parts) ∈ ({ witDb with tree := [] } : Db).log := by
    show _ ∈ witDb.log
    rw [witDb_log]; simp
  have he : (TreeEntry.fromPkt 101 witPoint.parts).isSome = true := by decide +kernel
  obtain ⟨⟨k, v⟩, he⟩ := Option.isSome_iff_exists.1 he
  obtain ⟨vs, hx, -⟩ := (h.treeLog k v).2 ⟨_, _, hm, he⟩
  cases hx

/-- **C88 is false of the code**: an entry of the tree that leads to no packet is not found behind the first key. -/
theorem tree_junk_missed (k v : Bytes) (hk : ∀ k' vs, (k', vs) ∈ witDb.tree → bytesLt k' k = true) (hv : ¬ PointsAt witDb v) :
    linkspaceInfo { witDb with tree := witDb.tree ++ [(k, [v])] } = .ok () ∧ ¬ Consistent { witDb with tree := witDb.tree ++ [(k, [v])] } := by
  have hok := (check_finds_partial (witDb_tables witDb.tree)).1 (check_history witHist witHist_wide)
  have hlen : witDb.tree.length = 1 := by decide +kernel
  obtain ⟨⟨k0, vs0⟩, h0⟩ := List.length_eq_one_iff.1 hlen
  refine ⟨(check_finds_partial (witDb_tables _)).2 ⟨hok.1, fun k' vs rest e => ?_, hok.2.2⟩, fun h => ?_⟩
  · rw [h0] at e
    cases e
    exact hok.2.1 k0 vs0 [] h0
  · obtain ⟨i, p, hm, he⟩ := (h.treeLog k v).1 ⟨[v], List.mem_append_right _ List.mem_cons_self, List.mem_cons_self⟩
    have h32 : p.hash.length = 32 := by
      have hm' : (i, p) ∈ witDb.log := hm
      rw [witDb_log] at hm'
      simp only [List.mem_cons, Prod.mk.injEq, List.not_mem_nil, or_false] at hm'
      rcases hm' with ⟨-, rfl⟩ | ⟨-, rfl⟩
      · exact (witData 1).hashLen
      · exact witPoint.hashLen
    exact hv ⟨p, by rw [entry_leads h32 (h.stamps i p hm) he]; exact hm⟩

example : (∀ k' vs, (k', vs) ∈ witDb.tree → bytesLt k' (List.replicate 32 255) = true) ∧ ¬ PointsAt witDb (List.replicate 52 7) := by
  constructor
  · have : ∀ e ∈ witDb.tree, bytesLt e.1 (List.replicate 32 255) = true := by decide +kernel
    exact fun k' vs h => this _ h
  · rintro ⟨p, hp⟩
    rw [witDb_log] at hp
    have h1 : (TreeValue.ofBytes (List.replicate 52 7)).logptr = 506381209866536711 := by decide +kernel
    rw [h1] at hp
    simp at hp

example : Importable toyCrypto false [witData 1, witPoint, witData 2] ∧ ReadsOff toyCrypto (importing false) (streamOf [witData 1] ++ [7]) [witData 1] [7] := by
  refine ⟨importable_admits.1 (wit_admits _), rfl, importable_admits.2 fun s hs => ?_, fun s t _ e => ?_⟩
  · rw [List.mem_singleton] at hs; subst hs; exact .inr ⟨trivial, rfl⟩
  · have := congrArg List.length e
    have := sent_length s
    simp only [List.length_append, List.length_singleton] at *
    omega

def witHidden : LinkContent := { witLink with group := List.replicate 32 0 }
/-- A point in the private group. -/
def witSecret : Sent := wit (.link witHidden) ⟨by decide, ⟨by decide, by decide, by decide, (fun _ h => nomatch h), by decide⟩⟩

/-- **C89 is false of the code**: a private point is imported without being allowed. -/
theorem import_takes_private : witSecret.Secret ∧ ¬ LetsIn {} ∧
    (dbImport toyCrypto true { now := fun _ => 100 } {} (streamOf [witSecret]) {}).1.db.log = [(100, witSecret.parts)] := by
  refine ⟨by decide, by decide, ?_⟩
  rw [import_eq toyCrypto true _ {} {} (ss := [witSecret]) fun s hs => by
    rw [List.mem_singleton] at hs; subst hs; exact .inr ⟨trivial, rfl⟩]
  decide +kernel

end Verif.Props
