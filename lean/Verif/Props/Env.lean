import Verif.Lemmas.Env
import Verif.Props.TreeKey
/-!
# C22–C26: saving keeps log and indexes in agreement
-/
namespace Verif.Props
open Verif Verif.Pkt Verif.Tree Verif.Spec Verif.Env

/-- The new packets of a batch in `db`. -/
def newsOf (db : Db) (pkts : List (NetParts × SaveState)) : List NetParts := news (hashesOf db.log) (pendings pkts)

theorem stamped_mem (a : Nat) (l : List NetParts) (i : Nat) (p : NetParts) :
    (i, p) ∈ stamped a l ↔ ∃ j, l[j]? = some p ∧ i = a + j := by
  induction l generalizing a with
  | nil => simp [stamped]
  | cons q r ih =>
    simp only [stamped, List.mem_cons, Prod.mk.injEq, ih]
    constructor
    · rintro (⟨rfl, rfl⟩ | ⟨j, hj, rfl⟩)
      · exact ⟨0, rfl, rfl⟩
      · exact ⟨j + 1, hj, by omega⟩
    · rintro ⟨j, hj, rfl⟩
      cases j with
      | zero => simp only [List.getElem?_cons_zero, Option.some.injEq] at hj; exact .inl ⟨rfl, hj.symm⟩
      | succ j => exact .inr ⟨j, by simpa using hj, by omega⟩

theorem marked_len (known : List Bytes) (l : List (NetParts × SaveState)) : news known (pendings l) = [] → finished (marked known l) = marked known l := by
  induction l generalizing known with
  | nil => intro _; rfl
  | cons x r ih =>
    obtain ⟨p, s⟩ := x
    intro h
    by_cases hs : s = .pending
    · rw [pendings_cons, if_pos hs] at h
      simp only [news] at h
      split at h
      · rename_i hk
        simp only [marked, if_pos hs, if_pos hk, finished, ih known h]
        rfl
      · cases h
    · rw [pendings_cons, if_neg hs] at h
      simp only [marked, if_neg hs, finished, ih known h]

/-- How a save can end: nothing happened, or exactly the new packets were added with consecutive stamps after all others. -/
theorem save_cases {disk : Db} (hc : Consistent disk) (io : Nat → Call) (now : Nat) (pkts : List (NetParts × SaveState)) :
    ((save io now disk pkts).disk = disk ∧ ∃ e, (save io now disk pkts).out = .error e) ∨
    ∃ a, startStamp now disk.log = .ok a ∧ (save io now disk pkts).disk = added disk (stamped a (newsOf disk pkts)) ∧
      (newsOf disk pkts ≠ [] → (∀ e ∈ disk.log, e.1 < a) ∧ a + (newsOf disk pkts).length < 2 ^ 64) ∧
      (save io now disk pkts).pkts = finished (marked (hashesOf disk.log) pkts) ∧
      ((save io now disk pkts).out = .ok (a, a + (newsOf disk pkts).length) ∨
        ((save io now disk pkts).out = .error .died ∧ newsOf disk pkts ≠ [])) := by
  rw [save]
  cases hio : io 0 with
  | fail => exact .inl ⟨rfl, _, rfl⟩
  | dieBefore => exact .inl ⟨rfl, _, rfl⟩
  | dieAfter => exact .inl ⟨rfl, _, rfl⟩
  | ok =>
    simp only
    cases hst : startStamp now disk.log with
    | error e => exact .inl ⟨rfl, _, rfl⟩
    | ok a =>
      simp only
      cases hp : putHashes io 1 disk a pkts with
      | mk r1 o1 =>
        cases o1 with
        | error e => exact .inl ⟨rfl, _, rfl⟩
        | ok v =>
          obtain ⟨n1, db1, a1⟩ := v
          obtain ⟨h1, h2, h3, h4⟩ := putHashes_ok io pkts 1 disk a _ r1 n1 db1 a1 (knows_of_consistent hc) hp
          have hN : news (hashesOf disk.log) (pendings pkts) = newsOf disk pkts := rfl
          rw [hN] at h2 h3 h4
          simp only
          by_cases hz : a1 - a = 0
          · rw [if_pos hz]
            have hnil : newsOf disk pkts = [] := List.length_eq_zero_iff.1 (by omega)
            refine .inr ⟨a, rfl, ?_, fun h => absurd hnil h, ?_, .inl ?_⟩
            · rw [hnil]; simp [stamped, added, hashFold, treeFold]
            · rw [marked_len _ _ hnil]; exact h1
            · rw [hnil]; simp; omega
          · rw [if_neg hz]
            have hne : newsOf disk pkts ≠ [] := fun h => hz (by rw [h] at h2; simp at h2; omega)
            cases hl : putLog io n1 db1 a r1 with
            | error e => exact .inl ⟨rfl, _, rfl⟩
            | ok v2 =>
              obtain ⟨n2, db2⟩ := v2
              obtain ⟨h5, h6⟩ := putLog_ok io r1 n1 db1 a n2 db2 hl
              have hpend : pendings r1 = newsOf disk pkts := by rw [h1, pendings_marked]; rfl
              rw [hpend] at h5 h6
              simp only
              cases ht : putTree io n2 db2 a r1 with
              | mk r3 o3 =>
                cases o3 with
                | error e => exact .inl ⟨rfl, _, rfl⟩
                | ok v3 =>
                  obtain ⟨n3, db3, a3⟩ := v3
                  obtain ⟨h7, h8, h9⟩ := putTree_ok io r1 n2 db2 a r3 n3 db3 a3 ht
                  rw [hpend] at h8 h9
                  have hdb : db3 = added disk (stamped a (newsOf disk pkts)) := by
                    rw [h9, h5, h4]; rfl
                  have hbig : ∀ e ∈ disk.log, e.1 < a := by
                    refine lastStamp_le hc.logSorted ?_
                    have := h6 hne
                    rw [h4] at this; exact this
                  have hlen : a + (newsOf disk pkts).length < 2 ^ 64 := by
                    have := h3 (fun h => hne (List.length_eq_zero_iff.1 h)); omega
                  simp only [commit]
                  cases io n3 with
                  | fail => exact .inl ⟨rfl, _, rfl⟩
                  | dieBefore => exact .inl ⟨rfl, _, rfl⟩
                  | ok => exact .inr ⟨a, rfl, hdb, fun _ => ⟨hbig, hlen⟩, by rw [← h1]; exact h7, .inl (by rw [h8])⟩
                  | dieAfter => exact .inr ⟨a, rfl, hdb, fun _ => ⟨hbig, hlen⟩, by rw [← h1]; exact h7, .inr ⟨rfl, hne⟩⟩

/-! ### C22 -/

theorem empty_consistent : Consistent {} := by
  constructor <;> simp

theorem save_consistent {disk : Db} (hc : Consistent disk) (io : Nat → Call) (now : Nat) (pkts : List (NetParts × SaveState)) :
    Consistent (save io now disk pkts).disk := by
  rcases save_cases hc io now pkts with ⟨h, -⟩ | ⟨a, -, h, hb, -⟩
  · rw [h]; exact hc
  · rw [h]
    by_cases hne : newsOf disk pkts = []
    · rw [hne]; simpa [stamped, added, hashFold, treeFold] using hc
    · refine added_ok _ _ _ hc (hb hne).1 (fun _ => Nat.le_of_lt (hb hne).2) ?_ (news_distinct _ _)
      exact news_not_known _ _

/-- **C22.** Whatever the packets, clocks, errors and crashes of a history, the tables agree. -/
theorem saves_consistent (es : List SaveEv) : Consistent (runSaves {} es) := by
  have : ∀ (es : List SaveEv) (db : Db), Consistent db → Consistent (runSaves db es) := by
    intro es
    induction es with
    | nil => exact fun db h => h
    | cons e es ih => exact fun db h => ih _ (save_consistent h _ _ _)
  exact this es {} empty_consistent

/-- What the tables of a consistent database say to a reader: by hash, by stamp. -/
theorem read_hash_iff {db : Db} (hc : Consistent db) (h : Bytes) (i : Nat) (p : NetParts) :
    db.read h = some (i, p) ↔ (i, p) ∈ db.log ∧ p.hash = h := by
  simp only [Db.read, Db.readPtr]
  cases hg : hashGet db.hash h with
  | none =>
    simp only [reduceCtorEq, false_iff, not_and]
    intro hp hh
    exact (hashGet_none _ _).1 hg i ((hc.hashLog _ _).2 ⟨p, hp, hh⟩)
  | some j =>
    have hj := (hashGet_iff _ hc.hashSorted _ _).1 hg
    simp only [Option.map_eq_some_iff, Prod.mk.injEq]
    constructor
    · rintro ⟨q, hq, rfl, rfl⟩
      have hq := (logGet_iff _ hc.logSorted _ _).1 hq
      obtain ⟨p', hp', hh⟩ := (hc.hashLog _ _).1 hj
      have h1 := (logGet_iff _ hc.logSorted _ _).2 hp'
      rw [(logGet_iff _ hc.logSorted _ _).2 hq] at h1
      cases h1
      exact ⟨hq, hh⟩
    · rintro ⟨hp, hh⟩
      have hi := (hashGet_iff _ hc.hashSorted _ _).2 ((hc.hashLog h i).2 ⟨p, hp, hh⟩)
      rw [hg] at hi
      cases hi
      exact ⟨p, (logGet_iff _ hc.logSorted _ _).2 hp, rfl, rfl⟩

/-- **C23.** No hash is stored twice. -/
theorem log_unique {db : Db} (hc : Consistent db) {i j : Nat} {p q : NetParts} (hp : (i, p) ∈ db.log) (hq : (j, q) ∈ db.log)
    (h : p.hash = q.hash) : i = j ∧ p = q := by
  have h1 := (read_hash_iff hc p.hash i p).2 ⟨hp, rfl⟩
  rw [(read_hash_iff hc p.hash j q).2 ⟨hq, h.symm⟩] at h1
  cases h1
  exact ⟨rfl, rfl⟩

theorem proper_entry {p : NetParts} (hp : Proper p) {i : Nat} {e : TreeEntry} (h : TreeEntry.fromPkt i p = some e) :
    ∃ t, HasTuple p t := by
  rcases hp with h1 | ⟨c, hc, hg⟩
  · exact h1
  · rw [(tree_entry_iff p c hc i).2 hg] at h; cases h

/-- **C22.** The tree holds one entry for each logged link or key point, with its key, stamp, hash and log position. -/
theorem tree_entry_unique {db : Db} (hc : Consistent db) (hw : AllProper db) {i : Nat} {p : NetParts} {t : TreeTuple}
    (hp : (i, p) ∈ db.log) (ht : HasTuple p t) :
    ∃ k v, TreeHas db k v ∧
      keyGroup k = t.group ∧ keyDomain k = t.domain ∧ (keyDepth k).toNat = t.space.length ∧ keySpace k = encodeSpace t.space ∧
      keyPubkey k = t.pubkey ∧ (TreeValue.ofBytes v).create = t.create ∧ (TreeValue.ofBytes v).hash = t.hash ∧
      (TreeValue.ofBytes v).logptr = i ∧
      ∀ k' v', TreeHas db k' v' → ((TreeValue.ofBytes v').logptr = i ∨ (TreeValue.ofBytes v').hash = t.hash) → k' = k ∧ v' = v := by
  obtain ⟨e, he, h1, h2, h3, h4, h5, h6, h7, h8, -⟩ := tree_entry_fields ht i (hc.stamps i p hp)
  refine ⟨e.key, e.val, (hc.treeLog _ _).2 ⟨i, p, hp, he⟩, h1, h2, h3, h4, h5, h6, h7, h8, ?_⟩
  intro k' v' hin hor
  obtain ⟨j, q, hq, hqe⟩ := (hc.treeLog _ _).1 hin
  obtain ⟨u, hu⟩ := proper_entry (hw j q hq) hqe
  obtain ⟨e', he', -, -, -, -, -, -, g7, g8, -⟩ := tree_entry_fields hu j (hc.stamps j q hq)
  rw [he'] at hqe
  cases hqe
  simp only at g7 g8
  have : j = i ∧ q = p := by
    rcases hor with h | h
    · rw [g8] at h
      subst h
      have h1 := (logGet_iff _ hc.logSorted _ _).2 hq
      rw [(logGet_iff _ hc.logSorted _ _).2 hp] at h1
      cases h1
      exact ⟨rfl, rfl⟩
    · rw [g7] at h
      have hqh : u.hash = q.hash := by obtain ⟨_, _, _, _, _, hh, _⟩ := hu; exact hh
      have hph : t.hash = p.hash := by obtain ⟨_, _, _, _, _, hh, _⟩ := ht; exact hh
      exact log_unique hc hq hp (by rw [← hqh, ← hph, h])
  obtain ⟨rfl, rfl⟩ := this
  rw [he'] at he
  cases he
  exact ⟨rfl, rfl⟩

/-- **C22.** And nothing else: the position in every entry is that of the point it describes. -/
theorem tree_entry_sound {db : Db} (hc : Consistent db) (hw : AllProper db) {k v : Bytes} (h : TreeHas db k v) :
    ∃ p t, db.read (TreeValue.ofBytes v).hash = some ((TreeValue.ofBytes v).logptr, p) ∧ HasTuple p t ∧
      keyGroup k = t.group ∧ keyDomain k = t.domain ∧ keySpace k = encodeSpace t.space ∧
      keyPubkey k = t.pubkey ∧ (TreeValue.ofBytes v).create = t.create := by
  obtain ⟨j, q, hq, hqe⟩ := (hc.treeLog _ _).1 h
  obtain ⟨u, hu⟩ := proper_entry (hw j q hq) hqe
  obtain ⟨e', he', h1, h2, h3, h4, h5, h6, g7, g8, -⟩ := tree_entry_fields hu j (hc.stamps j q hq)
  rw [he'] at hqe
  cases hqe
  have hqh : u.hash = q.hash := by obtain ⟨_, _, _, _, _, hh, _⟩ := hu; exact hh
  refine ⟨q, u, ?_, hu, h1, h2, h4, h5, h6⟩
  rw [g7, g8]
  exact (read_hash_iff hc _ _ _).2 ⟨hq, hqh.symm⟩

/-- Data and error points have no entry, so the entries are as many as the other points: no entry without its point. -/
theorem tree_no_entry {db : Db} (hc : Consistent db) (hw : AllProper db) {i : Nat} {p : NetParts} {c : Content} (hp : (i, p) ∈ db.log)
    (hi : IsPacket p c) (hg : c.group? = none) (k v : Bytes) (h : TreeHas db k v) : (TreeValue.ofBytes v).logptr ≠ i := by
  intro hh
  obtain ⟨q, t, hr, ht, -⟩ := tree_entry_sound hc hw h
  obtain ⟨hq, -⟩ := (read_hash_iff hc _ _ _).1 hr
  rw [hh] at hq
  have h1 := (logGet_iff _ hc.logSorted _ _).2 hq
  rw [(logGet_iff _ hc.logSorted _ _).2 hp] at h1
  cases h1
  obtain ⟨e, he, -⟩ := tree_entry_fields ht i (hc.stamps i p hp)
  rw [(tree_entry_iff p c hi i).2 hg] at he
  cases he

/-- The log after a save is the log before it, then new packets with consecutive stamps. -/
theorem save_log {disk : Db} (hc : Consistent disk) (io : Nat → Call) (now : Nat) (pkts : List (NetParts × SaveState)) :
    (save io now disk pkts).disk.log = disk.log ∨
    ∃ a, (save io now disk pkts).disk.log = disk.log ++ stamped a (newsOf disk pkts) ∧ startStamp now disk.log = .ok a := by
  rcases save_cases hc io now pkts with ⟨h, -⟩ | ⟨a, h0, h, -⟩
  · exact .inl (by rw [h])
  · exact .inr ⟨a, by rw [h]; rfl, h0⟩

theorem pendings_mem {pkts : List (NetParts × SaveState)} {p : NetParts} : p ∈ pendings pkts ↔ (p, .pending) ∈ pkts := by
  simp only [pendings, List.mem_filterMap, Prod.exists]
  constructor
  · rintro ⟨q, s, h, h2⟩
    split at h2
    · rename_i hs; cases h2; rw [← hs]; exact h
    · cases h2
  · intro h; exact ⟨p, .pending, h, by simp⟩

theorem saves_proper {db : Db} (hc : Consistent db) (hw : AllProper db) (io : Nat → Call) (now : Nat) (pkts : List (NetParts × SaveState))
    (hp : ∀ p, (p, .pending) ∈ pkts → Proper p) : AllProper (save io now db pkts).disk := by
  intro i p h
  rcases save_log hc io now pkts with h1 | ⟨a, h1, -⟩
  · rw [h1] at h; exact hw i p h
  · rw [h1] at h
    rcases List.mem_append.1 h with h | h
    · exact hw i p h
    · obtain ⟨j, hj, -⟩ := (stamped_mem _ _ _ _).1 h
      have := (news_sublist _ _).subset (List.mem_of_getElem? hj)
      exact hp p (pendings_mem.1 this)

/-! ### C23 -/

/-- `news` picks exactly the packets that `IsNew` describes. -/
theorem news_isNew (known : List Bytes) (l : List NetParts) (p : NetParts) :
    p ∈ news known l ↔ ∃ j, l[j]? = some p ∧ IsNew known l j := by
  induction l generalizing known with
  | nil => simp [news]
  | cons q r ih =>
    simp only [news]
    by_cases hq : q.hash ∈ known
    · rw [if_pos hq, ih]
      constructor
      · rintro ⟨j, hj, p', hp', hk, hf⟩
        refine ⟨j + 1, by simpa using hj, p', by simpa using hp', hk, ?_⟩
        intro i x hi hx
        cases i with
        | zero =>
          simp only [List.getElem?_cons_zero, Option.some.injEq] at hx
          subst hx; intro h; rw [h] at hq; exact hk hq
        | succ i => exact hf i x (by omega) (by simpa using hx)
      · rintro ⟨j, hj, p', hp', hk, hf⟩
        rw [hj] at hp'; cases hp'
        cases j with
        | zero =>
          simp only [List.getElem?_cons_zero, Option.some.injEq] at hj
          subst hj; exact absurd hq hk
        | succ j =>
          exact ⟨j, by simpa using hj, p, by simpa using hj, hk, fun i x hi hx => hf (i + 1) x (by omega) (by simpa using hx)⟩
    · rw [if_neg hq, List.mem_cons, ih]
      constructor
      · rintro (rfl | ⟨j, hj, p', hp', hk, hf⟩)
        · exact ⟨0, rfl, p, rfl, hq, fun i x hi => absurd hi (by omega)⟩
        · rw [hj] at hp'; cases hp'
          refine ⟨j + 1, by simpa using hj, p, by simpa using hj, fun h => hk (List.mem_cons_of_mem _ h), ?_⟩
          intro i x hi hx
          cases i with
          | zero =>
            simp only [List.getElem?_cons_zero, Option.some.injEq] at hx
            subst hx; intro h; exact hk (by rw [← h]; exact List.mem_cons_self)
          | succ i => exact hf i x (by omega) (by simpa using hx)
      · rintro ⟨j, hj, p', hp', hk, hf⟩
        rw [hj] at hp'; cases hp'
        cases j with
        | zero =>
          simp only [List.getElem?_cons_zero, Option.some.injEq] at hj
          exact .inl hj.symm
        | succ j =>
          refine .inr ⟨j, by simpa using hj, p, by simpa using hj, ?_, fun i x hi hx => hf (i + 1) x (by omega) (by simpa using hx)⟩
          intro h
          rcases List.mem_cons.1 h with h | h
          · exact hf 0 q (by omega) rfl h.symm
          · exact hk h

/-- **C23.** After a save that returns a range: the range is exactly the stamps of the new packets, in the order of the batch;
    every packet of the batch is now stored. -/
theorem save_range {disk : Db} (hc : Consistent disk) {io : Nat → Call} {now : Nat} {pkts : List (NetParts × SaveState)} {a b : Nat}
    (h : (save io now disk pkts).out = .ok (a, b)) :
    b - a = (newsOf disk pkts).length ∧ a ≤ b ∧ (save io now disk pkts).disk.log = disk.log ++ stamped a (newsOf disk pkts) ∧
      (∀ i, (∃ p, (i, p) ∈ (save io now disk pkts).disk.log ∧ (i, p) ∉ disk.log) ↔ a ≤ i ∧ i < b) ∧
      ∀ p, (p, SaveState.pending) ∈ pkts → ∃ i q, (save io now disk pkts).disk.read p.hash = some (i, q) := by
  have hcons := save_consistent hc io now pkts
  rcases save_cases hc io now pkts with ⟨-, e, h1⟩ | ⟨a', -, h1, hbig, -, h2 | ⟨h2, -⟩⟩
  · rw [h] at h1; cases h1
  · rw [h] at h2; cases h2
    have hlog : (save io now disk pkts).disk.log = disk.log ++ stamped a (newsOf disk pkts) := by rw [h1]; rfl
    refine ⟨by omega, by omega, hlog, ?_, ?_⟩
    · intro i
      rw [hlog]
      constructor
      · rintro ⟨p, hp, hnp⟩
        rcases List.mem_append.1 hp with hp | hp
        · exact absurd hp hnp
        · obtain ⟨j, hj, rfl⟩ := (stamped_mem _ _ _ _).1 hp
          have := (List.getElem?_eq_some_iff.1 hj).1
          omega
      · rintro ⟨h3, h4⟩
        have hlt : i - a < (newsOf disk pkts).length := by omega
        refine ⟨(newsOf disk pkts)[i - a], ?_, ?_⟩
        · exact List.mem_append_right _ ((stamped_mem _ _ _ _).2 ⟨i - a, List.getElem?_eq_getElem hlt, by omega⟩)
        · intro hp
          have hne : newsOf disk pkts ≠ [] := fun h => by rw [h] at hlt; simp at hlt
          have := (hbig hne).1 _ hp
          simp only at this; omega
    · intro p hp
      have hp := pendings_mem.2 hp
      have : ∃ i q, (i, q) ∈ (save io now disk pkts).disk.log ∧ q.hash = p.hash := by
        rw [hlog]
        rcases news_covers (hashesOf disk.log) _ p hp with h | ⟨q, hq, hqh⟩
        · simp only [hashesOf, List.mem_map, Prod.exists] at h
          obtain ⟨i, q, hq, hh⟩ := h
          exact ⟨i, q, List.mem_append_left _ hq, hh⟩
        · obtain ⟨j, hj⟩ := List.getElem?_of_mem hq
          exact ⟨a + j, q, List.mem_append_right _ ((stamped_mem _ _ _ _).2 ⟨j, hj, rfl⟩), hqh⟩
      obtain ⟨i, q, hq, hh⟩ := this
      exact ⟨i, q, (read_hash_iff hcons _ _ _).2 ⟨hq, hh⟩⟩
  · rw [h] at h2; cases h2

theorem finished_get (l : List (NetParts × SaveState)) (j : Nat) :
    (finished l)[j]? = (l[j]?).map (fun e => (e.1, if e.2 = .pending then .written else e.2)) := by
  induction l generalizing j with
  | nil => simp [finished]
  | cons x r ih =>
    obtain ⟨p, s⟩ := x
    cases j with
    | zero => simp [finished]
    | succ j => simp [finished, ih]

theorem stamped_snoc (a : Nat) (l : List NetParts) (p : NetParts) : stamped a (l ++ [p]) = stamped a l ++ [(a + l.length, p)] := by
  induction l generalizing a with
  | nil => rfl
  | cons q l ih =>
    show (a, q) :: stamped (a + 1) (l ++ [p]) = (a, q) :: (stamped (a + 1) l ++ [(a + (l.length + 1), p)])
    rw [ih, show a + 1 + l.length = a + (l.length + 1) by omega]

/-- What wakes the others: after a save that returns, the value sent is the stamp of the last packet of the log, and
nothing is sent exactly if nothing was added. -/
theorem emitted_last {disk : Db} (hc : Consistent disk) {io : Nat → Call} {now : Nat} {pkts : List (NetParts × SaveState)} {a b : Nat}
    (h : (save io now disk pkts).out = .ok (a, b)) :
    (emitted (save io now disk pkts) = none ↔ (save io now disk pkts).disk.log = disk.log) ∧
    ∀ t, emitted (save io now disk pkts) = some t → ((save io now disk pkts).disk.log.getLast?).map (·.1) = some t := by
  obtain ⟨h1, h2, h3, -, -⟩ := save_range hc h
  have he : emitted (save io now disk pkts) = if a < b then some (b - 1) else none := by
    unfold emitted; rw [h]
  rw [he, h3]
  rcases List.eq_nil_or_concat (newsOf disk pkts) with hn | ⟨l, p, hn⟩
  · rw [hn] at h1 ⊢
    simp only [List.length_nil] at h1
    rw [if_neg (by omega)]
    exact ⟨by simp [stamped], nofun⟩
  · rw [hn] at h1 ⊢
    rw [List.concat_eq_append, stamped_snoc] at *
    simp only [List.length_append, List.length_singleton] at h1
    rw [if_pos (by omega)]
    refine ⟨by simp, fun t ht => ?_⟩
    cases ht
    rw [← List.append_assoc, List.getLast?_concat]
    simp only [Option.map_some, Option.some.injEq]
    omega

/-- In a batch of pending packets, the ones still pending after the first pass are the new ones. -/
theorem marked_get (known : List Bytes) (l : List NetParts) (j : Nat) (p : NetParts) (hj : l[j]? = some p) :
    ∃ s, (marked known (l.map (fun p => (p, .pending))))[j]? = some (p, s) ∧
      (s = .pending ∧ IsNew known l j ∨ s = .exists ∧ ¬ IsNew known l j) := by
  induction l generalizing known j with
  | nil => simp at hj
  | cons q r ih =>
    simp only [List.map_cons, marked, if_pos]
    by_cases hq : q.hash ∈ known
    · rw [if_pos hq]
      cases j with
      | zero =>
        simp only [List.getElem?_cons_zero, Option.some.injEq] at hj
        subst hj
        refine ⟨.exists, by simp, .inr ⟨rfl, ?_⟩⟩
        rintro ⟨p', hp', hk, -⟩
        simp only [List.getElem?_cons_zero, Option.some.injEq] at hp'
        subst hp'; exact hk hq
      | succ j =>
        have hj' : r[j]? = some p := by simpa using hj
        obtain ⟨s, h1, h2⟩ := ih known j hj'
        have e : IsNew known (q :: r) (j + 1) ↔ IsNew known r j := by
          constructor
          · rintro ⟨p', hp', hk, hf⟩
            exact ⟨p', by simpa using hp', hk, fun i x hi hx => hf (i + 1) x (by omega) (by simpa using hx)⟩
          · rintro ⟨p', hp', hk, hf⟩
            refine ⟨p', by simpa using hp', hk, ?_⟩
            intro i x hi hx
            cases i with
            | zero =>
              simp only [List.getElem?_cons_zero, Option.some.injEq] at hx
              subst hx; intro h; rw [h] at hq; exact hk hq
            | succ i => exact hf i x (by omega) (by simpa using hx)
        exact ⟨s, by simpa using h1, by rw [e]; exact h2⟩
    · rw [if_neg hq]
      cases j with
      | zero =>
        simp only [List.getElem?_cons_zero, Option.some.injEq] at hj
        subst hj
        exact ⟨.pending, by simp, .inl ⟨rfl, q, rfl, hq, fun i x hi => absurd hi (by omega)⟩⟩
      | succ j =>
        have hj' : r[j]? = some p := by simpa using hj
        obtain ⟨s, h1, h2⟩ := ih (q.hash :: known) j hj'
        have e : IsNew known (q :: r) (j + 1) ↔ IsNew (q.hash :: known) r j := by
          constructor
          · rintro ⟨p', hp', hk, hf⟩
            refine ⟨p', by simpa using hp', ?_, fun i x hi hx => hf (i + 1) x (by omega) (by simpa using hx)⟩
            intro h
            rcases List.mem_cons.1 h with h | h
            · exact hf 0 q (by omega) rfl h.symm
            · exact hk h
          · rintro ⟨p', hp', hk, hf⟩
            refine ⟨p', by simpa using hp', fun h => hk (List.mem_cons_of_mem _ h), ?_⟩
            intro i x hi hx
            cases i with
            | zero =>
              simp only [List.getElem?_cons_zero, Option.some.injEq] at hx
              subst hx; intro h; exact hk (by rw [← h]; exact List.mem_cons_self)
            | succ i => exact hf i x (by omega) (by simpa using hx)
        exact ⟨s, by simpa using h1, by rw [e]; exact h2⟩

theorem pendings_map (l : List NetParts) : pendings (l.map (fun p => (p, SaveState.pending))) = l := by
  induction l with
  | nil => rfl
  | cons p r ih => rw [List.map_cons, pendings_cons, if_pos rfl, ih]

/-- **C23.** The states handed back: `written` for the new packets, `exists` for the others. -/
theorem save_states {disk : Db} (hc : Consistent disk) {io : Nat → Call} {now : Nat} {batch : List NetParts} {a b : Nat}
    (h : (saveAll io now disk batch).out = .ok (a, b)) (j : Nat) (p : NetParts) (hj : batch[j]? = some p) :
    ∃ s, (saveAll io now disk batch).pkts[j]? = some (p, s) ∧ (s = .written ↔ IsNew (hashesOf disk.log) batch j) ∧
      (s = .exists ↔ ¬ IsNew (hashesOf disk.log) batch j) := by
  simp only [saveAll] at h ⊢
  rcases save_cases hc io now (batch.map (fun p => (p, .pending))) with ⟨-, e, h1⟩ | ⟨a', -, -, -, hs, -⟩
  · rw [h] at h1; cases h1
  · rw [hs, finished_get]
    obtain ⟨s, h1, h2⟩ := marked_get (hashesOf disk.log) batch j p hj
    rw [h1]
    refine ⟨if s = .pending then .written else s, rfl, ?_⟩
    rcases h2 with ⟨rfl, h2⟩ | ⟨rfl, h2⟩
    · simp [h2]
    · simp [h2]

/-- **C23.** `lk_save` returns true exactly when the packet was not stored before, and then it is stored. -/
theorem lk_save_new {disk : Db} (hc : Consistent disk) {io : Nat → Call} {now : Nat} {p : NetParts} {r : Bool}
    (h : (lkSave io now disk p).2 = .ok r) :
    (r = true ↔ disk.read p.hash = none) ∧ ((lkSave io now disk p).1.read p.hash).isSome := by
  simp only [lkSave] at h ⊢
  cases ho : (saveAll io now disk [p]).out with
  | error e => rw [ho] at h; cases h
  | ok ab =>
    obtain ⟨a, b⟩ := ab
    rw [ho] at h
    obtain ⟨s, hs, hw, -⟩ := save_states hc ho 0 p rfl
    have hread : disk.read p.hash = none ↔ p.hash ∉ hashesOf disk.log := by
      rw [Option.eq_none_iff_forall_ne_some]
      simp only [hashesOf, List.mem_map, Prod.exists, not_exists]
      constructor
      · intro h i q hq
        exact h (i, q) ((read_hash_iff hc _ _ _).2 hq)
      · rintro h ⟨i, q⟩ hq
        exact h i q ((read_hash_iff hc _ _ _).1 hq)
    have hnew : IsNew (hashesOf disk.log) [p] 0 ↔ p.hash ∉ hashesOf disk.log := by
      constructor
      · rintro ⟨q, hq, hk, -⟩
        simp only [List.getElem?_cons_zero, Option.some.injEq] at hq
        subst hq; exact hk
      · intro hk; exact ⟨p, rfl, hk, fun i x hi => absurd hi (by omega)⟩
    refine ⟨?_, ?_⟩
    · rw [hread, ← hnew, ← hw]
      cases hl : (saveAll io now disk [p]).pkts with
      | nil => rw [hl] at hs; simp at hs
      | cons x t =>
        rw [hl] at hs h
        simp only [List.getElem?_cons_zero, Option.some.injEq] at hs
        subst hs
        simp only [Except.ok.injEq] at h
        subst h
        cases s <;> simp [SaveState.isWritten]
    · obtain ⟨-, -, -, -, h5⟩ := save_range hc ho
      obtain ⟨i, q, hq⟩ := h5 p (by simp)
      simp only [saveAll]
      rw [hq]; rfl

/-- **C23.** `lk_save_all` returns the number of hashes that are now stored and were not. -/
theorem lk_save_all_count {disk : Db} (hc : Consistent disk) {io : Nat → Call} {now : Nat} {batch : List NetParts} {n : Nat}
    (h : (lkSaveAll io now disk batch).2 = .ok n) :
    n = (news (hashesOf disk.log) batch).length ∧ (lkSaveAll io now disk batch).1.log.length = disk.log.length + n := by
  simp only [lkSaveAll] at h ⊢
  cases ho : (saveAll io now disk batch).out with
  | error e => rw [ho] at h; cases h
  | ok ab =>
    obtain ⟨a, b⟩ := ab
    rw [ho] at h
    simp only [Except.ok.injEq] at h
    obtain ⟨h1, h2, h3, -⟩ := save_range hc ho
    have : newsOf disk (batch.map (fun p => (p, SaveState.pending))) = news (hashesOf disk.log) batch := by
      simp only [newsOf, pendings_map]
    rw [this] at h1 h3
    refine ⟨by omega, ?_⟩
    simp only [saveAll]
    rw [h3, List.length_append]
    have hl : ∀ (a : Nat) (l : List NetParts), (stamped a l).length = l.length := by
      intro a l
      induction l generalizing a with
      | nil => rfl
      | cons _ _ ih => simp [stamped, ih]
    rw [hl]; omega

/-! ### C24 -/

theorem runSaves_consistent {db : Db} (hc : Consistent db) (es : List SaveEv) : Consistent (runSaves db es) := by
  induction es generalizing db with
  | nil => exact hc
  | cons e es ih => exact ih (save_consistent hc _ _ _)

/-- **C26.** The log is append-only. -/
theorem log_append_only {db : Db} (hc : Consistent db) (es : List SaveEv) : db.log <+: (runSaves db es).log := by
  induction es generalizing db with
  | nil => exact List.prefix_refl _
  | cons e es ih =>
    refine List.IsPrefix.trans ?_ (ih (save_consistent hc e.io e.now e.pkts))
    rcases save_log hc e.io e.now e.pkts with h | ⟨a, h, -⟩
    · rw [h]; exact List.prefix_refl _
    · rw [h]; exact List.prefix_append _ _

/-- **C26.** What was read once by its hash or by its stamp is read the same ever after. -/
theorem read_stable {db : Db} (hc : Consistent db) (es : List SaveEv) {h : Bytes} {i : Nat} {p : NetParts}
    (hr : db.read h = some (i, p)) :
    (runSaves db es).read h = some (i, p) ∧ logGet (runSaves db es).log i = some p := by
  obtain ⟨h1, h2⟩ := (read_hash_iff hc _ _ _).1 hr
  have h3 := (log_append_only hc es).subset h1
  have hc' := runSaves_consistent hc es
  exact ⟨(read_hash_iff hc' _ _ _).2 ⟨h3, h2⟩, (logGet_iff _ hc'.logSorted _ _).2 h3⟩

/-- **C24.** The stamp of a packet saved later is greater than that of every packet saved before, whatever the clocks. -/
theorem stamps_increase {db : Db} (hc : Consistent db) (es : List SaveEv) {i j : Nat} {p q : NetParts}
    (hp : (i, p) ∈ db.log) (hq : (j, q) ∈ (runSaves db es).log) (hnew : (j, q) ∉ db.log) : i < j := by
  obtain ⟨t, ht⟩ := log_append_only hc es
  rw [← ht] at hq
  have hs := (runSaves_consistent hc es).logSorted
  rw [← ht, List.pairwise_append] at hs
  rcases List.mem_append.1 hq with h | h
  · exact absurd h hnew
  · exact hs.2.2 _ hp _ h

theorem putHashes_total {io : Nat → Call} (hio : ∀ n, io n = .ok) (l : List (NetParts × SaveState)) : ∀ (n : Nat) (db : Db) (a : Nat)
    (known : List Bytes), Knows db.hash known → (news known (pendings l) ≠ [] → a + (news known (pendings l)).length < 2 ^ 64) →
    ∃ r v, putHashes io n db a l = (r, .ok v) := by
  induction l with
  | nil => intro n db a known _ _; exact ⟨_, _, rfl⟩
  | cons x rest ih =>
    obtain ⟨p, s⟩ := x
    intro n db a known hk hlt
    rw [putHashes]
    rw [pendings_cons] at hlt
    by_cases hs : s = .pending
    · rw [if_pos hs]
      rw [if_pos hs] at hlt
      rw [hio]
      simp only
      cases hg : hashGet db.hash p.hash with
      | some i =>
        have hin : p.hash ∈ known := by
          refine Classical.byContradiction fun hnin => ?_
          rw [(knows_get hk p.hash).2 hnin] at hg; cases hg
        simp only [news, if_pos hin] at hlt
        obtain ⟨r, v, h⟩ := ih (n + 1) db a known hk hlt
        simp only; rw [h]; exact ⟨_, _, rfl⟩
      | none =>
        have hnin : p.hash ∉ known := (knows_get hk p.hash).1 hg
        simp only [news, if_neg hnin] at hlt
        have hlt := hlt (by simp)
        simp only [List.length_cons] at hlt
        simp only
        rw [if_pos (by unfold u64End; omega)]
        obtain ⟨r, v, h⟩ := ih (n + 1) { db with hash := hashIns p.hash a db.hash } (a + 1) (p.hash :: known)
          (knows_ins hk p.hash a) (fun _ => by omega)
        rw [h]; exact ⟨_, _, rfl⟩
    · rw [if_neg hs]
      rw [if_neg hs] at hlt
      obtain ⟨r, v, h⟩ := ih n db a known hk hlt
      rw [h]; exact ⟨_, _, rfl⟩

theorem putLog_total {io : Nat → Call} (hio : ∀ n, io n = .ok) (l : List (NetParts × SaveState)) : ∀ (n : Nat) (db : Db) (a : Nat),
    (∀ last, lastStamp db.log = some last → last < a) → ∃ v, putLog io n db a l = .ok v := by
  induction l with
  | nil => intro n db a _; exact ⟨_, rfl⟩
  | cons x rest ih =>
    obtain ⟨p, s⟩ := x
    intro n db a hlast
    rw [putLog]
    by_cases hs : s = .pending
    · rw [if_pos hs, hio]
      simp only
      have fin : ∃ v, putLog io (n + 1) { db with log := db.log ++ [(a, p)] } (a + 1) rest = .ok v := by
        refine ih _ _ _ ?_
        intro last hl
        rw [lastStamp_append] at hl
        cases hl; exact Nat.lt_succ_self _
      cases hl : lastStamp db.log with
      | none => exact fin
      | some last =>
        have := hlast last hl
        simp only
        rw [if_neg (by omega)]
        exact fin
    · rw [if_neg hs]; exact ih _ _ _ hlast

theorem putTree_total {io : Nat → Call} (hio : ∀ n, io n = .ok) (l : List (NetParts × SaveState)) : ∀ (n : Nat) (db : Db) (a : Nat),
    ∃ r v, putTree io n db a l = (r, .ok v) := by
  induction l with
  | nil => intro n db a; exact ⟨_, _, rfl⟩
  | cons x rest ih =>
    obtain ⟨p, s⟩ := x
    intro n db a
    rw [putTree]
    by_cases hs : s = .pending
    · rw [if_pos hs]
      cases ht : TreeEntry.fromPkt a p with
      | none =>
        obtain ⟨r, v, h⟩ := ih n db (a + 1)
        simp only; rw [h]; exact ⟨_, _, rfl⟩
      | some e =>
        simp only [hio]
        obtain ⟨r, v, h⟩ := ih (n + 1) { db with tree := treeIns e.key e.val db.tree } (a + 1)
        rw [h]; exact ⟨_, _, rfl⟩
    · rw [if_neg hs]
      obtain ⟨r, v, h⟩ := ih n db a
      rw [h]; exact ⟨_, _, rfl⟩

/-- **C24/C25.** If LMDB does its part, a save succeeds exactly when there is nothing new, or there are stamps left after
    the last one and the clock does not show exactly the last stamp. -/
theorem save_succeeds_iff {disk : Db} (hc : Consistent disk) {io : Nat → Call} (hio : ∀ n, io n = .ok) (now : Nat)
    (pkts : List (NetParts × SaveState)) :
    (∃ r, (save io now disk pkts).out = .ok r) ↔
      ∃ a, startStamp now disk.log = .ok a ∧
        (newsOf disk pkts = [] ∨ (a + (newsOf disk pkts).length < 2 ^ 64 ∧ lastStamp disk.log ≠ some a)) := by
  constructor
  · rintro ⟨r, hr⟩
    rcases save_cases hc io now pkts with ⟨-, e, h1⟩ | ⟨a, h0, -, hb, -⟩
    · rw [hr] at h1; cases h1
    · refine ⟨a, h0, ?_⟩
      by_cases hn : newsOf disk pkts = []
      · exact .inl hn
      · refine .inr ⟨(hb hn).2, ?_⟩
        intro hl
        simp only [lastStamp, Option.map_eq_some_iff] at hl
        obtain ⟨e, he, hea⟩ := hl
        have := (hb hn).1 e (List.mem_of_getLast? he)
        omega
  · rintro ⟨a, h0, hor⟩
    rw [save, hio]
    simp only [h0]
    have hlen : newsOf disk pkts ≠ [] → a + (newsOf disk pkts).length < 2 ^ 64 := by
      intro hn; rcases hor with h | h
      · exact absurd h hn
      · exact h.1
    obtain ⟨r1, ⟨n1, db1, a1⟩, hp⟩ := putHashes_total hio pkts 1 disk a _ (knows_of_consistent hc) hlen
    obtain ⟨h1, h2, h3, h4⟩ := putHashes_ok io pkts 1 disk a _ r1 n1 db1 a1 (knows_of_consistent hc) hp
    rw [hp]
    simp only
    by_cases hz : a1 - a = 0
    · rw [if_pos hz]; exact ⟨_, rfl⟩
    · rw [if_neg hz]
      have hne : newsOf disk pkts ≠ [] := fun h => hz (by
        have : (news (hashesOf disk.log) (pendings pkts)) = [] := h
        rw [this] at h2; simp at h2; omega)
      have hla := (hor.resolve_left hne).2
      have hlast : ∀ last, lastStamp db1.log = some last → last < a := by
        intro last hl
        rw [h4] at hl
        simp only at hl
        rw [startStamp, hl] at h0
        simp only at h0
        split at h0
        · split at h0
          · cases h0; omega
          · cases h0
        · cases h0
          have : last ≠ now := fun h => hla (by rw [hl, h])
          omega
      obtain ⟨⟨n2, db2⟩, hl⟩ := putLog_total hio r1 n1 db1 a hlast
      rw [hl]
      simp only
      obtain ⟨r3, ⟨n3, db3, a3⟩, ht⟩ := putTree_total hio r1 n2 db2 a
      rw [ht]
      simp only [commit, hio]
      exact ⟨_, rfl⟩

/-- **C24, partial.** The full claim, that saving never fails because of the clock, is false (`save_same_clock`).
    What holds: whatever the clock shows, jumps backwards included, a save succeeds
    unless the clock shows exactly the last stamp or the stamps end. -/
theorem save_any_clock_partial {disk : Db} (hc : Consistent disk) {io : Nat → Call} (hio : ∀ n, io n = .ok) (now : Nat)
    (pkts : List (NetParts × SaveState)) (hne : lastStamp disk.log ≠ some now)
    (h1 : now + (newsOf disk pkts).length < 2 ^ 64) (h2 : ∀ e ∈ disk.log, e.1 + 1 + (newsOf disk pkts).length < 2 ^ 64) :
    ∃ r, (save io now disk pkts).out = .ok r := by
  rw [save_succeeds_iff hc hio]
  cases hl : lastStamp disk.log with
  | none => exact ⟨now, by rw [startStamp, hl], .inr ⟨h1, nofun⟩⟩
  | some last =>
    have hm : last + 1 + (newsOf disk pkts).length < 2 ^ 64 := by
      simp only [lastStamp, Option.map_eq_some_iff] at hl
      obtain ⟨e, he, rfl⟩ := hl
      exact h2 e (List.mem_of_getLast? he)
    by_cases hgt : last > now
    · refine ⟨last + 1, ?_, .inr ⟨hm, ?_⟩⟩
      · rw [startStamp, hl]
        simp only
        rw [if_pos hgt, if_pos (by unfold u64End; omega)]
      · simp
    · refine ⟨now, ?_, .inr ⟨h1, ?_⟩⟩
      · rw [startStamp, hl]
        simp only
        rw [if_neg hgt]
      · rw [← hl]; exact hne

/-- **C24 fails.** A save of anything new at the very microsecond of the last stamp is refused, on every database, although LMDB does its part. -/
theorem save_same_clock {disk : Db} (hc : Consistent disk) (io : Nat → Call) (now : Nat)
    (pkts : List (NetParts × SaveState)) (hl : lastStamp disk.log = some now) (hn : newsOf disk pkts ≠ []) :
    (save io now disk pkts).disk = disk ∧ ∃ e, (save io now disk pkts).out = .error e := by
  rcases save_cases hc io now pkts with h | ⟨a, h0, -, hb, -⟩
  · exact h
  · rw [startStamp, hl] at h0
    simp only at h0
    rw [if_neg (Nat.lt_irrefl _)] at h0
    cases h0
    simp only [lastStamp, Option.map_eq_some_iff] at hl
    obtain ⟨e, he, hea⟩ := hl
    have := (hb hn).1 e (List.mem_of_getLast? he)
    omega

/-! ### C25 -/

/-- **C25.** Whatever fails and wherever the process dies inside a save, the disk holds what it held before,
    or all of what the undisturbed save writes. -/
theorem save_atomic {disk : Db} (hc : Consistent disk) (io : Nat → Call) (now : Nat) (pkts : List (NetParts × SaveState)) :
    (save io now disk pkts).disk = disk ∨ (save io now disk pkts).disk = (save (fun _ => .ok) now disk pkts).disk := by
  rcases save_cases hc io now pkts with ⟨h, -⟩ | ⟨a, h0, h, hb, -⟩
  · exact .inl h
  · refine .inr ?_
    have : ∃ r, (save (fun _ => .ok) now disk pkts).out = .ok r := by
      rw [save_succeeds_iff hc (fun _ => rfl)]
      refine ⟨a, h0, ?_⟩
      by_cases hn : newsOf disk pkts = []
      · exact .inl hn
      · refine .inr ⟨(hb hn).2, ?_⟩
        intro hl
        simp only [lastStamp, Option.map_eq_some_iff] at hl
        obtain ⟨e, he, hea⟩ := hl
        have := (hb hn).1 e (List.mem_of_getLast? he)
        omega
    obtain ⟨r, hr⟩ := this
    rcases save_cases hc (fun _ => .ok) now pkts with ⟨-, e, h1⟩ | ⟨a', h0', h', -⟩
    · rw [hr] at h1; cases h1
    · rw [h0] at h0'; cases h0'
      rw [h, h']

/-- **C25.** A save that returns an error, or panics, has changed nothing. -/
theorem save_error_unchanged {disk : Db} (hc : Consistent disk) {io : Nat → Call} {now : Nat} {pkts : List (NetParts × SaveState)}
    {e : Stop} (h : (save io now disk pkts).out = .error e) (he : e ≠ .died) : (save io now disk pkts).disk = disk := by
  rcases save_cases hc io now pkts with ⟨h1, -⟩ | ⟨a, -, -, -, -, h1 | ⟨h1, -⟩⟩
  · exact h1
  · rw [h] at h1; cases h1
  · rw [h] at h1; cases h1; exact absurd rfl he

/-- **C25.** A save that returned is all there. -/
theorem save_ok_durable {disk : Db} (hc : Consistent disk) {io : Nat → Call} {now : Nat} {pkts : List (NetParts × SaveState)}
    {r : Nat × Nat} (h : (save io now disk pkts).out = .ok r) :
    (save io now disk pkts).disk = (save (fun _ => .ok) now disk pkts).disk := by
  rcases save_cases hc io now pkts with ⟨-, e, h1⟩ | ⟨a, h0, h1, hb, -⟩
  · rw [h] at h1; cases h1
  · rcases save_cases hc (fun _ => .ok) now pkts with ⟨-, e, h2⟩ | ⟨a', h0', h2, -⟩
    · have : ∃ r, (save (fun _ => .ok) now disk pkts).out = .ok r := by
        rw [save_succeeds_iff hc (fun _ => rfl)]
        refine ⟨a, h0, ?_⟩
        by_cases hn : newsOf disk pkts = []
        · exact .inl hn
        · refine .inr ⟨(hb hn).2, ?_⟩
          intro hl
          simp only [lastStamp, Option.map_eq_some_iff] at hl
          obtain ⟨x, hx, hea⟩ := hl
          have := (hb hn).1 x (List.mem_of_getLast? hx)
          omega
      obtain ⟨r', hr'⟩ := this
      rw [hr'] at h2; cases h2
    · rw [h0] at h0'; cases h0'
      rw [h1, h2]

/-! ### cases -/

/-- Three packets, one of them twice in the batch, in two saves with a clock that goes backwards. -/
def exHistory : List SaveEv :=
  [⟨fun _ => .ok, 100, [(exPkt [[65]] 7 1, .pending), (exPkt [[65]] 8 2, .pending), (exPkt [[65]] 7 1, .pending)]⟩,
   ⟨fun _ => .ok, 50, [(exPkt [[65]] 8 2, .pending), (exPkt [[66]] 3 3, .pending)]⟩,
   ⟨fun n => if n = 3 then .dieBefore else .ok, 200, [(exPkt [[66]] 4 4, .pending)]⟩]

theorem exHistory_log : (runSaves {} exHistory).log = [(100, exPkt [[65]] 7 1), (101, exPkt [[65]] 8 2), (102, exPkt [[66]] 3 3)] := by
  decide +kernel
theorem exHistory_tree : (runSaves {} exHistory).tree.map (fun e => e.2.length) = [2, 1] := by decide +kernel
theorem exHistory_batch : newsOf (runSaves {} (exHistory.take 1)) [(exPkt [[65]] 8 2, .pending), (exPkt [[66]] 3 3, .pending)] =
    [exPkt [[66]] 3 3] := by decide +kernel
/-- The refused save of `save_same_clock` happens. -/
theorem exHistory_refused : (save (fun _ => .ok) 102 (runSaves {} exHistory) [(exPkt [[66]] 4 4, .pending)]).out matches .error .err := by
  decide +kernel
/-- The states say `written` although the commit failed. -/
theorem written_without_commit :
    ((save (fun n => if n = 4 then .fail else .ok) 200 {} [(exPkt [[66]] 4 4, .pending)]).pkts.map (·.2) = [.written]) ∧
    (save (fun n => if n = 4 then .fail else .ok) 200 {} [(exPkt [[66]] 4 4, .pending)]).disk = {} := by decide +kernel

end Verif.Props
