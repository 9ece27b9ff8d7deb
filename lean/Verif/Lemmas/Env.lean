import Verif.Spec.Env
import Verif.Lemmas.TreeKey
/-!
# Lemmas about the database model
-/
namespace Verif.Env
open Verif Verif.Pkt Verif.Tree Verif.Spec

/-! ### tables -/

theorem hashIns_mem (h : Bytes) (i : Nat) (t : List (Bytes × Nat)) (e : Bytes × Nat) :
    e ∈ hashIns h i t ↔ e = (h, i) ∨ e ∈ t := by
  induction t with
  | nil => simp [hashIns]
  | cons x r ih =>
    obtain ⟨k, j⟩ := x
    simp only [hashIns]
    split
    · simp
    · simp only [List.mem_cons, ih]
      constructor
      · rintro (h | h | h) <;> simp [h]
      · rintro (h | h | h) <;> simp [h]

theorem hashIns_sorted (h : Bytes) (i : Nat) (t : List (Bytes × Nat)) (hs : t.Pairwise (fun a b => bytesLt a.1 b.1 = true))
    (hn : ∀ j, (h, j) ∉ t) : (hashIns h i t).Pairwise (fun a b => bytesLt a.1 b.1 = true) := by
  induction t with
  | nil => simp [hashIns]
  | cons x r ih =>
    obtain ⟨k, j⟩ := x
    rw [List.pairwise_cons] at hs
    simp only [hashIns]
    split
    · rename_i hlt
      rw [List.pairwise_cons]
      refine ⟨?_, List.pairwise_cons.2 hs⟩
      intro e he
      rcases List.mem_cons.1 he with rfl | he
      · exact hlt
      · exact bytesLt_trans hlt (hs.1 e he)
    · rename_i hlt
      rw [List.pairwise_cons]
      refine ⟨?_, ih hs.2 (fun j hj => hn j (List.mem_cons_of_mem _ hj))⟩
      intro e he
      rcases (hashIns_mem h i r e).1 he with rfl | he
      · rcases bytesLt_total h k with h1 | h1 | h1
        · exact absurd h1 hlt
        · exact absurd (by rw [h1]; exact List.mem_cons_self) (hn j)
        · exact h1
      · exact hs.1 e he

theorem hashGet_iff (t : List (Bytes × Nat)) (hs : t.Pairwise (fun a b => bytesLt a.1 b.1 = true)) (h : Bytes) (i : Nat) :
    hashGet t h = some i ↔ (h, i) ∈ t := by
  induction t with
  | nil => simp [hashGet]
  | cons x r ih =>
    obtain ⟨k, j⟩ := x
    rw [List.pairwise_cons] at hs
    simp only [hashGet, List.find?_cons] at ih ⊢
    by_cases hk : k = h
    · subst hk
      simp only [beq_self_eq_true, Option.map_some, Option.some.injEq, List.mem_cons, Prod.mk.injEq, true_and]
      constructor
      · intro h1; exact .inl h1.symm
      · rintro (h1 | h1)
        · exact h1.symm
        · have h2 := bytesLt_ne (hs.1 _ h1)
          exact absurd rfl h2
    · have : (k == h) = false := by simpa using hk
      simp only [this]
      rw [ih hs.2]
      simp only [List.mem_cons, Prod.mk.injEq]
      constructor
      · exact .inr
      · rintro (⟨h1, -⟩ | h1)
        · exact absurd h1.symm hk
        · exact h1

theorem hashGet_none (t : List (Bytes × Nat)) (h : Bytes) : hashGet t h = none ↔ ∀ i, (h, i) ∉ t := by
  simp only [hashGet, Option.map_eq_none_iff, List.find?_eq_none, beq_iff_eq, Prod.forall]
  constructor
  · intro h1 i hi; exact h1 h i hi rfl
  · intro h1 a b hab hh; subst hh; exact h1 b hab

theorem logGet_iff (t : List (Nat × NetParts)) (hs : t.Pairwise (fun a b => a.1 < b.1)) (i : Nat) (p : NetParts) :
    logGet t i = some p ↔ (i, p) ∈ t := by
  induction t with
  | nil => simp [logGet]
  | cons x r ih =>
    obtain ⟨k, q⟩ := x
    rw [List.pairwise_cons] at hs
    simp only [logGet, List.find?_cons] at ih ⊢
    by_cases hk : k = i
    · subst hk
      simp only [beq_self_eq_true, Option.map_some, Option.some.injEq, List.mem_cons, Prod.mk.injEq, true_and]
      constructor
      · intro h1; exact .inl h1.symm
      · rintro (h1 | h1)
        · exact h1.symm
        · exact absurd (hs.1 _ h1) (Nat.lt_irrefl _)
    · have : (k == i) = false := by simpa using hk
      simp only [this]
      rw [ih hs.2]
      simp only [List.mem_cons, Prod.mk.injEq]
      constructor
      · exact .inr
      · rintro (⟨h1, -⟩ | h1)
        · exact absurd h1.symm hk
        · exact h1

theorem dupIns_mem (v x : Bytes) (t : List Bytes) : x ∈ dupIns v t ↔ x = v ∨ x ∈ t := by
  induction t with
  | nil => simp [dupIns]
  | cons y r ih =>
    simp only [dupIns]
    split
    · rename_i h; subst h
      simp only [List.mem_cons]
      constructor
      · exact .inr
      · rintro (h | h)
        · exact .inl h
        · exact h
    · split
      · simp
      · simp only [List.mem_cons, ih]
        constructor
        · rintro (h | h | h) <;> simp [h]
        · rintro (h | h | h) <;> simp [h]

theorem dupIns_sorted (v : Bytes) (t : List Bytes) (hs : t.Pairwise (fun a b => bytesLt a b = true)) :
    (dupIns v t).Pairwise (fun a b => bytesLt a b = true) := by
  induction t with
  | nil => simp [dupIns]
  | cons y r ih =>
    have hs' := List.pairwise_cons.1 hs
    simp only [dupIns]
    split
    · exact hs
    · rename_i hne
      split
      · rename_i hlt
        rw [List.pairwise_cons]
        refine ⟨?_, hs⟩
        intro e he
        rcases List.mem_cons.1 he with rfl | he
        · exact hlt
        · exact bytesLt_trans hlt (hs'.1 e he)
      · rename_i hlt
        rw [List.pairwise_cons]
        refine ⟨?_, ih hs'.2⟩
        intro e he
        rcases (dupIns_mem v e r).1 he with rfl | he
        · rcases bytesLt_total e y with h1 | h1 | h1
          · exact absurd h1 hlt
          · exact absurd h1 hne
          · exact h1
        · exact hs'.1 e he

theorem dupIns_ne (v : Bytes) (t : List Bytes) : dupIns v t ≠ [] := by
  intro h
  have := (dupIns_mem v v t).2 (.inl rfl)
  rw [h] at this; cases this

/-- The entries of a tree table. -/
def InTree (t : List (Bytes × List Bytes)) (k v : Bytes) : Prop := ∃ vs, (k, vs) ∈ t ∧ v ∈ vs

theorem treeIns_keys (k v : Bytes) (t : List (Bytes × List Bytes)) (x : Bytes) :
    (∃ vs, (x, vs) ∈ treeIns k v t) → x = k ∨ ∃ vs, (x, vs) ∈ t := by
  induction t with
  | nil =>
    rintro ⟨vs, h⟩
    simp only [treeIns, List.mem_singleton, Prod.mk.injEq] at h
    exact .inl h.1
  | cons y r ih =>
    obtain ⟨k', us⟩ := y
    simp only [treeIns]
    split
    · rintro ⟨vs, h⟩
      rcases List.mem_cons.1 h with h | h
      · cases h; exact .inr ⟨us, List.mem_cons_self⟩
      · exact .inr ⟨vs, List.mem_cons_of_mem _ h⟩
    · split
      · rintro ⟨vs, h⟩
        rcases List.mem_cons.1 h with h | h
        · cases h; exact .inl rfl
        · exact .inr ⟨vs, h⟩
      · rintro ⟨vs, h⟩
        rcases List.mem_cons.1 h with h | h
        · cases h; exact .inr ⟨us, List.mem_cons_self⟩
        · rcases ih ⟨vs, h⟩ with h | ⟨ws, h⟩
          · exact .inl h
          · exact .inr ⟨ws, List.mem_cons_of_mem _ h⟩

theorem treeIns_mem (k v : Bytes) (t : List (Bytes × List Bytes)) (x y : Bytes) :
    InTree (treeIns k v t) x y ↔ (x = k ∧ y = v) ∨ InTree t x y := by
  induction t with
  | nil =>
    simp only [treeIns, InTree, List.mem_singleton, Prod.mk.injEq, List.not_mem_nil, false_and, exists_false, or_false]
    constructor
    · rintro ⟨vs, ⟨rfl, rfl⟩, h⟩; exact ⟨rfl, List.mem_singleton.1 h⟩
    · rintro ⟨rfl, rfl⟩; exact ⟨[y], ⟨rfl, rfl⟩, List.mem_singleton_self _⟩
  | cons z r ih =>
    obtain ⟨k', us⟩ := z
    have hc : ∀ (l : List (Bytes × List Bytes)) (a : Bytes) (bs : List Bytes),
        InTree ((a, bs) :: l) x y ↔ (x = a ∧ y ∈ bs) ∨ InTree l x y := by
      intro l a bs
      simp only [InTree, List.mem_cons]
      constructor
      · rintro ⟨vs, h | h, hy⟩
        · cases h; exact .inl ⟨rfl, hy⟩
        · exact .inr ⟨vs, h, hy⟩
      · rintro (⟨rfl, h⟩ | ⟨vs, h, hy⟩)
        · exact ⟨bs, .inl rfl, h⟩
        · exact ⟨vs, .inr h, hy⟩
    simp only [treeIns]
    split
    · rename_i h; subst h
      rw [hc, hc, dupIns_mem]
      constructor
      · rintro (⟨h1, h2 | h2⟩ | h2)
        · exact .inl ⟨h1, h2⟩
        · exact .inr (.inl ⟨h1, h2⟩)
        · exact .inr (.inr h2)
      · rintro (⟨h1, h2⟩ | ⟨h1, h2⟩ | h2)
        · exact .inl ⟨h1, .inl h2⟩
        · exact .inl ⟨h1, .inr h2⟩
        · exact .inr h2
    · split
      · rw [hc]; simp only [List.mem_singleton]
      · rw [hc, hc, ih]
        constructor
        · rintro (h | h | h)
          · exact .inr (.inl h)
          · exact .inl h
          · exact .inr (.inr h)
        · rintro (h | h | h)
          · exact .inr (.inl h)
          · exact .inl h
          · exact .inr (.inr h)

theorem treeIns_sorted (k v : Bytes) (t : List (Bytes × List Bytes)) (hs : t.Pairwise (fun a b => bytesLt a.1 b.1 = true)) :
    (treeIns k v t).Pairwise (fun a b => bytesLt a.1 b.1 = true) := by
  induction t with
  | nil => simp [treeIns]
  | cons y r ih =>
    obtain ⟨k', us⟩ := y
    have hs' := List.pairwise_cons.1 hs
    simp only [treeIns]
    split
    · exact List.pairwise_cons.2 ⟨hs'.1, hs'.2⟩
    · rename_i hne
      split
      · rename_i hlt
        rw [List.pairwise_cons]
        refine ⟨?_, hs⟩
        intro e he
        rcases List.mem_cons.1 he with rfl | he
        · exact hlt
        · exact bytesLt_trans hlt (hs'.1 e he)
      · rename_i hlt
        rw [List.pairwise_cons]
        refine ⟨?_, ih hs'.2⟩
        rintro ⟨x, vs⟩ he
        rcases treeIns_keys k v r x ⟨vs, he⟩ with rfl | ⟨ws, hw⟩
        · rcases bytesLt_total x k' with h1 | h1 | h1
          · exact absurd h1 hlt
          · exact absurd h1 hne
          · exact h1
        · have h2 := hs'.1 _ hw
          exact h2

theorem treeIns_dups (k v : Bytes) (t : List (Bytes × List Bytes))
    (hd : ∀ x vs, (x, vs) ∈ t → vs ≠ [] ∧ vs.Pairwise (fun a b => bytesLt a b = true)) :
    ∀ x vs, (x, vs) ∈ treeIns k v t → vs ≠ [] ∧ vs.Pairwise (fun a b => bytesLt a b = true) := by
  induction t with
  | nil =>
    intro x vs h
    simp only [treeIns, List.mem_singleton, Prod.mk.injEq] at h
    obtain ⟨-, rfl⟩ := h
    simp
  | cons y r ih =>
    obtain ⟨k', us⟩ := y
    intro x vs
    simp only [treeIns]
    split
    · intro h
      rcases List.mem_cons.1 h with h | h
      · cases h
        exact ⟨dupIns_ne _ _, dupIns_sorted _ _ (hd _ _ List.mem_cons_self).2⟩
      · exact hd _ _ (List.mem_cons_of_mem _ h)
    · split
      · intro h
        rcases List.mem_cons.1 h with h | h
        · cases h; simp
        · exact hd _ _ h
      · intro h
        rcases List.mem_cons.1 h with h | h
        · cases h; exact hd _ _ List.mem_cons_self
        · exact ih (fun x vs h => hd x vs (List.mem_cons_of_mem _ h)) _ _ h

/-! ### one packet at a time -/

/-- The tables with one more packet. -/
def addOne (db : Db) (e : Nat × NetParts) : Db where
  log := db.log ++ [e]
  hash := hashIns e.2.hash e.1 db.hash
  tree := match TreeEntry.fromPkt e.1 e.2 with
    | none => db.tree
    | some t => treeIns t.key t.val db.tree

theorem addOne_ok {db : Db} (hc : Consistent db) (i : Nat) (p : NetParts) (hi : i < 2 ^ 64) (hlast : ∀ e ∈ db.log, e.1 < i)
    (hnew : p.hash ∉ hashesOf db.log) : Consistent (addOne db (i, p)) where
  logSorted := by
    simp only [addOne]
    rw [List.pairwise_append]
    refine ⟨hc.logSorted, by simp, ?_⟩
    intro a ha b hb
    simp only [List.mem_singleton] at hb
    subst hb; exact hlast a ha
  stamps := by
    intro j q h
    simp only [addOne, List.mem_append, List.mem_singleton, Prod.mk.injEq] at h
    rcases h with h | ⟨rfl, -⟩
    · exact hc.stamps j q h
    · exact hi
  hashSorted := by
    refine hashIns_sorted _ _ _ hc.hashSorted ?_
    intro j hj
    obtain ⟨q, hq, hqh⟩ := (hc.hashLog _ _).1 hj
    exact hnew (List.mem_map.2 ⟨_, hq, hqh⟩)
  treeSorted := by
    simp only [addOne]
    split
    · exact hc.treeSorted
    · exact treeIns_sorted _ _ _ hc.treeSorted
  dupSorted := by
    simp only [addOne]
    split
    · exact hc.dupSorted
    · exact treeIns_dups _ _ _ hc.dupSorted
  hashLog := by
    intro h j
    simp only [addOne, hashIns_mem, hc.hashLog, List.mem_append, List.mem_singleton, Prod.mk.injEq]
    constructor
    · rintro (⟨rfl, rfl⟩ | ⟨q, hq, rfl⟩)
      · exact ⟨p, .inr ⟨rfl, rfl⟩, rfl⟩
      · exact ⟨q, .inl hq, rfl⟩
    · rintro ⟨q, hq | ⟨rfl, rfl⟩, rfl⟩
      · exact .inr ⟨q, hq, rfl⟩
      · exact .inl ⟨rfl, rfl⟩
  treeLog := by
    intro k v
    have key : (∃ vs, (k, vs) ∈ (addOne db (i, p)).tree ∧ v ∈ vs) ↔
        TreeEntry.fromPkt i p = some ⟨k, v⟩ ∨ ∃ vs, (k, vs) ∈ db.tree ∧ v ∈ vs := by
      simp only [addOne]
      split
      · rename_i h; simp [h]
      · rename_i t h
        have := treeIns_mem t.key t.val db.tree k v
        simp only [InTree] at this
        rw [this, h]
        obtain ⟨tk, tv⟩ := t
        simp only [Option.some.injEq, TreeEntry.mk.injEq]
        constructor
        · rintro (⟨rfl, rfl⟩ | h)
          · exact .inl ⟨rfl, rfl⟩
          · exact .inr h
        · rintro (⟨rfl, rfl⟩ | h)
          · exact .inl ⟨rfl, rfl⟩
          · exact .inr h
    rw [key, hc.treeLog]
    simp only [addOne, List.mem_append, List.mem_singleton, Prod.mk.injEq]
    constructor
    · rintro (h | ⟨j, q, hq, h⟩)
      · exact ⟨i, p, .inr ⟨rfl, rfl⟩, h⟩
      · exact ⟨j, q, .inl hq, h⟩
    · rintro ⟨j, q, hq | ⟨rfl, rfl⟩, h⟩
      · exact .inr ⟨j, q, hq, h⟩
      · exact .inl h

/-! ### the passes -/

/-- The states after the first pass. -/
def marked (known : List Bytes) : List (NetParts × SaveState) → List (NetParts × SaveState)
  | [] => []
  | (p, s) :: r =>
    if s = .pending then
      if p.hash ∈ known then (p, .exists) :: marked known r else (p, s) :: marked (p.hash :: known) r
    else (p, s) :: marked known r

/-- The states after the third pass. -/
def finished : List (NetParts × SaveState) → List (NetParts × SaveState)
  | [] => []
  | (p, s) :: r => (p, if s = .pending then .written else s) :: finished r

theorem pendings_cons (p : NetParts) (s : SaveState) (r : List (NetParts × SaveState)) :
    pendings ((p, s) :: r) = if s = .pending then p :: pendings r else pendings r := by
  simp only [pendings, List.filterMap_cons]
  split <;> rename_i h <;> split at h <;> simp_all

theorem pendings_marked (known : List Bytes) (l : List (NetParts × SaveState)) :
    pendings (marked known l) = news known (pendings l) := by
  induction l generalizing known with
  | nil => rfl
  | cons x r ih =>
    obtain ⟨p, s⟩ := x
    by_cases hs : s = .pending
    · subst hs
      rw [pendings_cons, if_pos rfl]
      simp only [marked, news, if_pos]
      by_cases hk : p.hash ∈ known
      · rw [if_pos hk, if_pos hk, pendings_cons, if_neg (by decide), ih]
      · rw [if_neg hk, if_neg hk, pendings_cons, if_pos rfl, ih]
    · rw [pendings_cons, if_neg hs]
      simp only [marked, if_neg hs]
      rw [pendings_cons, if_neg hs, ih]

/-- The hash table holds exactly these hashes. -/
def Knows (t : List (Bytes × Nat)) (known : List Bytes) : Prop := ∀ h, h ∈ known ↔ ∃ i, (h, i) ∈ t

theorem knows_get {t : List (Bytes × Nat)} {known : List Bytes} (hk : Knows t known) (h : Bytes) :
    hashGet t h = none ↔ h ∉ known := by
  rw [hashGet_none, hk h]; simp

theorem knows_ins {t : List (Bytes × Nat)} {known : List Bytes} (hk : Knows t known) (h : Bytes) (i : Nat) :
    Knows (hashIns h i t) (h :: known) := by
  intro x
  simp only [List.mem_cons, hashIns_mem, Prod.mk.injEq]
  constructor
  · rintro (rfl | hx)
    · exact ⟨i, .inl ⟨rfl, rfl⟩⟩
    · obtain ⟨j, hj⟩ := (hk x).1 hx; exact ⟨j, .inr hj⟩
  · rintro ⟨j, ⟨rfl, -⟩ | hj⟩
    · exact .inl rfl
    · exact .inr ((hk x).2 ⟨j, hj⟩)

def hashFold (t : List (Bytes × Nat)) (es : List (Nat × NetParts)) : List (Bytes × Nat) :=
  es.foldl (fun t e => hashIns e.2.hash e.1 t) t
def treeFold (t : List (Bytes × List Bytes)) (es : List (Nat × NetParts)) : List (Bytes × List Bytes) :=
  es.foldl (fun t e => match TreeEntry.fromPkt e.1 e.2 with
    | none => t
    | some x => treeIns x.key x.val t) t

theorem putHashes_ok (io : Nat → Call) (l : List (NetParts × SaveState)) : ∀ (n : Nat) (db : Db) (a : Nat) (known : List Bytes)
    (r : List (NetParts × SaveState)) (n' : Nat) (db' : Db) (a' : Nat), Knows db.hash known →
    putHashes io n db a l = (r, .ok (n', db', a')) →
    r = marked known l ∧ a' = a + (news known (pendings l)).length ∧
      ((news known (pendings l)).length ≠ 0 → a' < 2 ^ 64) ∧
      db' = { db with hash := hashFold db.hash (stamped a (news known (pendings l))) } := by
  induction l with
  | nil =>
    intro n db a known r n' db' a' _ h
    simp only [putHashes, Prod.mk.injEq, Except.ok.injEq] at h
    obtain ⟨rfl, rfl, rfl, rfl⟩ := h
    simp [marked, pendings, news, stamped, hashFold]
  | cons x rest ih =>
    obtain ⟨p, s⟩ := x
    intro n db a known r n' db' a' hk h
    rw [putHashes] at h
    by_cases hs : s = .pending
    · rw [if_pos hs] at h
      cases hio : io n with
      | fail => rw [hio] at h; simp at h
      | dieBefore => rw [hio] at h; simp at h
      | dieAfter => rw [hio] at h; simp at h
      | ok =>
        rw [hio] at h
        simp only at h
        cases hg : hashGet db.hash p.hash with
        | some i =>
          rw [hg] at h
          simp only at h
          have hin : p.hash ∈ known := by
            refine Classical.byContradiction fun hnin => ?_
            rw [(knows_get hk p.hash).2 hnin] at hg; cases hg
          cases hr : putHashes io (n + 1) db a rest with
          | mk r1 o1 =>
            rw [hr] at h
            simp only [Prod.mk.injEq] at h
            obtain ⟨rfl, rfl⟩ := h
            have := ih (n + 1) db a known r1 n' db' a' hk hr
            rw [pendings_cons, if_pos hs]
            simp only [news, if_pos hin, marked, if_pos hs]
            exact ⟨by rw [this.1], this.2⟩
        | none =>
          rw [hg] at h
          simp only at h
          have hnin : p.hash ∉ known := (knows_get hk p.hash).1 hg
          split at h
          · rename_i hlt
            cases hr : putHashes io (n + 1) { db with hash := hashIns p.hash a db.hash } (a + 1) rest with
            | mk r1 o1 =>
              rw [hr] at h
              simp only [Prod.mk.injEq] at h
              obtain ⟨rfl, rfl⟩ := h
              obtain ⟨h1, h2, h3, h4⟩ := ih (n + 1) _ (a + 1) (p.hash :: known) r1 n' db' a' (knows_ins hk p.hash a) hr
              rw [pendings_cons, if_pos hs]
              simp only [news, if_neg hnin, marked, if_pos hs, List.length_cons]
              refine ⟨by rw [h1], by omega, ?_, ?_⟩
              · intro _
                by_cases hz : (news (p.hash :: known) (pendings rest)).length = 0
                · unfold u64End at hlt; omega
                · exact h3 hz
              · rw [h4]; simp [stamped, hashFold]
          · simp at h
    · rw [if_neg hs] at h
      cases hr : putHashes io n db a rest with
      | mk r1 o1 =>
        rw [hr] at h
        simp only [Prod.mk.injEq] at h
        obtain ⟨rfl, rfl⟩ := h
        have := ih n db a known r1 n' db' a' hk hr
        rw [pendings_cons, if_neg hs]
        simp only [marked, if_neg hs]
        exact ⟨by rw [this.1], this.2⟩

theorem lastStamp_append (t : List (Nat × NetParts)) (e : Nat × NetParts) : lastStamp (t ++ [e]) = some e.1 := by
  simp [lastStamp]

theorem lastStamp_le {t : List (Nat × NetParts)} (hs : t.Pairwise (fun a b => a.1 < b.1)) {m : Nat}
    (h : ∀ last, lastStamp t = some last → last < m) : ∀ e ∈ t, e.1 < m := by
  intro e he
  cases hl : t.getLast? with
  | none => rw [List.getLast?_eq_none_iff] at hl; subst hl; cases he
  | some l =>
    have h1 := h l.1 (by simp [lastStamp, hl])
    obtain ⟨t', rfl⟩ := List.getLast?_eq_some_iff.1 hl
    rcases List.mem_append.1 he with he | he
    · have := (List.pairwise_append.1 hs).2.2 e he l (by simp)
      omega
    · simp only [List.mem_singleton] at he; subst he; exact h1

theorem putLog_ok (io : Nat → Call) (l : List (NetParts × SaveState)) : ∀ (n : Nat) (db : Db) (a n' : Nat) (db' : Db),
    putLog io n db a l = .ok (n', db') →
    db' = { db with log := db.log ++ stamped a (pendings l) } ∧
      (pendings l ≠ [] → ∀ last, lastStamp db.log = some last → last < a) := by
  induction l with
  | nil =>
    intro n db a n' db' h
    simp only [putLog, Except.ok.injEq, Prod.mk.injEq] at h
    obtain ⟨rfl, rfl⟩ := h
    simp [pendings, stamped]
  | cons x rest ih =>
    obtain ⟨p, s⟩ := x
    intro n db a n' db' h
    rw [putLog] at h
    by_cases hs : s = .pending
    · rw [if_pos hs] at h
      rw [pendings_cons, if_pos hs]
      cases hio : io n with
      | fail => rw [hio] at h; simp at h
      | dieBefore => rw [hio] at h; simp at h
      | dieAfter => rw [hio] at h; simp at h
      | ok =>
        rw [hio] at h
        simp only at h
        have fin : putLog io (n + 1) { db with log := db.log ++ [(a, p)] } (a + 1) rest = .ok (n', db') →
            db' = { db with log := db.log ++ stamped a (p :: pendings rest) } := by
          intro h
          obtain ⟨h1, -⟩ := ih _ _ _ _ _ h
          rw [h1]; simp [stamped]
        cases hl : lastStamp db.log with
        | none => rw [hl] at h; exact ⟨fin h, fun _ _ => nofun⟩
        | some last =>
          rw [hl] at h
          simp only at h
          split at h
          · cases h
          · refine ⟨fin h, fun _ l2 hl2 => ?_⟩
            cases hl2; omega
    · rw [if_neg hs] at h
      rw [pendings_cons, if_neg hs]
      exact ih _ _ _ _ _ h

theorem putTree_ok (io : Nat → Call) (l : List (NetParts × SaveState)) : ∀ (n : Nat) (db : Db) (a : Nat)
    (r : List (NetParts × SaveState)) (n' : Nat) (db' : Db) (a' : Nat),
    putTree io n db a l = (r, .ok (n', db', a')) →
    r = finished l ∧ a' = a + (pendings l).length ∧ db' = { db with tree := treeFold db.tree (stamped a (pendings l)) } := by
  induction l with
  | nil =>
    intro n db a r n' db' a' h
    simp only [putTree, Prod.mk.injEq, Except.ok.injEq] at h
    obtain ⟨rfl, rfl, rfl, rfl⟩ := h
    simp [pendings, stamped, treeFold, finished]
  | cons x rest ih =>
    obtain ⟨p, s⟩ := x
    intro n db a r n' db' a' h
    rw [putTree] at h
    by_cases hs : s = .pending
    · rw [if_pos hs] at h
      rw [pendings_cons, if_pos hs]
      cases ht : TreeEntry.fromPkt a p with
      | none =>
        rw [ht] at h
        simp only at h
        cases hr : putTree io n db (a + 1) rest with
        | mk r1 o1 =>
          rw [hr] at h
          simp only [Prod.mk.injEq] at h
          obtain ⟨rfl, rfl⟩ := h
          obtain ⟨h1, h2, h3⟩ := ih _ _ _ _ _ _ _ hr
          refine ⟨by rw [h1]; simp [finished, hs], by simp only [List.length_cons]; omega, ?_⟩
          rw [h3]; simp [stamped, treeFold, ht]
      | some e =>
        rw [ht] at h
        simp only at h
        cases hio : io n with
        | fail => rw [hio] at h; simp at h
        | dieBefore => rw [hio] at h; simp at h
        | dieAfter => rw [hio] at h; simp at h
        | ok =>
          rw [hio] at h
          simp only at h
          cases hr : putTree io (n + 1) { db with tree := treeIns e.key e.val db.tree } (a + 1) rest with
          | mk r1 o1 =>
            rw [hr] at h
            simp only [Prod.mk.injEq] at h
            obtain ⟨rfl, rfl⟩ := h
            obtain ⟨h1, h2, h3⟩ := ih _ _ _ _ _ _ _ hr
            refine ⟨by rw [h1]; simp [finished, hs], by simp only [List.length_cons]; omega, ?_⟩
            rw [h3]; simp [stamped, treeFold, ht]
    · rw [if_neg hs] at h
      rw [pendings_cons, if_neg hs]
      cases hr : putTree io n db a rest with
      | mk r1 o1 =>
        rw [hr] at h
        simp only [Prod.mk.injEq] at h
        obtain ⟨rfl, rfl⟩ := h
        obtain ⟨h1, h2, h3⟩ := ih _ _ _ _ _ _ _ hr
        exact ⟨by rw [h1]; simp [finished, hs], h2, h3⟩

/-- The tables with these packets added. -/
def added (db : Db) (es : List (Nat × NetParts)) : Db :=
  { log := db.log ++ es, hash := hashFold db.hash es, tree := treeFold db.tree es }

theorem added_cons (db : Db) (e : Nat × NetParts) (es : List (Nat × NetParts)) : added db (e :: es) = added (addOne db e) es := by
  simp only [added, addOne, hashFold, treeFold, List.foldl_cons, List.append_assoc, List.singleton_append]

theorem added_ok (ps : List NetParts) : ∀ (db : Db) (a : Nat), Consistent db → (∀ e ∈ db.log, e.1 < a) →
    (ps ≠ [] → a + ps.length ≤ 2 ^ 64) →
    (∀ p ∈ ps, p.hash ∉ hashesOf db.log) → ps.Pairwise (fun p q => p.hash ≠ q.hash) → Consistent (added db (stamped a ps)) := by
  induction ps with
  | nil => intro db a hc _ _ _ _; simpa [stamped, added, hashFold, treeFold] using hc
  | cons p r ih =>
    intro db a hc hlast hb hn hd
    rw [stamped, added_cons]
    rw [List.pairwise_cons] at hd
    have hb := hb (by simp)
    simp only [List.length_cons] at hb
    refine ih _ _ (addOne_ok hc a p (by omega) hlast (hn p List.mem_cons_self)) ?_ (fun _ => by omega) ?_ hd.2
    · intro e he
      simp only [addOne, List.mem_append, List.mem_singleton] at he
      rcases he with he | rfl
      · have := hlast e he; omega
      · exact Nat.lt_succ_self _
    · intro q hq
      simp only [addOne, hashesOf, List.map_append, List.map_cons, List.map_nil, List.mem_append, List.mem_singleton, not_or]
      exact ⟨hn q (List.mem_cons_of_mem _ hq), fun h => hd.1 q hq h.symm⟩

/-! ### news -/

theorem news_sublist (known : List Bytes) (l : List NetParts) : (news known l).Sublist l := by
  induction l generalizing known with
  | nil => exact List.Sublist.refl _
  | cons p r ih =>
    simp only [news]
    split
    · exact (ih known).cons p
    · exact (ih _).cons_cons p

theorem news_not_known (known : List Bytes) (l : List NetParts) : ∀ p ∈ news known l, p.hash ∉ known := by
  induction l generalizing known with
  | nil => intro p hp; cases hp
  | cons p r ih =>
    intro q hq
    simp only [news] at hq
    split at hq
    · exact ih known q hq
    · rename_i hk
      rcases List.mem_cons.1 hq with rfl | hq
      · exact hk
      · exact fun h => ih _ q hq (List.mem_cons_of_mem _ h)

theorem news_distinct (known : List Bytes) (l : List NetParts) : (news known l).Pairwise (fun p q => p.hash ≠ q.hash) := by
  induction l generalizing known with
  | nil => exact List.Pairwise.nil
  | cons p r ih =>
    simp only [news]
    split
    · exact ih known
    · rw [List.pairwise_cons]
      refine ⟨fun q hq h => news_not_known _ _ q hq (by rw [← h]; exact List.mem_cons_self), ih _⟩

theorem news_covers (known : List Bytes) (l : List NetParts) : ∀ p ∈ l, p.hash ∈ known ∨ ∃ q ∈ news known l, q.hash = p.hash := by
  induction l generalizing known with
  | nil => intro p hp; cases hp
  | cons p r ih =>
    intro q hq
    simp only [news]
    split
    · rename_i hk
      rcases List.mem_cons.1 hq with rfl | hq
      · exact .inl hk
      · exact ih known q hq
    · rename_i hk
      rcases List.mem_cons.1 hq with rfl | hq
      · exact .inr ⟨q, List.mem_cons_self, rfl⟩
      · rcases ih (p.hash :: known) q hq with h | ⟨x, hx, hxh⟩
        · rcases List.mem_cons.1 h with h | h
          · exact .inr ⟨p, List.mem_cons_self, h.symm⟩
          · exact .inl h
        · exact .inr ⟨x, List.mem_cons_of_mem _ hx, hxh⟩

theorem knows_of_consistent {db : Db} (hc : Consistent db) : Knows db.hash (hashesOf db.log) := by
  intro h
  simp only [hashesOf, List.mem_map, Prod.exists]
  constructor
  · rintro ⟨i, p, hp, rfl⟩; exact ⟨i, (hc.hashLog _ _).2 ⟨p, hp, rfl⟩⟩
  · rintro ⟨i, hi⟩; obtain ⟨p, hp, hh⟩ := (hc.hashLog _ _).1 hi; exact ⟨i, p, hp, hh⟩

end Verif.Env
