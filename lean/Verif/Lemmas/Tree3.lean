import Verif.Lemmas.Tree2
/-!
# Walking the tree table: from scope to scope
-/
namespace Verif.Query
open Verif Verif.Pkt Verif.Tree Verif.Pred Verif.Env Verif.Spec Verif.Props

/-- What the tree table of a store is like. -/
structure Tbl (asc : Bool) (T : Table) : Prop where
  sorted : T.Pairwise (fun a b => bytesLt a.1 b.1 = true)
  vals : ∀ e ∈ T, e.2 ≠ [] ∧ Mono asc (orient asc e.2)
  keys : ∀ e ∈ T, ∃ t, KeyOf e.1 t

theorem Tbl.suffix {asc : Bool} {A T : Table} (h : Tbl asc (A ++ T)) : Tbl asc T :=
  ⟨(List.pairwise_append.1 h.sorted).2.1, fun e he => h.vals e (by simp [he]), fun e he => h.keys e (by simp [he])⟩

theorem seat_none {asc : Bool} {T : Table} (hT : Tbl asc T) (h : seat asc T = none) : T = [] := by
  cases T with
  | nil => rfl
  | cons e r =>
    obtain ⟨k, vs⟩ := e
    have := (hT.vals (k, vs) (by simp)).1
    unfold seat at h
    cases asc with
    | true =>
      simp only [if_true] at h
      cases vs with
      | nil => exact absurd rfl this
      | cons v m => cases h
    | false =>
      simp only [Bool.false_eq_true, if_false] at h
      cases hr : vs.reverse with
      | nil => exact absurd (by simpa using hr) this
      | cons v m => rw [hr] at h; cases h

theorem seat_some {asc : Bool} {T : Table} {c : Cur} (h : seat asc T = some c) :
    ∃ vs, T = (c.key, vs) :: c.after ∧ orient asc vs = c.val :: c.more := by
  cases T with
  | nil => cases h
  | cons e r =>
    obtain ⟨k, vs⟩ := e
    unfold seat at h; simp only at h
    cases hr : (if asc then vs else vs.reverse) with
    | nil => rw [hr] at h; cases h
    | cons v m => rw [hr] at h; cases h; exact ⟨vs, rfl, hr⟩

theorem takeWhile_lt {b : Bytes} {T : Table} : ∀ e ∈ T.takeWhile (fun e => bytesLt e.1 b), bytesLt e.1 b = true := by
  induction T with
  | nil => simp
  | cons e T ih =>
    intro x hx
    rw [List.takeWhile_cons] at hx
    split at hx
    · rename_i h
      rcases List.mem_cons.1 hx with rfl | hx
      · exact h
      · exact ih x hx
    · cases hx

/-- No key that is jumped over is one the query asks for. -/
def Safe (q : TreeKeys) (lb : Bytes) (K : Bytes → Prop) : Prop :=
  ∀ k k', K k → K k' → bytesLt k k' = true →
    (look q lb k = .ok .over → ¬ Hit q k') ∧ ∀ b, look q lb k = .ok (.jump b) → bytesLt k' b = true → ¬ Hit q k'

/-- Jumps go forward. -/
def Moves (q : TreeKeys) (lb : Bytes) (K : Bytes → Prop) : Prop :=
  ∀ k b, K k → look q lb k = .ok (.jump b) → bytesLt k b = true

/-- The query asks for nothing under this key. -/
def Skip (strict : Prop) (q : TreeKeys) (e : Bytes × List Bytes) : Prop :=
  strict → Hit q e.1 → ∀ v ∈ e.2, q.cstamp.contains (createOf v) = false

/-- The cursor is on the first value in the range, of the first key of the table. -/
structure Cur.At (asc : Bool) (q : TreeKeys) (c : Cur) (vs : List Bytes) : Prop where
  hit : Hit q c.key
  inside : q.cstamp.contains (createOf c.val) = true
  split : ∃ pre, orient asc vs = pre ++ c.val :: c.more ∧ ∀ x ∈ pre, q.cstamp.contains (createOf x) = false

theorem seek_spec {asc : Bool} {q : TreeKeys} (hq : q.Live) {lb : Bytes} {K : Bytes → Prop} {strict : Prop}
    (hst : strict → Safe q lb K ∧ Walks asc q.cstamp) {n : Nat} {c : Cur} {vs : List Bytes}
    (hT : Tbl asc ((c.key, vs) :: c.after)) (hK : ∀ e ∈ (c.key, vs) :: c.after, K e.1) (hv : orient asc vs = c.val :: c.more)
    {S : Sought} (h : seek asc q lb n c = .ok S) :
    (∃ c' A vs', S = .found c' ∧ (c.key, vs) :: c.after = A ++ (c'.key, vs') :: c'.after ∧ c'.At asc q vs' ∧ ∀ e ∈ A, Skip strict q e) ∨
      ((∃ l, S = .nothing l) ∧ ∀ e ∈ (c.key, vs) :: c.after, Skip strict q e) := by
  induction n generalizing c vs with
  | zero => cases h
  | succ n ih =>
    have hT' : Tbl asc c.after := hT.suffix (A := [(c.key, vs)])
    have hK' : ∀ e ∈ c.after, K e.1 := fun e he => hK e (by simp [he])
    have kc : K c.key := hK (c.key, vs) (by simp)
    have gt : ∀ e ∈ c.after, bytesLt c.key e.1 = true := (List.pairwise_cons.1 hT.sorted).1
    -- jumping
    have go : ∀ b, Skip strict q (c.key, vs) → (∀ e ∈ c.after, bytesLt e.1 b = true → Skip strict q e) →
        (if bytesLt c.key b then
          match setRange c.after asc b with
          | none => .ok (.nothing none)
          | some c' => seek asc q lb n c'
        else .error .hang : QRes Sought) = .ok S →
        (∃ c' A vs', S = .found c' ∧ (c.key, vs) :: c.after = A ++ (c'.key, vs') :: c'.after ∧ c'.At asc q vs' ∧ ∀ e ∈ A, Skip strict q e) ∨
          ((∃ l, S = .nothing l) ∧ ∀ e ∈ (c.key, vs) :: c.after, Skip strict q e) := by
      intro b h0 hs hg
      split at hg
      · have hd := List.takeWhile_append_dropWhile (p := fun e : Bytes × List Bytes => bytesLt e.1 b) (l := c.after)
        have htw := takeWhile_lt (b := b) (T := c.after)
        obtain ⟨A, hA⟩ : ∃ A, A = c.after.takeWhile (fun e => bytesLt e.1 b) := ⟨_, rfl⟩
        obtain ⟨D, hD⟩ : ∃ D, D = c.after.dropWhile (fun e => bytesLt e.1 b) := ⟨_, rfl⟩
        rw [← hA] at hd htw
        rw [← hD] at hd
        have hTD : Tbl asc D := by rw [← hd] at hT'; exact hT'.suffix
        have hAs : ∀ e ∈ A, Skip strict q e := fun e he => hs e (by rw [← hd]; simp [he]) (htw e he)
        unfold setRange at hg
        rw [← hD] at hg
        cases hse : seat asc D with
        | none =>
          rw [hse] at hg; cases hg
          right
          have := seat_none hTD hse
          rw [this, List.append_nil] at hd
          refine ⟨⟨_, rfl⟩, ?_⟩
          intro e he
          rcases List.mem_cons.1 he with rfl | he
          · exact h0
          · rw [← hd] at he; exact hAs e he
        | some c1 =>
          rw [hse] at hg
          simp only at hg
          obtain ⟨vs1, h1, h2⟩ := seat_some hse
          have e1 : (c.key, vs) :: c.after = ((c.key, vs) :: A) ++ (c1.key, vs1) :: c1.after := by rw [← hd, h1]; rfl
          have hA0 : ∀ e ∈ (c.key, vs) :: A, Skip strict q e := by
            intro e he
            rcases List.mem_cons.1 he with rfl | he
            · exact h0
            · exact hAs e he
          rcases ih (by rw [h1] at hTD; exact hTD) (fun e he => hK e (by rw [e1]; simp at he ⊢; right; right; exact he)) h2 hg with
            ⟨c', A', vs', hf, hsp, hat, hsk⟩ | ⟨hf, hsk⟩
          · left
            refine ⟨c', ((c.key, vs) :: A) ++ A', vs', hf, by rw [e1, hsp, List.append_assoc], hat, ?_⟩
            intro e he
            rcases List.mem_append.1 he with he | he
            · exact hA0 e he
            · exact hsk e he
          · right
            refine ⟨hf, ?_⟩
            rw [e1]
            intro e he
            rcases List.mem_append.1 he with he | he
            · exact hA0 e he
            · exact hsk e he
      · cases hg
    unfold seek at h
    simp only at h
    rcases look_cases hq lb c.key with ⟨hl, hh⟩ | ⟨hh, hl | ⟨b, hl⟩⟩
    · rw [hl] at h
      simp only at h
      cases hn : nextStamp q.cstamp c.key c.after c.val c.more with
      | some c' =>
        rw [hn] at h; cases h
        obtain ⟨h1, h2, h3, h4⟩ := nextStamp_some hn
        left
        refine ⟨c', [], vs, rfl, by rw [h1, h2]; rfl, ⟨by rw [h1]; exact hh, h3, by rw [hv]; exact h4⟩, by simp⟩
      | none =>
        rw [hn] at h
        refine go (c.key ++ [255]) ?_ ?_ h
        · intro hs _ v hvm
          have := nextStamp_none (hst hs).2 (by rw [← hv]; exact (hT.vals (c.key, vs) (by simp)).2) hn v
          exact this (by rw [← hv]; exact mem_orient.2 hvm)
        · intro e he hlt
          exfalso
          obtain ⟨t, ht⟩ := hT.keys (c.key, vs) (by simp)
          obtain ⟨t', ht'⟩ := hT.keys e (by simp [he])
          exact keyOf_gap ht ht' (gt e he) hlt
    · rw [hl] at h; cases h
      right
      refine ⟨⟨_, rfl⟩, ?_⟩
      intro e he hs hhit
      rcases List.mem_cons.1 he with rfl | he
      · exact absurd hhit hh
      · exact absurd hhit (((hst hs).1 c.key e.1 kc (hK' e he) (gt e he)).1 hl)
    · rw [hl] at h
      refine go b (fun _ hx => absurd hx hh) ?_ h
      intro e he hlt hs hhit
      exact absurd hhit (((hst hs).1 c.key e.1 kc (hK' e he) (gt e he)).2 b hl hlt)

theorem seek_total {asc : Bool} {q : TreeKeys} (hq : q.Live) {lb : Bytes} {K : Bytes → Prop} (hmv : Moves q lb K)
    {n : Nat} {c : Cur} {vs : List Bytes}
    (hT : Tbl asc ((c.key, vs) :: c.after)) (hK : ∀ e ∈ (c.key, vs) :: c.after, K e.1) (hn : c.after.length < n) :
    ∃ S, seek asc q lb n c = .ok S := by
  induction n generalizing c vs with
  | zero => omega
  | succ n ih =>
    have hT' : Tbl asc c.after := hT.suffix (A := [(c.key, vs)])
    have kc : K c.key := hK (c.key, vs) (by simp)
    have go : ∀ b, bytesLt c.key b = true →
        ∃ S, (if bytesLt c.key b then
          match setRange c.after asc b with
          | none => .ok (.nothing none)
          | some c' => seek asc q lb n c'
        else .error .hang : QRes Sought) = .ok S := by
      intro b hb
      rw [if_pos hb]
      have hd := List.takeWhile_append_dropWhile (p := fun e : Bytes × List Bytes => bytesLt e.1 b) (l := c.after)
      unfold setRange
      obtain ⟨A, hA⟩ : ∃ A, A = c.after.takeWhile (fun e => bytesLt e.1 b) := ⟨_, rfl⟩
      obtain ⟨D, hD⟩ : ∃ D, D = c.after.dropWhile (fun e => bytesLt e.1 b) := ⟨_, rfl⟩
      rw [← hD]
      rw [← hA, ← hD] at hd
      have hTD : Tbl asc D := by rw [← hd] at hT'; exact hT'.suffix
      cases hse : seat asc D with
      | none => exact ⟨_, rfl⟩
      | some c1 =>
        obtain ⟨vs1, h1, h2⟩ := seat_some hse
        simp only
        have hlen : c.after.length = A.length + (1 + c1.after.length) := by rw [← hd, h1]; simp; omega
        exact ih (vs := vs1) (by rw [h1] at hTD; exact hTD) (fun e he => hK e (by rw [← hd, h1]; simp at he ⊢; right; right; exact he)) (by omega)
    unfold seek
    simp only
    rcases look_cases hq lb c.key with ⟨hl, hh⟩ | ⟨hh, hl | ⟨b, hl⟩⟩
    · rw [hl]
      simp only
      cases hn : nextStamp q.cstamp c.key c.after c.val c.more with
      | some c' => exact ⟨_, rfl⟩
      | none =>
        refine go (c.key ++ [255]) ?_
        have h1 := bytesLt_append_left c.key [] [255]
        rw [List.append_nil] at h1
        rw [h1]; rfl
    · rw [hl]; exact ⟨_, rfl⟩
    · rw [hl]; exact go b (hmv _ _ kc hl)

/-- The entries found in a table: of every key asked for those that pass, counted; with `strict` no key is left out. -/
inductive Found (asc : Bool) (s : Preds) (q : TreeKeys) (strict : Prop) : Table → List TreeEntry → Prop
  | nil : Found asc s q strict [] []
  | hit {k : Bytes} {vs out : List Bytes} {T : Table} {es : List TreeEntry} : Hit q k →
      Picks (InSet (s.state .branch)) 0 ((orient asc vs).filter (eok s)) out → Found asc s q strict T es →
      Found asc s q strict ((k, vs) :: T) (out.map (TreeEntry.mk k) ++ es)
  | miss {e : Bytes × List Bytes} {T : Table} {es : List TreeEntry} : (strict → Hit q e.1 → ∀ v ∈ e.2, eok s v = false) →
      Found asc s q strict T es → Found asc s q strict (e :: T) es

theorem Found.skips {a : Abs} (hl : a.Live) {asc : Bool} {q : TreeKeys} (hqs : q.cstamp = stampRange (a.set .create).bound asc) {strict : Prop} {A T : Table}
    {es : List TreeEntry} (hA : ∀ e ∈ A, Skip strict q e) (h : Found asc a.preds q strict T es) : Found asc a.preds q strict (A ++ T) es := by
  induction A with
  | nil => exact h
  | cons e A ih =>
    refine .miss (fun hs hh v hv => ?_) (ih (fun x hx => hA x (by simp [hx])))
    have := hA e (by simp) hs hh v hv
    rw [Bool.eq_false_iff]
    intro he
    rw [hqs, eok_contains a hl asc v he] at this; cases this

theorem Found.none {asc : Bool} {a : Abs} (hl : a.Live) {q : TreeKeys} (hqs : q.cstamp = stampRange (a.set .create).bound asc) {strict : Prop} {A : Table}
    (hA : ∀ e ∈ A, Skip strict q e) : Found asc a.preds q strict A [] := by
  have := Found.skips hl hqs hA (Found.nil (asc := asc) (s := a.preds) (q := q) (strict := strict))
  rwa [List.append_nil] at this

theorem mono_suffix {asc : Bool} {A B : List Bytes} (h : Mono asc (A ++ B)) : Mono asc B := (List.pairwise_append.1 h).2.1

/-- The round of the scan at one key. -/
theorem scan_branch (a : Abs) (hl : a.Live) {asc : Bool} (hmax : InSet (a.state .branch) (2 ^ 32 - 1)) {q : TreeKeys}
    (hqs : q.cstamp = stampRange (a.set .create).bound asc) {c : Cur} {vs : List Bytes} (hat : c.At asc q vs) (hm : Mono asc (orient asc vs)) :
    ∃ out, branch a.preds q.cstamp 0#32 c.val c.more = .ok (out, .ended) ∧
      Picks (InSet (a.state .branch)) 0 ((orient asc vs).filter (eok a.preds)) out := by
  obtain ⟨pre, h1, h2⟩ := hat.split
  rw [h1] at hm
  have hin := hat.inside
  rw [hqs] at hin
  obtain ⟨out, h3, h4⟩ := branch_spec a hl asc hmax 0#32 c.val c.more (mono_suffix hm) hin
  refine ⟨out, by rw [hqs]; exact h3, ?_⟩
  rw [h1, List.filter_append, filter_none (fun x hx => ?_), List.nil_append]
  · exact h4
  · have := h2 x hx
    rw [Bool.eq_false_iff]
    intro he
    rw [hqs, eok_contains a hl asc x he] at this; cases this

theorem scan_spec (a : Abs) (hl : a.Live) {asc : Bool} (hmax : InSet (a.state .branch) (2 ^ 32 - 1)) {q : TreeKeys} (hq : q.Live)
    (hqs : q.cstamp = stampRange (a.set .create).bound asc) {lb : Bytes} {K : Bytes → Prop} {strict : Prop}
    (hst : strict → Safe q lb K ∧ Walks asc q.cstamp) {n : Nat} {c : Cur} {vs : List Bytes}
    (hT : Tbl asc ((c.key, vs) :: c.after)) (hK : ∀ e ∈ (c.key, vs) :: c.after, K e.1) (hat : c.At asc q vs)
    {es : List TreeEntry} (h : scan asc a.preds q lb n c = .ok es) : Found asc a.preds q strict ((c.key, vs) :: c.after) es := by
  induction n generalizing c vs es with
  | zero => cases h
  | succ n ih =>
    have hT' : Tbl asc c.after := hT.suffix (A := [(c.key, vs)])
    obtain ⟨out, hb, hp⟩ := scan_branch a hl hmax hqs hat (hT.vals _ List.mem_cons_self).2
    unfold scan at h
    rw [hb] at h
    simp only at h
    unfold nextScope Cur.nextRange at h
    cases hse : seat asc c.after with
    | none =>
      rw [hse] at h
      cases h
      rw [seat_none hT' hse]
      exact .hit hat.hit hp .nil
    | some c1 =>
      rw [hse] at h
      simp only at h
      obtain ⟨vs1, h1, h2⟩ := seat_some hse
      have hT1 : Tbl asc ((c1.key, vs1) :: c1.after) := by rw [← h1]; exact hT'
      have hK1 : ∀ e ∈ (c1.key, vs1) :: c1.after, K e.1 := fun e he => hK e (by rw [h1]; simp at he ⊢; right; exact he)
      cases hS : seek asc q lb (c1.after.length + 1) c1 with
      | error e => rw [hS] at h; cases h
      | ok S =>
        rw [hS] at h
        rw [h1]
        rcases seek_spec hq hst hT1 hK1 h2 hS with ⟨c', A, vs', rfl, hsp, hat', hsk⟩ | ⟨⟨l, rfl⟩, hsk⟩
        · simp only at h
          cases hr : scan asc a.preds q lb n c' with
          | error e => rw [hr] at h; cases h
          | ok es' =>
            rw [hr] at h; cases h
            rw [hsp]
            refine .hit hat.hit hp (Found.skips hl hqs hsk ?_)
            rw [hsp] at hT1 hK1
            exact ih hT1.suffix (fun e he => hK1 e (by simp at he ⊢; right; exact he)) hat' hr
        · cases h
          exact .hit hat.hit hp (Found.none hl hqs hsk)

theorem scan_total (a : Abs) (hl : a.Live) {asc : Bool} (hmax : InSet (a.state .branch) (2 ^ 32 - 1)) {q : TreeKeys} (hq : q.Live)
    (hqs : q.cstamp = stampRange (a.set .create).bound asc) {lb : Bytes} {K : Bytes → Prop} (hmv : Moves q lb K)
    {n : Nat} {c : Cur} {vs : List Bytes}
    (hT : Tbl asc ((c.key, vs) :: c.after)) (hK : ∀ e ∈ (c.key, vs) :: c.after, K e.1) (hat : c.At asc q vs) (hn : c.after.length < n) :
    ∃ es, scan asc a.preds q lb n c = .ok es := by
  induction n generalizing c vs with
  | zero => omega
  | succ n ih =>
    have hT' : Tbl asc c.after := hT.suffix (A := [(c.key, vs)])
    obtain ⟨out, hb, hp⟩ := scan_branch a hl hmax hqs hat (hT.vals _ List.mem_cons_self).2
    unfold scan
    rw [hb]
    simp only
    unfold nextScope Cur.nextRange
    cases hse : seat asc c.after with
    | none => exact ⟨_, rfl⟩
    | some c1 =>
      simp only
      obtain ⟨vs1, h1, h2⟩ := seat_some hse
      have hT1 : Tbl asc ((c1.key, vs1) :: c1.after) := by rw [← h1]; exact hT'
      have hK1 : ∀ e ∈ (c1.key, vs1) :: c1.after, K e.1 := fun e he => hK e (by rw [h1]; simp at he ⊢; right; exact he)
      obtain ⟨S, hS⟩ := seek_total hq hmv (n := c1.after.length + 1) hT1 hK1 (by omega)
      rw [hS]
      rcases seek_spec hq (strict := False) (fun h => h.elim) hT1 hK1 h2 hS with ⟨c', A, vs', rfl, hsp, hat', hsk⟩ | ⟨⟨l, rfl⟩, hsk⟩
      · simp only
        have hlen : c.after.length = A.length + (1 + c'.after.length) := by rw [h1, hsp]; simp; omega
        obtain ⟨es, hes⟩ := ih (c := c') (vs := vs') (by rw [hsp] at hT1; exact hT1.suffix)
          (fun e he => hK1 e (by rw [hsp]; simp at he ⊢; right; exact he)) hat' (by omega)
        rw [hes]; exact ⟨_, rfl⟩
      · exact ⟨_, rfl⟩

end Verif.Query
