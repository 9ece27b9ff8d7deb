import Verif.Lemmas.Tree
/-!
# Walking the tree table: values, scopes, the scan
-/
namespace Verif.Query
open Verif Verif.Pkt Verif.Tree Verif.Pred Verif.Env Verif.Spec Verif.Props

/-! ### values -/

def orient (asc : Bool) (vs : List Bytes) : List Bytes := if asc then vs else vs.reverse

theorem mem_orient {asc : Bool} {vs : List Bytes} {v : Bytes} : v ∈ orient asc vs ↔ v ∈ vs := by
  unfold orient; split <;> simp

/-- Stamps go up, or down. -/
def Mono (asc : Bool) (l : List Bytes) : Prop :=
  l.Pairwise (fun a b => if asc then createOf a ≤ createOf b else createOf b ≤ createOf a)

theorem createOf_mono {a b : Bytes} (ha : 8 ≤ a.length) (hb : 8 ≤ b.length) (h : bytesLt a b = true) : createOf a ≤ createOf b := by
  have e1 := (List.take_append_drop 8 a).symm
  have e2 := (List.take_append_drop 8 b).symm
  have l1 : (a.take 8).length = 8 := by simp; omega
  have l2 : (b.take 8).length = 8 := by simp; omega
  rw [e1, e2, bytesLt_append _ _ _ _ (by omega), Bool.or_eq_true, Bool.and_eq_true, decide_eq_true_iff] at h
  show beNat (a.take 8) ≤ beNat (b.take 8)
  rcases h with h | ⟨h, _⟩
  · exact Nat.le_of_lt ((bytesLt_beNat (by omega)).1 h)
  · rw [h]; exact Nat.le_refl _

theorem mono_orient {asc : Bool} {vs : List Bytes} (hl : ∀ v ∈ vs, 8 ≤ v.length) (h : vs.Pairwise (fun a b => bytesLt a b = true)) :
    Mono asc (orient asc vs) := by
  have h1 : vs.Pairwise (fun a b => createOf a ≤ createOf b) :=
    h.imp_of_mem (fun ha hb hab => createOf_mono (hl _ ha) (hl _ hb) hab)
  unfold Mono orient
  cases asc with
  | true => simpa using h1
  | false => simp only [Bool.false_eq_true, if_false]; rw [List.pairwise_reverse]; exact h1

/-- The range is walked in its own direction. -/
def Walks (asc : Bool) (r : StampRange) : Prop := if asc then r.start ≤ r.stop else r.stop < r.start

theorem inside_iff (r : StampRange) (i : Nat) : r.iterCmp i = .inside ↔ r.contains i = true := by
  rw [iterCmp_eq, contains_iff]
  split
  · split
    · simp; omega
    · split <;> simp <;> omega
  · split
    · simp; omega
    · split <;> simp <;> omega

theorem nextStamp_some {r : StampRange} {k : Bytes} {after : Table} {v : Bytes} {more : List Bytes} {c : Cur}
    (h : nextStamp r k after v more = some c) : c.key = k ∧ c.after = after ∧ r.contains (createOf c.val) = true ∧
      ∃ pre, v :: more = pre ++ c.val :: c.more ∧ ∀ x ∈ pre, r.contains (createOf x) = false := by
  induction more generalizing v with
  | nil =>
    unfold nextStamp at h
    cases hi : r.iterCmp (createOf v) with
    | inside => rw [hi] at h; cases h; exact ⟨rfl, rfl, (inside_iff _ _).1 hi, [], rfl, by simp⟩
    | post => rw [hi] at h; cases h
    | pre => rw [hi] at h; cases h
  | cons v' m ih =>
    unfold nextStamp at h
    cases hi : r.iterCmp (createOf v) with
    | inside => rw [hi] at h; cases h; exact ⟨rfl, rfl, (inside_iff _ _).1 hi, [], rfl, by simp⟩
    | post => rw [hi] at h; cases h
    | pre =>
      rw [hi] at h
      obtain ⟨h1, h2, h3, pre, h4, h5⟩ := ih h
      refine ⟨h1, h2, h3, v :: pre, by rw [h4]; rfl, ?_⟩
      intro x hx
      rcases List.mem_cons.1 hx with rfl | hx
      · cases hc : r.contains (createOf x) with
        | false => rfl
        | true => rw [(inside_iff _ _).2 hc] at hi; cases hi
      · exact h5 x hx

theorem nextStamp_none {r : StampRange} {asc : Bool} (hw : Walks asc r) {k : Bytes} {after : Table} {v : Bytes} {more : List Bytes}
    (hm : Mono asc (v :: more)) (h : nextStamp r k after v more = none) : ∀ x ∈ v :: more, r.contains (createOf x) = false := by
  have noin : ∀ v, r.iterCmp (createOf v) ≠ .inside → r.contains (createOf v) = false := by
    intro v hv
    cases hc : r.contains (createOf v) with
    | false => rfl
    | true => exact absurd ((inside_iff _ _).2 hc) hv
  have post : ∀ v more, Mono asc (v :: more) → r.iterCmp (createOf v) = .post → ∀ x ∈ v :: more, r.contains (createOf x) = false := by
    intro v more hm hi x hx
    rcases List.mem_cons.1 hx with rfl | hx
    · exact noin x (by rw [hi]; nofun)
    · have := (List.pairwise_cons.1 hm).1 x hx
      rw [Bool.eq_false_iff]
      intro hc
      rw [contains_iff] at hc
      rw [iterCmp_eq] at hi
      unfold Walks at hw
      cases asc with
      | true =>
        simp only [if_true] at this hw
        rw [if_pos hw] at hi
        split at hi
        · cases hi
        · split at hi
          · cases hi
          · omega
      | false =>
        simp only [Bool.false_eq_true, if_false] at this hw
        rw [if_neg (by omega)] at hi
        split at hi
        · cases hi
        · split at hi
          · cases hi
          · omega
  induction more generalizing v with
  | nil =>
    unfold nextStamp at h
    cases hi : r.iterCmp (createOf v) with
    | inside => rw [hi] at h; cases h
    | post => exact post _ _ hm hi
    | pre => intro x hx; simp at hx; subst hx; exact noin x (by rw [hi]; nofun)
  | cons v' m ih =>
    unfold nextStamp at h
    cases hi : r.iterCmp (createOf v) with
    | inside => rw [hi] at h; cases h
    | post => exact post _ _ hm hi
    | pre =>
      rw [hi] at h
      intro x hx
      rcases List.mem_cons.1 hx with rfl | hx
      · exact noin x (by rw [hi]; nofun)
      · exact ih (List.pairwise_cons.1 hm).2 h x hx

/-- After a value in the range, the first one outside ends the range. -/
theorem mono_ends {asc : Bool} {r : StampRange} {v v' : Bytes} {m : List Bytes} (hm : Mono asc (v :: v' :: m))
    (hv : r.contains (createOf v) = true) (hv' : ¬ r.contains (createOf v') = true) : ∀ x ∈ v' :: m, r.contains (createOf x) = false := by
  intro x hx
  rcases List.mem_cons.1 hx with rfl | hx
  · simpa using hv'
  · have h1 := (List.pairwise_cons.1 hm).1 v' (by simp)
    have h2 := (List.pairwise_cons.1 (List.pairwise_cons.1 hm).2).1 x hx
    rw [Bool.eq_false_iff]
    intro hc
    rw [contains_iff] at hv hv' hc
    cases asc with
    | true => simp only [if_true] at h1 h2; omega
    | false => simp only [Bool.false_eq_true, if_false] at h1 h2; omega

/-! ### entries -/

/-- The entry passes its tests. -/
def eok (s : Preds) (v : Bytes) : Bool := match entryOk s v with | .ok b => b | .error _ => false

theorem entry_spec (a : Abs) (hl : a.Live) (v : Bytes) : entryOk a.preds v = .ok (eok a.preds v) ∧
    (eok a.preds v = true ↔ (a.set .create).Mem (BitVec.ofNat _ (TreeValue.ofBytes v).create) ∧
      a.recv.Mem (BitVec.ofNat 64 (TreeValue.ofBytes v).logptr) ∧ (a.set .hash).Mem (num _ (TreeValue.ofBytes v).hash) ∧
      (a.set .linksLen).Mem (BitVec.ofNat _ (TreeValue.ofBytes v).linksLen) ∧
      (a.set .dataSize).Mem (BitVec.ofNat _ (TreeValue.ofBytes v).dataSize)) := by
  have hs : ∀ f : VF, ∀ x, ((a.set f).test true x = .ok true ∧ (a.set f).Mem x) ∨ ((a.set f).test true x = .ok false ∧ ¬ (a.set f).Mem x) := by
    intro f x
    obtain ⟨y, hy⟩ := hl.sets f
    have hw : 1 < f.width ∧ f.width < 2 ^ 32 := by cases f <;> simp [VF.width, VF.bytes]
    exact test_iff hw.1 hw.2 true _ x (.inr (mask_hasAny_of_test hy.2))
  have key : ∃ b, entryOk a.preds v = .ok b ∧ (b = true ↔ (a.set .create).Mem (BitVec.ofNat _ (TreeValue.ofBytes v).create) ∧
      a.recv.Mem (BitVec.ofNat 64 (TreeValue.ofBytes v).logptr) ∧ (a.set .hash).Mem (num _ (TreeValue.ofBytes v).hash) ∧
      (a.set .linksLen).Mem (BitVec.ofNat _ (TreeValue.ofBytes v).linksLen) ∧
      (a.set .dataSize).Mem (BitVec.ofNat _ (TreeValue.ofBytes v).dataSize)) := by
    unfold entryOk
    simp only
    show ∃ b, (match (a.set .create).test true (BitVec.ofNat _ (TreeValue.ofBytes v).create) with
      | .error _ => .error .panic
      | .ok false => .ok false
      | .ok true => _ : QRes Bool) = _ ∧ _
    rcases hs .create (BitVec.ofNat _ (TreeValue.ofBytes v).create) with ⟨e1, m1⟩ | ⟨e1, m1⟩
    · rw [e1]; simp only
      rw [show a.preds.recv = a.recv from rfl]
      cases hr : a.recv.test (BitVec.ofNat 64 (TreeValue.ofBytes v).logptr) with
      | false =>
        refine ⟨false, rfl, ?_⟩
        have : ¬ a.recv.Mem (BitVec.ofNat 64 (TreeValue.ofBytes v).logptr) := by rw [← bound_test_iff, hr]; simp
        simp [this]
      | true =>
        have mr := (bound_test_iff _ _).1 hr
        simp only [Bool.not_true, Bool.false_eq_true, if_false]
        show ∃ b, (match (a.set .hash).test true (num _ (TreeValue.ofBytes v).hash) with
          | .error _ => .error .panic
          | .ok false => .ok false
          | .ok true => _ : QRes Bool) = _ ∧ _
        rcases hs .hash (num _ (TreeValue.ofBytes v).hash) with ⟨e2, m2⟩ | ⟨e2, m2⟩
        · rw [e2]; simp only
          show ∃ b, (match (a.set .linksLen).test true (BitVec.ofNat _ (TreeValue.ofBytes v).linksLen) with
            | .error _ => .error .panic
            | .ok false => .ok false
            | .ok true => _ : QRes Bool) = _ ∧ _
          rcases hs .linksLen (BitVec.ofNat _ (TreeValue.ofBytes v).linksLen) with ⟨e3, m3⟩ | ⟨e3, m3⟩
          · rw [e3]; simp only
            show ∃ b, (match (a.set .dataSize).test true (BitVec.ofNat _ (TreeValue.ofBytes v).dataSize) with
              | .error _ => .error .panic
              | .ok r => .ok r : QRes Bool) = _ ∧ _
            rcases hs .dataSize (BitVec.ofNat _ (TreeValue.ofBytes v).dataSize) with ⟨e4, m4⟩ | ⟨e4, m4⟩
            · rw [e4]; exact ⟨true, rfl, by simp [m1, mr, m2, m3, m4]⟩
            · rw [e4]; exact ⟨false, rfl, by simp [m4]⟩
          · rw [e3]; exact ⟨false, rfl, by simp [m3]⟩
        · rw [e2]; exact ⟨false, rfl, by simp [m2]⟩
    · rw [e1]; exact ⟨false, rfl, by simp [m1]⟩
  obtain ⟨b, e, hb⟩ := key
  have : eok a.preds v = b := by unfold eok; rw [e]
  rw [this]
  exact ⟨e, hb⟩

theorem createOf_lt (v : Bytes) : createOf v < 2 ^ 64 := by
  show beNat (v.take 8) < _
  have := beNat_lt (v.take 8)
  have hl : (v.take 8).length ≤ 8 := by simp; omega
  calc beNat (v.take 8) < 256 ^ (v.take 8).length := this
    _ ≤ 256 ^ 8 := Nat.pow_le_pow_right (by decide) hl
    _ = 2 ^ 64 := by decide

theorem contains_of_mem (b : Bound 64) (asc : Bool) {n : Nat} (hn : n < 2 ^ 64) (h : b.Mem (BitVec.ofNat 64 n)) :
    (stampRange b asc).contains n = true := by
  have e : (BitVec.ofNat 64 n).toNat = n := by rw [BitVec.toNat_ofNat]; exact Nat.mod_eq_of_lt hn
  obtain ⟨h1, h2⟩ := h
  rw [e] at h1 h2
  rw [contains_iff]
  unfold stampRange
  cases asc <;> simp <;> omega

theorem eok_contains (a : Abs) (hl : a.Live) (asc : Bool) (v : Bytes) (h : eok a.preds v = true) :
    (stampRange (a.set .create).bound asc).contains (createOf v) = true :=
  contains_of_mem _ asc (createOf_lt v) ((entry_spec a hl v).2.1 h).1.1

theorem filter_none {α} {p : α → Bool} {l : List α} (h : ∀ x ∈ l, p x = false) : l.filter p = [] := by
  rw [List.filter_eq_nil_iff]; intro x hx; simp [h x hx]

/-- The entries of one key, when the counter of the branch is never used up. -/
theorem branch_spec (a : Abs) (hl : a.Live) (asc : Bool) (hmax : InSet (a.state .branch) (2 ^ 32 - 1)) (n : BitVec 32) (v : Bytes)
    (more : List Bytes) (hm : Mono asc (v :: more)) (hc : (stampRange (a.set .create).bound asc).contains (createOf v) = true) :
    ∃ out, branch a.preds (stampRange (a.set .create).bound asc) n v more = .ok (out, .ended) ∧
      Picks (InSet (a.state .branch)) n.toNat ((v :: more).filter (eok a.preds)) out := by
  have hany := mask_hasAny_of_test hmax.2
  have spent : ∀ n, spentAt (a.preds.state .branch) n = .ok false := by
    intro n
    unfold spentAt
    show (if (a.state .branch).bound.high < n then _ else (match (a.state .branch).test true n with | .error _ => _ | .ok _ => _) : QRes Bool) = _
    have h1 := hmax.1.2
    rw [if_neg (by
      rw [BitVec.lt_def]
      have h2 : (BitVec.ofNat 32 (capPos (2 ^ 32 - 1))).toNat = 2 ^ 32 - 1 := by decide
      rw [h2] at h1
      have := n.isLt
      omega)]
    rcases test_iff (by decide) (by decide) true (a.state .branch) n (.inr hany) with ⟨e, _⟩ | ⟨e, _⟩ <;> rw [e]
  have rest : ∀ (m : BitVec 32) (v : Bytes) (more : List Bytes), Mono asc (v :: more) →
      (stampRange (a.set .create).bound asc).contains (createOf v) = true →
      (∀ n v', ∀ m, more = v' :: m → (stampRange (a.set .create).bound asc).contains (createOf v') = true →
        ∃ out, branch a.preds (stampRange (a.set .create).bound asc) n v' m = .ok (out, .ended) ∧
          Picks (InSet (a.state .branch)) n.toNat ((v' :: m).filter (eok a.preds)) out) →
      ∃ out, (match more with
        | [] => .ok ([], .ended)
        | v' :: r => if (stampRange (a.set .create).bound asc).contains (createOf v') then
            branch a.preds (stampRange (a.set .create).bound asc) m v' r else .ok ([], .ended) : QRes (List Bytes × Exit)) = .ok (out, .ended) ∧
        Picks (InSet (a.state .branch)) m.toNat (more.filter (eok a.preds)) out := by
    intro m v more hm hc ih
    cases more with
    | nil => exact ⟨[], rfl, .nil _⟩
    | cons v' r =>
      simp only
      by_cases hc' : (stampRange (a.set .create).bound asc).contains (createOf v') = true
      · rw [if_pos hc']; exact ih m v' r rfl hc'
      · rw [if_neg hc']
        refine ⟨[], rfl, ?_⟩
        rw [filter_none (fun x hx => ?_)]
        · exact .nil _
        · have := mono_ends hm hc hc' x hx
          rw [Bool.eq_false_iff]
          intro he
          rw [eok_contains a hl asc x he] at this; cases this
  induction more generalizing n v with
  | nil =>
    obtain ⟨e1, -⟩ := entry_spec a hl v
    unfold branch
    rw [e1]
    cases he : eok a.preds v with
    | false => refine ⟨[], rfl, ?_⟩; simp [he]; exact .nil _
    | true =>
      simp only
      rcases memberNext_cases (a.state .branch) hany n with ⟨e2, h2⟩ | ⟨b, n', e2, h2, h3⟩
      · exact absurd hmax (h2 (2 ^ 32 - 1) (by have := n.isLt; omega))
      · show ∃ out, (match (a.state .branch).memberNext true n with
          | .error _ => .error .panic
          | .ok none => .ok ([], .spent)
          | .ok (some (false, n')) => _
          | .ok (some (true, n')) => _ : QRes (List Bytes × Exit)) = _ ∧ _
        rw [e2]
        cases b with
        | false => refine ⟨[], rfl, ?_⟩; simp only [List.filter_cons, he, if_true, List.filter_nil]; exact .skip _ (by rw [inSet_toNat, ← h2]; nofun) (.nil _)
        | true =>
          simp only
          rw [spent n']
          refine ⟨[v], rfl, ?_⟩; simp only [List.filter_cons, he, if_true, List.filter_nil]; exact .take _ (by rw [inSet_toNat, ← h2]) (.nil _)
  | cons w more ih =>
    have hm' := (List.pairwise_cons.1 hm).2
    have ih' : ∀ n v', ∀ m, w :: more = v' :: m → (stampRange (a.set .create).bound asc).contains (createOf v') = true →
        ∃ out, branch a.preds (stampRange (a.set .create).bound asc) n v' m = .ok (out, .ended) ∧
          Picks (InSet (a.state .branch)) n.toNat ((v' :: m).filter (eok a.preds)) out := by
      intro n v' m hw hc'
      cases hw
      exact ih n w hm' hc'
    obtain ⟨e1, -⟩ := entry_spec a hl v
    unfold branch
    rw [e1]
    cases he : eok a.preds v with
    | false =>
      obtain ⟨out, h1, h2⟩ := rest n v (w :: more) hm hc ih'
      refine ⟨out, h1, ?_⟩
      rw [List.filter_cons, he]; exact h2
    | true =>
      simp only
      rcases memberNext_cases (a.state .branch) hany n with ⟨e2, h2⟩ | ⟨b, n', e2, h2, h3⟩
      · exact absurd hmax (h2 (2 ^ 32 - 1) (by have := n.isLt; omega))
      · show ∃ out, (match (a.state .branch).memberNext true n with
          | .error _ => .error .panic
          | .ok none => .ok ([], .spent)
          | .ok (some (false, n')) => _
          | .ok (some (true, n')) => _ : QRes (List Bytes × Exit)) = _ ∧ _
        rw [e2]
        obtain ⟨out, h4, h5⟩ := rest n' v (w :: more) hm hc ih'
        rw [h3] at h5
        have h6 : Picks (InSet (a.state .branch)) (n.toNat + 1) ((w :: more).filter (eok a.preds)) out :=
          picks_cap (Q := fun i => (a.state .branch).Mem (BitVec.ofNat 32 i)) h5
        cases b with
        | false =>
          refine ⟨out, h4, ?_⟩
          rw [List.filter_cons, he]; exact .skip _ (by rw [inSet_toNat, ← h2]; nofun) h6
        | true =>
          simp only
          rw [spent n']
          refine ⟨v :: out, ?_, ?_⟩
          · simp only at h4 ⊢
            by_cases hc' : (stampRange (a.set .create).bound asc).contains (createOf w) = true
            · rw [if_pos hc'] at h4 ⊢; rw [h4]; rfl
            · rw [if_neg hc'] at h4 ⊢; cases h4; rfl
          · rw [List.filter_cons, he]; exact .take _ (by rw [inSet_toNat, ← h2]) h6

end Verif.Query
