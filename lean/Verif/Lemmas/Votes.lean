import Verif.Model.Votes
import Verif.Spec.Votes
/-!
# Counting votes
-/
namespace Verif.Lns
open Verif Verif.Pkt Verif.Pred Verif.Env Verif.Query Verif.Spec

abbrev Answers := List (Option (Nat × NetParts))

theorem votesFor_append (rs ss : Answers) (h : Bytes) : votesFor (rs ++ ss) h = votesFor rs h ++ votesFor ss h := by
  simp [votesFor]
theorem votesFor_nil (h : Bytes) : votesFor [] h = [] := rfl
theorem votesFor_other {r : Option (Nat × NetParts)} {h : Bytes} (hr : ∀ v, r = some v → choice v.2 ≠ some h) : votesFor [r] h = [] := by
  cases r with
  | none => rfl
  | some v => simp [votesFor, hr v rfl]
theorem votesFor_one {v : Nat × NetParts} {h : Bytes} (hr : choice v.2 = some h) : votesFor [some v] h = [v] := by
  simp [votesFor, hr]
theorem votesFor_mem {rs : Answers} {h : Bytes} {v : Nat × NetParts} : v ∈ votesFor rs h ↔ some v ∈ rs ∧ choice v.2 = some h := by
  simp only [votesFor, List.mem_filterMap]
  constructor
  · rintro ⟨r, hr, hv⟩
    cases r with
    | none => cases hv
    | some w =>
      simp only [Option.bind_some] at hv
      split at hv
      · cases hv; exact ⟨hr, by assumption⟩
      · cases hv
  · rintro ⟨h1, h2⟩
    exact ⟨_, h1, by simp [h2]⟩

/-- Votes for two claims are different answers. -/
theorem votes_two (rs : Answers) {h h' : Bytes} (hne : h ≠ h') : (votesFor rs h).length + (votesFor rs h').length ≤ rs.length := by
  induction rs with
  | nil => simp [votesFor]
  | cons r rs ih =>
    rw [show r :: rs = [r] ++ rs from rfl, votesFor_append, votesFor_append]
    have : (votesFor [r] h).length + (votesFor [r] h').length ≤ 1 := by
      by_cases h1 : ∃ v, r = some v ∧ choice v.2 = some h
      · obtain ⟨v, rfl, hv⟩ := h1
        rw [votesFor_one hv, votesFor_other (h := h')]
        · simp
        · rintro w hw; cases hw
          rw [hv]; simpa using hne
      · rw [votesFor_other (h := h)]
        · by_cases h2 : ∃ v, r = some v ∧ choice v.2 = some h'
          · obtain ⟨v, rfl, hv⟩ := h2
            rw [votesFor_one hv]; simp
          · rw [votesFor_other (h := h')]
            · simp
            · exact fun v hv hc => h2 ⟨v, hv, hc⟩
        · exact fun v hv hc => h1 ⟨v, hv, hc⟩
    simp only [List.length_append, List.length_cons, List.length_nil]
    omega

/-- What the map holds after some answers. -/
structure Counted (db : Db) (m : List Tally) (rs : Answers) : Prop where
  nodup : (m.map (·.hash)).Nodup
  votes : ∀ t ∈ m, t.votes = votesFor rs t.hash ∧ t.votes ≠ []
  claim : ∀ t ∈ m, ∃ is, readClaim db t.hash = .ok (t.claim, is)
  all : ∀ h, votesFor rs h ≠ [] → ∃ t ∈ m, t.hash = h

theorem Counted.nil (db : Db) : Counted db [] [] := ⟨by simp, by simp, by simp, by simp [votesFor]⟩

theorem Counted.skip {db : Db} {m : List Tally} {rs : Answers} (h : Counted db m rs) {r : Option (Nat × NetParts)}
    (hr : ∀ v, r = some v → choice v.2 = none) : Counted db m (rs ++ [r]) := by
  have key : ∀ h', votesFor (rs ++ [r]) h' = votesFor rs h' := by
    intro h'
    rw [votesFor_append, votesFor_other, List.append_nil]
    intro v hv; rw [hr v hv]; nofun
  exact ⟨h.nodup, fun t ht => by rw [key]; exact h.votes t ht, h.claim, fun h' hh => h.all h' (by rwa [key] at hh)⟩

theorem Counted.push {db : Db} {m : List Tally} {rs : Answers} (h : Counted db m rs) {v : Nat × NetParts} {p : Bytes} (hp : choice v.2 = some p)
    (hm : ∃ t ∈ m, t.hash = p) : Counted db (addVote m p v) (rs ++ [some v]) := by
  have key : ∀ h', h' ≠ p → votesFor (rs ++ [some v]) h' = votesFor rs h' := by
    intro h' hne
    rw [votesFor_append, votesFor_other, List.append_nil]
    intro w hw; cases hw; rw [hp]; simpa using hne.symm
  have same : votesFor (rs ++ [some v]) p = votesFor rs p ++ [v] := by rw [votesFor_append, votesFor_one hp]
  have hh : ∀ t : Tally, (if t.hash = p then { t with votes := t.votes ++ [v] } else t).hash = t.hash := fun t => by split <;> rfl
  refine ⟨?_, ?_, ?_, ?_⟩
  · unfold addVote
    rw [List.map_map]
    have : ((fun x : Tally => x.hash) ∘ fun t => if t.hash = p then { t with votes := t.votes ++ [v] } else t) = fun t => t.hash := funext hh
    rw [this]; exact h.nodup
  · intro t ht
    obtain ⟨u, hu, rfl⟩ := List.mem_map.1 ht
    rw [hh]
    by_cases hup : u.hash = p
    · rw [if_pos hup, hup, same, (h.votes u hu).1, hup]
      exact ⟨rfl, by simp⟩
    · rw [if_neg hup, key _ hup]
      exact h.votes u hu
  · intro t ht
    obtain ⟨u, hu, rfl⟩ := List.mem_map.1 ht
    rw [hh]
    obtain ⟨is, hi⟩ := h.claim u hu
    refine ⟨is, ?_⟩
    rw [hi]
    split <;> rfl
  · intro h' hne
    have : ∃ t ∈ m, t.hash = h' := by
      by_cases hp' : h' = p
      · rw [hp']; exact hm
      · rw [key _ hp'] at hne; exact h.all h' hne
    obtain ⟨t, ht, hth⟩ := this
    exact ⟨_, List.mem_map.2 ⟨t, ht, rfl⟩, by rw [hh]; exact hth⟩

theorem Counted.new {db : Db} {m : List Tally} {rs : Answers} (h : Counted db m rs) {v : Nat × NetParts} {p : Bytes} (hp : choice v.2 = some p)
    (hm : ∀ t ∈ m, t.hash ≠ p) {c : Option Claim} {is : List Issue} (hc : readClaim db p = .ok (c, is)) :
    Counted db (m ++ [⟨p, c, [v]⟩]) (rs ++ [some v]) := by
  have key : ∀ h', h' ≠ p → votesFor (rs ++ [some v]) h' = votesFor rs h' := by
    intro h' hne
    rw [votesFor_append, votesFor_other, List.append_nil]
    intro w hw; cases hw; rw [hp]; simpa using hne.symm
  have hnil : votesFor rs p = [] := by
    apply Classical.byContradiction
    intro hne
    obtain ⟨t, ht, hth⟩ := h.all p hne
    exact hm t ht hth
  have same : votesFor (rs ++ [some v]) p = [v] := by rw [votesFor_append, votesFor_one hp, hnil]; rfl
  refine ⟨?_, ?_, ?_, ?_⟩
  · rw [List.map_append, List.nodup_append]
    refine ⟨h.nodup, by simp, ?_⟩
    intro a ha b hb
    obtain ⟨t, ht, rfl⟩ := List.mem_map.1 ha
    simp only [List.map_cons, List.map_nil, List.mem_singleton] at hb
    rw [hb]; exact hm t ht
  · intro t ht
    rcases List.mem_append.1 ht with ht | ht
    · rw [key _ (hm t ht)]; exact h.votes t ht
    · rw [List.mem_singleton] at ht
      subst ht
      exact ⟨same.symm, by simp⟩
  · intro t ht
    rcases List.mem_append.1 ht with ht | ht
    · exact h.claim t ht
    · rw [List.mem_singleton] at ht
      subst ht
      exact ⟨is, hc⟩
  · intro h' hne
    by_cases hp' : h' = p
    · exact ⟨_, List.mem_append_right _ (List.mem_singleton.2 rfl), hp'.symm⟩
    · rw [key _ hp'] at hne
      obtain ⟨t, ht, hth⟩ := h.all h' hne
      exact ⟨t, List.mem_append_left _ ht, hth⟩

/-- The loop over the authorities: it stops at the end, or early when a claim has as many votes as needed. -/
theorem collect_spec {db : Db} {ask : Bytes → QRes (Option (Nat × NetParts))} {parent : Bytes} {need : Nat} {f : Bytes → Option (Nat × NetParts)}
    (hread : ∀ h, ∃ x, readClaim db h = .ok x) (as : List Bytes) (hask : ∀ a ∈ as, ask a = .ok (f a)) {m : List Tally} {rs : Answers} (hm : Counted db m rs) :
    ∃ m' is k, collect db ask parent need m as = .ok (m', is) ∧ Counted db m' (rs ++ (as.map f).take k) ∧
      (as.length ≤ k ∨ ∃ h, need ≤ (votesFor (rs ++ (as.map f).take k) h).length) := by
  induction as generalizing m rs with
  | nil => exact ⟨m, [], 0, rfl, by simpa using hm, .inl (Nat.le_refl _)⟩
  | cons a as ih =>
    have ih := fun {m rs} => ih (fun b hb => hask b (List.mem_cons_of_mem _ hb)) (m := m) (rs := rs)
    have step : ∀ {m' : List Tally}, Counted db m' (rs ++ [f a]) → ∀ is, ∃ m'' js k,
        noting is (collect db ask parent need m' as) = .ok (m'', js) ∧ Counted db m'' (rs ++ ((a :: as).map f).take k) ∧
        ((a :: as).length ≤ k ∨ ∃ h, need ≤ (votesFor (rs ++ ((a :: as).map f).take k) h).length) := by
      intro m' hm' is
      obtain ⟨m'', js, k, h1, h2, h3⟩ := ih hm'
      refine ⟨m'', is ++ js, k + 1, by rw [h1]; rfl, ?_, ?_⟩
      · simpa using h2
      · rcases h3 with h3 | ⟨h, h3⟩
        · left; simpa using h3
        · right; exact ⟨h, by simpa using h3⟩
    unfold collect
    rw [hask a List.mem_cons_self]
    cases hfa : f a with
    | none =>
      rw [hfa] at step
      simp only
      have := step (hm.skip (r := none) nofun) [.noVote a parent]
      simpa [hfa] using this
    | some v =>
      rw [hfa] at step
      simp only
      have hskip : choice v.2 = none → ∃ m'' js k,
          noting [.unknownVote v] (collect db ask parent need m as) = .ok (m'', js) ∧ Counted db m'' (rs ++ ((a :: as).map f).take k) ∧
          ((a :: as).length ≤ k ∨ ∃ h, need ≤ (votesFor (rs ++ ((a :: as).map f).take k) h).length) :=
        fun hc => step (hm.skip (r := some v) (fun w hw => by cases hw; exact hc)) _
      cases hl : v.2.getLinks with
      | nil =>
        simp only [List.head?_nil]
        exact hskip (by unfold choice; rw [hl])
      | cons l ls =>
        simp only [List.head?_cons]
        by_cases ht : l.tag = voteTag
        · have hch : choice v.2 = some l.ptr := by unfold choice; rw [hl]; simp only; exact if_pos ht
          rw [if_neg (Classical.not_not.2 ht)]
          cases hfind : m.find? (fun t => t.hash == l.ptr) with
          | some t =>
            simp only
            have hmem := List.mem_of_find?_eq_some hfind
            have hhash : t.hash = l.ptr := by simpa using List.find?_some hfind
            have hpush := hm.push hch ⟨t, hmem, hhash⟩
            split
            · rename_i hge
              refine ⟨_, _, 1, rfl, by simpa [hfa] using hpush, .inr ⟨l.ptr, ?_⟩⟩
              simp only [List.map_cons, List.take_succ_cons, List.take_zero, hfa]
              rw [votesFor_append, votesFor_one hch, List.length_append]
              have := (hm.votes t hmem).1
              rw [hhash] at this
              rw [← this]
              exact hge
            · obtain ⟨m'', js, k, h1, h2⟩ := step hpush []
              refine ⟨m'', js, k, ?_, h2⟩
              rw [← h1]
              cases collect db ask parent need (addVote m l.ptr v) as with
              | ok x => rfl
              | error e => rfl
          | none =>
            simp only
            obtain ⟨⟨c, is⟩, hc⟩ := hread l.ptr
            rw [hc]
            simp only
            exact step (hm.new hch (fun t htm hth => by
              have := List.find?_eq_none.1 hfind t htm
              simp [hth] at this) hc) _
        · rw [if_pos ht]
          exact hskip (by unfold choice; rw [hl]; simp only; exact if_neg ht)

/-! ### the winner -/

theorem orderLe_trans (a b c : Tally) (h1 : orderLe a b = true) (h2 : orderLe b c = true) : orderLe a c = true := by
  simp only [orderLe, decide_eq_true_eq] at *
  omega
theorem orderLe_total (a b : Tally) : (orderLe a b || orderLe b a) = true := by
  simp only [orderLe, Bool.or_eq_true, decide_eq_true_eq]
  omega

theorem insertBy_perm (le : Tally → Tally → Bool) (x : Tally) (l : List Tally) : (insertBy le x l).Perm (x :: l) := by
  induction l with
  | nil => exact .refl _
  | cons y ys ih =>
    unfold insertBy
    split
    · exact .refl _
    · exact (ih.cons y).trans (.swap ..)
theorem sortBy_perm (le : Tally → Tally → Bool) (l : List Tally) : (sortBy le l).Perm l := by
  induction l with
  | nil => exact .refl _
  | cons x l ih => exact (insertBy_perm le x _).trans (ih.cons x)
theorem insertBy_sorted (x : Tally) {l : List Tally} (h : l.Pairwise (fun a b => orderLe a b = true)) :
    (insertBy orderLe x l).Pairwise (fun a b => orderLe a b = true) := by
  induction l with
  | nil => simp [insertBy]
  | cons y ys ih =>
    obtain ⟨h1, h2⟩ := List.pairwise_cons.1 h
    unfold insertBy
    split
    · rename_i hxy
      refine List.pairwise_cons.2 ⟨?_, h⟩
      intro z hz
      rcases List.mem_cons.1 hz with rfl | hz
      · exact hxy
      · exact orderLe_trans _ _ _ hxy (h1 z hz)
    · rename_i hxy
      refine List.pairwise_cons.2 ⟨?_, ih h2⟩
      intro z hz
      rcases List.mem_cons.1 ((insertBy_perm _ x ys).mem_iff.1 hz) with rfl | hz
      · have := orderLe_total y z
        simpa [hxy] using this
      · exact h1 z hz
theorem sortBy_sorted (l : List Tally) : (sortBy orderLe l).Pairwise (fun a b => orderLe a b = true) := by
  induction l with
  | nil => exact .nil
  | cons x l ih => exact insertBy_sorted x ih

/-- `a` comes strictly before `b`. -/
def OrderLt (a b : Tally) : Prop := a.order.1 < b.order.1 ∨ (a.order.1 = b.order.1 ∧ a.order.2 < b.order.2)

theorem outcome_live {m m' : List Tally} {t : Tally} (hp : m'.Perm m) (hv : ∀ u ∈ m, u.votes ≠ []) (hn : (m.map (·.hash)).Nodup) (ht : t ∈ m)
    (hlt : ∀ u ∈ m, u.hash ≠ t.hash → OrderLt u t) : outcome m' = .live t := by
  have hf : m'.filter (fun t => !t.votes.isEmpty) = m' := by
    rw [List.filter_eq_self]
    intro u hu
    have := hv u (hp.mem_iff.1 hu)
    cases h : u.votes with
    | nil => exact absurd h this
    | cons => rfl
  have hperm : (sortBy orderLe m').Perm m := (sortBy_perm _ _).trans hp
  have hsort : (sortBy orderLe m').Pairwise (fun a b => orderLe a b = true) := sortBy_sorted _
  unfold outcome
  rw [hf]
  simp only
  generalize hs : sortBy orderLe m' = s at *
  obtain ⟨xs, y, rfl⟩ : ∃ xs y, s = xs ++ [y] := by
    have : s ≠ [] := by intro h; rw [h] at hperm; exact absurd (hperm.mem_iff.2 ht) (by simp)
    exact ⟨_, _, (List.dropLast_concat_getLast this).symm⟩
  have hnd : ((xs ++ [y]).map (·.hash)).Nodup := (hperm.map _).nodup_iff.2 hn
  have hy : y = t := by
    have : t ∈ xs ++ [y] := hperm.mem_iff.2 ht
    rcases List.mem_append.1 this with h | h
    · exfalso
      have h1 := (List.pairwise_append.1 hsort).2.2 t h y (List.mem_singleton.2 rfl)
      have hne : y.hash ≠ t.hash := by
        rw [List.map_append, List.nodup_append] at hnd
        intro he
        exact hnd.2.2 t.hash (List.mem_map.2 ⟨t, h, rfl⟩) y.hash (by simp) he.symm
      have h2 := hlt y (hperm.mem_iff.1 (by simp)) hne
      simp only [orderLe, decide_eq_true_eq] at h1
      unfold OrderLt at h2
      omega
    · exact (List.mem_singleton.1 h).symm
  subst hy
  rw [List.getLast?_concat, List.dropLast_concat]
  simp only
  have : xs.takeWhile (fun p => y.order == p.order) = [] := by
    cases xs with
    | nil => rfl
    | cons x xs =>
      rw [List.takeWhile_cons_of_neg]
      have hne : x.hash ≠ y.hash := by
        rw [List.map_append, List.nodup_append] at hnd
        exact fun he => hnd.2.2 x.hash (by simp) y.hash (by simp) he
      have h2 := hlt x (hperm.mem_iff.1 (by simp)) hne
      intro h
      have h : y.order = x.order := by simpa using h
      unfold OrderLt at h2
      rw [h] at h2
      omega
  rw [this]
  rfl

/-- The claim that is ahead wins, also if the loop stopped early. -/
theorem ahead_wins {db : Db} {m m' : List Tally} {rs : Answers} {k : Nat} {h : Bytes} (hc : Counted db m (rs.take k))
    (hk : rs.length ≤ k ∨ ∃ h, (rs.length + 1) / 2 ≤ (votesFor (rs.take k) h).length) (hp : m'.Perm m) (ha : Ahead rs h)
    (hst : ∀ v, some v ∈ rs → v.2.getCreate < u64End) :
    ∃ t is, outcome m' = .live t ∧ t.hash = h ∧ t.votes = votesFor (rs.take k) h ∧ t.votes ≠ [] ∧ readClaim db h = .ok (t.claim, is) := by
  have hle : ∀ h', (votesFor (rs.take k) h').length ≤ (votesFor rs h').length := by
    intro h'
    conv => rhs; rw [← List.take_append_drop k rs, votesFor_append, List.length_append]
    omega
  have hlen : (rs.take k).length ≤ rs.length := by rw [List.length_take]; omega
  -- `h` is ahead also among the answers taken
  have key : (votesFor (rs.take k) h) ≠ [] ∧ ∀ h', h' ≠ h → (votesFor (rs.take k) h').length < (votesFor (rs.take k) h).length ∨
      ((votesFor (rs.take k) h').length = (votesFor (rs.take k) h).length ∧ lastVote (rs.take k) h < lastVote (rs.take k) h') := by
    rcases hk with hk | ⟨h1, hk⟩
    · rw [List.take_of_length_le hk]
      refine ⟨?_, fun h' hne => (ha h' hne).imp id fun x => ⟨x.1, x.2.2⟩⟩
      intro hnil
      obtain ⟨h', hne⟩ : ∃ h', h' ≠ h := ⟨h ++ [0], by simp⟩
      rcases ha h' hne with hlt | ⟨heq, -, hlt⟩
      · rw [hnil] at hlt; exact absurd hlt (by simp)
      · rw [hnil] at heq
        have : votesFor rs h' = [] := List.length_eq_zero_iff.1 heq
        unfold lastVote at hlt
        rw [this, hnil] at hlt
        exact absurd hlt (Nat.lt_irrefl _)
    · have he : h1 = h := by
        apply Classical.byContradiction
        intro hne
        have h2 := votes_two rs (h := h) (h' := h1) (fun e => hne e.symm)
        have h3 := hle h1
        rcases ha h1 hne with h4 | ⟨h4, h5, -⟩ <;> omega
      subst he
      refine ⟨?_, fun h' hne => ?_⟩
      · intro hnil
        rw [hnil] at hk
        have : rs = [] := by
          have : rs.length = 0 := by simp only [List.length_nil] at hk; omega
          exact List.length_eq_zero_iff.1 this
        subst this
        obtain ⟨h', hne⟩ : ∃ h', h' ≠ h1 := ⟨h1 ++ [0], by simp⟩
        rcases ha h' hne with h4 | ⟨-, h4, -⟩
        · simp [votesFor] at h4
        · simp [votesFor] at h4
      · left
        apply Classical.byContradiction
        intro hge
        have h2 := votes_two (rs.take k) (h := h1) (h' := h') (fun e => hne e.symm)
        have h3 := votes_two rs (h := h1) (h' := h') (fun e => hne e.symm)
        have h4 := hle h1
        have h5 := hle h'
        rcases ha h' hne with h6 | ⟨h6, h7, -⟩ <;> omega
  obtain ⟨t, ht, hth⟩ := hc.all h key.1
  obtain ⟨is, hi⟩ := hc.claim t ht
  have hvt := (hc.votes t ht).1
  rw [hth] at hvt hi
  refine ⟨t, is, outcome_live hp (fun u hu => (hc.votes u hu).2) hc.nodup ht ?_, hth, hvt, (hc.votes t ht).2, hi⟩
  intro u hu hne
  rw [hth] at hne
  have hvu := (hc.votes u hu).1
  have hbound : ∀ x : Tally, x ∈ m → (x.votes.map (·.2.getCreate)).foldl max 0 < u64End := by
    intro x hx
    have hmem : ∀ w ∈ x.votes, w.2.getCreate < u64End := by
      intro w hw
      rw [(hc.votes x hx).1, votesFor_mem] at hw
      exact hst w (List.mem_of_mem_take hw.1)
    have : ∀ (l : List Nat) (b : Nat), b < u64End → (∀ n ∈ l, n < u64End) → l.foldl max b < u64End := by
      intro l
      induction l with
      | nil => intro b hb _; exact hb
      | cons n l ih =>
        intro b hb hl
        rw [List.foldl_cons]
        refine ih _ ?_ (fun x hx => hl x (List.mem_cons_of_mem _ hx))
        have := hl n List.mem_cons_self
        omega
    refine this _ 0 (by unfold u64End; omega) ?_
    intro n hn
    obtain ⟨w, hw, rfl⟩ := List.mem_map.1 hn
    exact hmem w hw
  have b1 := hbound t ht
  have b2 := hbound u hu
  unfold OrderLt Tally.order
  simp only
  rcases key.2 u.hash hne with h1 | ⟨h1, h2⟩
  · left; rw [hvu, hvt]; exact h1
  · right
    unfold lastVote at h2
    rw [← hvt, ← hvu] at h1 h2
    omega

theorem outcome_mem {m : List Tally} {t : Tally} (h : outcome m = .live t) : t ∈ m := by
  unfold outcome at h
  simp only at h
  split at h
  · cases h
  · rename_i live hl
    split at h
    · cases h
      have := List.mem_of_getLast? hl
      exact (List.mem_filter.1 ((sortBy_perm _ _).mem_iff.1 this)).1
    · cases h

/-- The claims in the map are what is stored under their hashes. -/
theorem collect_claims_from {db : Db} {ask : Bytes → QRes (Option (Nat × NetParts))} {parent : Bytes} {need : Nat} {as : List Bytes} {m m' : List Tally}
    {is : List Issue} (h : collect db ask parent need m as = .ok (m', is)) (hm : ∀ t ∈ m, ∃ js, readClaim db t.hash = .ok (t.claim, js)) :
    ∀ t ∈ m', ∃ js, readClaim db t.hash = .ok (t.claim, js) := by
  have noted : ∀ {js : List Issue} {x : QRes (List Tally × List Issue)} {m' is}, noting js x = .ok (m', is) → ∃ ks, x = .ok (m', ks) := by
    intro js x m' is hx
    cases x with
    | error e => cases hx
    | ok x => obtain ⟨a, b⟩ := x; cases hx; exact ⟨b, rfl⟩
  have hadd : ∀ {m : List Tally} {p v}, (∀ t ∈ m, ∃ js, readClaim db t.hash = .ok (t.claim, js)) →
      ∀ t ∈ addVote m p v, ∃ js, readClaim db t.hash = .ok (t.claim, js) := by
    intro m p v hm t ht
    obtain ⟨u, hu, rfl⟩ := List.mem_map.1 ht
    obtain ⟨js, hj⟩ := hm u hu
    refine ⟨js, ?_⟩
    split <;> exact hj
  induction as generalizing m m' is with
  | nil => unfold collect at h; cases h; exact hm
  | cons a as ih =>
    unfold collect at h
    split at h
    · cases h
    · obtain ⟨ks, hk⟩ := noted h; exact ih hk hm
    · rename_i v hv
      split at h
      · obtain ⟨ks, hk⟩ := noted h; exact ih hk hm
      · rename_i l hl
        split at h
        · obtain ⟨ks, hk⟩ := noted h; exact ih hk hm
        · split at h
          · split at h
            · cases h; exact hadd hm
            · exact ih h (hadd hm)
          · split at h
            · cases h
            · rename_i c js hc
              obtain ⟨ks, hk⟩ := noted h
              refine ih hk ?_
              intro t ht
              rcases List.mem_append.1 ht with ht | ht
              · exact hm t ht
              · rw [List.mem_singleton] at ht
                subst ht
                exact ⟨js, hc⟩
theorem collect_claims {db : Db} {ask : Bytes → QRes (Option (Nat × NetParts))} {parent : Bytes} {need : Nat} {as : List Bytes} {m' : List Tally}
    {is : List Issue} (h : collect db ask parent need [] as = .ok (m', is)) : ∀ t ∈ m', ∃ js, readClaim db t.hash = .ok (t.claim, js) :=
  collect_claims_from h (by simp)

/-- What wins has no fewer votes than any other. -/
theorem outcome_most {m : List Tally} {t : Tally} (h : outcome m = .live t) : ∀ u ∈ m, u.votes.length ≤ t.votes.length := by
  intro u hu
  by_cases hne : u.votes = []
  · rw [hne]; simp
  unfold outcome at h
  simp only at h
  have hsort : (sortBy orderLe (m.filter fun t => !t.votes.isEmpty)).Pairwise (fun a b => orderLe a b = true) :=
    sortBy_sorted _
  have hmem : u ∈ sortBy orderLe (m.filter fun t => !t.votes.isEmpty) :=
    (sortBy_perm _ _).mem_iff.2 (List.mem_filter.2 ⟨hu, by cases hv : u.votes with | nil => exact absurd hv hne | cons => rfl⟩)
  generalize sortBy orderLe (m.filter fun t => !t.votes.isEmpty) = s at *
  split at h
  · cases h
  · rename_i live hl
    split at h
    · cases h
      obtain ⟨xs, rfl⟩ : ∃ xs, s = xs ++ [t] := by
        rw [List.getLast?_eq_some_iff] at hl
        exact hl
      rcases List.mem_append.1 hmem with h1 | h1
      · have := (List.pairwise_append.1 hsort).2.2 u h1 t (List.mem_singleton.2 rfl)
        have := of_decide_eq_true this
        simp only [Tally.order] at this
        omega
      · rw [List.mem_singleton.1 h1]; exact Nat.le_refl _
    · cases h

/-- The winner of the answers taken has no fewer votes than any other among all answers. -/
theorem most_wins {db : Db} {m m' : List Tally} {rs : Answers} {k : Nat} (hc : Counted db m (rs.take k))
    (hk : rs.length ≤ k ∨ ∃ h, (rs.length + 1) / 2 ≤ (votesFor (rs.take k) h).length) (hp : m'.Perm m) {t : Tally} (ho : outcome m' = .live t) :
    t ∈ m ∧ ∀ h', (votesFor rs h').length ≤ (votesFor rs t.hash).length := by
  have htm : t ∈ m := hp.mem_iff.1 (outcome_mem ho)
  refine ⟨htm, fun h' => ?_⟩
  have hle : ∀ h', (votesFor (rs.take k) h').length ≤ (votesFor rs h').length := by
    intro h'
    conv => rhs; rw [← List.take_append_drop k rs, votesFor_append, List.length_append]
    omega
  have hmost : ∀ h', (votesFor (rs.take k) h').length ≤ (votesFor (rs.take k) t.hash).length := by
    intro h'
    by_cases hnil : votesFor (rs.take k) h' = []
    · rw [hnil]; simp
    · obtain ⟨u, hu, rfl⟩ := hc.all h' hnil
      rw [← (hc.votes u hu).1, ← (hc.votes t htm).1]
      exact outcome_most ho u (hp.mem_iff.2 hu)
  rcases hk with hk | ⟨h1, hk⟩
  · rw [List.take_of_length_le hk] at hmost
    exact hmost h'
  · by_cases he : h' = t.hash
    · rw [he]; exact Nat.le_refl _
    · have h2 := votes_two rs he
      have h3 := hmost h1
      have h4 := hle t.hash
      omega

theorem outcome_nobody {m : List Tally} (h : outcome m = .nobody) : ∀ u ∈ m, u.votes = [] := by
  intro u hu
  apply Classical.byContradiction
  intro hne
  unfold outcome at h
  simp only at h
  have hmem : u ∈ sortBy orderLe (m.filter fun t => !t.votes.isEmpty) :=
    (sortBy_perm _ _).mem_iff.2 (List.mem_filter.2 ⟨hu, by cases hv : u.votes with | nil => exact absurd hv hne | cons => rfl⟩)
  split at h
  · rename_i hl
    rw [List.getLast?_eq_none_iff] at hl
    rw [hl] at hmem; cases hmem
  · split at h <;> cases h

end Verif.Lns
