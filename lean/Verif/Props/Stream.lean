import Verif.Model.Stream
import Verif.Spec.Stream
import Verif.Lemmas.Bytes
/-!
# C53: helpers for streams of packets
-/
namespace Verif.Props
open Verif Verif.Pkt Verif.Stream Verif.Spec

section
variable {P : Type} {hash : P → Bytes} {links : P → Option (List Bytes)}

theorem buffer_run_append (b : Buffer P) (s t : List P) : b.run hash links (s ++ t) =
    ((b.run hash links s).1 ++ (((b.run hash links s).2).run hash links t).1, (((b.run hash links s).2).run hash links t).2) := by
  induction s generalizing b with
  | nil => simp [Buffer.run]
  | cons p s ih => simp only [List.cons_append, Buffer.run, ih, List.append_assoc]

theorem buffer_run_data (b : Buffer P) (ds : List P) (h : ∀ d ∈ ds, links d = none) : b.run hash links ds =
    (ds.filter fun d => hash d ∈ b.latest, ⟨b.forward ++ ds.filter (fun d => hash d ∉ b.latest), b.latest⟩) := by
  induction ds generalizing b with
  | nil => simp [Buffer.run]
  | cons d ds ih =>
    have hd := h d List.mem_cons_self
    have ih := fun b => ih b fun x hx => h x (List.mem_cons_of_mem _ hx)
    simp only [Buffer.run, Buffer.push, hd]
    by_cases hm : hash d ∈ b.latest
    · simp [hm, ih]
    · simp [hm, ih]

theorem split_stream (s : List P) : (∀ d ∈ s, links d = none) ∨ ∃ ds p ls t, s = ds ++ p :: t ∧ (∀ d ∈ ds, links d = none) ∧ links p = some ls := by
  induction s with
  | nil => exact .inl (fun _ h => nomatch h)
  | cons p s ih =>
    cases hp : links p with
    | some ls => exact .inr ⟨[], p, ls, s, rfl, (fun _ h => nomatch h), hp⟩
    | none =>
      rcases ih with ih | ⟨ds, q, ls, t, rfl, h1, h2⟩
      · refine .inl fun d hd => ?_
        rcases List.mem_cons.1 hd with rfl | hd
        · exact hp
        · exact ih d hd
      · refine .inr ⟨p :: ds, q, ls, t, rfl, fun d hd => ?_, h2⟩
        rcases List.mem_cons.1 hd with rfl | hd
        · exact hp
        · exact h1 d hd

theorem forwards_total (prev : List Bytes) (s : List P) : ∃ o, Forwards hash links prev s o := by
  induction hl : s.length using Nat.strongRecOn generalizing prev s with
  | _ n ih =>
    rcases split_stream (links := links) s with h | ⟨ds, p, ls, t, rfl, h1, h2⟩
    · exact ⟨_, .stop h⟩
    · obtain ⟨o, ho⟩ := ih t.length (by simp at hl; omega) ls t rfl
      exact ⟨_, .point h1 h2 ho⟩

theorem buffer_run_forwards {b : Buffer P} {s o : List P} (h : Forwards hash links b.latest s o) (hb : b.forward = []) : (b.run hash links s).1 = o := by
  obtain ⟨f, prev⟩ := b
  cases hb
  simp only at h
  induction h with
  | stop hd => rw [buffer_run_data _ _ hd]
  | @point prev ds p ls s o hd hp ho ih =>
    rw [buffer_run_append, buffer_run_data _ _ hd]
    simp only [List.nil_append, Buffer.run, Buffer.push, hp, ih, List.filter_filter, List.append_assoc, List.singleton_append]
    congr 2
    apply List.filter_congr
    intro x _
    simp [Bool.and_comm]

/-- **C53**: what the buffer forwards of a stream is exactly what the specification says, for every stream. -/
theorem buffer_iff (s o : List P) : ((Buffer.empty : Buffer P).run hash links s).1 = o ↔ Forwards hash links [] s o := by
  constructor
  · rintro rfl
    obtain ⟨o, ho⟩ := forwards_total (hash := hash) (links := links) [] s
    rw [buffer_run_forwards (b := Buffer.empty) ho rfl]
    exact ho
  · intro h
    exact buffer_run_forwards (b := Buffer.empty) h rfl

/-- Linked points are all forwarded, in order. -/
theorem buffer_points (s : List P) : ((Buffer.empty : Buffer P).run hash links s).1.filter (fun p => (links p).isSome) = s.filter fun p => (links p).isSome := by
  have key : ∀ {prev : List Bytes} {s o : List P}, Forwards hash links prev s o → o.filter (fun p => (links p).isSome) = s.filter fun p => (links p).isSome := by
    intro prev s o h
    have hn : ∀ (ds : List P) (f : P → Bool), (∀ d ∈ ds, links d = none) → (ds.filter f).filter (fun p => (links p).isSome) = [] := by
      intro ds f hd
      rw [List.filter_eq_nil_iff]
      intro a ha
      rw [hd a (List.mem_filter.1 ha).1]
      nofun
    have hn0 : ∀ (ds : List P), (∀ d ∈ ds, links d = none) → ds.filter (fun p => (links p).isSome) = [] := by
      intro ds hd
      rw [List.filter_eq_nil_iff]
      intro a ha
      rw [hd a ha]
      nofun
    induction h with
    | stop hd => rw [hn _ _ hd, hn0 _ hd]
    | point hd hp ho ih =>
      rw [List.filter_append, List.filter_append, hn _ _ hd, hn _ _ hd, List.filter_append, hn0 _ hd, List.filter_cons, List.filter_cons, ih]
      rfl
  exact key ((buffer_iff s _).1 rfl)

/-- Nothing is forwarded more often than it came. -/
theorem buffer_once [BEq P] [LawfulBEq P] (s : List P) (p : P) : ((Buffer.empty : Buffer P).run hash links s).1.count p ≤ s.count p := by
  have key : ∀ {prev : List Bytes} {s o : List P}, Forwards hash links prev s o → o.count p ≤ s.count p := by
    intro prev s o h
    induction h with
    | stop _ => exact List.filter_sublist.count_le p
    | @point prev ds q ls s o hd hp ho ih =>
      rw [List.count_append, List.count_append, List.count_append, List.count_cons, List.count_cons]
      have h1 : (ds.filter fun d => hash d ∈ prev).count p + (ds.filter fun d => hash d ∉ prev ∧ hash d ∈ ls).count p ≤ ds.count p := by
        clear hd
        induction ds with
        | nil => simp
        | cons d ds ih =>
          rw [List.filter_cons, List.filter_cons]
          by_cases ha : hash d ∈ prev
          · simp only [ha, decide_true, if_true, not_true, false_and, decide_false, Bool.false_eq_true, if_false, List.count_cons]; omega
          · by_cases hb : hash d ∈ ls
            · simp only [ha, hb, decide_true, if_true, not_false_eq_true, and_self, decide_false, Bool.false_eq_true, if_false, List.count_cons]; omega
            · simp only [ha, hb, not_false_eq_true, and_false, decide_false, Bool.false_eq_true, if_false, List.count_cons]; omega
      omega
  exact key ((buffer_iff s _).1 rfl)

/-- A datapoint is forwarded only if the linked point before or after it links to it. -/
theorem buffer_linked (s : List P) (d : P) (h : d ∈ ((Buffer.empty : Buffer P).run hash links s).1) (hd : links d = none) :
    ∃ p ∈ s, ∃ ls, links p = some ls ∧ hash d ∈ ls := by
  have key : ∀ {prev : List Bytes} {s o : List P}, Forwards hash links prev s o → d ∈ o → hash d ∈ prev ∨ ∃ p ∈ s, ∃ ls, links p = some ls ∧ hash d ∈ ls := by
    intro prev s o h hm
    induction h with
    | stop _ => exact .inl (by simpa using (List.mem_filter.1 hm).2)
    | @point prev ds q ls s o hds hp ho ih =>
      rcases List.mem_append.1 hm with hm | hm
      · rcases List.mem_append.1 hm with hm | hm
        · exact .inl (by simpa using (List.mem_filter.1 hm).2)
        · have := (List.mem_filter.1 hm).2
          simp at this
          exact .inr ⟨q, by simp, ls, hp, this.2⟩
      · rcases List.mem_cons.1 hm with rfl | hm
        · rw [hd] at hp; cases hp
        · rcases ih hm with h | ⟨p, h1, h2⟩
          · exact .inr ⟨q, by simp, ls, hp, h⟩
          · exact .inr ⟨p, by simp [h1], h2⟩
  rcases key ((buffer_iff s _).1 rfl) h with h | h
  · cases h
  · exact h

/-- The datapoints between two linked points that neither links to are lost, those that one of them links to are not. -/
theorem buffer_drops (s t ds : List P) (p q : P) (ls ms : List Bytes) (hp : links p = some ls) (hq : links q = some ms) (hd : ∀ d ∈ ds, links d = none) :
    ∃ a o, ((Buffer.empty : Buffer P).run hash links (s ++ p :: (ds ++ q :: t))).1 = a ++ p :: ((ds.filter fun d => hash d ∈ ls) ++
      (ds.filter fun d => hash d ∉ ls ∧ hash d ∈ ms) ++ q :: o) := by
  rw [buffer_run_append]
  obtain ⟨o, ho⟩ := forwards_total (hash := hash) (links := links) ms t
  generalize hx : (Buffer.empty.run hash links s) = x
  obtain ⟨a, f, l⟩ := x
  have h2 := buffer_run_forwards (b := (⟨[], ls⟩ : Buffer P)) (.point hd hq ho) rfl
  refine ⟨a ++ f.filter (fun v => decide (hash v ∈ ls)), o, ?_⟩
  simp only [Buffer.run, Buffer.push, hp, h2, List.append_assoc, List.singleton_append]
end

/-- A stream that shows the cases: a datapoint before a point linking to it, one after, and one that is lost. -/
example : ((Buffer.empty : Buffer (Nat × Option (List Bytes))).run (fun p => [UInt8.ofNat p.1]) Prod.snd
    [(1, none), (2, none), (3, some [[1], [4]]), (4, none), (2, none), (5, some [])]).1 =
    [(1, none), (3, some [[1], [4]]), (4, none), (5, some [])] := by decide

/-! ### deduplication -/

/-- What the buffers hold after a history of questions: at each place the last hash with that place, if there was one. -/
theorem dedup_state (cap : Nat) (hist : List Bytes) (b : List Bytes) (h : dedupRun (dedupNew cap) hist = .ok b) :
    b.length = cap ∧ ∀ i < cap, ((∃ older x newer, hist = older ++ x :: newer ∧ dedupKey x % cap = i ∧ b[i]? = some x ∧ ∀ y ∈ newer, dedupKey y % cap ≠ i) ∨
      ((∀ y ∈ hist, dedupKey y % cap ≠ i) ∧ b[i]? = some (List.replicate 32 0))) := by
  have key : ∀ (hist : List Bytes) (b0 b : List Bytes), b0.length = cap → dedupRun b0 hist = .ok b → b.length = cap ∧
      ∀ i < cap, ((∃ older x newer, hist = older ++ x :: newer ∧ dedupKey x % cap = i ∧ b[i]? = some x ∧ ∀ y ∈ newer, dedupKey y % cap ≠ i) ∨
      ((∀ y ∈ hist, dedupKey y % cap ≠ i) ∧ b[i]? = b0[i]?)) := by
    intro hist
    induction hist with
    | nil =>
      intro b0 b hl h
      cases h
      exact ⟨hl, fun i _ => .inr ⟨(fun _ h => nomatch h), rfl⟩⟩
    | cons x hist ih =>
      intro b0 b hl h
      rw [dedupRun, dedup] at h
      by_cases h0 : b0.length = 0
      · rw [if_pos h0] at h; cases h
      · rw [if_neg h0] at h
        simp only at h
        obtain ⟨h1, h2⟩ := ih _ b (by rw [List.length_set]; exact hl) h
        refine ⟨h1, fun i hi => ?_⟩
        rcases h2 i hi with ⟨older, y, newer, rfl, h3, h4, h5⟩ | ⟨h3, h4⟩
        · exact .inl ⟨x :: older, y, newer, rfl, h3, h4, h5⟩
        · rw [hl] at h4
          by_cases hx : dedupKey x % cap = i
          · refine .inl ⟨[], x, hist, rfl, hx, ?_, h3⟩
            rw [h4, hx, List.getElem?_set_self (by omega)]
          · refine .inr ⟨fun y hy => ?_, ?_⟩
            · rcases List.mem_cons.1 hy with rfl | hy
              · exact hx
              · exact h3 y hy
            · rw [h4, List.getElem?_set_ne hx]
  obtain ⟨h1, h2⟩ := key hist _ b (List.length_replicate ..) h
  refine ⟨h1, fun i hi => ?_⟩
  rcases h2 i hi with h2 | ⟨h2, h3⟩
  · exact .inl h2
  · exact .inr ⟨h2, by rw [h3, List.getElem?_replicate, if_pos hi]⟩

/-- **C53**: a hash is called seen exactly if it is the last one asked for with its place, or it is all zero and its
place is unused.  For every history. -/
theorem dedup_iff (cap : Nat) (hist : List Bytes) (b : List Bytes) (h : dedupRun (dedupNew cap) hist = .ok b) (hc : cap ≠ 0) (x : Bytes) :
    ∃ r b', dedup b x = .ok (r, b') ∧ (r = true ↔
      (∃ older newer, hist = older ++ x :: newer ∧ ∀ y ∈ newer, dedupKey y % cap ≠ dedupKey x % cap) ∨
      (x = List.replicate 32 0 ∧ ∀ y ∈ hist, dedupKey y % cap ≠ dedupKey x % cap)) := by
  obtain ⟨h1, h2⟩ := dedup_state cap hist b h
  have hlt : dedupKey x % cap < cap := Nat.mod_lt _ (by omega)
  refine ⟨_, _, by rw [dedup, if_neg (by omega)], ?_⟩
  rw [h1]
  rcases h2 _ hlt with ⟨older, z, newer, rfl, h3, h4, h5⟩ | ⟨h3, h4⟩
  · rw [h4]
    constructor
    · intro hr
      have : z = x := by simpa using hr
      subst this
      exact .inl ⟨older, newer, rfl, h5⟩
    · rintro (⟨o, m, he, hm⟩ | ⟨_, hm⟩)
      · have hz : z ∈ x :: m := by
          rcases List.append_eq_append_iff.1 he with ⟨a', ha, hb⟩ | ⟨c', ha, hb⟩
          · cases a' with
            | nil =>
              rw [List.nil_append] at hb
              rw [(List.cons.inj hb).1]
              exact List.mem_cons_self
            | cons d a' =>
              have hb' := (List.cons.inj hb).2
              exact absurd rfl (h5 x (by rw [hb']; simp))
          · rw [hb]; simp
        rcases List.mem_cons.1 hz with rfl | hz
        · simp
        · exact absurd h3 (hm z hz)
      · exact absurd h3 (hm z (by simp))
  · rw [h4]
    constructor
    · intro hr
      have : List.replicate 32 0 = x := by simpa using hr
      exact .inr ⟨this.symm, h3⟩
    · rintro (⟨o, m, rfl, _⟩ | ⟨rfl, _⟩)
      · exact absurd rfl (h3 x (by simp))
      · simp

/-- **C53**: a hash that is not all zero is only called seen if it was asked for before. -/
theorem dedup_seen_partial (cap : Nat) (hist : List Bytes) (b b' : List Bytes) (h : dedupRun (dedupNew cap) hist = .ok b) (x : Bytes)
    (hx : x ≠ List.replicate 32 0) (hr : dedup b x = .ok (true, b')) : x ∈ hist := by
  by_cases hc : cap = 0
  · have := (dedup_state cap hist b h).1
    rw [dedup, if_pos (by omega)] at hr
    cases hr
  · obtain ⟨r, c, h1, h2⟩ := dedup_iff cap hist b h hc x
    rw [hr] at h1
    cases h1
    rcases h2.1 rfl with ⟨o, m, rfl, _⟩ | ⟨h3, _⟩
    · simp
    · exact absurd h3 hx

/-- The all-zero hash is called seen at once, and a deduplicator of size zero aborts. -/
theorem dedup_zero (cap : Nat) (hc : cap ≠ 0) : ∃ b, dedup (dedupNew cap) (List.replicate 32 0) = .ok (true, b) := by
  obtain ⟨r, b, h1, h2⟩ := dedup_iff cap [] (dedupNew cap) rfl hc (List.replicate 32 0)
  exact ⟨b, by rw [h1, h2.2 (.inr ⟨rfl, (fun _ h => nomatch h)⟩)]⟩
theorem dedup_size_zero (h : Bytes) : dedup (dedupNew 0) h = .error .panic := rfl

end Verif.Props
