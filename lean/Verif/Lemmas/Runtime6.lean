import Verif.Lemmas.Runtime5
import Verif.Props.Matcher
/-!
# What the invariant says in terms of statements
-/
namespace Verif.Rt
open Verif Verif.Pkt Verif.Pred Verif.Env Verif.Query Verif.Matcher Verif.Spec

variable {C D : Type} {p : Prog C}

/-- `test_step` for a test that succeeds. -/
theorem test_step_ok {rs : List Stmt} {s : Preds} (h : Preds.default.run true rs = .ok s) (hr : ∀ r ∈ rs, Plain r)
    (hnew : SomePosition .new rs) {nth k : Nat} {w w' : Watch D} (hw : Stands s nth k w) {e : Nat × NetParts} (he : e.1 < 2 ^ 64)
    (hp : ∃ x, Shows e.2 x) {ok over : Bool} (ht : w.test e.1 e.2 = .ok (w', ok, over)) :
    ∃ k', Stands s nth k' w' ∧
      ((¬ Meets rs e.1 e.2 ∧ ok = false ∧ k' = k ∧ (over = true → ∀ t, e.1 ≤ t → t < 2 ^ 64 → ¬ ∀ r ∈ rs, RecvOk r t)) ∨
       (Meets rs e.1 e.2 ∧ k' = k + 1 ∧ (ok = true ↔ Accepts rs nth k) ∧
        (over = true → ∀ i, k + 1 ≤ i → nth + i < 2 ^ 32 → ¬ Accepts rs nth i))) := by
  by_cases hb : nth + k + 1 < 2 ^ 32
  · obtain ⟨w2, ok2, over2, k', h1, h2, _, _, h3⟩ := test_step h hr hnew hw e he hp hb
    rw [h1] at ht
    cases ht
    refine ⟨k', h2, ?_⟩
    rcases h3 with h3 | ⟨a, b, c, _, d⟩
    · exact .inl h3
    · exact .inr ⟨a, b, c, d⟩
  · have hm := test_meets h hr hp he
    have ee : (BitVec.ofNat 64 e.1).toNat = e.1 := by rw [BitVec.toNat_ofNat]; exact Nat.mod_eq_of_lt he
    have h1 := hw.preds; have h2 := hw.recv; have h3 := hw.iNew; have h4 := hw.iQuery; have h5 := hw.nthNew; have h6 := hw.nthQuery
    unfold Watch.test at ht
    cases ht' : w.test' e.1 e.2 with
    | error x => rw [ht'] at ht; cases ht
    | ok x =>
      obtain ⟨w1, r1⟩ := x
      rw [ht'] at ht
      cases ht
      unfold Watch.test' at ht'
      by_cases c1 : w.recv.high.toNat < e.1
      · rw [if_pos c1] at ht'
        cases ht'
        refine ⟨k, ⟨h1, h2, h3, h4, h5, h6⟩, .inl ⟨?_, rfl, rfl, fun _ t ht1 ht2 => ?_⟩⟩
        · rw [← hm]
          rintro ⟨_, hx⟩
          have := hx.2
          rw [ee, ← h2] at this; omega
        · have := run_recv h hr (BitVec.ofNat 64 t)
          rw [BitVec.toNat_ofNat, Nat.mod_eq_of_lt ht2] at this
          rw [← this]
          intro hx
          have := hx.2
          rw [BitVec.toNat_ofNat, Nat.mod_eq_of_lt ht2, ← h2] at this; omega
      rw [if_neg c1] at ht'
      by_cases c2 : e.1 < w.recv.low.toNat
      · rw [if_pos c2] at ht'
        cases ht'
        refine ⟨k, ⟨h1, h2, h3, h4, h5, h6⟩, .inl ⟨?_, rfl, rfl, nofun⟩⟩
        rw [← hm]
        rintro ⟨_, hx⟩
        have := hx.1
        rw [ee, ← h2] at this; omega
      rw [if_neg c2] at ht'
      cases c3 : w.preds.test e.2 with
      | false =>
        rw [c3, if_pos (by rfl)] at ht'
        cases ht'
        refine ⟨k, ⟨h1, h2, h3, h4, h5, h6⟩, .inl ⟨?_, rfl, rfl, nofun⟩⟩
        rw [← hm, ← h1, c3]
        rintro ⟨hx, _⟩; cases hx
      | true =>
        exfalso
        rw [c3, if_neg (by simp)] at ht'
        have hmax : inc w.nthQuery = none := by
          cases hi : inc w.nthQuery with
          | none => rfl
          | some x =>
            have := inc_some hi
            have := x.isLt
            omega
        rw [hmax] at ht'
        cases ha : w.iNew.test true w.nthNew with
        | error x => rw [ha] at ht'; cases ht'
        | ok a =>
          rw [ha] at ht'
          simp only at ht'
          cases hbb : (if a = true then w.iQuery.test true w.nthQuery else .ok false) with
          | error x => rw [hbb] at ht'; cases ht'
          | ok b => rw [hbb] at ht'; cases hn : inc w.nthNew <;> rw [hn] at ht' <;> cases ht'

theorem taken_snoc {rs : List Stmt} {nth : Nat} {L out : List (Nat × NetParts)} {k k' : Nat} {e : Nat × NetParts} {ok : Bool}
    (h : ∀ L' a, Taken rs nth k L' a → Taken rs nth 0 (L ++ L') (out ++ a))
    (hs : (¬ Meets rs e.1 e.2 ∧ ok = false ∧ k' = k) ∨ (Meets rs e.1 e.2 ∧ k' = k + 1 ∧ (ok = true ↔ Accepts rs nth k))) :
    ∀ L' a, Taken rs nth k' L' a → Taken rs nth 0 (L ++ [e] ++ L') (out ++ (if ok then [e] else []) ++ a) := by
  intro L' a ha
  rw [List.append_assoc, List.append_assoc]
  apply h
  rcases hs with ⟨h1, rfl, rfl⟩ | ⟨h1, rfl, h3⟩
  · exact .pass e h1 ha
  · cases ok with
    | true => exact .take e h1 (h3.1 rfl) ha
    | false => exact .skip e h1 (fun hx => by have := h3.2 hx; cases this) ha

theorem sees_taken {rs : List Stmt} {s : Preds} (h : Preds.default.run true rs = .ok s) (hr : ∀ r ∈ rs, Plain r)
    (hnew : SomePosition .new rs) {nth : Nat} {w w' : Watch Unit} (hw : Stands s nth 0 w) {L out : List (Nat × NetParts)}
    (hL : ∀ e ∈ L, e.1 < 2 ^ 64 ∧ ∃ x, Shows e.2 x) (hsee : Sees w L w' out) :
    ∃ k, Stands s nth k w' ∧ (∀ L' a, Taken rs nth k L' a → Taken rs nth 0 (L ++ L') (out ++ a)) ∧ k ≤ L.length := by
  induction hsee with
  | nil => exact ⟨0, hw, fun L' a ha => ha, Nat.le_refl _⟩
  | @snoc L out w1 w2 e ok h1 h2 ih =>
    obtain ⟨k, s1, t1, l1⟩ := ih (fun x hx => hL x (by simp [hx]))
    obtain ⟨g1, g2⟩ := hL e (by simp)
    obtain ⟨k', s2, t2⟩ := test_step_ok h hr hnew s1 g1 g2 h2
    rw [List.length_append, List.length_singleton]
    rcases t2 with ⟨a, b, c, _⟩ | ⟨a, b, c, _⟩
    · exact ⟨k', s2, taken_snoc t1 (.inl ⟨a, b, c⟩), by omega⟩
    · exact ⟨k', s2, taken_snoc t1 (.inr ⟨a, b, c⟩), by omega⟩

theorem found_in {rs : List Stmt} {s : Preds} (h : Preds.default.run true rs = .ok s) {mode : Mode} {check : Bool} {db : Db}
    {found : List (Nat × NetParts)} {nth : BitVec 32} (h1 : checkDb s = .ok check) (h2 : dbPart s mode check db = .ok (found, nth)) :
    FoundIn rs s mode db found nth := by
  have hp : ∀ q, (∃ x, (s.state q).Mem x) ↔ SomePosition q rs := by
    intro q
    constructor
    · rintro ⟨x, hx⟩; exact ⟨x.toNat, x.isLt, (run_count h q x).1 hx⟩
    · rintro ⟨n, hn, hc⟩
      exact ⟨BitVec.ofNat 32 n, (run_count h q _).2 (by rw [BitVec.toNat_ofNat, Nat.mod_eq_of_lt hn]; exact hc)⟩
  have ht : ∀ q, (s.state q).hasAny true = .ok true ↔ SomePosition q rs := fun q => (hasAny_true_iff (by decide) (by decide) _).trans (hp q)
  have hf : ∀ q, (s.state q).hasAny true = .ok false → ¬ SomePosition q rs := fun q hx hs => by
    rw [(ht q).2 hs] at hx; cases hx
  unfold checkDb at h1
  have ask : check = true → Asks rs := by
    rintro rfl
    cases hb : (s.state .branch).hasAny true with
    | error e => rw [hb] at h1; cases h1
    | ok b =>
      rw [hb] at h1
      cases b with
      | false => cases h1
      | true => exact ⟨(ht _).1 hb, (ht _).1 h1⟩
  have nask : check = false → ¬ Asks rs := by
    rintro rfl ⟨a1, a2⟩
    rw [(ht _).2 a1, (ht _).2 a2] at h1
    cases h1
  cases check with
  | true => exact .inl ⟨ask rfl, h2⟩
  | false => unfold dbPart at h2; rw [if_neg (by simp)] at h2; cases h2; exact .inr ⟨nask rfl, rfl, rfl⟩

/-! ### histories -/

theorem callsTo_about (n : Nat) (t : List Ev) : callsTo n t = callsTo n (about n t) := by
  unfold callsTo about
  rw [List.filterMap_filter]
  congr 1
  funext e
  cases e with
  | call m x =>
    by_cases hm : m = n
    · simp [Ev.num, hm]
    · simp [Ev.num, hm]
  | born m _ _ _ _ => simp
  | broke m => simp
  | gone m _ => simp

theorem callsTo_hist (b : Birth) (calls : List (Nat × NetParts)) : callsTo b.num (b.hist calls) = calls := by
  unfold callsTo Birth.hist
  rw [List.filterMap_cons]
  simp only
  induction calls with
  | nil => rfl
  | cons e calls ih => rw [List.map_cons, List.filterMap_cons]; simp only [if_true, ih]

theorem callsTo_append (n : Nat) (a b : List Ev) : callsTo n (a ++ b) = callsTo n a ++ callsTo n b := List.filterMap_append

theorem mem_about {e : Ev} {t : List Ev} (h : e ∈ t) : e ∈ about (Ev.num e) t := by
  unfold about
  rw [List.mem_filter]
  exact ⟨h, by simp⟩

theorem about_mem {e : Ev} {n : Nat} {t : List Ev} (h : e ∈ about n t) : e ∈ t := (List.mem_filter.1 h).1

/-- Either the watch is there or requested, or it is over. -/
theorem Inv.cases {rt : RT C} {pos : Nat} (h : Inv rt pos []) (hl : rt.locked = false) {e : Ev} (he : e ∈ rt.trace) :
    (∃ w, (w ∈ rt.watches ∨ .new w ∈ rt.pending) ∧ w.ctx.1 = Ev.num e ∧ Entry (about (Ev.num e) rt.trace) rt.snap.log pos w) ∨
    Done (about (Ev.num e) rt.trace) rt.snap.log (Ev.num e) := by
  have hlt : Ev.num e < rt.next := by
    rcases Nat.lt_or_ge (Ev.num e) rt.next with hl | hl
    · exact hl
    · have := h.fresh _ hl
      have hm := mem_about he
      rw [this] at hm; cases hm
  by_cases ho : Ev.num e ∈ owned rt []
  · refine .inl ?_
    unfold owned at ho
    rw [List.append_nil, List.mem_append] at ho
    rcases ho with ho | ho
    · obtain ⟨w, hw, hn⟩ := List.mem_map.1 ho
      refine ⟨w, .inl hw, hn, ?_⟩
      rw [← hn]
      exact h.watch w hw
    · obtain ⟨x, hx, hn⟩ := List.mem_filterMap.1 ho
      cases x with
      | stop id r => cases hn
      | new w =>
        have hn : some w.ctx.1 = some (Ev.num e) := hn
        rw [Option.some.injEq] at hn
        refine ⟨w, .inr hx, hn, ?_⟩
        rw [← hn, (h.free hl).1]
        exact h.pend w hx
  · exact .inr (h.done _ hlt ho)

theorem born_hist {b : Birth} {calls : List (Nat × NetParts)} {l : List Ev} (hl : ∀ e ∈ l, (∃ n, e = .broke n) ∨ ∃ n w, e = .gone n w) {n : Nat} {id : Bytes} {mode : Mode}
    {s : Preds} {db : Db} (h : .born n id mode s db ∈ b.hist calls ++ l) : b.num = n ∧ b.id = id ∧ b.mode = mode ∧ b.preds = s ∧ b.db = db := by
  rcases List.mem_append.1 h with h | h
  · unfold Birth.hist at h
    rcases List.mem_cons.1 h with h | h
    · cases h; exact ⟨rfl, rfl, rfl, rfl, rfl⟩
    · obtain ⟨e, _, he⟩ := List.mem_map.1 h; cases he
  · rcases hl _ h with ⟨n, hx⟩ | ⟨n, w, hx⟩ <;> cases hx

theorem reach_inv (hq : QuietProg p) {rt : RT C} (h : Reach p rt) : Inv rt rt.upto [] ∧ rt.locked = false := by
  induction h with
  | start es => exact ⟨start_inv (Props.saves_consistent es), rfl⟩
  | step _ hs ih => exact step_main hq (run_good hq _) ih.2 ih.1 hs

end Verif.Rt
