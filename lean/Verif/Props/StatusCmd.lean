import Verif.Model.StatusCmd
import Verif.Spec.StatusCmd
import Verif.Props.Status
/-!
# C100: the command `status watch`
-/
namespace Verif.Props
open Verif Verif.Pkt Verif.Pred Verif.Spec Verif.Conv Verif.QText Verif.Opt Verif.Query Verif.Abl Verif.Shake Verif.Env Verif.Lns Verif.Rt

variable {C : Crypto} {nh : Bytes} {now : Nat} {st : Status}

/-! ### waiting -/

theorem trigger_repeats (e : Nat × NetParts) (brk : Bool) (r : Nat) (p : NetParts) (m : Matcher.Matcher Unit) (s d : List (Nat × NetParts)) (m' : Matcher.Matcher Unit)
    (h : Matcher.trigger (ε := Fault Unit) id (fun s (_ : Unit) => .ok (s ++ [e], (), brk)) (fun s _ => .ok s) r p s m = .ok (d, m')) :
    ∃ k, d = s ++ List.replicate k e ∧ (k = 0 → ∀ f : List (Nat × NetParts) → Unit → Except (Fault Unit) (List (Nat × NetParts) × Unit × Bool),
      Matcher.trigger (ε := Fault Unit) id f (fun s _ => .ok s) r p s m = .ok (d, m')) := by
  induction m generalizing s d m' with
  | nil => cases h; exact ⟨0, by simp, fun _ _ => rfl⟩
  | cons w m ih =>
    unfold Matcher.trigger at h
    cases ht : w.test r p with
    | error x => rw [ht] at h; cases h
    | ok x =>
      obtain ⟨w', ok, over⟩ := x
      rw [ht] at h
      cases ok with
      | true =>
        simp only [if_true] at h
        have key : ∀ m'', Matcher.trigger (ε := Fault Unit) id (fun s (_ : Unit) => .ok (s ++ [e], (), brk)) (fun s _ => .ok s) r p (s ++ [e]) m = .ok (d, m'') →
            ∃ k, d = s ++ List.replicate (k + 1) e := by
          intro m'' hm
          obtain ⟨k, hk, _⟩ := ih _ _ _ hm
          exact ⟨k, by rw [hk, List.append_assoc]; rfl⟩
        split at h
        · obtain ⟨k, hk⟩ := key _ h
          exact ⟨k + 1, hk, nofun⟩
        · split at h
          · cases h
          · rename_i hm
            cases h
            obtain ⟨k, hk⟩ := key _ hm
            exact ⟨k + 1, hk, nofun⟩
      | false =>
        simp only [Bool.false_eq_true, if_false, Bool.false_or] at h
        cases over with
        | true =>
          simp only [if_true] at h
          obtain ⟨k, h1, h2⟩ := ih _ _ _ h
          refine ⟨k, h1, fun hk f => ?_⟩
          unfold Matcher.trigger
          rw [ht]
          simp only [Bool.false_eq_true, if_false, Bool.false_or, if_true]
          exact h2 hk f
        | false =>
          simp only [Bool.false_eq_true, if_false] at h
          split at h
          · cases h
          · rename_i hm
            cases h
            obtain ⟨k, h1, h2⟩ := ih _ _ _ hm
            refine ⟨k, h1, fun hk f => ?_⟩
            unfold Matcher.trigger
            rw [ht]
            simp only [Bool.false_eq_true, if_false, Bool.false_or]
            rw [h2 hk f]

theorem wait_feed {brk : NetParts → Bool} {L d : List (Nat × NetParts)} {m m' : Matcher.Matcher Unit}
    (h : Matcher.feed (fun _ p => ((), brk p)) m L = .ok (d, m')) (hd : ∀ e ∈ d, lacking e.2 = false) : waitReplies brk m L = .ok d := by
  induction L generalizing m d m' with
  | nil => cases h; rfl
  | cons e L ih =>
    unfold Matcher.feed at h
    unfold waitReplies
    split at h
    · cases h
    · rename_i d0 m1 ht
      split at h
      · cases h
      · rename_i d' m2 hf
        cases h
        have ih' := ih hf fun x hx => hd x (List.mem_append.2 (.inr hx))
        obtain ⟨k, h1, h2⟩ := trigger_repeats e (brk e.2) e.1 e.2 m [] d0 m1 ht
        cases hl : lacking e.2 with
        | false =>
          simp only [Bool.false_eq_true, if_false]
          rw [ht]
          simp only
          rw [ih']
        | true =>
          have hk : k = 0 := by
            cases k with
            | zero => rfl
            | succ k =>
              have := hd e (List.mem_append.2 (.inl (by rw [h1]; simp [List.replicate_succ])))
              rw [hl] at this
              cases this
          rw [h2 hk]
          simp only
          rw [ih']

/-! ### reading -/

theorem watch_fed (hg : st.group.length = 32) {db : Db} {now0 now1 timeout : Nat} {saved : Bool}
    {cb : List (Nat × NetParts) → Nat × NetParts → Bool} {a : Asked} (h : statusWatch C nh db now0 now1 saved cb st timeout = .ok a) :
    ∃ q out n seen b, statusOverwatch now0 st timeout = .ok q ∧ query db ⟨.tree, false⟩ q.preds 0#32 = .ok (out, n) ∧ Fed (statusClosure cb) [] out seen b ∧
      a.given = seen.filter fun e => !isBare e.2 := by
  unfold statusWatch at h
  cases ho : statusOverwatch now0 st timeout with
  | error e => rw [ho] at h; cases e <;> cases h
  | ok q =>
    rw [ho] at h
    obtain ⟨hf, hrun, hconf⟩ := (over_run hg timeout q).1 ho
    simp only [tryL] at h
    have hmode : getMode q.conf = .ok ⟨.tree, false⟩ := by rw [hconf]; rfl
    rw [hmode] at h
    simp only at h
    cases hget : getAllWith db ⟨.tree, false⟩ q.preds (statusClosure cb) with
    | error e => rw [hget] at h; cases h
    | ok r =>
      obtain ⟨seen, k⟩ := r
      rw [hget] at h
      simp only [runL] at h
      obtain ⟨out, n, b, hq, hfed⟩ := get_all_given hrun hget
      refine ⟨q, out, n, seen, b, rfl, hq, hfed, ?_⟩
      split at h
      · cases h
      · split at h
        · cases h
        · cases h; rfl

theorem speaks_bare (p : NetParts) : (!isBare p) = decide (Speaks p) := by
  unfold isBare
  by_cases h : Speaks p
  · rw [decide_eq_true h]
    rcases h with h | h
    · cases hl : p.getLinks with
      | nil => exact absurd hl h
      | cons => rfl
    · cases hl : p.data with
      | nil => exact absurd hl h
      | cons => simp
  · rw [decide_eq_false h]
    have h1 : p.getLinks = [] := Classical.byContradiction fun k => h (.inl k)
    have h2 : p.data = [] := Classical.byContradiction fun k => h (.inr k)
    rw [h1, h2]; rfl
theorem lacking_iff (p : NetParts) : lacking p = !decide (FullReply p) := by
  unfold lacking FullReply
  have key : ∀ (l : List Link) (d : Bytes), (l.isEmpty || d.isEmpty) = !decide (l ≠ [] ∧ d ≠ []) := by
    intro l d
    cases l <;> cases d <;> simp
  exact key _ _

/-- What the callback of the command is given of the results of the query. -/
theorem fed_given {fails : NetParts → Bool} (hfail : ∀ p, fails p = false) {multi : Bool} {seen out given : List (Nat × NetParts)} {b : Bool}
    (h : Fed (statusClosure fun _ e => lacking e.2 || replyBreaks fails multi e.2) seen out given b) :
    ((∃ e ∈ given.filter (fun e => !isBare e.2), lacking e.2 = true) ↔ ∃ e ∈ someOf multi (out.filter fun e => !isBare e.2), lacking e.2 = true) ∧
    ((∀ e ∈ given.filter (fun e => !isBare e.2), lacking e.2 = false) → given.filter (fun e => !isBare e.2) = someOf multi (out.filter fun e => !isBare e.2)) := by
  generalize hcb : (statusClosure fun _ e => lacking e.2 || replyBreaks fails multi e.2) = cb at h
  induction h with
  | done seen => cases multi <;> simp [someOf]
  | @stop seen x xs hx =>
    rw [← hcb] at hx
    unfold statusClosure at hx
    cases hb : isBare x.2 with
    | true => rw [hb] at hx; cases hx
    | false =>
      rw [hb] at hx
      simp only [Bool.false_eq_true, if_false, Bool.or_eq_true, replyBreaks, hfail, Bool.false_or] at hx
      cases multi with
      | false => simp [someOf, hb]
      | true =>
        simp only [Bool.not_true, Bool.false_eq_true, or_false] at hx
        simp [someOf, hb, hx]
  | @go seen x xs given b hx _ ih =>
    rw [← hcb] at hx
    unfold statusClosure at hx
    cases hb : isBare x.2 with
    | true =>
      simp only [List.filter_cons, hb, Bool.not_true, Bool.false_eq_true, if_false]
      exact ih
    | false =>
      rw [hb] at hx
      simp only [Bool.false_eq_true, if_false, Bool.or_eq_false_iff, replyBreaks, hfail, Bool.false_or] at hx
      obtain ⟨h1, h2⟩ := hx
      cases multi with
      | false => cases h2
      | true =>
        simp only [someOf, if_true] at ih ⊢
        simp only [List.filter_cons, hb, Bool.not_false, if_true, List.mem_cons, exists_eq_or_imp, h1, Bool.false_eq_true, false_or, forall_eq_or_imp, true_and]
        refine ⟨ih.1, fun h => ?_⟩
        rw [ih.2 h]

/-- How much of what comes in the callback gets. -/
theorem deliver_some {fails : NetParts → Bool} (hfail : ∀ p, fails p = false) (multi : Bool) (acc : List (Nat × NetParts)) :
    (deliver (fun (_ : Unit) p => ((), replyBreaks fails multi p)) () acc).1 = someOf multi acc := by
  induction acc with
  | nil => cases multi <;> rfl
  | cons e acc ih =>
    unfold deliver
    simp only [replyBreaks, hfail, Bool.false_or] at ih ⊢
    cases multi with
    | false => rfl
    | true =>
      simp only [Bool.not_true, Bool.false_eq_true, if_false, someOf, if_true] at ih ⊢
      rw [ih]

/-! ### the command -/

/-- **C100**: what `status watch` does when `lk_status_watch` succeeds and writing does: it looks at the results of the query that have links or data, all of them with `--multi` and only the
first without.  If one of them lacks links or data it panics.  Otherwise it waits, until a timeout after the request, for points about what was asked with links and data, for
all with `--multi` and for one without, and fails exactly if there was nothing. -/
theorem status_cmd_exact (hC : C.Laws) (hnh : nh.length = 32) (hg : st.group.length = 32) (hd : st.domain.length = 16) {db : Db} (hc : Consistent db)
    (hw : AllShow db) {y : WatchSys} {o : WatchOpts} (hq : y.nowQ - o.timeout + 1 < 2 ^ 64) (h0 : y.now0 < 2 ^ 64) (h1 : 0 < y.now1) (h1' : y.now1 < 2 ^ 64)
    (hp : o.printQuery = false) (hr : o.writeRequest = false) (hfail : ∀ p, y.fails p = false) (hL : Incoming y.later) (hs : ∀ e ∈ y.later, ∃ x, Shows e.2 x)
    (hb : y.later.length < 2 ^ 32) {a : Conv.Asked}
    (h : statusWatch C nh db y.now0 y.now1 y.saved (fun _ e => lacking e.2 || replyBreaks y.fails o.multi e.2) st o.timeout = .ok a) :
    ∃ q out n acc last, statusOverwatch y.now0 st o.timeout = .ok q ∧ query db ⟨.tree, false⟩ q.preds 0#32 = .ok (out, n) ∧ acc.Sublist y.later ∧
      (∀ e, e ∈ acc ↔ e ∈ y.later ∧ ∃ c, StatusAbout e.2 st.domain st.group st.objtype st.inst (y.now0 - o.timeout) c ∧ c.links ≠ [] ∧ c.data ≠ [] ∧
        e.1 < min (last + o.timeout) (2 ^ 64 - 1)) ∧
      ((∃ p, a.request = some p ∧ last = y.now1) ∨ (a.request = none ∧ ∃ e ∈ db.log, ∃ c,
        StatusAbout e.2 st.domain st.group st.objtype st.inst (y.now0 - o.timeout) c ∧ c.links = [] ∧ c.data = [] ∧ last = c.stamp)) ∧
      ((∃ e ∈ someOf o.multi (out.filter fun e => decide (Speaks e.2)), ¬ FullReply e.2) → statusWatchCmd C nh db y o st = .error (.stop .panic)) ∧
      ((∀ e ∈ someOf o.multi (out.filter fun e => decide (Speaks e.2)), FullReply e.2) →
        (someOf o.multi (out.filter fun e => decide (Speaks e.2)) ++ someOf o.multi acc = [] → statusWatchCmd C nh db y o st = .error .err) ∧
        (someOf o.multi (out.filter fun e => decide (Speaks e.2)) ++ someOf o.multi acc ≠ [] → statusWatchCmd C nh db y o st =
          .ok (.replies (someOf o.multi (out.filter fun e => decide (Speaks e.2)) ++ someOf o.multi acc)))) := by
  obtain ⟨q, out, n, seen, b, e1, e2, e3, e4⟩ := watch_fed hg h
  obtain ⟨w, acc, m, last, k1, k2, k3, k4, k5⟩ := status_watch_gives hC hnh hg hd hc hw h0 h1 h1' h
    (fun (_ : Unit) p => ((), replyBreaks y.fails o.multi p)) () hL hs hb
  refine ⟨q, out, n, acc, last, e1, e2, k3, k4, k5, ?_⟩
  obtain ⟨f1, f2⟩ := fed_given hfail e3
  have hf : (fun e : Nat × NetParts => decide (Speaks e.2)) = fun e => !isBare e.2 := funext fun e => (speaks_bare e.2).symm
  have hfit : StatusFits st.objtype st.inst := ((over_run hg _ q).1 e1).1
  obtain ⟨q', hq'⟩ := (status_overwatch_iff hg hd hq).1.1 hfit
  have hcmd : statusWatchCmd C nh db y o st = if a.given.any (fun e => lacking e.2) then .error (.stop .panic) else
      match tryL (waitReplies (replyBreaks y.fails o.multi) [w] y.later) with
      | .error e => .error e
      | .ok l => if (a.given ++ l).isEmpty then .error .err else .ok (.replies (a.given ++ l)) := by
    unfold statusWatchCmd
    rw [hq']
    simp only [unwrapL, hp, hr, Bool.false_eq_true, if_false, h, k1, tryL]
    rfl
  rw [deliver_some hfail] at k2
  have hacc : ∀ e ∈ someOf o.multi acc, lacking e.2 = false := by
    intro e he
    have he : e ∈ acc := by
      cases hm : o.multi with
      | true => rw [hm] at he; exact he
      | false => rw [hm] at he; exact (List.take_subset _ _) he
    obtain ⟨_, c, ⟨cs, hpt, _⟩, hl, hdat, _⟩ := (k4 e).1 he
    obtain ⟨_, _, _, v4, _, v6⟩ := point_view hpt
    rw [lacking_iff, decide_eq_true ⟨by rw [v4]; exact hl, by rw [v6]; exact hdat⟩]
    rfl
  rw [hf, hcmd, wait_feed k2 hacc]
  rw [← e4] at f1 f2
  constructor
  · rintro ⟨e, he, hn⟩
    obtain ⟨e', he', hl⟩ := f1.2 ⟨e, he, by rw [lacking_iff, decide_eq_false hn]; rfl⟩
    rw [if_pos (List.any_eq_true.2 ⟨e', he', hl⟩)]
  · intro hall
    have hno : ∀ e ∈ a.given, lacking e.2 = false := by
      intro e he
      cases hl : lacking e.2 with
      | false => rfl
      | true =>
        obtain ⟨e', he', hl'⟩ := f1.1 ⟨e, he, hl⟩
        rw [lacking_iff, decide_eq_true (hall e' he')] at hl'
        cases hl'
    rw [if_neg (by simp only [List.any_eq_true, not_exists, not_and, Bool.not_eq_true]; exact hno)]
    simp only [tryL]
    rw [← f2 hno]
    exact ⟨fun k => by rw [k]; rfl, fun k => if_neg (by simpa using k)⟩

/-- **C100**: whatever happens, what `status watch` writes are recent points about what was asked, with links and data, that were stored or came in; there is at least one. -/
theorem status_cmd_sound (hC : C.Laws) (hnh : nh.length = 32) (hg : st.group.length = 32) (hd : st.domain.length = 16) {db : Db} (hc : Consistent db)
    (hw : AllShow db) {y : WatchSys} {o : WatchOpts} (hq : y.nowQ - o.timeout + 1 < 2 ^ 64) (h0 : y.now0 < 2 ^ 64) (h1 : 0 < y.now1) (h1' : y.now1 < 2 ^ 64)
    (hfail : ∀ p, y.fails p = false) (hL : Incoming y.later) (hs : ∀ e ∈ y.later, ∃ x, Shows e.2 x)
    (hb : y.later.length < 2 ^ 32) {l : List (Nat × NetParts)} (h : statusWatchCmd C nh db y o st = .ok (.replies l)) :
    l ≠ [] ∧ (o.multi = false → l.length ≤ 2) ∧ ∀ e ∈ l, (e ∈ db.log ∨ e ∈ y.later) ∧
      ∃ c, StatusAbout e.2 st.domain st.group st.objtype st.inst (y.now0 - o.timeout) c ∧ c.links ≠ [] ∧ c.data ≠ [] := by
  cases hp : o.printQuery with
  | true =>
    unfold statusWatchCmd at h
    rw [hp] at h
    split at h <;> cases h
  | false =>
    cases hr : o.writeRequest with
    | true =>
      unfold statusWatchCmd at h
      rw [hp, hr] at h
      simp only [Bool.false_eq_true, if_false, if_true] at h
      split at h
      · cases h
      · split at h <;> cases h
    | false =>
      cases ha : statusWatch C nh db y.now0 y.now1 y.saved (fun _ e => lacking e.2 || replyBreaks y.fails o.multi e.2) st o.timeout with
      | error e =>
        unfold statusWatchCmd at h
        rw [hp, hr, ha] at h
        simp only [Bool.false_eq_true, if_false] at h
        split at h <;> cases h
      | ok a =>
        obtain ⟨q, out, n, acc, last, e1, e2, k3, k4, k5, p1, p2⟩ := status_cmd_exact hC hnh hg hd hc hw hq h0 h1 h1' hp hr hfail hL hs hb ha
        have hall : ∀ e ∈ someOf o.multi (out.filter fun e => decide (Speaks e.2)), FullReply e.2 := by
          intro e he
          refine Classical.byContradiction fun k => ?_
          rw [p1 ⟨e, he, k⟩] at h
          cases h
        obtain ⟨p3, p4⟩ := p2 hall
        have hne : someOf o.multi (out.filter fun e => decide (Speaks e.2)) ++ someOf o.multi acc ≠ [] := by
          intro k
          rw [p3 k] at h
          cases h
        rw [p4 hne] at h
        cases h
        have hsub : ∀ {l : List (Nat × NetParts)} {e : Nat × NetParts}, e ∈ someOf o.multi l → e ∈ l := by
          intro l e he
          cases hm : o.multi with
          | true => rw [hm] at he; exact he
          | false => rw [hm] at he; exact (List.take_subset _ _) he
        refine ⟨hne, fun hm => ?_, fun e he => ?_⟩
        · rw [hm]
          simp only [someOf, Bool.false_eq_true, if_false, List.length_append, List.length_take]
          omega
        · rcases List.mem_append.1 he with he | he
          · have hrep := hall e he
            have hin := (List.mem_filter.1 (hsub he)).1
            obtain ⟨hf, hrun, hconf⟩ := (over_run hg _ q).1 e1
            have hsp := (status_place hg).2 hf
            have hcounts : ∀ (q : QScope) (k : Nat), ∀ r ∈ overRules st.domain (statusPlace st.group st.objtype st.inst) (y.now0 - o.timeout), CountOk q r k := by
              intro q k r hr
              simp only [overRules, List.mem_cons, List.not_mem_nil, or_false] at hr
              rcases hr with rfl | rfl | rfl | rfl <;> exact ⟨nofun, nofun⟩
            have hsound := tree_query_sound_partial hrun (over_plain hsp (by have := statusPlace_length st.group st.objtype st.inst; omega))
              (hcounts _ _) ⟨0, by decide, hcounts _ _⟩ hc hw e2
            obtain ⟨m1, m2⟩ := hsound.2.2.2 e hin
            obtain ⟨c, hc'⟩ := (over_meets hg hd hf (by omega) _ _).1 m2
            refine ⟨.inl m1, c, hc', ?_⟩
            obtain ⟨cs, hpt, _⟩ := hc'
            obtain ⟨_, _, _, v4, _, v6⟩ := point_view hpt
            exact ⟨v4 ▸ hrep.1, v6 ▸ hrep.2⟩
          · obtain ⟨m1, c, m2, m3, m4, _⟩ := (k4 e).1 (hsub he)
            exact ⟨.inr m1, c, m2, m3, m4⟩

/-- **C100**: for arguments without a place the command panics, whatever else is asked. -/
theorem status_cmd_unfit (hg : st.group.length = 32) (hf : ¬ StatusFits st.objtype st.inst) (db : Db) (y : WatchSys) (o : WatchOpts) :
    statusWatchCmd C nh db y o st = .error (.stop .panic) := by
  have hs : statusSpace st = .error (.err ()) := by
    rcases statusSpace_total st with ⟨r, h⟩ | h
    · exact absurd ((statusSpace_iff hg r).1 h).1 hf
    · exact h
  unfold statusWatchCmd statusOverwatch
  rw [hs]
  rfl

/-- **C100**: `--print-query` prints a query for the recent points about what is asked, and `--write-request` writes a request made now; neither reads or changes the database. -/
theorem status_cmd_dry (hC : C.Laws) (hnh : nh.length = 32) (hg : st.group.length = 32) (hd : st.domain.length = 16) (hf : StatusFits st.objtype st.inst)
    {y : WatchSys} {o : WatchOpts} (hq : y.nowQ - o.timeout + 1 < 2 ^ 64) (hn : y.nowR < 2 ^ 64) :
    (o.printQuery = true → ∃ q, (∀ db, statusWatchCmd C nh db y o st = .ok (.query q)) ∧
      ∀ p x, Shows p x → (q.preds.test p = true ↔ ∃ c, StatusAbout p st.domain st.group st.objtype st.inst (y.nowQ - o.timeout) c)) ∧
    (o.printQuery = false → o.writeRequest = true → ∃ p, (∀ db, statusWatchCmd C nh db y o st = .ok (.request p)) ∧
      StatusRequest p st.domain st.group st.objtype st.inst y.nowR) := by
  obtain ⟨q, hq'⟩ := (status_overwatch_iff hg hd hq).1.1 hf
  constructor
  · intro hp
    refine ⟨q, fun db => ?_, ((status_overwatch_iff hg hd hq).2 q hq').2⟩
    unfold statusWatchCmd
    rw [hq', hp]
    rfl
  · intro hp hr
    have hreq := (status_request_iff (C := C) (nh := nh) hg hd hn _).2 ⟨hf, rfl⟩
    refine ⟨_, fun db => ?_, status_request_made hC hnh hg hd hn hreq⟩
    unfold statusWatchCmd
    rw [hq', hp, hr]
    simp only [unwrapL, Bool.false_eq_true, if_false, if_true]
    rw [hreq]
    rfl

/-! ### what does not hold -/

/-- Asking at 1000 with a timeout of 100: the receive stamps of the packets written. -/
def watched (st : Status) (multi : Bool) (ps : List NetParts) (later : List (Nat × NetParts)) : Except LStop (List Nat) :=
  match statusWatchCmd toyCrypto (List.replicate 32 0) (saved ps) { nowQ := 999, nowR := 999, now0 := 1000, now1 := 1001, later := later } { timeout := 100, multi := multi } st with
  | .ok (.replies l) => .ok (l.map (·.1))
  | .ok _ => .ok []
  | .error e => .error e

/-- A reply that comes in is written; one that comes in after the timeout is not, and without a reply the command fails; with `--multi` all are written. -/
theorem status_cmd_example : watched (exStatus [98] none) false [] [(1050, spotAt 2 [98] (some [99]) 1040 [exInit] [1])] = .ok [1050] ∧
    watched (exStatus [98] none) false [] [(1150, spotAt 2 [98] (some [99]) 1040 [exInit] [1])] = .error .err ∧
    watched (exStatus [98] none) true [] [(1050, spotAt 2 [98] (some [99]) 1040 [exInit] [1]), (1060, spotAt 3 [98] (some [97]) 1041 [exInit] [1])] = .ok [1050, 1060] := by
  decide +kernel

/-- Without `--multi` two replies are written if one is stored and one comes in; the command waits although it has a reply. -/
theorem status_cmd_two : watched (exStatus [98] none) false [spotAt 2 [98] (some [99]) 960 [exInit] [1]] [(1050, spotAt 3 [98] (some [99]) 1040 [exInit] [1])] =
    .ok [100, 1050] := by decide +kernel

/-- A stored point with data and without links at the place makes the command panic. -/
theorem status_cmd_panics : watched (exStatus [98] none) true [spotAt 1 [98] none 950 [] [1]] [] = .error (.stop .panic) := by decide +kernel

end Verif.Props
