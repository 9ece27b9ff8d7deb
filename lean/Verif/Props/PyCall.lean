import Verif.Spec.PyCall
import Verif.Props.Api
import Verif.Props.Status
import Verif.Props.FfiArgs
/-!
# C98: callbacks from Python
-/
namespace Verif.Props
open Verif Verif.Pkt Verif.Pred Verif.Env Verif.Spec Verif.Query Verif.Ffi
open Verif.Abe (b64Fit)

theorem callStep_stop (r : PyRet) : (callStep r).2 = (r == .bool true) := by
  cases r with
  | raise => rfl
  | other => rfl
  | bool b => cases b <;> rfl
theorem callStep_err (r : PyRet) : (callStep r).1 = true ↔ r = .raise := by
  cases r with
  | raise => exact ⟨fun _ => rfl, fun _ => rfl⟩
  | other => exact ⟨nofun, nofun⟩
  | bool b => exact ⟨nofun, nofun⟩
theorem saysStop_eq {α : Type} (cb : List α → α → PyRet) : (fun seen x => (callStep (cb seen x)).2) = SaysStop cb := by
  funext seen x
  exact callStep_stop _

theorem errAfter_iff {α : Type} (cb : List α → α → PyRet) (given seen : List α) (e : Bool) :
    errAfter cb seen e given = true ↔ (given = [] ∧ e = true) ∨ ∃ i x, i + 1 = given.length ∧ given[i]? = some x ∧ cb (seen ++ given.take i) x = .raise := by
  induction given generalizing seen e with
  | nil => simp [errAfter]
  | cons y ys ih =>
    rw [errAfter, ih]
    cases ys with
    | nil =>
      simp only [true_and, List.length_nil]
      rw [callStep_err]
      constructor
      · rintro (h | ⟨i, x, h, _⟩)
        · exact .inr ⟨0, y, rfl, rfl, by simpa using h⟩
        · omega
      · rintro (⟨h, _⟩ | ⟨i, x, h, hx, hr⟩)
        · cases h
        · have : i = 0 := by simpa using h
          subst this
          cases hx
          exact .inl (by simpa using hr)
    | cons z zs =>
      constructor
      · rintro (⟨h, _⟩ | ⟨i, x, h, hx, hr⟩)
        · cases h
        · exact .inr ⟨i + 1, x, by simp at h ⊢; omega, by simpa using hx, by simpa using hr⟩
      · rintro (⟨h, _⟩ | ⟨i, x, h, hx, hr⟩)
        · cases h
        · cases i with
          | zero => simp at h
          | succ i => exact .inr ⟨i, x, by simp at h ⊢; omega, by simpa using hx, by simpa using hr⟩

theorem errAfter_last {α : Type} (cb : List α → α → PyRet) (given : List α) :
    errAfter cb [] false given = true ↔ ∃ i, i + 1 = given.length ∧ Raised cb given i := by
  rw [errAfter_iff]
  constructor
  · rintro (⟨_, h⟩ | ⟨i, x, h, hx, hr⟩)
    · cases h
    · exact ⟨i, h, x, hx, by simpa using hr⟩
  · rintro ⟨i, h, x, hx, hr⟩
    exact .inr ⟨i, x, h, hx, by simpa using hr⟩

/-- **C98**: `lk_get_all` calls the function for the packets of the answer in order until it returns `True`. It raises exactly if the last of these calls raised, and
else gives the number of the library. -/
theorem py_get_all {db : Db} {m : Mode} {s : Preds} {l out : List (Nat × NetParts)} {n : BitVec 32}
    (hl : candidates db m s = .ok l) (hlen : l.length < 2 ^ 31) (h : query db m s 0#32 = .ok (out, n)) (cb : List (Nat × NetParts) → Nat × NetParts → PyRet) :
    ∃ given b k, Fed (SaysStop cb) [] out given b ∧ getAllWith db m s (SaysStop cb) = .ok (given, k) ∧
      ((∃ i, i + 1 = given.length ∧ Raised cb given i) → pyGetAll db m s cb = .ok (given, .raised)) ∧
      ((¬ ∃ i, i + 1 = given.length ∧ Raised cb given i) → pyGetAll db m s cb = .ok (given, .count k)) := by
  obtain ⟨given, b, c, h1, h2, _⟩ := get_all_feeds hl hlen h (SaysStop cb)
  refine ⟨given, b, SignedCount c b, h1, h2, ?_, ?_⟩
  all_goals
    intro hr
    unfold pyGetAll
    rw [saysStop_eq, h2]
    simp only
  · rw [if_pos ((errAfter_last cb given).2 hr)]
  · rw [if_neg (fun h => hr ((errAfter_last cb given).1 h))]

theorem fed_all {α : Type} {cb : List α → α → Bool} {seen out given : List α} (h : Fed cb seen out given false) : given = out := by
  generalize hb : false = b at h
  induction h with
  | done => rfl
  | stop => cases hb
  | go _ _ ih => rw [ih hb]

theorem fed_never {α : Type} {cb : List α → α → PyRet} (hno : ∀ seen x, cb seen x ≠ .bool true) {seen out given : List α} : ¬ Fed (SaysStop cb) seen out given true := by
  intro h
  generalize hb : true = b at h
  induction h with
  | done => cases hb
  | stop xs hs => exact hno _ _ (by simpa [SaysStop] using hs)
  | go _ _ ih => exact ih hb

/-- **C98**: a callback that never returns `True` is called for the whole answer, whether its calls raise or not. -/
theorem py_get_all_whole {db : Db} {m : Mode} {s : Preds} {l out : List (Nat × NetParts)} {n : BitVec 32}
    (hl : candidates db m s = .ok l) (hlen : l.length < 2 ^ 31) (h : query db m s 0#32 = .ok (out, n)) (cb : List (Nat × NetParts) → Nat × NetParts → PyRet)
    (hno : ∀ seen x, cb seen x ≠ .bool true) : ∃ v, pyGetAll db m s cb = .ok (out, v) := by
  obtain ⟨given, b, k, h1, _, h3, h4⟩ := py_get_all hl hlen h cb
  have hb : b = false := by
    cases b with
    | false => rfl
    | true =>
      exact absurd h1 (fed_never hno)
  subst hb
  cases fed_all h1
  by_cases hr : ∃ i, i + 1 = out.length ∧ Raised cb out i
  · exact ⟨_, h3 hr⟩
  · exact ⟨_, h4 hr⟩

theorem bytelike_iff (v : PyVal) (b : Bytes) : v.bytelike = some b ↔ PyText v b := by
  cases v with
  | bytes x => exact ⟨fun h => by cases h; exact .bytes _, fun h => by cases h; rfl⟩
  | str x => exact ⟨fun h => by cases h; exact .str _, fun h => by cases h; rfl⟩
  | seq x => exact ⟨nofun, fun h => by cases h⟩
  | other => exact ⟨nofun, fun h => by cases h⟩

/-- **C98**: the hashes of `lk_get_hashes`. -/
theorem py_hashes_iff (v : PyVal) (hs : List Bytes) : pyHashes v = some hs ↔ HashArg v hs := by
  have item : ∀ (o : PyVal) (b : Bytes), o.bytelike.bind (b64Fit 32) = some b ↔ ∃ s, PyText o s ∧ Names32 s b := by
    intro o b
    constructor
    · intro h
      obtain ⟨s, h1, h2⟩ := Option.bind_eq_some_iff.1 h
      exact ⟨s, (bytelike_iff o s).1 h1, (names32_iff s b).1 h2⟩
    · rintro ⟨s, h1, h2⟩
      exact Option.bind_eq_some_iff.2 ⟨s, (bytelike_iff o s).2 h1, (names32_iff s b).2 h2⟩
  have text : ∀ (v : PyVal) (s : Bytes), v.bytelike = some s → (pyHashes v = some hs ↔ HashArg v hs) := by
    intro v s hv
    unfold pyHashes
    rw [hv]
    simp only [Option.map_eq_some_iff]
    constructor
    · rintro ⟨b, hb, rfl⟩
      exact .one v s b ((bytelike_iff v s).1 hv) ((names32_iff s b).1 hb)
    · intro h
      cases h with
      | one _ s' b ht hn =>
        have := (bytelike_iff v s').2 ht
        rw [hv] at this
        cases this
        exact ⟨b, (names32_iff s b).2 hn, rfl⟩
      | many l _ _ _ => cases hv
  cases v with
  | bytes x => exact text _ x rfl
  | str x => exact text _ x.flatten rfl
  | seq l =>
    show l.mapM (fun o => o.bytelike.bind (b64Fit 32)) = some hs ↔ _
    rw [mapM_some_iff item]
    constructor
    · rintro ⟨h1, h2⟩; exact .many l hs h1 h2
    · intro h
      cases h with
      | one _ _ _ ht _ => cases ht
      | many _ _ h1 h2 => exact ⟨h1, h2⟩
  | other =>
    constructor
    · intro h; cases h
    · intro h
      cases h with
      | one _ _ _ ht _ => cases ht

/-- **C98**: `lk_get_hashes` is given the stored packets with the hashes, in their order, until it returns `True`, and raises exactly if the argument denotes no hashes
or the last call raised. -/
theorem py_get_hashes {db : Db} (v : PyVal) (cb : List (Nat × NetParts) → Nat × NetParts → PyRet) :
    ((¬ ∃ hs, HashArg v hs) → pyGetHashes db v cb = .ok ([], .raised)) ∧
    ∀ hs, HashArg v hs → hs.length < 2 ^ 31 → ∃ given b, Fed (SaysStop cb) [] (hs.filterMap db.read) given b ∧
      ((∃ i, i + 1 = given.length ∧ Raised cb given i) → pyGetHashes db v cb = .ok (given, .raised)) ∧
      ((¬ ∃ i, i + 1 = given.length ∧ Raised cb given i) → pyGetHashes db v cb = .ok (given, .count (SignedCount given.length b))) := by
  constructor
  · intro hno
    unfold pyGetHashes
    cases hp : pyHashes v with
    | none => rfl
    | some hs => exact absurd ⟨hs, (py_hashes_iff v hs).1 hp⟩ hno
  · intro hs hv hlen
    obtain ⟨given, b, h1, h2⟩ := get_hashes_feeds (db := db) hs hlen (SaysStop cb)
    refine ⟨given, b, h1, ?_, ?_⟩
    all_goals
      intro hr
      unfold pyGetHashes
      rw [(py_hashes_iff v hs).2 hv, saysStop_eq]
      simp only [h2]
    · rw [if_pos ((errAfter_last cb given).2 hr)]
    · rw [if_neg (fun h => hr ((errAfter_last cb given).1 h))]

/-! ### lists of watches -/

theorem list_stuck {α β : Type} (cb : List α → α → Option β) (calls xs : List α) : pyListWatches cb calls none xs = (calls, none) := by
  induction xs with
  | nil => rfl
  | cons x xs ih => exact ih

/-- **C98**: `lk_list_watches` calls the function for the watches in order; it stops at the first exception and raises it, and else gives the last result. -/
theorem py_list_watches {α β : Type} (cb : List α → α → Option β) (xs calls : List α) (r : β) :
    (∀ i x, xs[i]? = some x → cb (calls ++ xs.take i) x = none → (∀ j y, j < i → xs[j]? = some y → cb (calls ++ xs.take j) y ≠ none) →
      pyListWatches cb calls (some r) xs = (calls ++ xs.take (i + 1), none)) ∧
    ((∀ i x, xs[i]? = some x → cb (calls ++ xs.take i) x ≠ none) →
      ∃ r', pyListWatches cb calls (some r) xs = (calls ++ xs, some r') ∧
        (∀ x, xs.getLast? = some x → cb (calls ++ xs.dropLast) x = some r') ∧ (xs = [] → r' = r)) := by
  induction xs generalizing calls r with
  | nil => exact ⟨fun i x h => by simp at h, fun _ => ⟨r, by simp [pyListWatches], fun x h => (by cases h), fun _ => rfl⟩⟩
  | cons y ys ih =>
    constructor
    · intro i x hx hn hb
      cases i with
      | zero =>
        cases hx
        rw [pyListWatches]
        have hn' : cb calls y = none := by simpa using hn
        rw [hn', list_stuck]
        rfl
      | succ i =>
        rw [pyListWatches]
        cases hy : cb calls y with
        | none => exact absurd (by simpa using hy) (hb 0 y (by omega) rfl)
        | some r1 =>
          have := (ih (calls ++ [y]) r1).1 i x (by simpa using hx) (by simpa using hn) (fun j z hj hz => by
            have := hb (j + 1) z (by omega) (by simpa using hz)
            simpa using this)
          rw [this]
          simp
    · intro hall
      rw [pyListWatches]
      cases hy : cb calls y with
      | none => exact absurd (by simpa using hy) (hall 0 y rfl)
      | some r1 =>
        obtain ⟨r', e1, e2, e3⟩ := (ih (calls ++ [y]) r1).2 (fun i x hx => by
          have := hall (i + 1) x (by simpa using hx)
          simpa using this)
        refine ⟨r', by rw [e1]; simp, fun x hx => ?_, nofun⟩
        cases ys with
        | nil =>
          cases hx
          rw [e3 rfl]
          simpa using hy
        | cons z zs =>
          have := e2 x (by simpa using hx)
          simpa using this

/-! ### watches -/

/-- **C98**: a watch ends at a packet exactly if `on_match` returns `True` for it, or raises and there is no `on_err` that returns `True`. -/
theorem py_watch_ends {α : Type} (onMatch onErr : Option (α → PyRet)) (x : α) :
    pyHandle onMatch onErr x = true ↔
      ∃ f, onMatch = some f ∧ (f x = .bool true ∨ (f x = .raise ∧ ¬ ∃ g, onErr = some g ∧ g x = .bool true)) := by
  cases onMatch with
  | none => exact ⟨nofun, fun ⟨_, h, _⟩ => nomatch h⟩
  | some f =>
    cases hf : f x with
    | bool b =>
      cases b with
      | true => simp [pyHandle, hf, callCont]
      | false => simp [pyHandle, hf, callCont]
    | other => simp [pyHandle, hf, callCont]
    | raise =>
      cases onErr with
      | none => simp [pyHandle, hf, callCont]
      | some g =>
        cases hg : g x with
        | bool b => cases b <;> simp [pyHandle, hf, hg, callCont]
        | other => simp [pyHandle, hf, hg, callCont]
        | raise => simp [pyHandle, hf, hg, callCont]

/-- **C98 is false** of `on_close`: the end of every watch that has one is a panic. -/
theorem on_close_panics {α : Type} (f : α) : pyStopped (some f) = .error .panic ∧ pyStopped (none : Option α) = .ok () := ⟨rfl, rfl⟩

/-! ### where exceptions are lost -/

/-- **C98 is false** of `lk_get_all`: here the first of three calls raises, the others are made nevertheless, and the number of packets is returned. -/
theorem exception_lost :
    (match Preds.default.run true [] with
      | .ok s => (match pyGetAll exDb ⟨.log, true⟩ s (fun seen _ => if seen.length = 0 then .raise else .other) with
        | .ok r => some (r.1.map (·.1), r.2)
        | .error _ => none)
      | .error _ => none) = some ([100, 101, 102], .count 3) := by decide +kernel
/-- It is raised if it is the last. -/
theorem exception_last :
    (match Preds.default.run true [] with
      | .ok s => (match pyGetAll exDb ⟨.log, true⟩ s (fun seen _ => if seen.length = 2 then .raise else .other),
          pyGetAll exDb ⟨.log, true⟩ s (fun seen _ => if seen.length = 1 then .bool true else .other) with
        | .ok r, .ok q => some (r.1.map (·.1), r.2, q.1.map (·.1), q.2)
        | _, _ => none)
      | .error _ => none) = some ([100, 101, 102], .raised, [100, 101], .count (-2)) := by decide +kernel

/-- Three watches and a function that raises at the second. -/
example : pyListWatches (fun seen x => if seen.length = 1 then none else some (x + seen.length)) [] (some 0) [5, 6, 7] = ([5, 6], none) ∧
    pyListWatches (fun seen x => some (x + seen.length)) [] (some 0) [5, 6, 7] = ([5, 6, 7], some 9) := by decide
/-- A hash by its bytes, and two in a list, one as text. -/
example : HashArg (.bytes (List.replicate 32 7)) [List.replicate 32 7] ∧ pyHashes (.seq [.bytes (List.replicate 32 7), .other]) = none :=
  ⟨.one _ _ _ (.bytes _) ⟨by decide, .inl rfl⟩, by decide⟩
/-- An exception without `on_err` ends the watch; with one that returns `True` it does not. -/
example : pyHandle (some fun _ : Nat => .raise) none 3 = true ∧ pyHandle (some fun _ : Nat => .raise) (some fun _ => .bool true) 3 = false := by decide

end Verif.Props
