import Verif.Spec.Files
import Verif.Props.Identity
import Verif.Lemmas.Eval
/-!
# Paths and their resolution
-/
namespace Verif.Props
open Verif Verif.Files Verif.Spec

theorem segments_ne (p : Bytes) : segments p ≠ [] := by
  unfold segments
  cases p with
  | nil => simp [Eval.splitBy]
  | cons x xs =>
    rw [Eval.splitBy]
    split
    · simp
    · split <;> simp

theorem segments_append (a b : Bytes) : segments (a ++ 0x2f :: b) = segments a ++ segments b := by
  unfold segments
  induction a with
  | nil => simp [Eval.splitBy]
  | cons x xs ih =>
    rw [List.cons_append, Eval.splitBy, Eval.splitBy]
    by_cases hx : (x == (0x2f : UInt8)) = true
    · rw [if_pos hx, if_pos hx, ih]; rfl
    · rw [if_neg hx, if_neg hx, ih]
      cases hs : Eval.splitBy (· == (0x2f : UInt8)) xs with
      | nil => exact absurd hs (segments_ne xs)
      | cons h t => rfl

theorem segments_single {s : Bytes} (h : (0x2f : UInt8) ∉ s) : segments s = [s] :=
  splitBy_none _ _ fun x hx => by
    cases hb : (x == (0x2f : UInt8)) with
    | false => rfl
    | true => exact absurd (eq_of_beq hb ▸ hx) h

theorem segments_slash (p : Bytes) : ∀ s ∈ segments p, (0x2f : UInt8) ∉ s := by
  induction p with
  | nil =>
    intro s hs
    rw [List.mem_singleton.1 hs]
    nofun
  | cons x xs ih =>
    unfold segments at ih ⊢
    rw [Eval.splitBy]
    have hne := segments_ne xs
    unfold segments at hne
    by_cases hx : (x == (0x2f : UInt8)) = true
    · rw [if_pos hx]
      intro s hs
      rcases List.mem_cons.1 hs with rfl | hs
      · nofun
      · exact ih s hs
    · rw [if_neg hx]
      cases hq : Eval.splitBy (· == (0x2f : UInt8)) xs with
      | nil => exact absurd hq hne
      | cons h t =>
        rw [hq] at ih
        intro s hs
        rcases List.mem_cons.1 hs with rfl | hs
        · intro hm
          rcases List.mem_cons.1 hm with e | hm
          · exact hx (by rw [← e]; rfl)
          · exact ih h List.mem_cons_self hm
        · exact ih s (List.mem_cons_of_mem _ hs)

theorem intercalate_cons (s : Bytes) {segs : List Bytes} (h : segs ≠ []) :
    List.intercalate [(0x2f : UInt8)] (s :: segs) = s ++ 0x2f :: List.intercalate [0x2f] segs := by
  cases segs with
  | nil => exact absurd rfl h
  | cons t ts => simp [List.intercalate, List.intersperse]

theorem segments_intercalate {segs : List Bytes} (hne : segs ≠ []) (h : ∀ s ∈ segs, (0x2f : UInt8) ∉ s) :
    segments (List.intercalate [0x2f] segs) = segs := by
  induction segs with
  | nil => exact absurd rfl hne
  | cons s segs ih =>
    cases segs with
    | nil =>
      have : List.intercalate [(0x2f : UInt8)] [s] = s := by simp [List.intercalate, List.intersperse]
      rw [this]
      exact segments_single (h s List.mem_cons_self)
    | cons t ts =>
      rw [intercalate_cons s (by simp), segments_append, segments_single (h s List.mem_cons_self), ih (by simp) fun x hx => h x (List.mem_cons_of_mem _ hx)]
      rfl

theorem intercalate_segments (p : Bytes) : List.intercalate [0x2f] (segments p) = p := by
  induction p with
  | nil => rfl
  | cons x xs ih =>
    unfold segments at ih ⊢
    rw [Eval.splitBy]
    have hne := segments_ne xs
    unfold segments at hne
    by_cases hx : (x == (0x2f : UInt8)) = true
    · rw [if_pos hx, intercalate_cons _ hne, ih, eq_of_beq hx]; rfl
    · rw [if_neg hx]
      cases hs : Eval.splitBy (· == (0x2f : UInt8)) xs with
      | nil => exact absurd hs hne
      | cons h t =>
        rw [hs] at ih
        simp only
        cases t with
        | nil =>
          have e : ∀ s : Bytes, List.intercalate [(0x2f : UInt8)] [s] = s := fun s => by simp [List.intercalate, List.intersperse]
          rw [e] at ih ⊢
          rw [ih]
        | cons t ts =>
          rw [intercalate_cons _ (by simp)] at ih ⊢
          rw [List.cons_append, ih]

theorem pathParts_iff (p : Bytes) (segs : List Bytes) : PathParts p segs ↔ segs = segments p := by
  constructor
  · rintro ⟨h1, h2, h3⟩
    rw [h2, segments_intercalate h1 h3]
  · rintro rfl
    exact ⟨segments_ne p, (intercalate_segments p).symm, segments_slash p⟩

/-! ### components -/

/-- The parts that are names. -/
def isName (s : Bytes) : Bool := decide (s ≠ [] ∧ s ≠ ascii ".")
def namesOf (segs : List Bytes) : List Bytes := segs.filter (fun s => s ≠ [] ∧ s ≠ ascii ".")

theorem single_names {segs : List Bytes} (h : ascii ".." ∉ segs) : segs.filterMap single = (namesOf segs).map .normal := by
  induction segs with
  | nil => rfl
  | cons s segs ih =>
    have ih := ih fun hx => h (List.mem_cons_of_mem _ hx)
    have hs : s ≠ ascii ".." := fun e => h (e ▸ List.mem_cons_self)
    unfold namesOf at ih ⊢
    rw [List.filterMap_cons]
    by_cases h1 : s = []
    · have e1 : single s = none := by unfold single; rw [if_pos h1]
      rw [e1, List.filter_cons_of_neg (by simp [h1])]
      exact ih
    · by_cases h2 : s = ascii "."
      · have e1 : single s = none := by unfold single; rw [if_neg h1, if_pos h2]
        rw [e1, List.filter_cons_of_neg (by simp [h2])]
        exact ih
      · have e1 : single s = some (.normal s) := by unfold single; rw [if_neg h1, if_neg h2, if_neg hs]
        rw [e1, List.filter_cons_of_pos (by simp [h1, h2]), List.map_cons]
        simp only [ih]

theorem single_all {segs : List Bytes} : (segs.filterMap single).find? (fun c => !c.isNormal) = none ↔ ascii ".." ∉ segs := by
  constructor
  · intro h hm
    have := List.find?_eq_none.1 h .parent (List.mem_filterMap.2 ⟨_, hm, by decide⟩)
    simp [Comp.isNormal] at this
  · intro h
    rw [single_names h]
    refine List.find?_eq_none.2 fun c hc => ?_
    obtain ⟨n, -, rfl⟩ := List.mem_map.1 hc
    simp [Comp.isNormal]

/-- The first part tells whether a path is absolute or begins with `.`. -/
theorem head_slash {p : Bytes} : p.head? = some 0x2f ↔ (segments p).head? = some [] ∧ segments p ≠ [[]] := by
  cases p with
  | nil => simp [segments, Eval.splitBy]
  | cons x xs =>
    unfold segments
    rw [Eval.splitBy]
    have hne := segments_ne xs
    unfold segments at hne
    by_cases hx : (x == (0x2f : UInt8)) = true
    · rw [if_pos hx]
      simp [eq_of_beq hx, hne]
    · rw [if_neg hx]
      have hx' : x ≠ 0x2f := fun h => hx (by rw [h]; rfl)
      cases hs : Eval.splitBy (· == (0x2f : UInt8)) xs with
      | nil => exact absurd hs hne
      | cons h t => simp [hx']

theorem head_dot {p : Bytes} (h : p.head? ≠ some 0x2f) : (p.head? = some 0x2e ∧ ((p.drop 1).head? = none ∨ (p.drop 1).head? = some 0x2f)) ↔
    (segments p).head? = some (ascii ".") := by
  have hd : ascii "." = [(0x2e : UInt8)] := by decide
  rw [hd]
  cases p with
  | nil => simp [segments, Eval.splitBy]
  | cons x xs =>
    unfold segments
    rw [Eval.splitBy]
    have hx' : x ≠ 0x2f := by simpa using h
    rw [if_neg (by simpa using hx')]
    cases xs with
    | nil => simp [Eval.splitBy]
    | cons y ys =>
      rw [Eval.splitBy]
      by_cases hy : y = 0x2f
      · simp [hy]
      · rw [if_neg (by simpa using hy)]
        have hne := segments_ne ys
        unfold segments at hne
        cases hs : Eval.splitBy (· == (0x2f : UInt8)) ys with
        | nil => exact absurd hs hne
        | cons a b => simp [hy]

theorem components_names {p : Bytes} {names : List Bytes} (h : PathNames p names) :
    components p = names.map .normal ∧ p.head? ≠ some 0x2f ∧ ascii ".." ∉ segments p ∧ names = namesOf (segments p) := by
  obtain ⟨segs, h1, h2, h3, h4⟩ := h
  rw [pathParts_iff] at h1
  subst h1
  have hs : p.head? ≠ some 0x2f := by
    rw [Ne, head_slash]
    rintro ⟨a, b⟩
    rcases h3 with h3 | ⟨h3, -⟩
    · exact b h3
    · exact h3 a
  have hd : (segments p).head? ≠ some (ascii ".") := by
    rcases h3 with h3 | ⟨-, h3⟩
    · rw [h3]; decide
    · exact h3
  refine ⟨?_, hs, h2, h4⟩
  unfold components
  rw [if_neg hs, if_neg (fun hx => hd ((head_dot hs).1 hx)), single_names h2, h4]
  rfl

theorem find_normal {cs : List Comp} {c : Comp} (hc : c.isNormal = false) : (c :: cs).find? (fun c => !c.isNormal) = some c := by
  rw [List.find?_cons, hc]; rfl

theorem components_ok {p : Bytes} (h : (components p).find? (fun c => !c.isNormal) = none) : ∃ names, PathNames p names := by
  unfold components at h
  by_cases hs : p.head? = some 0x2f
  · rw [if_pos hs, find_normal rfl] at h; cases h
  · rw [if_neg hs] at h
    by_cases hd : p.head? = some 0x2e ∧ ((p.drop 1).head? = none ∨ (p.drop 1).head? = some 0x2f)
    · rw [if_pos hd, find_normal rfl] at h; cases h
    · rw [if_neg hd, single_all] at h
      refine ⟨_, segments p, (pathParts_iff _ _).2 rfl, h, ?_, rfl⟩
      by_cases he : segments p = [[]]
      · exact .inl he
      · exact .inr ⟨fun hx => hs (head_slash.2 ⟨hx, he⟩), fun hx => hd ((head_dot hs).2 hx)⟩

theorem endsInName_iff (p : Bytes) : EndsInName p ↔ ∃ s, (segments p).getLast? = some s ∧ s ≠ [] ∧ s ≠ ascii "." := by
  constructor
  · rintro ⟨segs, s, h, h1, h2⟩
    rw [pathParts_iff] at h
    exact ⟨s, by rw [← h]; simp, h1, h2⟩
  · rintro ⟨s, h, h1, h2⟩
    obtain ⟨a, ha⟩ := List.getLast?_eq_some_iff.1 h
    exact ⟨a, s, (pathParts_iff _ _).2 ha.symm, h1, h2⟩

theorem components_append {a : Bytes} (ha : a ≠ []) (b : Bytes) : components (a ++ 0x2f :: b) = components a ++ (segments b).filterMap single := by
  cases a with
  | nil => exact absurd rfl ha
  | cons x xs =>
    unfold components
    simp only [List.cons_append, List.head?_cons, List.drop_succ_cons, List.drop_zero]
    by_cases h1 : some x = some (0x2f : UInt8)
    · rw [if_pos h1, if_pos h1, segments_append, List.filterMap_append]; rfl
    · rw [if_neg h1, if_neg h1]
      have hh : ((xs ++ 0x2f :: b).head? = none ∨ (xs ++ 0x2f :: b).head? = some 0x2f) ↔ (xs.head? = none ∨ xs.head? = some 0x2f) := by
        cases xs with
        | nil => simp
        | cons y ys => simp
      by_cases h2 : some x = some (0x2e : UInt8) ∧ (xs.head? = none ∨ xs.head? = some 0x2f)
      · rw [if_pos h2, if_pos ⟨h2.1, hh.2 h2.2⟩, segments_append, List.filterMap_append]; rfl
      · rw [if_neg h2, if_neg (fun h => h2 ⟨h.1, hh.1 h.2⟩), ← List.cons_append, segments_append, List.filterMap_append]

theorem raw_append {a : Bytes} (ha : a ≠ []) (b : Bytes) : rawComps (a ++ 0x2f :: b) = rawComps a ++ (segments b).map raw := by
  unfold rawComps
  rw [segments_append, List.map_append, ← List.append_assoc]
  cases a with
  | nil => exact absurd rfl ha
  | cons x xs => simp

/-! ### the files directory -/

def files : Bytes := ascii "files"

theorem filesDir_cases (loc : Bytes) : (loc = [] ∧ filesDir loc = files) ∨ (∃ x, loc = x ++ [0x2f] ∧ filesDir loc = x ++ 0x2f :: files) ∨
    (loc ≠ [] ∧ filesDir loc = loc ++ 0x2f :: files) := by
  unfold filesDir join
  rw [if_neg (by decide)]
  by_cases h1 : loc = []
  · exact .inl ⟨h1, by rw [if_pos (.inl h1), h1]; rfl⟩
  · by_cases h2 : loc.getLast? = some 0x2f
    · refine .inr (.inl ?_)
      obtain ⟨x, hx⟩ := List.getLast?_eq_some_iff.1 h2
      exact ⟨x, hx, by rw [if_pos (.inr h2), hx]; simp [files]⟩
    · exact .inr (.inr ⟨h1, by rw [if_neg (by simp [h1, h2])]; rfl⟩)

theorem filesDir_ne (loc : Bytes) : filesDir loc ≠ [] ∧ (filesDir loc).getLast? ≠ some 0x2f := by
  have hf : files = ascii "file" ++ [0x73] := by decide
  rcases filesDir_cases loc with ⟨-, h⟩ | ⟨x, -, h⟩ | ⟨-, h⟩ <;> rw [h]
  · decide
  · refine ⟨by simp, ?_⟩
    rw [hf, ← List.cons_append, ← List.append_assoc, List.getLast?_concat]
    decide
  · refine ⟨by simp, ?_⟩
    rw [hf, ← List.cons_append, ← List.append_assoc, List.getLast?_concat]
    decide

theorem join_files {loc p : Bytes} (h : p.head? ≠ some 0x2f) : join (filesDir loc) p = filesDir loc ++ 0x2f :: p := by
  unfold join
  rw [if_neg h, if_neg]
  have := filesDir_ne loc
  simp [this.1, this.2]

theorem segments_files : segments files = [files] := by decide

theorem files_components (loc : Bytes) : components (filesDir loc) = components loc ++ [.normal files] := by
  have hf : (segments files).filterMap single = [.normal files] := by decide
  rcases filesDir_cases loc with ⟨h0, h⟩ | ⟨x, h0, h⟩ | ⟨h0, h⟩
  · rw [h, h0]; decide
  · rw [h, h0]
    by_cases hx : x = []
    · subst hx; decide
    · rw [components_append hx, components_append hx, hf]
      simp [segments, Eval.splitBy, single]
  · rw [h, components_append h0, hf]

/-! ### resolution -/

theorem walk_root (fs : Fs) (p : List Bytes) (cs : List Comp) : walk fs p (.root :: cs) = walk fs [] cs := by
  rw [walk, if_pos rfl]

theorem walk_step {fs : Fs} {p : List Bytes} {c : Comp} (hc : c ≠ .root) (cs : List Comp) :
    walk fs p (c :: cs) = match fs p with
      | none => .error .notFound
      | some (.file _) => .error .notDir
      | some .dir => walk fs (step p c) cs := by
  rw [walk, if_neg hc]
  cases fs p with
  | none => rfl
  | some e => cases e <;> rfl

theorem walk_append (fs : Fs) (p : List Bytes) (a b : List Comp) :
    walk fs p (a ++ b) = (match walk fs p a with | .error e => .error e | .ok q => walk fs q b) := by
  induction a generalizing p with
  | nil => rfl
  | cons c a ih =>
    rw [List.cons_append]
    by_cases hc : c = .root
    · subst hc
      rw [walk_root, walk_root]; exact ih []
    · rw [walk_step hc, walk_step hc]
      cases fs p with
      | none => rfl
      | some e =>
        cases e with
        | file _ => rfl
        | dir => exact ih _

theorem walk_normal (fs : Fs) (p : List Bytes) (n : Bytes) (cs : List Comp) :
    walk fs p (.normal n :: cs) = match fs p with
      | none => .error .notFound
      | some (.file _) => .error .notDir
      | some .dir => walk fs (p ++ [n]) cs := walk_step (by nofun) cs

theorem walk_cur (fs : Fs) (p : List Bytes) (cs : List Comp) :
    walk fs p (.cur :: cs) = match fs p with
      | none => .error .notFound
      | some (.file _) => .error .notDir
      | some .dir => walk fs p cs := walk_step (by nofun) cs

theorem walk_names_ok {fs : Fs} {p : List Bytes} {names : List Bytes} {q : List Bytes} :
    walk fs p (names.map .normal) = .ok q ↔ q = p ++ names ∧ ∀ k, k < names.length → fs (p ++ names.take k) = some .dir := by
  induction names generalizing p with
  | nil => 
    rw [List.map_nil, walk, List.append_nil]
    constructor
    · intro h; cases h; exact ⟨rfl, nofun⟩
    · rintro ⟨rfl, -⟩; rfl
  | cons n names ih =>
    rw [List.map_cons, walk_normal]
    constructor
    · intro h
      cases hp : fs p with
      | none => rw [hp] at h; cases h
      | some e =>
        rw [hp] at h
        cases e with
        | file _ => cases h
        | dir =>
          obtain ⟨h1, h2⟩ := ih.1 h
          refine ⟨by rw [h1, List.append_assoc]; rfl, fun k hk => ?_⟩
          cases k with
          | zero => rw [List.take_zero, List.append_nil]; exact hp
          | succ k =>
            have := h2 k (by simpa using hk)
            rw [List.append_assoc] at this
            exact this
    · rintro ⟨rfl, h⟩
      have h0 := h 0 (by simp)
      rw [List.take_zero, List.append_nil] at h0
      rw [h0]
      refine ih.2 ⟨by rw [List.append_assoc]; rfl, fun k hk => ?_⟩
      have := h (k + 1) (by simpa using hk)
      rw [List.append_assoc]
      exact this

theorem walk_names_missing {fs : Fs} {p : List Bytes} {names : List Bytes} :
    walk fs p (names.map .normal) = .error .notFound ↔
      ∃ k, k < names.length ∧ (∀ j, j < k → fs (p ++ names.take j) = some .dir) ∧ fs (p ++ names.take k) = none := by
  induction names generalizing p with
  | nil => exact ⟨nofun, fun ⟨k, h, _⟩ => absurd h (by simp)⟩
  | cons n names ih =>
    rw [List.map_cons, walk_normal]
    constructor
    · intro h
      cases hp : fs p with
      | none => exact ⟨0, by simp, by omega, by rw [List.take_zero, List.append_nil]; exact hp⟩
      | some e =>
        rw [hp] at h
        cases e with
        | file _ => cases h
        | dir =>
          obtain ⟨k, h1, h2, h3⟩ := ih.1 h
          refine ⟨k + 1, by simpa using h1, fun j hj => ?_, by rw [List.append_assoc] at h3; exact h3⟩
          cases j with
          | zero => rw [List.take_zero, List.append_nil]; exact hp
          | succ j =>
            have := h2 j (by omega)
            rw [List.append_assoc] at this
            exact this
    · rintro ⟨k, h1, h2, h3⟩
      cases k with
      | zero =>
        rw [List.take_zero, List.append_nil] at h3
        rw [h3]
      | succ k =>
        have h0 := h2 0 (by omega)
        rw [List.take_zero, List.append_nil] at h0
        rw [h0]
        refine ih.2 ⟨k, by simpa using h1, fun j hj => ?_, by rw [List.append_assoc]; exact h3⟩
        have := h2 (j + 1) (by omega)
        rw [List.append_assoc]
        exact this

theorem walk_names_err {fs : Fs} {p : List Bytes} {names : List Bytes} {e : FsErr} (h : walk fs p (names.map .normal) = .error e) :
    e = .notFound ∨ e = .notDir := by
  induction names generalizing p with
  | nil => cases h
  | cons n names ih =>
    rw [List.map_cons, walk_normal] at h
    cases hp : fs p with
    | none => rw [hp] at h; cases h; exact .inl rfl
    | some x =>
      rw [hp] at h
      cases x with
      | file _ => cases h; exact .inr rfl
      | dir => exact ih h

/-- A directory is asked for at the end. -/
def asDir (fs : Fs) (q : List Bytes) : Except FsErr (List Bytes) :=
  match fs q with
  | none => .error .notFound
  | some (.file _) => .error .notDir
  | some .dir => .ok q

/-- The kernel's resolution of parts is that of the names; a path that does not end in a name must be a directory. -/
theorem walk_raw {fs : Fs} {p : List Bytes} {segs : List Bytes} (hne : segs ≠ []) (h : ascii ".." ∉ segs) :
    walk fs p (segs.map raw) = (match walk fs p ((namesOf segs).map .normal) with
      | .error e => .error e
      | .ok q => if (segs.getLast?.map isName).getD false then .ok q else asDir fs q) := by
  induction segs generalizing p with
  | nil => exact absurd rfl hne
  | cons s segs ih =>
    have hs : s ≠ ascii ".." := fun e => h (e ▸ List.mem_cons_self)
    have hm : ascii ".." ∉ segs := fun hx => h (List.mem_cons_of_mem _ hx)
    by_cases hn : s ≠ [] ∧ s ≠ ascii "."
    · have hr : raw s = .normal s := by unfold raw single; rw [if_neg hn.1, if_neg hn.2, if_neg hs]; rfl
      have hnm : namesOf (s :: segs) = s :: namesOf segs := by
        unfold namesOf
        rw [List.filter_cons_of_pos (by simpa using hn)]
      rw [hnm, List.map_cons, List.map_cons, hr, walk_normal, walk_normal]
      cases hp : fs p with
      | none => rfl
      | some e =>
        cases e with
        | file _ => rfl
        | dir =>
          simp only
          cases segs with
          | nil =>
            have : isName s = true := by unfold isName; simpa using hn
            simp only [List.map_nil, walk, namesOf, List.filter_nil, List.getLast?_singleton, Option.map_some, this, Option.getD_some, if_true]
          | cons t ts =>
            rw [ih (by simp) hm, List.getLast?_cons_cons]
    · have hr : raw s = .cur := by
        unfold raw single
        by_cases h1 : s = []
        · rw [if_pos h1]; rfl
        · have h2 : s = ascii "." := Classical.byContradiction fun h2 => hn ⟨h1, h2⟩
          rw [if_neg h1, if_pos h2]; rfl
      have hnm : namesOf (s :: segs) = namesOf segs := by
        unfold namesOf
        rw [List.filter_cons_of_neg (by simpa using hn)]
      rw [hnm, List.map_cons, hr, walk_cur]
      cases segs with
      | nil =>
        have : isName s = false := by unfold isName; simpa using hn
        simp only [List.map_nil, walk, namesOf, List.filter_nil, List.getLast?_singleton, Option.map_some, this, Option.getD_some, asDir]
        cases fs p with
        | none => rfl
        | some e => cases e <;> rfl
      | cons t ts =>
        rw [List.getLast?_cons_cons]
        cases hp : fs p with
        | none =>
          simp only
          cases hns : namesOf (t :: ts) with
          | cons a b => rw [List.map_cons, walk_normal, hp]
          | nil =>
            have : ((t :: ts).getLast?.map isName).getD false = false := by
              cases hl : (t :: ts).getLast? with
              | none => rfl
              | some x =>
                cases hx : isName x with
                | false => simp [hx]
                | true =>
                  have : x ∈ namesOf (t :: ts) := List.mem_filter.2 ⟨List.mem_of_getLast? hl, by unfold isName at hx; simpa using hx⟩
                  rw [hns] at this; cases this
            rw [this]
            simp [walk, asDir, hp]
        | some e =>
          cases e with
          | file b =>
            simp only
            cases hns : namesOf (t :: ts) with
            | cons a b => rw [List.map_cons, walk_normal, hp]
            | nil =>
              have : ((t :: ts).getLast?.map isName).getD false = false := by
                cases hl : (t :: ts).getLast? with
                | none => rfl
                | some x =>
                  cases hx : isName x with
                  | false => simp [hx]
                  | true =>
                    have : x ∈ namesOf (t :: ts) := List.mem_filter.2 ⟨List.mem_of_getLast? hl, by unfold isName at hx; simpa using hx⟩
                    rw [hns] at this; cases this
              rw [this]
              simp [walk, asDir, hp]
          | dir =>
            simp only
            exact ih (by simp) hm

theorem endsInName_last (p : Bytes) : ((segments p).getLast?.map isName).getD false = true ↔ EndsInName p := by
  rw [endsInName_iff]
  cases (segments p).getLast? with
  | none => simp
  | some x => simp [isName]

/-- Leaving out `.` and empty parts keeps what is found. -/
theorem walk_less {fs : Fs} {p q : List Bytes} {segs : List Bytes} (h : walk fs p (segs.map raw) = .ok q) : walk fs p (segs.filterMap single) = .ok q := by
  induction segs generalizing p with
  | nil => exact h
  | cons s segs ih =>
    rw [List.map_cons] at h
    cases hs : single s with
    | none =>
      have hr : raw s = .cur := by unfold raw; rw [hs]; rfl
      rw [List.filterMap_cons, hs]
      rw [hr, walk_cur] at h
      cases hp : fs p with
      | none => rw [hp] at h; cases h
      | some e =>
        rw [hp] at h
        cases e with
        | file _ => cases h
        | dir => exact ih h
    | some c =>
      have hr : raw s = c := by unfold raw; rw [hs]; rfl
      rw [List.filterMap_cons, hs]
      rw [hr] at h
      simp only
      by_cases hc : c = .root
      · subst hc; rw [walk_root] at h ⊢; exact ih h
      · rw [walk_step hc] at h ⊢
        cases hp : fs p with
        | none => rw [hp] at h; cases h
        | some e =>
          rw [hp] at h
          cases e with
          | file _ => cases h
          | dir => exact ih h

theorem walk_components {fs : Fs} {cwd q : List Bytes} {p : Bytes} (h : walk fs cwd (rawComps p) = .ok q) : walk fs cwd (components p) = .ok q := by
  unfold rawComps at h
  unfold components
  cases p with
  | nil => 
    exact walk_less (segs := segments []) h
  | cons x xs =>
    by_cases h1 : (x :: xs).head? = some (0x2f : UInt8)
    · rw [if_pos h1] at h ⊢
      injection h1 with h1
      subst h1
      have : segments (0x2f :: xs) = [] :: segments xs := by unfold segments; rw [Eval.splitBy, if_pos (by decide)]
      rw [this, List.singleton_append, walk_root] at h
      rw [walk_root, List.drop_succ_cons, List.drop_zero]
      have := walk_less (segs := [] :: segments xs) h
      rwa [List.filterMap_cons] at this
    · rw [if_neg h1, List.nil_append] at h
      rw [if_neg h1]
      by_cases h2 : (x :: xs).head? = some (0x2e : UInt8) ∧ (((x :: xs).drop 1).head? = none ∨ ((x :: xs).drop 1).head? = some 0x2f)
      · rw [if_pos h2]
        obtain ⟨h2, h3⟩ := h2
        injection h2 with h2
        subst h2
        have hs : ∃ r, segments (0x2e :: xs) = ascii "." :: r ∧ segments xs = [] :: r := by
          have hd : ascii "." = [(0x2e : UInt8)] := by decide
          rw [List.drop_succ_cons, List.drop_zero] at h3
          rw [hd]
          unfold segments
          rw [Eval.splitBy, if_neg (by decide)]
          cases xs with
          | nil => exact ⟨[], rfl, rfl⟩
          | cons y ys =>
            simp at h3
            subst h3
            rw [Eval.splitBy, if_pos (by decide)]
            exact ⟨_, rfl, rfl⟩
        obtain ⟨r, r1, r2⟩ := hs
        rw [r1, List.map_cons] at h
        have hr : raw (ascii ".") = .cur := by decide
        rw [hr, walk_cur] at h
        rw [List.drop_succ_cons, List.drop_zero, r2, walk_cur]
        cases hp : fs cwd with
        | none => rw [hp] at h; cases h
        | some e =>
          rw [hp] at h
          cases e with
          | file _ => cases h
          | dir =>
            have := walk_less h
            rw [List.filterMap_cons]
            exact this
      · rw [if_neg h2]
        exact walk_less h

/-- Where the files directory is: in the directory of the database. -/
theorem files_raw {fs : Fs} {cwd l : List Bytes} {loc : Bytes} (h : walk fs cwd (rawComps loc) = .ok l) (hl : fs l = some .dir) (cs : List Comp) :
    walk fs cwd (rawComps (filesDir loc) ++ cs) = walk fs (l ++ [files]) cs := by
  have hf : (segments files).map raw = [.normal files] := by decide
  have key : ∀ pre, walk fs cwd pre = .ok l → walk fs cwd ((pre ++ [.normal files]) ++ cs) = walk fs (l ++ [files]) cs := by
    intro pre hp
    rw [List.append_assoc, walk_append, hp]
    simp only [List.singleton_append, walk_normal, hl]
  have drop : ∀ pre, walk fs cwd (pre ++ [.cur]) = .ok l → walk fs cwd pre = .ok l := by
    intro pre hp
    rw [walk_append] at hp
    cases hx : walk fs cwd pre with
    | error e => rw [hx] at hp; cases hp
    | ok q =>
      rw [hx] at hp
      simp only [walk_cur] at hp
      cases hq : fs q with
      | none => rw [hq] at hp; cases hp
      | some e =>
        rw [hq] at hp
        cases e with
        | file _ => cases hp
        | dir => exact hp
  rcases filesDir_cases loc with ⟨h0, h1⟩ | ⟨x, h0, h1⟩ | ⟨h0, h1⟩
  · rw [h1]
    rw [h0] at h
    have : rawComps files = [] ++ [.normal files] := by decide
    rw [this]
    exact key [] (drop [] h)
  · rw [h1]
    rw [h0] at h
    by_cases hx : x = []
    · subst hx
      have : rawComps ([] ++ 0x2f :: files) = [.root, .cur] ++ [.normal files] := by decide
      rw [this]
      have e2 : rawComps ([] ++ [0x2f]) = [.root, .cur] ++ [.cur] := by decide
      rw [e2] at h
      exact key _ (drop _ h)
    · rw [raw_append hx, hf]
      rw [raw_append hx] at h
      have e2 : (segments []).map raw = [.cur] := by decide
      rw [e2] at h
      exact key _ (drop _ h)
  · rw [h1, raw_append h0, hf]
    exact key _ h

end Verif.Props
