import Verif.Lemmas.Files
/-!
# C66: the files directory

`l` is the directory of the database: the one that its path `loc` resolves to.
-/
namespace Verif.Props
open Verif Verif.Files Verif.Spec

/-- **C66**: the accepted paths are those that are not absolute, do not begin with `.` and have no `..`. -/
theorem check_path_iff (p q : Bytes) : checkPath p = .ok q ↔ q = p ∧ ∃ names, PathNames p names := by
  unfold checkPath
  constructor
  · intro h
    cases hf : (components p).find? (fun c => !c.isNormal) with
    | some c => rw [hf] at h; cases h
    | none => rw [hf] at h; cases h; exact ⟨rfl, components_ok hf⟩
  · rintro ⟨rfl, names, hn⟩
    have : (components q).find? (fun c => !c.isNormal) = none := by
      rw [(components_names hn).1]
      refine List.find?_eq_none.2 fun c hc => ?_
      obtain ⟨n, -, rfl⟩ := List.mem_map.1 hc
      simp [Comp.isNormal]
    rw [this]

theorem check_path_refused {p : Bytes} (h : ¬ ∃ names, PathNames p names) : checkPath p = .error .refused := by
  cases hc : checkPath p with
  | ok q => exact absurd ((check_path_iff p q).1 hc).2 h
  | error e =>
    unfold checkPath at hc
    cases hf : (components p).find? (fun c => !c.isNormal) with
    | some c => rw [hf] at hc; cases hc; rfl
    | none => rw [hf] at hc; cases hc

theorem names_unique {p : Bytes} {a b : List Bytes} (ha : PathNames p a) (hb : PathNames p b) : a = b := by
  rw [(components_names ha).2.2.2, (components_names hb).2.2.2]

section
variable {io : Io} {cwd l : List Bytes} {loc : Bytes} {fs fs' : Fs} {path bytes : Bytes} {names : List Bytes}

theorem nul_join (hp : path.head? ≠ some 0x2f) (hz : (0 : UInt8) ∉ loc) : (join (filesDir loc) path).contains 0 = path.contains 0 := by
  have hf : (0 : UInt8) ∉ filesDir loc := by
    have hff : (0 : UInt8) ∉ files := by decide
    rcases filesDir_cases loc with ⟨-, h⟩ | ⟨x, h0, h⟩ | ⟨-, h⟩ <;> rw [h]
    · exact hff
    · rw [h0] at hz
      simp at hz
      simp [hz, hff]
    · simp [hz, hff]
  rw [join_files hp]
  cases hc : path.contains 0 with
  | true => simpa using Or.inr (by simpa using hc)
  | false =>
    have : (0 : UInt8) ∉ path := by simpa using hc
    simp [hf, this]

/-- Where a path leads to. -/
theorem walk_path (hloc : walk fs cwd (rawComps loc) = .ok l) (hl : fs l = some .dir) (hn : PathNames path names) :
    walk fs cwd (rawComps (join (filesDir loc) path)) = (match walk fs (l ++ [files]) (names.map .normal) with
      | .error e => .error e
      | .ok q => if ((segments path).getLast?.map isName).getD false then .ok q else asDir fs q) := by
  obtain ⟨-, h2, h3, h4⟩ := components_names hn
  rw [join_files h2, raw_append (filesDir_ne loc).1, files_raw hloc hl, walk_raw (segments_ne _) h3, h4]
  generalize walk fs (l ++ [files]) _ = o
  cases o <;> rfl

/-- **C66**: what is read: the file at the names of the path below the files directory, if all before it are directories and the path ends in a name. -/
theorem files_data_iff (hloc : walk fs cwd (rawComps loc) = .ok l) (hl : fs l = some .dir) (hz : (0 : UInt8) ∉ loc) (nf : Bool) (b : Bytes) :
    filesData io cwd loc fs path nf = .ok (some b) ↔
      io.read = false ∧ (0 : UInt8) ∉ path ∧ EndsInName path ∧ ∃ names, PathNames path names ∧
        (∀ k, k < names.length → fs (l ++ ascii "files" :: names.take k) = some .dir) ∧ fs (l ++ ascii "files" :: names) = some (.file b) := by
  have happ : ∀ x : List Bytes, l ++ ascii "files" :: x = (l ++ [files]) ++ x := fun x => by simp [files]
  simp only [happ]
  unfold filesData
  by_cases hp : ∃ names, PathNames path names
  · obtain ⟨names, hn⟩ := hp
    rw [(check_path_iff path path).2 ⟨rfl, names, hn⟩]
    simp only
    have hpe : (join (filesDir loc) path).isEmpty = false := by
      rw [join_files (components_names hn).2.1]; simp
    unfold readFile
    rw [nul_join (components_names hn).2.1 hz, hpe, walk_path hloc hl hn]
    constructor
    · intro h
      cases hr : (io.read || path.contains 0) with
      | true =>
        rw [if_pos hr] at h
        simp only at h
        split at h <;> cases h
      | false =>
        rw [if_neg (by rw [hr]; decide)] at h
        simp only [Bool.or_eq_false_iff] at hr
        rw [if_neg (by decide)] at h
        cases hw : walk fs (l ++ [files]) (names.map .normal) with
        | error e =>
          rw [hw] at h
          simp only at h
          split at h <;> cases h
        | ok q =>
          rw [hw] at h
          obtain ⟨rfl, hd⟩ := walk_names_ok.1 hw
          cases he : ((segments path).getLast?.map isName).getD false with
          | true =>
            rw [he] at h
            simp only [if_true] at h
            cases hq : fs ((l ++ [files]) ++ names) with
            | none => rw [hq] at h; simp only at h; split at h <;> cases h
            | some x =>
              rw [hq] at h
              cases x with
              | dir => simp only at h; split at h <;> cases h
              | file b' => cases h; exact ⟨hr.1, by simpa using hr.2, (endsInName_last path).1 he, names, hn, hd, hq⟩
          | false =>
            rw [he] at h
            unfold asDir at h
            simp only [Bool.false_eq_true, if_false] at h
            cases hq : fs ((l ++ [files]) ++ names) with
            | none => rw [hq] at h; simp only at h; split at h <;> cases h
            | some x =>
              rw [hq] at h
              cases x with
              | dir => simp only [hq] at h; split at h <;> cases h
              | file b => simp only at h; split at h <;> cases h
    · rintro ⟨h1, h2, h3, names', hn', h4, h5⟩
      have := names_unique hn' hn
      subst this
      have hr : (io.read || path.contains 0) = false := by simp [h1, h2]
      rw [if_neg (by rw [hr]; decide), if_neg (by decide), walk_names_ok.2 ⟨rfl, h4⟩, (endsInName_last path).2 h3]
      simp only [if_true, h5]
  · rw [check_path_refused hp]
    exact ⟨nofun, fun ⟨_, _, _, names, hn, _⟩ => absurd ⟨names, hn⟩ hp⟩

/-- **C66**: when nothing is found: there is nothing at some name on the way, and only directories before it. -/
theorem files_none_iff (hloc : walk fs cwd (rawComps loc) = .ok l) (hl : fs l = some .dir) (hz : (0 : UInt8) ∉ loc) (nf : Bool) :
    filesData io cwd loc fs path nf = .ok none ↔
      nf = false ∧ io.read = false ∧ (0 : UInt8) ∉ path ∧ ∃ names, PathNames path names ∧ ∃ k, k ≤ names.length ∧
        (∀ j, j < k → fs (l ++ ascii "files" :: names.take j) = some .dir) ∧ fs (l ++ ascii "files" :: names.take k) = none := by
  have happ : ∀ x : List Bytes, l ++ ascii "files" :: x = (l ++ [files]) ++ x := fun x => by simp [files]
  simp only [happ]
  unfold filesData
  by_cases hp : ∃ names, PathNames path names
  · obtain ⟨names, hn⟩ := hp
    rw [(check_path_iff path path).2 ⟨rfl, names, hn⟩]
    simp only
    have hpe : (join (filesDir loc) path).isEmpty = false := by
      rw [join_files (components_names hn).2.1]; simp
    unfold readFile
    rw [nul_join (components_names hn).2.1 hz, hpe, walk_path hloc hl hn]
    have hnf : ∀ e : FsErr, (if (!nf && e == FsErr.notFound) = true then (.ok none : Except FsErr (Option Bytes)) else .error e) = .ok none ↔ nf = false ∧ e = .notFound := by
      intro e
      cases nf <;> cases e <;> decide
    constructor
    · intro h
      cases hr : (io.read || path.contains 0) with
      | true =>
        rw [if_pos hr] at h
        simp only [hnf] at h
        cases h.2
      | false =>
        rw [if_neg (by rw [hr]; decide)] at h
        simp only [Bool.or_eq_false_iff] at hr
        rw [if_neg (by decide)] at h
        cases hw : walk fs (l ++ [files]) (names.map .normal) with
        | error e =>
          rw [hw] at h
          simp only [hnf] at h
          obtain ⟨h1, rfl⟩ := h
          obtain ⟨k, k1, k2, k3⟩ := walk_names_missing.1 hw
          exact ⟨h1, hr.1, by simpa using hr.2, names, hn, k, by omega, k2, k3⟩
        | ok q =>
          rw [hw] at h
          obtain ⟨rfl, hd⟩ := walk_names_ok.1 hw
          have fin : nf = false → fs ((l ++ [files]) ++ names) = none → nf = false ∧ io.read = false ∧ (0 : UInt8) ∉ path ∧ ∃ names, PathNames path names ∧ ∃ k, k ≤ names.length ∧
              (∀ j, j < k → fs ((l ++ [files]) ++ names.take j) = some .dir) ∧ fs ((l ++ [files]) ++ names.take k) = none :=
            fun h1 hq => ⟨h1, hr.1, by simpa using hr.2, names, hn, names.length, Nat.le_refl _, hd, by rw [List.take_length]; exact hq⟩
          cases he : ((segments path).getLast?.map isName).getD false with
          | true =>
            rw [he] at h
            simp only [if_true] at h
            cases hq : fs ((l ++ [files]) ++ names) with
            | none =>
              rw [hq] at h
              simp only [hnf] at h
              exact fin h.1 hq
            | some x =>
              rw [hq] at h
              cases x with
              | dir => simp only [hnf] at h; cases h.2
              | file b' => cases h
          | false =>
            rw [he] at h
            unfold asDir at h
            simp only [Bool.false_eq_true, if_false] at h
            cases hq : fs ((l ++ [files]) ++ names) with
            | none =>
              rw [hq] at h
              simp only [hnf] at h
              exact fin h.1 hq
            | some x =>
              rw [hq] at h
              cases x with
              | dir => simp only [hq, hnf] at h; cases h.2
              | file b' => simp only [hnf] at h; cases h.2
    · rintro ⟨h0, h1, h2, names', hn', k, k1, k2, k3⟩
      have := names_unique hn' hn
      subst this
      have hr : (io.read || path.contains 0) = false := by simp [h1, h2]
      rw [if_neg (by rw [hr]; decide), if_neg (by decide)]
      by_cases hk : k < names'.length
      · rw [walk_names_missing.2 ⟨k, hk, k2, k3⟩]
        simp only [hnf]
        exact ⟨h0, trivial⟩
      · have : k = names'.length := by omega
        subst this
        rw [List.take_length] at k3
        rw [walk_names_ok.2 ⟨rfl, k2⟩]
        cases ((segments path).getLast?.map isName).getD false with
        | true => simp only [if_true, k3, hnf]; exact ⟨h0, trivial⟩
        | false => simp only [Bool.false_eq_true, if_false, asDir, k3, hnf]; exact ⟨h0, trivial⟩
  · rw [check_path_refused hp]
    exact ⟨nofun, fun ⟨_, _, _, names, hn, _⟩ => absurd ⟨names, hn⟩ hp⟩

theorem walk_same {d : List Bytes} (hsame : ∀ q, fs (d ++ q) = fs' (d ++ q)) (names pre : List Bytes) :
    walk fs (d ++ pre) (names.map .normal) = walk fs' (d ++ pre) (names.map .normal) := by
  induction names generalizing pre with
  | nil => rfl
  | cons n names ih =>
    rw [List.map_cons, walk_normal, walk_normal, hsame, List.append_assoc, ih]

/-- **C66**: nothing outside the files directory is read: two file systems with the same one give the same result for every path, be it an error. -/
theorem files_inside (hloc : walk fs cwd (rawComps loc) = .ok l) (hl : fs l = some .dir) (hloc' : walk fs' cwd (rawComps loc) = .ok l) (hl' : fs' l = some .dir)
    (hsame : ∀ q, fs (l ++ ascii "files" :: q) = fs' (l ++ ascii "files" :: q)) (nf : Bool) :
    filesData io cwd loc fs path nf = filesData io cwd loc fs' path nf := by
  unfold filesData
  by_cases hp : ∃ names, PathNames path names
  · obtain ⟨names, hn⟩ := hp
    rw [(check_path_iff path path).2 ⟨rfl, names, hn⟩]
    have hs : ∀ q, fs ((l ++ [files]) ++ q) = fs' ((l ++ [files]) ++ q) := fun q => by
      have := hsame q
      simpa [files] using this
    have hw := walk_same hs names []
    rw [List.append_nil] at hw
    have : readFile io cwd fs (join (filesDir loc) path) = readFile io cwd fs' (join (filesDir loc) path) := by
      unfold readFile
      rw [walk_path hloc hl hn, walk_path hloc' hl' hn, hw]
      cases hx : walk fs' (l ++ [files]) (names.map .normal) with
      | error e => rfl
      | ok q =>
        obtain ⟨rfl, -⟩ := walk_names_ok.1 hx
        simp only [asDir, hs]
        have key : ∀ (t : Bool), (match (if t = true then (.ok ((l ++ [files]) ++ names) : Except FsErr (List Bytes)) else match fs' ((l ++ [files]) ++ names) with
            | none => .error .notFound | some (.file _) => .error .notDir | some .dir => .ok ((l ++ [files]) ++ names)) with
            | .error e => (.error e : Except FsErr Bytes)
            | .ok p => match fs p with | none => .error .notFound | some .dir => .error .isDir | some (.file b) => .ok b) =
            (match (if t = true then (.ok ((l ++ [files]) ++ names) : Except FsErr (List Bytes)) else match fs' ((l ++ [files]) ++ names) with
            | none => .error .notFound | some (.file _) => .error .notDir | some .dir => .ok ((l ++ [files]) ++ names)) with
            | .error e => (.error e : Except FsErr Bytes)
            | .ok p => match fs' p with | none => .error .notFound | some .dir => .error .isDir | some (.file b) => .ok b) := by
          intro t
          cases t with
          | true => simp only [if_true, hs]
          | false =>
            simp only [Bool.false_eq_true, if_false]
            cases hq : fs' ((l ++ [files]) ++ names) with
            | none => rfl
            | some e =>
              cases e with
              | file _ => rfl
              | dir => simp only [hs]
        have := key (((segments path).getLast?.map isName).getD false)
        split
        · rfl
        · split
          · rfl
          · exact this
    simp only [this]
  · rw [check_path_refused hp]

/-- **C66**: the function `files` reads the same, and never aborts. -/
theorem files_func (utf8 : Bytes → Bool) (b : Bytes) :
    (filesFunc utf8 io cwd loc fs path = .ok b ↔ utf8 path = true ∧ filesData io cwd loc fs path true = .ok (some b)) ∧
      filesFunc utf8 io cwd loc fs path ≠ .error .panic := by
  have hno : filesData io cwd loc fs path true ≠ .ok none := by
    unfold filesData
    cases checkPath path with
    | error e => nofun
    | ok p =>
      simp only
      cases readFile io cwd fs (join (filesDir loc) p) with
      | ok b => nofun
      | error e => simp
  unfold filesFunc
  cases utf8 path with
  | false => exact ⟨⟨nofun, nofun⟩, nofun⟩
  | true =>
    rw [if_neg (by simp)]
    cases hd : filesData io cwd loc fs path true with
    | error e => exact ⟨⟨nofun, nofun⟩, nofun⟩
    | ok r =>
      cases r with
      | none => exact absurd hd hno
      | some x => exact ⟨⟨fun h => by cases h; exact ⟨rfl, rfl⟩, fun h => by cases h.2; rfl⟩, nofun⟩

end

end Verif.Props
