import Verif.Props.Files
/-!
# C66: writing in the files directory
-/
namespace Verif.Props
open Verif Verif.Files Verif.Spec

section
variable {io : Io} {cwd l : List Bytes} {loc : Bytes} {fs fs' : Fs} {path bytes : Bytes} {names : List Bytes} {X : List Comp}

theorem walk_base (hX : walk fs cwd X = .ok l) (cs : List Comp) : walk fs cwd (X ++ cs) = walk fs l cs := by
  rw [walk_append, hX]

/-- A successful resolution only depends on the directories. -/
theorem walk_ext (h : ∀ q, fs q = some .dir → fs' q = some .dir) {p q : List Bytes} {cs : List Comp} (hw : walk fs p cs = .ok q) : walk fs' p cs = .ok q := by
  induction cs generalizing p with
  | nil => exact hw
  | cons c cs ih =>
    by_cases hc : c = .root
    · subst hc; rw [walk_root] at hw ⊢; exact ih hw
    · rw [walk_step hc] at hw ⊢
      cases hp : fs p with
      | none => rw [hp] at hw; cases hw
      | some e =>
        rw [hp] at hw
        cases e with
        | file _ => cases hw
        | dir => rw [h p hp]; exact ih hw

theorem mkdir_cases (hX : walk fs cwd X = .ok l) (a : Bool) :
    (mkdir io a cwd fs (X ++ names.map Comp.normal) = (fs.put (l ++ names) .dir, .ok ()) ∧ fs (l ++ names) = none ∧
        (∀ k, k < names.length → fs (l ++ names.take k) = some .dir)) ∨
      ∃ e, mkdir io a cwd fs (X ++ names.map Comp.normal) = (fs, .error e) := by
  unfold mkdir
  rw [walk_base hX]
  split
  · exact .inr ⟨_, rfl⟩
  · cases hw : walk fs l (names.map Comp.normal) with
    | error e => exact .inr ⟨e, rfl⟩
    | ok q =>
      obtain ⟨rfl, hd⟩ := walk_names_ok.1 hw
      simp only
      cases hq : fs (l ++ names) with
      | some e => exact .inr ⟨_, rfl⟩
      | none => exact .inl ⟨rfl, rfl, hd⟩

theorem isDir_names (hX : walk fs cwd X = .ok l) (h : isDir cwd fs (X ++ names.map Comp.normal) = true) :
    ∀ k, k ≤ names.length → fs (l ++ names.take k) = some .dir := by
  unfold isDir at h
  rw [walk_base hX, Bool.and_eq_true] at h
  cases hw : walk fs l (names.map Comp.normal) with
  | error e => rw [hw] at h; cases h.2
  | ok q =>
    rw [hw] at h
    obtain ⟨rfl, hd⟩ := walk_names_ok.1 hw
    intro k hk
    by_cases hk' : k < names.length
    · exact hd k hk'
    · have : k = names.length := by omega
      subst this
      rw [List.take_length]
      simpa using h.2

theorem _root_.Verif.Spec.Grown.refl (fs : Fs) (l names : List Bytes) : Grown fs fs l names := fun _ => .inl rfl

theorem _root_.Verif.Spec.Grown.dir (h : Grown fs fs' l names) {q : List Bytes} (hq : fs q = some .dir) : fs' q = some .dir := by
  rcases h q with e | ⟨e, -⟩
  · rw [e, hq]
  · rw [hq] at e; cases e

theorem _root_.Verif.Spec.Grown.more {c : Bytes} (h : Grown fs fs' l names) : Grown fs fs' l (names ++ [c]) := by
  intro q
  rcases h q with e | ⟨h1, h2, k, h3, h4, h5⟩
  · exact .inl e
  · refine .inr ⟨h1, h2, k, h3, by simp; omega, ?_⟩
    rw [List.take_append_of_le_length h4]
    exact h5

theorem _root_.Verif.Spec.Grown.put (h : Grown fs fs' l names) {c : Bytes} (hq : fs' (l ++ (names ++ [c])) = none) : Grown fs (fs'.put (l ++ (names ++ [c])) .dir) l (names ++ [c]) := by
  intro q
  unfold Fs.put
  by_cases hqe : q = l ++ (names ++ [c])
  · rw [if_pos hqe]
    refine .inr ⟨?_, rfl, (names ++ [c]).length, by simp, Nat.le_refl _, by rw [List.take_length]; exact hqe⟩
    rcases h q with e | ⟨e, -⟩
    · rw [← e, hqe, hq]
    · exact e
  · rw [if_neg hqe]
    exact h.more q

theorem put_dirs {c : Bytes} (hd : ∀ k, k < (names ++ [c]).length → fs (l ++ (names ++ [c]).take k) = some .dir) :
    ∀ k, k ≤ (names ++ [c]).length → (fs.put (l ++ (names ++ [c])) .dir) (l ++ (names ++ [c]).take k) = some .dir := by
  intro k hk
  unfold Fs.put
  split
  · rfl
  · rename_i hne
    refine hd k ?_
    rcases Nat.lt_or_ge k (names ++ [c]).length with h | h
    · exact h
    · have : k = (names ++ [c]).length := by omega
      rw [this, List.take_length] at hne
      exact absurd rfl hne

/-- Making the directories on the way. -/
theorem create_all (hX : walk fs cwd X = .ok l) (hl : fs l = some .dir) (hnul : X.any Comp.hasNul = false) (rev : List Bytes) :
    Grown fs (createDirAll io cwd fs (X ++ rev.reverse.map Comp.normal).reverse).1 l rev.reverse ∧
      ((createDirAll io cwd fs (X ++ rev.reverse.map Comp.normal).reverse).2 = .ok () →
        ∀ k, k ≤ rev.length → (createDirAll io cwd fs (X ++ rev.reverse.map Comp.normal).reverse).1 (l ++ rev.reverse.take k) = some .dir) := by
  induction rev generalizing fs with
  | nil =>
    have hself : isDir cwd fs X = true := by
      unfold isDir
      rw [hX, hnul]
      simp [hl]
    have : createDirAll io cwd fs (X ++ [].reverse.map Comp.normal).reverse = (fs, .ok ()) := by
      simp only [List.reverse_nil, List.map_nil, List.append_nil]
      cases hr : X.reverse with
      | nil => rfl
      | cons c up =>
        have hrev : (c :: up).reverse = X := by rw [← hr, List.reverse_reverse]
        rw [createDirAll, hrev]
        unfold mkdir
        rw [hX]
        simp only [hl]
        by_cases hb : (io.mkdir false X || X.any Comp.hasNul) = true
        · rw [if_pos hb]
          simp only [hself, if_true]
        · rw [if_neg hb]
          simp only [hself, if_true]
    rw [this]
    refine ⟨Grown.refl _ _ _, fun _ k hk => ?_⟩
    simpa using hl
  | cons c rev ih =>
    have hcs : (X ++ (c :: rev).reverse.map Comp.normal).reverse = .normal c :: (X ++ rev.reverse.map Comp.normal).reverse := by
      simp
    have hrev : (.normal c :: (X ++ rev.reverse.map Comp.normal).reverse).reverse = X ++ (rev.reverse ++ [c]).map Comp.normal := by
      simp
    have hrc : (c :: rev).reverse = rev.reverse ++ [c] := by simp
    have hlen : (c :: rev).length = (rev.reverse ++ [c]).length := by simp
    rw [hcs, createDirAll, hrev, hlen, hrc]
    have hself : isDir cwd fs (X ++ (rev.reverse ++ [c]).map Comp.normal) = true → Grown fs fs l (rev.reverse ++ [c]) ∧
        ((.ok () : Except FsErr Unit) = .ok () → ∀ k, k ≤ (rev.reverse ++ [c]).length → fs (l ++ (rev.reverse ++ [c]).take k) = some .dir) :=
      fun h => ⟨Grown.refl _ _ _, fun _ => isDir_names hX h⟩
    rcases mkdir_cases (io := io) (names := rev.reverse ++ [c]) hX false with ⟨h1, h2, h3⟩ | ⟨e, he⟩
    · rw [h1]
      exact ⟨(Grown.refl fs l rev.reverse).put h2, fun _ => put_dirs h3⟩
    · rw [he]
      by_cases hnf : e = .notFound
      · subst hnf
        simp only
        rw [if_neg (by nofun)]
        obtain ⟨i1, i2⟩ := ih hX hl
        cases hr : createDirAll io cwd fs (X ++ rev.reverse.map Comp.normal).reverse with
        | mk fs1 r =>
          rw [hr] at i1 i2
          simp only at i1 i2
          cases r with
          | error e => exact ⟨i1.more, nofun⟩
          | ok u =>
            simp only
            have hX1 : walk fs1 cwd X = .ok l := walk_ext (fun q hq => i1.dir hq) hX
            rcases mkdir_cases (io := io) (names := rev.reverse ++ [c]) hX1 true with ⟨h1, h2, h3⟩ | ⟨e, he⟩
            · rw [h1]
              exact ⟨i1.put h2, fun _ => put_dirs h3⟩
            · rw [he]
              simp only
              by_cases hd : isDir cwd fs1 (X ++ (rev.reverse ++ [c]).map Comp.normal) = true
              · rw [if_pos hd]
                exact ⟨i1.more, fun _ => isDir_names hX1 hd⟩
              · rw [if_neg hd]
                exact ⟨i1.more, nofun⟩
      · by_cases hd : isDir cwd fs (X ++ (rev.reverse ++ [c]).map Comp.normal) = true
        · have := hself hd
          cases e with
          | notFound => exact absurd rfl hnf
          | _ => simp only [hd, if_true]; exact ⟨this.1, fun _ => this.2 rfl⟩
        · cases e with
          | notFound => exact absurd rfl hnf
          | _ => simp only [hd]; exact ⟨Grown.refl _ _ _, nofun⟩

theorem nul_components (h : (0 : UInt8) ∉ loc) : (components loc).any Comp.hasNul = false := by
  have hseg : ∀ p : Bytes, (0 : UInt8) ∉ p → ((segments p).filterMap single).any Comp.hasNul = false := by
    intro p hp
    rw [List.any_eq_false]
    intro c hc
    obtain ⟨s, hs, hcs⟩ := List.mem_filterMap.1 hc
    have hms : (0 : UInt8) ∉ s := fun hm => hp (Eval.splitBy_mem _ _ s hs 0 hm)
    unfold single at hcs
    split at hcs
    · cases hcs
    · split at hcs
      · cases hcs
      · split at hcs
        · cases hcs; decide
        · cases hcs
          simpa [Comp.hasNul] using hms
  have hdrop : (0 : UInt8) ∉ loc.drop 1 := fun hm => h (List.mem_of_mem_drop hm)
  unfold components
  split
  · rw [List.any_cons, hseg _ hdrop]; rfl
  · split
    · rw [List.any_cons, hseg _ hdrop]; rfl
    · exact hseg _ h

/-- The parent of a path in the files directory: the names but the last. -/
theorem parent_path (hn : PathNames path names) :
    parentOf (components (join (filesDir loc) path)) = some (components loc ++ ((files :: names).dropLast).map Comp.normal) := by
  obtain ⟨-, h2, h3, h4⟩ := components_names hn
  have : components (join (filesDir loc) path) = components loc ++ (files :: names).map Comp.normal := by
    rw [join_files h2, components_append (filesDir_ne loc).1, files_components, single_names h3, ← h4]
    simp
  unfold parentOf
  rw [this]
  have hlast : ∃ n, (components loc ++ (files :: names).map Comp.normal).getLast? = some (.normal n) := by
    rw [List.getLast?_append]
    simp only [List.getLast?_map]
    cases hx : (files :: names).getLast? with
    | none => simp at hx
    | some x => exact ⟨x, by simp⟩
  obtain ⟨n, hn⟩ := hlast
  rw [hn]
  simp only
  rw [List.dropLast_append_of_ne_nil (by simp), List.map_dropLast]

theorem take_dropLast {α : Type} (a : List α) {k : Nat} (hk : k ≤ a.length - 1) : a.dropLast.take k = a.take k := by
  rw [List.dropLast_eq_take, List.take_take, Nat.min_eq_left hk]

/-- Opening a file of the files directory for writing. -/
theorem open_cases (hloc : walk fs cwd (rawComps loc) = .ok l) (hl : fs l = some .dir) (hn : PathNames path names) (ow : Bool) :
    (openWrite io cwd fs (join (filesDir loc) path) ow = (fs.put (l ++ files :: names) (.file []), .ok (l ++ files :: names)) ∧
        (∀ k, k < (files :: names).length → fs (l ++ (files :: names).take k) = some .dir) ∧ EndsInName path ∧ path.contains 0 = false ∧
        (fs (l ++ files :: names) = none ∨ (ow = true ∧ ∃ b, fs (l ++ files :: names) = some (.file b)))) ∨
      ∃ e, openWrite io cwd fs (join (filesDir loc) path) ow = (fs, .error e) := by
  unfold openWrite
  have happ : (l ++ [files]) ++ names = l ++ files :: names := by simp
  split
  · exact .inr ⟨_, rfl⟩
  · rename_i hcond
    have hc0 : path.contains 0 = false := by
      cases hc : path.contains 0 with
      | false => rfl
      | true =>
        have : (join (filesDir loc) path).contains 0 = true := by
          rw [join_files (components_names hn).2.1]
          have : (0 : UInt8) ∈ path := by simpa using hc
          simp [this]
        rw [this] at hcond
        simp at hcond
    rw [walk_path hloc hl hn]
    cases hw : walk fs (l ++ [files]) (names.map Comp.normal) with
    | error e => exact .inr ⟨e, rfl⟩
    | ok q =>
      obtain ⟨rfl, hd⟩ := walk_names_ok.1 hw
      have hd' : ∀ k, k < (files :: names).length → fs (l ++ (files :: names).take k) = some .dir := by
        intro k hk
        cases k with
        | zero => rw [List.take_zero, List.append_nil]; exact hl
        | succ k =>
          have := hd k (by simpa using hk)
          simpa using this
      cases he : ((segments path).getLast?.map isName).getD false with
      | true =>
        simp only [if_true, happ]
        cases hq : fs (l ++ files :: names) with
        | none => exact .inl ⟨rfl, hd', (endsInName_last path).1 he, hc0, .inl rfl⟩
        | some x =>
          cases x with
          | dir => exact .inr ⟨_, rfl⟩
          | file b =>
            cases ow with
            | true => exact .inl ⟨rfl, hd', (endsInName_last path).1 he, hc0, .inr ⟨rfl, b, rfl⟩⟩
            | false => exact .inr ⟨_, rfl⟩
      | false =>
        simp only [Bool.false_eq_true, if_false, asDir, happ]
        cases hq : fs (l ++ files :: names) with
        | none => exact .inr ⟨_, rfl⟩
        | some x =>
          cases x with
          | dir => simp only [hq]; exact .inr ⟨_, rfl⟩
          | file b => exact .inr ⟨_, rfl⟩

theorem walk_raw_ext (h : Grown fs fs' l names) {q : List Bytes} (hloc : walk fs cwd (rawComps loc) = .ok q) : walk fs' cwd (rawComps loc) = .ok q :=
  walk_ext (fun _ hq => h.dir hq) hloc

theorem take_inj {a : List Bytes} {i j : Nat} (hi : i ≤ a.length) (hj : j ≤ a.length) (h : a.take i = a.take j) : i = j := by
  have := congrArg List.length h
  rw [List.length_take, List.length_take] at this
  omega

/-- The cases of writing: some directories were made, and then either nothing more, or the file was opened and written. -/
theorem set_cases (hloc : walk fs cwd (rawComps loc) = .ok l) (hl : fs l = some .dir) (hz : (0 : UInt8) ∉ loc) (hn : PathNames path names) (ow : Bool) :
    ∃ fs1, Grown fs fs1 l (files :: names).dropLast ∧
      ((∃ e, setFiles io cwd loc fs path bytes ow = (fs1, .error (.err e))) ∨
        ((∀ k, k ≤ names.length → fs1 (l ++ (files :: names).take k) = some .dir) ∧ EndsInName path ∧ path.contains 0 = false ∧
          (fs1 (l ++ files :: names) = none ∨ (ow = true ∧ ∃ b, fs1 (l ++ files :: names) = some (.file b))) ∧
          setFiles io cwd loc fs path bytes ow = (match io.write with
            | none => ((fs1.put (l ++ files :: names) (.file [])).put (l ++ files :: names) (.file bytes), .ok ())
            | some k => ((fs1.put (l ++ files :: names) (.file [])).put (l ++ files :: names) (.file (bytes.take k)), .error (.err .other))))) := by
  have hX := walk_components hloc
  obtain ⟨c1, c2⟩ := create_all (io := io) hX hl (nul_components hz) (files :: names).dropLast.reverse
  rw [List.reverse_reverse] at c1 c2
  rw [List.length_reverse] at c2
  unfold setFiles
  rw [(check_path_iff path path).2 ⟨rfl, names, hn⟩]
  simp only
  rw [parent_path hn]
  simp only
  cases hr : createDirAll io cwd fs (components loc ++ (files :: names).dropLast.map Comp.normal).reverse with
  | mk fs1 r =>
    rw [hr] at c1 c2
    simp only at c1 c2
    refine ⟨fs1, c1, ?_⟩
    cases r with
    | error e => exact .inl ⟨e, rfl⟩
    | ok u =>
      simp only
      have hd := c2 rfl
      rcases open_cases (io := io) (walk_raw_ext c1 hloc) (c1.dir hl) hn ow with ⟨o1, o2, o3, o4, o5⟩ | ⟨e, he⟩
      · rw [o1]
        refine .inr ⟨?_, o3, o4, o5, ?_⟩
        · intro k hk
          exact o2 k (by simp; omega)
        · simp only
          cases io.write <;> rfl
      · rw [he]
        exact .inl ⟨e, rfl⟩

/-- **C66**: what writing changes: missing directories on the way may be made, and the file may be new or, if asked, replaced; then it holds the
bytes or, after a failed write, the first of them.  Nothing else changes, whether it succeeds or not. -/
theorem set_changes (hloc : walk fs cwd (rawComps loc) = .ok l) (hl : fs l = some .dir) (hz : (0 : UInt8) ∉ loc) (ow : Bool) {r : Except (Fault FsErr) Unit}
    (h : setFiles io cwd loc fs path bytes ow = (fs', r)) (q : List Bytes) :
    fs' q = fs q ∨ ∃ names, PathNames path names ∧
      ((fs q = none ∧ fs' q = some .dir ∧ ∃ k, k < names.length ∧ q = l ++ ascii "files" :: names.take k) ∨
       (q = l ++ ascii "files" :: names ∧ (fs q = none ∨ (ow = true ∧ ∃ old, fs q = some (.file old))) ∧
          ∃ b, fs' q = some (.file b) ∧ (b = bytes ∨ (r ≠ .ok () ∧ b <+: bytes)))) := by
  by_cases hp : ∃ names, PathNames path names
  · obtain ⟨names, hn⟩ := hp
    obtain ⟨fs1, g, hc⟩ := set_cases (io := io) (bytes := bytes) hloc hl hz hn ow
    have hgrow : fs1 q = fs q ∨ ∃ names, PathNames path names ∧ (fs q = none ∧ fs1 q = some .dir ∧ ∃ k, k < names.length ∧ q = l ++ ascii "files" :: names.take k) := by
      rcases g q with e | ⟨h1, h2, k, h3, h4, h5⟩
      · exact .inl e
      · refine .inr ⟨names, hn, h1, h2, k - 1, ?_, ?_⟩
        · simp at h4; omega
        · rw [take_dropLast _ (by simpa using h4)] at h5
          obtain ⟨k, rfl⟩ : ∃ j, k = j + 1 := ⟨k - 1, by omega⟩
          rw [h5]; rfl
    have hput : ∀ b, fs1 (l ++ files :: names) = none ∨ (ow = true ∧ ∃ b, fs1 (l ++ files :: names) = some (.file b)) →
        fs' = (fs1.put (l ++ files :: names) (.file [])).put (l ++ files :: names) (.file b) → (b = bytes ∨ (r ≠ .ok () ∧ b <+: bytes)) →
        fs' q = fs q ∨ ∃ names, PathNames path names ∧
          ((fs q = none ∧ fs' q = some .dir ∧ ∃ k, k < names.length ∧ q = l ++ ascii "files" :: names.take k) ∨
          (q = l ++ ascii "files" :: names ∧ (fs q = none ∨ (ow = true ∧ ∃ old, fs q = some (.file old))) ∧
          ∃ b, fs' q = some (.file b) ∧ (b = bytes ∨ (r ≠ .ok () ∧ b <+: bytes)))) := by
      intro b hb hfs hbb
      by_cases hq : q = l ++ files :: names
      · refine .inr ⟨names, hn, .inr ⟨hq, ?_, b, ?_, hbb⟩⟩
        · rcases g q with e | ⟨h1, -⟩
          · rw [← e, hq]; exact hb
          · exact .inl h1
        · rw [hfs, hq]; unfold Fs.put; rw [if_pos rfl]
      · have : fs' q = fs1 q := by rw [hfs]; unfold Fs.put; rw [if_neg hq, if_neg hq]
        rw [this]
        rcases hgrow with e | ⟨n, h1, h2⟩
        · exact .inl e
        · exact .inr ⟨n, h1, .inl h2⟩
    rcases hc with ⟨e, he⟩ | ⟨-, -, -, hb, he⟩
    · rw [he] at h
      cases h
      rcases hgrow with e | ⟨n, h1, h2⟩
      · exact .inl e
      · exact .inr ⟨n, h1, .inl h2⟩
    · rw [he] at h
      cases hw : io.write with
      | none =>
        rw [hw] at h
        cases h
        exact hput bytes hb rfl (.inl rfl)
      | some k =>
        rw [hw] at h
        cases h
        exact hput _ hb rfl (.inr ⟨nofun, List.take_prefix _ _⟩)
  · unfold setFiles at h
    rw [check_path_refused hp] at h
    cases h
    exact .inl rfl

/-- **C66**: if writing succeeds, the file holds the bytes, and it is new unless overwriting was asked for. -/
theorem set_ok (hloc : walk fs cwd (rawComps loc) = .ok l) (hl : fs l = some .dir) (hz : (0 : UInt8) ∉ loc) (ow : Bool)
    (h : setFiles io cwd loc fs path bytes ow = (fs', .ok ())) :
    ∃ names, PathNames path names ∧ EndsInName path ∧ (0 : UInt8) ∉ path ∧ (∀ k, k < names.length → fs' (l ++ ascii "files" :: names.take k) = some .dir) ∧
      fs' (l ++ ascii "files" :: names) = some (.file bytes) ∧ (ow = false → fs (l ++ ascii "files" :: names) = none) := by
  by_cases hp : ∃ names, PathNames path names
  · obtain ⟨names, hn⟩ := hp
    refine ⟨names, hn, ?_⟩
    obtain ⟨fs1, g, hc⟩ := set_cases (io := io) (bytes := bytes) hloc hl hz hn ow
    rcases hc with ⟨e, he⟩ | ⟨hd, h1, h2, hb, he⟩
    · rw [he] at h; cases h
    · rw [he] at h
      cases hw : io.write with
      | some k => rw [hw] at h; cases h
      | none =>
        rw [hw] at h
        cases h
        refine ⟨h1, by simpa using h2, fun k hk => ?_, by unfold Fs.put; exact if_pos rfl, fun how => ?_⟩
        · have := hd (k + 1) (by omega)
          have hne : l ++ ascii "files" :: names.take k ≠ l ++ files :: names := by
            intro e
            have e := List.append_cancel_left e
            have := congrArg List.length e
            simp [List.length_take] at this
            omega
          unfold Fs.put
          rw [if_neg hne, if_neg hne]
          exact this
        · rcases hb with hb | ⟨hb, -⟩
          · rcases g (l ++ files :: names) with e | ⟨e, -⟩
            · rw [e] at hb; exact hb
            · exact e
          · rw [how] at hb; cases hb
  · unfold setFiles at h
    rw [check_path_refused hp] at h
    cases h

/-- **C66**: what was written is read, under every path with the same names that ends in a name. -/
theorem set_get {io' : Io} (hloc : walk fs cwd (rawComps loc) = .ok l) (hl : fs l = some .dir) (hz : (0 : UInt8) ∉ loc) (ow nf : Bool)
    (h : setFiles io cwd loc fs path bytes ow = (fs', .ok ())) {path' : Bytes} {names' : List Bytes} (hn : PathNames path names') (hn' : PathNames path' names')
    (he : EndsInName path') (hr : io'.read = false) : filesData io' cwd loc fs' path' nf = .ok (some bytes) := by
  obtain ⟨names, h1, h2, h3, h4, h5, h6⟩ := set_ok hloc hl hz ow h
  have := names_unique hn h1
  subst this
  have hdir : ∀ q, fs q = some .dir → fs' q = some .dir := by
    intro q hq
    rcases set_changes hloc hl hz ow h q with e | ⟨n, -, ⟨e, -⟩ | ⟨-, e | ⟨-, o, e⟩, -⟩⟩
    · rw [e, hq]
    · rw [hq] at e; cases e
    · rw [hq] at e; cases e
    · rw [hq] at e; cases e
  refine (files_data_iff (walk_ext hdir hloc) (hdir l hl) hz nf bytes).2 ⟨hr, ?_, he, names', hn', h4, h5⟩
  -- the names have no zero byte, so the path has none
  intro hm
  obtain ⟨segs, p1, p2, p3, p4⟩ := hn
  obtain ⟨segs', q1, q2, q3, q4⟩ := hn'
  have hall : ∀ (p : Bytes), (0 : UInt8) ∈ p → ∃ s ∈ segments p, (0 : UInt8) ∈ s := by
    intro p
    induction p with
    | nil => nofun
    | cons x xs ih =>
      intro hm
      unfold segments at ih ⊢
      rw [Eval.splitBy]
      by_cases hx : (x == (0x2f : UInt8)) = true
      · rw [if_pos hx]
        rcases List.mem_cons.1 hm with e | hm
        · rw [← e] at hx; exact absurd hx (by decide)
        · obtain ⟨s, s1, s2⟩ := ih hm
          exact ⟨s, List.mem_cons_of_mem _ s1, s2⟩
      · rw [if_neg hx]
        cases hs : Eval.splitBy (· == (0x2f : UInt8)) xs with
        | nil => exact absurd hs (segments_ne xs)
        | cons a b =>
          rcases List.mem_cons.1 hm with e | hm
          · exact ⟨x :: a, List.mem_cons_self, by rw [← e]; exact List.mem_cons_self⟩
          · obtain ⟨s, s1, s2⟩ := ih hm
            rw [hs] at s1
            rcases List.mem_cons.1 s1 with rfl | s1
            · exact ⟨x :: s, List.mem_cons_self, List.mem_cons_of_mem _ s2⟩
            · exact ⟨s, List.mem_cons_of_mem _ s1, s2⟩
  obtain ⟨s, s1, s2⟩ := hall path' hm
  have hsn : s ∈ names' := by
    rw [q4]
    rw [pathParts_iff] at q1
    subst q1
    refine List.mem_filter.2 ⟨s1, ?_⟩
    have h1 : s ≠ [] := fun e => by rw [e] at s2; cases s2
    have h2 : s ≠ ascii "." := fun e => by rw [e] at s2; exact absurd s2 (by decide)
    simpa using ⟨h1, h2⟩
  rw [p4] at hsn
  rw [pathParts_iff] at p1
  subst p1
  exact h3 (Eval.splitBy_mem _ _ s (List.mem_filter.1 hsn).1 0 s2)

/-- **C66**: without overwriting, a file that exists is kept, and writing fails. -/
theorem set_kept (hloc : walk fs cwd (rawComps loc) = .ok l) (hl : fs l = some .dir) (hz : (0 : UInt8) ∉ loc) (hn : PathNames path names)
    (hex : fs (l ++ ascii "files" :: names) ≠ none) :
    (setFiles io cwd loc fs path bytes false).2 ≠ .ok () ∧ (setFiles io cwd loc fs path bytes false).1 (l ++ ascii "files" :: names) = fs (l ++ ascii "files" :: names) := by
  cases hs : setFiles io cwd loc fs path bytes false with
  | mk fs' r =>
    constructor
    · intro hr
      simp only at hr
      subst hr
      obtain ⟨n, h1, -, -, -, -, h6⟩ := set_ok hloc hl hz false hs
      have := names_unique hn h1
      subst this
      exact hex (h6 rfl)
    · rcases set_changes hloc hl hz false hs (l ++ ascii "files" :: names) with e | ⟨n, -, ⟨e, -⟩ | ⟨-, e | ⟨e, -⟩, -⟩⟩
      · exact e
      · exact absurd e hex
      · exact absurd e hex
      · cases e

/-- **C66**: writing never aborts. -/
theorem set_no_panic (hloc : walk fs cwd (rawComps loc) = .ok l) (hl : fs l = some .dir) (hz : (0 : UInt8) ∉ loc) (ow : Bool) :
    (setFiles io cwd loc fs path bytes ow).2 ≠ .error .panic := by
  by_cases hp : ∃ names, PathNames path names
  · obtain ⟨names, hn⟩ := hp
    obtain ⟨fs1, -, hc⟩ := set_cases (io := io) (bytes := bytes) hloc hl hz hn ow
    rcases hc with ⟨e, he⟩ | ⟨-, -, -, -, he⟩
    · rw [he]; nofun
    · rw [he]
      cases io.write <;> nofun
  · unfold setFiles
    rw [check_path_refused hp]
    nofun

theorem names_nul (hn : PathNames path names) (h : (0 : UInt8) ∉ path) : (names.map Comp.normal).any Comp.hasNul = false := by
  obtain ⟨-, -, -, rfl⟩ := components_names hn
  rw [List.any_eq_false]
  intro c hc
  obtain ⟨s, hs, rfl⟩ := List.mem_map.1 hc
  have : (0 : UInt8) ∉ s := fun hm => h (Eval.splitBy_mem _ _ s (List.mem_filter.1 hs).1 0 hm)
  simpa [Comp.hasNul] using this

theorem walk_names_notDir {p : List Bytes} (h : walk fs p (names.map Comp.normal) = .error .notDir) :
    ∃ k b, k < names.length ∧ fs (p ++ names.take k) = some (.file b) := by
  induction names generalizing p with
  | nil => cases h
  | cons n names ih =>
    rw [List.map_cons, walk_normal] at h
    cases hp : fs p with
    | none => rw [hp] at h; cases h
    | some e =>
      rw [hp] at h
      cases e with
      | file b => exact ⟨0, b, by simp, by simpa using hp⟩
      | dir =>
        obtain ⟨k, b, h1, h2⟩ := ih h
        exact ⟨k + 1, b, by simpa using h1, by simpa using h2⟩

theorem isDir_true (hX : walk fs cwd X = .ok l) (hnul : (X ++ names.map Comp.normal).any Comp.hasNul = false)
    (hd : ∀ k, k ≤ names.length → fs (l ++ names.take k) = some .dir) : isDir cwd fs (X ++ names.map Comp.normal) = true := by
  unfold isDir
  rw [hnul, walk_base hX, walk_names_ok.2 ⟨rfl, fun k hk => hd k (by omega)⟩]
  have := hd names.length (Nat.le_refl _)
  rw [List.take_length] at this
  simp [this]

theorem create_all_ok (hio : ∀ a cs, io.mkdir a cs = false) (hX : walk fs cwd X = .ok l) (hl : fs l = some .dir) (hnul : X.any Comp.hasNul = false) (rev : List Bytes)
    (hnn : (rev.reverse.map Comp.normal).any Comp.hasNul = false) (hfree : ∀ k b, k ≤ rev.length → fs (l ++ rev.reverse.take k) ≠ some (.file b)) :
    (createDirAll io cwd fs (X ++ rev.reverse.map Comp.normal).reverse).2 = .ok () := by
  induction rev with
  | nil =>
    simp only [List.reverse_nil, List.map_nil, List.append_nil]
    have hself : isDir cwd fs X = true := by
      unfold isDir
      rw [hX, hnul]
      simp [hl]
    cases hr : X.reverse with
    | nil => rfl
    | cons c up =>
      have hrev : (c :: up).reverse = X := by rw [← hr, List.reverse_reverse]
      rw [createDirAll, hrev]
      unfold mkdir
      rw [hX]
      simp only [hl]
      by_cases hb : (io.mkdir false X || X.any Comp.hasNul) = true
      · rw [if_pos hb]
        simp only [hself, if_true]
      · rw [if_neg hb]
        simp only [hself, if_true]
  | cons c rev ih =>
    have hcs : (X ++ (c :: rev).reverse.map Comp.normal).reverse = .normal c :: (X ++ rev.reverse.map Comp.normal).reverse := by
      simp
    have hrev : (.normal c :: (X ++ rev.reverse.map Comp.normal).reverse).reverse = X ++ (rev.reverse ++ [c]).map Comp.normal := by
      simp
    have hrc : (c :: rev).reverse = rev.reverse ++ [c] := by simp
    have hlen : (c :: rev).length = (rev.reverse ++ [c]).length := by simp
    rw [hlen, hrc] at hfree
    rw [hrc] at hnn
    rw [hcs, createDirAll, hrev]
    have hnul' : (X ++ (rev.reverse ++ [c]).map Comp.normal).any Comp.hasNul = false := by rw [List.any_append, hnul, hnn]; rfl
    have hm : ∀ (fs : Fs) a, walk fs cwd X = .ok l → mkdir io a cwd fs (X ++ (rev.reverse ++ [c]).map Comp.normal) =
        (match walk fs l ((rev.reverse ++ [c]).map Comp.normal) with
          | .error e => (fs, .error e)
          | .ok p => match fs p with
            | some _ => (fs, .error .found)
            | none => (fs.put p .dir, .ok ())) := by
      intro fs a hX
      unfold mkdir
      rw [hio, hnul', if_neg (by decide), walk_base hX]
      cases walk fs l ((rev.reverse ++ [c]).map Comp.normal) with
      | error e => rfl
      | ok p =>
        simp only
        cases fs p <;> rfl
    rw [hm fs false hX]
    cases hw : walk fs l ((rev.reverse ++ [c]).map Comp.normal) with
    | ok q =>
      obtain ⟨rfl, hd⟩ := walk_names_ok.1 hw
      simp only
      cases hq : fs (l ++ (rev.reverse ++ [c])) with
      | none => rfl
      | some e =>
        cases e with
        | file b => exact absurd (by rw [List.take_length]; exact hq) (hfree (rev.reverse ++ [c]).length b (Nat.le_refl _))
        | dir =>
          have : isDir cwd fs (X ++ (rev.reverse ++ [c]).map Comp.normal) = true := by
            refine isDir_true hX hnul' fun k hk => ?_
            rcases Nat.lt_or_ge k (rev.reverse ++ [c]).length with h | h
            · exact hd k h
            · rw [List.take_of_length_le h]; exact hq
          simp only [this, if_true]
    | error e =>
      rcases walk_names_err hw with rfl | rfl
      · simp only
        rw [if_neg (by nofun)]
        have i0 := ih (by rw [List.map_append, List.any_append] at hnn; exact (Bool.or_eq_false_iff.1 hnn).1) (fun k b hk => by
          have := hfree k b (by simp; omega)
          rwa [List.take_append_of_le_length (by simpa using hk)] at this)
        obtain ⟨i1, i2⟩ := create_all (io := io) hX hl hnul rev
        cases hr : createDirAll io cwd fs (X ++ rev.reverse.map Comp.normal).reverse with
        | mk fs1 r =>
          rw [hr] at i0 i1 i2
          simp only at i0 i1 i2
          subst i0
          simp only
          have hX1 : walk fs1 cwd X = .ok l := walk_ext (fun q hq => i1.dir hq) hX
          have hd := i2 rfl
          have hd' : ∀ k, k < (rev.reverse ++ [c]).length → fs1 (l ++ (rev.reverse ++ [c]).take k) = some .dir := by
            intro k hk
            simp at hk
            rw [List.take_append_of_le_length (by simp; omega)]
            exact hd k (by omega)
          rw [hm fs1 true hX1, walk_names_ok.2 ⟨rfl, hd'⟩]
          simp only
          cases hq : fs1 (l ++ (rev.reverse ++ [c])) with
          | none => rfl
          | some e =>
            cases e with
            | file b =>
              rcases i1 (l ++ (rev.reverse ++ [c])) with e | ⟨-, e, -⟩
              · rw [e] at hq
                exact absurd (by rw [List.take_length]; exact hq) (hfree (rev.reverse ++ [c]).length b (Nat.le_refl _))
              · rw [e] at hq; cases hq
            | dir =>
              have : isDir cwd fs1 (X ++ (rev.reverse ++ [c]).map Comp.normal) = true := by
                refine isDir_true hX1 hnul' fun k hk => ?_
                rcases Nat.lt_or_ge k (rev.reverse ++ [c]).length with h | h
                · exact hd' k h
                · rw [List.take_of_length_le h]; exact hq
              simp only [this, if_true]
      · obtain ⟨k, b, h1, h2⟩ := walk_names_notDir hw
        exact absurd h2 (hfree k b (by omega))

/-- **C66**: when writing succeeds, if no call fails for other reasons: the path is accepted and ends in a name, there is no file on the way, and at its
end there is nothing or, when overwriting, a file. -/
theorem set_ok_iff (hmk : ∀ a cs, io.mkdir a cs = false) (hop : io.openFile = false) (hwr : io.write = none) (hloc : walk fs cwd (rawComps loc) = .ok l)
    (hl : fs l = some .dir) (hz : (0 : UInt8) ∉ loc) (ow : Bool) :
    (setFiles io cwd loc fs path bytes ow).2 = .ok () ↔
      EndsInName path ∧ (0 : UInt8) ∉ path ∧ ∃ names, PathNames path names ∧ (∀ k b, k < names.length → fs (l ++ ascii "files" :: names.take k) ≠ some (.file b)) ∧
        (fs (l ++ ascii "files" :: names) = none ∨ (ow = true ∧ ∃ b, fs (l ++ ascii "files" :: names) = some (.file b))) := by
  by_cases hp : ∃ names, PathNames path names
  · obtain ⟨names, hn⟩ := hp
    constructor
    · intro h
      obtain ⟨fs1, g, hc⟩ := set_cases (io := io) (bytes := bytes) hloc hl hz hn ow
      rcases hc with ⟨e, he⟩ | ⟨hd, h1, h2, hb, he⟩
      · rw [he] at h; cases h
      · refine ⟨h1, by simpa using h2, names, hn, fun k b hk hf => ?_, ?_⟩
        · rcases g (l ++ ascii "files" :: names.take k) with e | ⟨e, -⟩
          · have hdk : fs1 (l ++ ascii "files" :: names.take k) = some .dir := hd (k + 1) (by omega)
            rw [e, hf] at hdk; cases hdk
          · rw [hf] at e; cases e
        · rcases g (l ++ files :: names) with e | ⟨e, -⟩
          · rw [e] at hb; exact hb
          · exact .inl e
    · rintro ⟨h1, h2, names', hn', h3, h4⟩
      have := names_unique hn' hn
      subst this
      have hX := walk_components hloc
      have hok : (createDirAll io cwd fs (components loc ++ (files :: names').dropLast.map Comp.normal).reverse).2 = .ok () := by
        have := create_all_ok (rev := (files :: names').dropLast.reverse) hmk hX hl (nul_components hz) (by
          rw [List.reverse_reverse, List.any_eq_false]
          intro c hc
          rw [List.map_dropLast] at hc
          have hc := List.dropLast_subset _ hc
          rw [List.map_cons] at hc
          rcases List.mem_cons.1 hc with rfl | hc
          · decide
          · exact List.any_eq_false.1 (names_nul hn h2) c hc) (by
          intro k b hk
          rw [List.length_reverse] at hk
          have hk' : k ≤ names'.length := by simpa using hk
          rw [List.reverse_reverse, take_dropLast _ (by simpa using hk')]
          cases k with
          | zero => rw [List.take_zero, List.append_nil, hl]; nofun
          | succ k => exact h3 k b (by omega))
        rwa [List.reverse_reverse] at this
      obtain ⟨c1, c2⟩ := create_all (io := io) hX hl (nul_components hz) (files :: names').dropLast.reverse
      rw [List.reverse_reverse] at c1 c2
      rw [List.length_reverse] at c2
      unfold setFiles
      rw [(check_path_iff path path).2 ⟨rfl, names', hn⟩]
      simp only
      rw [parent_path hn]
      simp only
      cases hr : createDirAll io cwd fs (components loc ++ (files :: names').dropLast.map Comp.normal).reverse with
      | mk fs1 r =>
        rw [hr] at c1 c2 hok
        simp only at c1 c2 hok
        subst hok
        have hd := c2 rfl
        simp only
        have hd1 : ∀ k, k < names'.length → fs1 ((l ++ [files]) ++ names'.take k) = some .dir := by
          intro k hk
          have := hd (k + 1) (by simp; omega)
          rw [take_dropLast _ (by simp; omega)] at this
          simpa using this
        have hpe : (join (filesDir loc) path).isEmpty = false := by rw [join_files (components_names hn).2.1]; simp
        have hopen : ∃ p, openWrite io cwd fs1 (join (filesDir loc) path) ow = (fs1.put p (.file []), .ok p) := by
          unfold openWrite
          rw [hop, nul_join (components_names hn).2.1 hz, hpe]
          have : path.contains 0 = false := by simpa using h2
          rw [this, if_neg (by decide), walk_path (walk_raw_ext c1 hloc) (c1.dir hl) hn, walk_names_ok.2 ⟨rfl, hd1⟩, (endsInName_last path).2 h1]
          simp only [if_true]
          have happ : (l ++ [files]) ++ names' = l ++ files :: names' := by simp
          rw [happ]
          have hnotdir : fs1 (l ++ files :: names') = fs (l ++ files :: names') := by
            rcases c1 (l ++ files :: names') with e | ⟨-, -, k, k1, k2, k3⟩
            · exact e
            · have := congrArg List.length k3
              rw [take_dropLast _ (by simpa using k2)] at this
              simp [List.length_take] at this
              simp at k2
              omega
          rw [hnotdir]
          rcases h4 with h4 | ⟨rfl, b, h4⟩
          · refine ⟨l ++ files :: names', ?_⟩
            have h4 : fs (l ++ files :: names') = none := h4
            rw [h4]
          · refine ⟨l ++ files :: names', ?_⟩
            have h4 : fs (l ++ files :: names') = some (.file b) := h4
            rw [h4]
            rfl
        obtain ⟨p, hp⟩ := hopen
        rw [hp]
        simp only [hwr]
  · constructor
    · intro h
      unfold setFiles at h
      rw [check_path_refused hp] at h
      cases h
    · rintro ⟨-, -, names, hn, -⟩
      exact absurd ⟨names, hn⟩ hp

theorem put_tree (h : IsTree fs) {p : List Bytes} {n : Bytes} (hp : fs p = some .dir) {e : Entry} (hn : fs (p ++ [n]) = none ∨ ∃ b, fs (p ++ [n]) = some (.file b)) :
    IsTree (fs.put (p ++ [n]) e) := by
  intro q m hq
  unfold Fs.put at hq ⊢
  have hne : ∀ x, fs x = some .dir → x ≠ p ++ [n] := by
    intro x hx hxe
    rw [hxe] at hx
    rcases hn with hn | ⟨b, hn⟩ <;> rw [hn] at hx <;> cases hx
  by_cases hqe : q ++ [m] = p ++ [n]
  · have : q = p := List.append_inj_left' hqe rfl
    rw [this, if_neg (hne p hp)]
    exact hp
  · rw [if_neg hqe] at hq
    have := h q m hq
    rw [if_neg (hne q this)]
    exact this

theorem create_tree (ht : IsTree fs) (hX : walk fs cwd X = .ok l) (hl : fs l = some .dir) (hnul : X.any Comp.hasNul = false) (rev : List Bytes) :
    IsTree (createDirAll io cwd fs (X ++ rev.reverse.map Comp.normal).reverse).1 := by
  induction rev with
  | nil =>
    obtain ⟨g, -⟩ := create_all (io := io) hX hl hnul []
    have : (createDirAll io cwd fs (X ++ [].reverse.map Comp.normal).reverse).1 = fs := by
      funext q
      rcases g q with e | ⟨-, -, k, h1, h2, -⟩
      · exact e
      · simp at h2; omega
    rw [this]; exact ht
  | cons c rev ih =>
    have hcs : (X ++ (c :: rev).reverse.map Comp.normal).reverse = .normal c :: (X ++ rev.reverse.map Comp.normal).reverse := by
      simp
    have hrev : (.normal c :: (X ++ rev.reverse.map Comp.normal).reverse).reverse = X ++ (rev.reverse ++ [c]).map Comp.normal := by
      simp
    rw [hcs, createDirAll, hrev]
    have hmk : ∀ (fs : Fs) a, IsTree fs → walk fs cwd X = .ok l → IsTree (mkdir io a cwd fs (X ++ (rev.reverse ++ [c]).map Comp.normal)).1 := by
      intro fs a ht hX
      rcases mkdir_cases (io := io) (names := rev.reverse ++ [c]) hX a with ⟨h1, h2, h3⟩ | ⟨e, he⟩
      · rw [h1]
        rw [← List.append_assoc] at h2 ⊢
        refine put_tree ht ?_ (.inl h2)
        have := h3 rev.reverse.length (by simp)
        rwa [List.take_append_of_le_length (Nat.le_refl _), List.take_length] at this
      · rw [he]; exact ht
    have h1 := hmk fs false ht hX
    cases hm : mkdir io false cwd fs (X ++ (rev.reverse ++ [c]).map Comp.normal) with
    | mk fs1 r =>
      rw [hm] at h1
      cases r with
      | ok u => exact h1
      | error e =>
        by_cases hnf : e = .notFound
        · subst hnf
          have hfs1 : fs1 = fs := by
            rcases mkdir_cases (io := io) (names := rev.reverse ++ [c]) hX false with ⟨h1, h2, h3⟩ | ⟨e, he⟩
            · rw [h1] at hm; cases hm
            · rw [he] at hm; cases hm; rfl
          subst hfs1
          simp only
          rw [if_neg (by nofun)]
          obtain ⟨i1, -⟩ := create_all (io := io) hX hl hnul rev
          cases hr : createDirAll io cwd fs1 (X ++ rev.reverse.map Comp.normal).reverse with
          | mk fs2 r =>
            rw [hr] at ih i1
            cases r with
            | error e => exact ih
            | ok u =>
              simp only
              have h2 := hmk fs2 true ih (walk_ext (fun q hq => i1.dir hq) hX)
              cases hm2 : mkdir io true cwd fs2 (X ++ (rev.reverse ++ [c]).map Comp.normal) with
              | mk fs3 r =>
                rw [hm2] at h2
                cases r with
                | ok u => exact h2
                | error e =>
                  simp only
                  split <;> exact h2
        · cases e with
          | notFound => exact absurd rfl hnf
          | _ => simp only; split <;> exact h1

/-- **C66**: the file system stays a tree. -/
theorem set_tree (ht : IsTree fs) (hloc : walk fs cwd (rawComps loc) = .ok l) (hl : fs l = some .dir) (hz : (0 : UInt8) ∉ loc) (ow : Bool) :
    IsTree (setFiles io cwd loc fs path bytes ow).1 := by
  by_cases hp : ∃ names, PathNames path names
  · obtain ⟨names, hn⟩ := hp
    have hX := walk_components hloc
    have c0 := create_tree (io := io) ht hX hl (nul_components hz) (files :: names).dropLast.reverse
    obtain ⟨c1, c2⟩ := create_all (io := io) hX hl (nul_components hz) (files :: names).dropLast.reverse
    rw [List.reverse_reverse] at c0 c1 c2
    unfold setFiles
    rw [(check_path_iff path path).2 ⟨rfl, names, hn⟩]
    simp only
    rw [parent_path hn]
    simp only
    cases hr : createDirAll io cwd fs (components loc ++ (files :: names).dropLast.map Comp.normal).reverse with
    | mk fs1 r =>
      rw [hr] at c0 c1 c2
      simp only at c0 c1 c2
      cases r with
      | error e => exact c0
      | ok u =>
        simp only
        rcases open_cases (io := io) (walk_raw_ext c1 hloc) (c1.dir hl) hn ow with ⟨o1, o2, o3, o4, o5⟩ | ⟨e, he⟩
        · rw [o1]
          obtain ⟨pre, n, hpn⟩ : ∃ pre n, files :: names = pre ++ [n] := by
            refine ⟨(files :: names).dropLast, (files :: names).getLast (by simp), ?_⟩
            rw [List.dropLast_concat_getLast]
          have hdir : fs1 (l ++ pre) = some .dir := by
            have := o2 pre.length (by rw [hpn]; simp)
            rwa [hpn, List.take_append_of_le_length (Nat.le_refl _), List.take_length] at this
          rw [hpn, ← List.append_assoc] at o5 ⊢
          have t1 : IsTree (fs1.put ((l ++ pre) ++ [n]) (.file [])) := put_tree c0 hdir (by
            rcases o5 with h | ⟨-, b, h⟩
            · exact .inl h
            · exact .inr ⟨b, h⟩)
          have hdir2 : (fs1.put ((l ++ pre) ++ [n]) (.file [])) (l ++ pre) = some .dir := by
            unfold Fs.put
            rw [if_neg (fun e => by have := congrArg List.length e; simp at this)]
            exact hdir
          have hself : (fs1.put ((l ++ pre) ++ [n]) (.file [])) ((l ++ pre) ++ [n]) = some (.file []) := by
            unfold Fs.put; exact if_pos rfl
          simp only
          cases io.write with
          | none => exact put_tree t1 hdir2 (.inr ⟨_, hself⟩)
          | some k => exact put_tree t1 hdir2 (.inr ⟨_, hself⟩)
        · rw [he]; exact c0
  · unfold setFiles
    rw [check_path_refused hp]
    exact ht

end

/-! ### cases -/

/-- A file system with a database at `/db` and a secret next to it. -/
def exFs : Fs := fun q =>
  if q = [] ∨ q = [ascii "db"] then some .dir
  else if q = [ascii "secret"] then some (.file (ascii "s"))
  else none
theorem exFs_loc : walk exFs [ascii "home"] (rawComps (ascii "/db")) = .ok [ascii "db"] := by decide
theorem exFs_tree : IsTree exFs := by
  intro q n h
  unfold exFs at h ⊢
  have : q ++ [n] = [ascii "db"] ∨ q ++ [n] = [ascii "secret"] := by
    by_cases h1 : q ++ [n] = [] ∨ q ++ [n] = [ascii "db"]
    · rcases h1 with h1 | h1
      · simp at h1
      · exact .inl h1
    · rw [if_neg h1] at h
      by_cases h2 : q ++ [n] = [ascii "secret"]
      · exact .inr h2
      · rw [if_neg h2] at h; exact absurd rfl h
  have : q = [] := by
    rcases this with e | e <;> · have := congrArg List.length e; simp at this; exact this
  rw [this]; rfl

/-- The paths. -/
example : PathNames (ascii "a/./b//c") [ascii "a", ascii "b", ascii "c"] := ⟨[ascii "a", ascii ".", ascii "b", [], ascii "c"], ⟨by simp, by decide, by decide⟩, by decide, by decide, by decide⟩
example : EndsInName (ascii "a/./b//c") := ⟨[ascii "a", ascii ".", ascii "b", []], ascii "c", ⟨by simp, by decide, by decide⟩, by decide, by decide⟩
example : checkPath (ascii "../secret") = .error .refused ∧ checkPath (ascii "a/../../secret") = .error .refused ∧ checkPath (ascii "/secret") = .error .refused ∧
    checkPath (ascii "./a") = .error .refused := by decide
/-- `set_ok_iff`, `set_get`, `set_kept`: the directories are made. -/
def exSet := setFiles {} [ascii "home"] (ascii "/db") exFs (ascii "a/./b//c") (ascii "data") false
example : exSet.2 = .ok () := by decide
example : filesData {} [ascii "home"] (ascii "/db") exSet.1 (ascii "a/b/c") true = .ok (some (ascii "data")) := by decide
example : filesData {} [ascii "home"] (ascii "/db") exSet.1 (ascii "a/d/c") false = .ok none := by decide
example : (setFiles {} [ascii "home"] (ascii "/db") exSet.1 (ascii "a/b/c") (ascii "other") false).2 = .error (.err .found) := by decide
example : (setFiles {} [ascii "home"] (ascii "/db") exSet.1 (ascii "a/b/c") (ascii "other") true).2 = .ok () := by decide
example : exSet.1 [ascii "db", ascii "files", ascii "a"] = some .dir ∧ exSet.1 [ascii "secret"] = some (.file (ascii "s")) := by decide
example : IsTree exSet.1 := set_tree exFs_tree exFs_loc rfl (by decide) false
/-- The path of a database may have any form. -/
example : filesData {} [ascii "db"] (ascii ".././db/.") exSet.1 (ascii "a/b/c") true = .ok (some (ascii "data")) := by decide

/-- **C66**: a failed write with overwriting loses the old content. -/
theorem failed_write_truncates : (setFiles { write := some 2 } [ascii "home"] (ascii "/db") exSet.1 (ascii "a/b/c") (ascii "other") true).1
    [ascii "db", ascii "files", ascii "a", ascii "b", ascii "c"] = some (.file (ascii "ot")) := by decide

end Verif.Props
