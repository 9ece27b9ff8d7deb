import Verif.Spec.FfiArgs
import Verif.Props.PyPkt2
import Verif.Props.Base64
import Verif.Props.Fit
/-!
# C96: points built from the arguments of a call
-/
namespace Verif.Props
open Verif Verif.Pkt Verif.Spec Verif.Ffi Verif.Space
open Verif.Pred (PRes)
open Verif.Abe (b64Fit)
open Verif.Fit (fitBack)

/-! ### single arguments -/

theorem names32_iff (s b : Bytes) : b64Fit 32 s = some b ↔ Names32 s b := by
  constructor
  · intro h
    obtain ⟨h1, h2⟩ := b64_fit_only 32 s b h
    exact ⟨h1, h2.imp id fun e => (b64_encode_iff b s).1 e.symm⟩
  · rintro ⟨h1, h2⟩
    obtain ⟨e1, e2⟩ := b64_fit_both b
    rw [h1] at e1 e2
    rcases h2 with rfl | h2
    · exact e2
    · rw [← (b64_encode_iff b s).2 h2]; exact e1

theorem names16_iff (s b : Bytes) : fitBack 0 16 s = some b ↔ Names16 s b := fit_back_iff 0 16 s b

theorem pyText_iff (v : PyVal) (b : Bytes) : v.bytelike = some b ↔ PyText v b := by
  constructor
  · intro h
    cases v <;> first | (cases h; constructor) | cases h
  · intro h; cases h <;> rfl

theorem jsText_iff (v : JsVal) (b : Bytes) : v.bytelike = some b ↔ JsText v b := by
  constructor
  · intro h
    cases v <;> first | (cases h; constructor) | cases h
  · intro h; cases h <;> rfl

theorem mapM_some_iff {α β : Type} {f : α → Option β} {R : α → β → Prop} (hf : ∀ a b, f a = some b ↔ R a b) (l : List α) (out : List β) :
    l.mapM f = some out ↔ l.length = out.length ∧ ∀ (i : Nat) a b, l[i]? = some a → out[i]? = some b → R a b := by
  induction l generalizing out with
  | nil =>
    constructor
    · intro h; cases h; exact ⟨rfl, fun i a b h => by simp at h⟩
    · rintro ⟨h, _⟩; cases out with
      | nil => rfl
      | cons _ _ => cases h
  | cons a l ih =>
    rw [List.mapM_cons]
    constructor
    · intro h
      cases ha : f a with
      | none => rw [ha] at h; cases h
      | some b =>
        cases hl : l.mapM f with
        | none => rw [ha, hl] at h; cases h
        | some bs =>
          rw [ha, hl] at h; cases h
          obtain ⟨h1, h2⟩ := (ih bs).1 hl
          refine ⟨by simp [h1], fun i x y hx hy => ?_⟩
          cases i with
          | zero => simp at hx hy; subst hx hy; exact (hf _ _).1 ha
          | succ i => exact h2 i x y (by simpa using hx) (by simpa using hy)
    · rintro ⟨h1, h2⟩
      cases out with
      | nil => cases h1
      | cons b bs =>
        rw [(hf a b).2 (h2 0 a b rfl rfl), (ih bs).2 ⟨by simpa using h1, fun i x y hx hy => h2 (i + 1) x y (by simpa using hx) (by simpa using hy)⟩]
        rfl

theorem orErr_ok {α : Type} (o : Option α) (a : α) : orErr o = .ok a ↔ o = some a := by cases o <;> simp [orErr]
theorem forget_ok {ε α : Type} (r : Except (Fault ε) α) (a : α) : forget r = .ok a ↔ r = .ok a := by
  rcases r with (_ | _) | _ <;> simp [forget]

theorem pyData_iff (v : Option PyVal) (b : Bytes) : Ffi.pyData v = .ok b ↔ PyData v b := by
  cases v with
  | none => exact ⟨fun h => by cases h; exact .none, fun h => by cases h; rfl⟩
  | some v =>
    unfold Ffi.pyData
    rw [orErr_ok, pyText_iff]
    exact ⟨fun h => .given _ _ h, fun h => by cases h; assumption⟩

theorem pyGroup_iff (grp : Bytes) (v : Option PyVal) (b : Bytes) : Ffi.pyGroup grp v = .ok b ↔ PyGroup grp v b := by
  cases v with
  | none => exact ⟨fun h => by cases h; exact .none, fun h => by cases h; rfl⟩
  | some v =>
    unfold Ffi.pyGroup
    rw [orErr_ok]
    cases v with
    | bytes s =>
      show b64Fit 32 s = some b ↔ _
      rw [names32_iff]
      exact ⟨fun h => .given _ _ h, fun h => by cases h; assumption⟩
    | _ => exact ⟨(fun h => nomatch h), (fun h => nomatch h)⟩

theorem pyDomain_iff (dom : Bytes) (v : Option PyVal) (b : Bytes) : Ffi.pyDomain dom v = .ok b ↔ PyDomain dom v b := by
  cases v with
  | none => exact ⟨fun h => by cases h; exact .none, fun h => by cases h; rfl⟩
  | some v =>
    unfold Ffi.pyDomain
    rw [orErr_ok]
    cases v with
    | bytes s =>
      show fitBack 0 16 s = some b ↔ _
      rw [names16_iff]
      exact ⟨fun h => .given _ _ h, fun h => by cases h; assumption⟩
    | _ => exact ⟨(fun h => nomatch h), (fun h => nomatch h)⟩

theorem stampOf_iff (b : Bytes) (n : Nat) : stampOf b = .ok n ↔ b.length = 8 ∧ n = beNat b := by
  unfold stampOf
  by_cases h : b.length = 8
  · rw [if_pos h]; simp [h, eq_comm]
  · rw [if_neg h]; simp [h]

theorem pyStamp_iff (now : Nat) (v : Option PyVal) (n : Nat) : Ffi.pyStamp now v = .ok n ↔ PyStamp now v n := by
  cases v with
  | none => exact ⟨fun h => by cases h; exact .none, fun h => by cases h; rfl⟩
  | some v =>
    cases v with
    | bytes s =>
      show stampOf s = .ok n ↔ _
      rw [stampOf_iff]
      exact ⟨fun ⟨h, e⟩ => e ▸ .given _ h, fun h => by cases h; exact ⟨by assumption, rfl⟩⟩
    | _ => exact ⟨(fun h => nomatch h), (fun h => nomatch h)⟩

/-- The bytes of a space give the rooted space of its first eight components. -/
theorem rootedOfBytes_iff (dbg : Bool) (b r : Bytes) : rootedOfBytes dbg b = .ok r ↔ ∃ cs, IsSpace b cs ∧ r = rootedOf (cs.take 8) := by
  unfold rootedOfBytes
  cases h : Space.checkComponents b with
  | error e =>
    refine ⟨(fun h => nomatch h), fun ⟨cs, hs, _⟩ => ?_⟩
    rw [(space_check_iff b cs.length).2 ⟨cs, hs, rfl⟩] at h; cases h
  | ok n =>
    obtain ⟨cs, hs, _⟩ := (space_check_iff b n).1 h
    simp only []
    rw [rooting_truncates dbg b cs hs]
    refine ⟨fun h => by cases h; exact ⟨cs, hs, rfl⟩, fun ⟨cs', hs', e⟩ => ?_⟩
    have hcs : Rooted.tryIntoRooted dbg b = .ok (rootedOf (cs'.take 8)) := rooting_truncates dbg b cs' hs'
    rw [rooting_truncates dbg b cs hs] at hcs
    rw [e, ← Except.ok.inj hcs]; rfl

theorem take8_space {b : Bytes} {cs : List Bytes} (h : IsSpace b cs) : IsSpace (encodeSpace (cs.take 8)) (cs.take 8) ∧ (cs.take 8).length ≤ 8 := by
  refine ⟨⟨fun c hc => h.comps c (List.mem_of_mem_take hc), rfl, ?_⟩, by simp; omega⟩
  have h1 := h.size
  rw [h.enc] at h1
  have : encodeSpace cs = encodeSpace (cs.take 8) ++ encodeSpace (cs.drop 8) := by
    rw [← encodeSpace_append, List.take_append_drop]
  rw [this, List.length_append] at h1
  omega

theorem pySpace_iff (dbg : Bool) (v : Option PyVal) (r : Bytes) :
    Ffi.pySpace dbg v = .ok r ↔ ∃ cs, PySpace v cs ∧ IsSpace (encodeSpace cs) cs ∧ cs.length ≤ 8 ∧ r = rootedOf cs := by
  have list : ∀ (cs : List Bytes), forget (Rooted.tryFromIter cs) = .ok r ↔ IsSpace (encodeSpace cs) cs ∧ cs.length ≤ 8 ∧ r = rootedOf cs := by
    intro cs; rw [forget_ok, rooted_build_iff]; constructor
    · rintro ⟨a, b, c⟩; exact ⟨b, c, a⟩
    · rintro ⟨b, c, a⟩; exact ⟨a, b, c⟩
  cases v with
  | none =>
    refine ⟨fun h => by cases h; exact ⟨[], .none, ⟨nofun, rfl, by decide⟩, by decide, rfl⟩, fun ⟨cs, h, _, _, e⟩ => ?_⟩
    cases h; rw [e]; rfl
  | some v =>
    cases v with
    | bytes b =>
      show rootedOfBytes dbg b = .ok r ↔ _
      rw [rootedOfBytes_iff]
      constructor
      · rintro ⟨cs, hs, e⟩
        exact ⟨cs.take 8, .bytes b cs hs, (take8_space hs).1, (take8_space hs).2, e⟩
      · rintro ⟨cs, h, _, _, e⟩
        cases h with
        | bytes _ cs hs => exact ⟨cs, hs, e⟩
    | str cs =>
      have hm : (cs.map fun c => PyVal.str [c]).mapM PyVal.bytelike = some cs := by
        rw [mapM_some_iff pyText_iff]
        refine ⟨by simp, fun i a b ha hb => ?_⟩
        rw [List.getElem?_map, hb] at ha
        cases ha
        have := PyText.str [b]
        simpa using this
      show (match (cs.map fun c => PyVal.str [c]).mapM PyVal.bytelike with
        | none => Except.error (Fault.err ())
        | some cs => forget (Rooted.tryFromIter cs)) = .ok r ↔ _
      rw [hm]
      simp only []
      rw [list]
      exact ⟨fun h => ⟨cs, .chars cs, h⟩, fun ⟨cs', h, h'⟩ => by cases h; exact h'⟩
    | seq l =>
      show (match l.mapM PyVal.bytelike with
        | none => Except.error (Fault.err ())
        | some cs => forget (Rooted.tryFromIter cs)) = .ok r ↔ _
      cases hm : l.mapM PyVal.bytelike with
      | none =>
        refine ⟨(fun h => nomatch h), fun ⟨cs, h, _⟩ => ?_⟩
        cases h with
        | list _ _ h1 h2 => rw [(mapM_some_iff pyText_iff l cs).2 ⟨h1, h2⟩] at hm; cases hm
      | some cs =>
        simp only []
        rw [list]
        obtain ⟨h1, h2⟩ := (mapM_some_iff pyText_iff l cs).1 hm
        refine ⟨fun h => ⟨cs, .list l cs h1 h2, h⟩, fun ⟨cs', h, h'⟩ => ?_⟩
        cases h with
        | list _ _ h1 h2 =>
          have := (mapM_some_iff pyText_iff l cs').2 ⟨h1, h2⟩
          rw [hm] at this; cases this; exact h'
    | other => exact ⟨(fun h => nomatch h), fun ⟨cs, h, _⟩ => nomatch h⟩

/-! ### never a panic -/

/-- A result that is not a panic. -/
def Calm {α : Type} (r : PRes α) : Prop := r ≠ .error .panic

theorem calm_orErr {α : Type} (o : Option α) : Calm (orErr o) := by cases o <;> simp [Calm, orErr]
theorem calm_rootedOfBytes (dbg : Bool) (b : Bytes) : Calm (rootedOfBytes dbg b) := by
  unfold rootedOfBytes
  cases h : Space.checkComponents b with
  | error e => simp [Calm]
  | ok n =>
    obtain ⟨cs, hs, _⟩ := (space_check_iff b n).1 h
    simp [rooting_truncates dbg b cs hs, forget, Calm]

theorem calm_bind {α β : Type} {r : PRes α} {f : α → PRes β} (h : Calm r) (hf : ∀ a, r = .ok a → Calm (f a)) : Calm (r >>= f) := by
  cases r with
  | ok a => exact hf a rfl
  | error e => intro h'; apply h; cases h'; rfl

theorem calm_tryFromIter (cs : List Bytes) : Calm (forget (Rooted.tryFromIter cs)) := by
  have step : ∀ bs c : Bytes, (bs = [] ∨ 8 ≤ bs.length) → Rooted.tryAppendComponent bs c ≠ .error .panic ∧ ∀ r, Rooted.tryAppendComponent bs c = .ok r → 8 ≤ r.length := by
    intro bs c hb
    have h8 : 8 ≤ (if bs.isEmpty then List.replicate 8 (0 : UInt8) else bs).length := by
      rcases hb with rfl | hb
      · decide
      · split
        · simp
        · exact hb
    unfold Rooted.tryAppendComponent
    generalize (if bs.isEmpty then List.replicate 8 (0 : UInt8) else bs) = b at h8
    simp only []
    split
    · exact ⟨nofun, nofun⟩
    · split
      · exact ⟨nofun, nofun⟩
      · split
        · exact ⟨nofun, nofun⟩
        · split
          · exact ⟨nofun, nofun⟩
          · rename_i hd _
            have hd' : (b.headD 0).toNat < 8 := by simpa [Space.maxDepth] using hd
            have hl : 8 ≤ ((UInt8.ofNat ((b.headD 0).toNat + 1) :: b.drop 1) ++ UInt8.ofNat c.length :: c).length := by simp; omega
            rw [if_neg (by omega)]
            refine ⟨nofun, fun r h => ?_⟩
            cases h
            generalize ((UInt8.ofNat ((b.headD 0).toNat + 1) :: b.drop 1) ++ UInt8.ofNat c.length :: c) = b' at hl
            simp; omega
  have main : ∀ (cs : List Bytes) (bs : Bytes), (bs = [] ∨ 8 ≤ bs.length) → Rooted.extendFromIter bs cs ≠ .error .panic := by
    intro cs
    induction cs with
    | nil => intro bs _; exact nofun
    | cons c cs ih =>
      intro bs hb
      obtain ⟨h1, h2⟩ := step bs c hb
      unfold Rooted.extendFromIter
      cases h : Rooted.tryAppendComponent bs c with
      | error e => intro h'; simp only [] at h'; cases h'; exact h1 h
      | ok r => exact ih r (.inr (h2 r h))
  have := main cs [] (.inl rfl)
  unfold Calm Rooted.tryFromIter
  cases h : Rooted.extendFromIter [] cs with
  | ok _ => exact nofun
  | error e =>
    cases e with
    | err _ => exact nofun
    | panic => exact absurd h this

theorem calm_pySpace (dbg : Bool) (v : Option PyVal) : Calm (Ffi.pySpace dbg v) := by
  unfold Ffi.pySpace
  split
  · exact nofun
  · split
    · exact calm_rootedOfBytes _ _
    · split
      · exact nofun
      · split
        · exact nofun
        · exact calm_tryFromIter _

theorem calm_stampOf (b : Bytes) : Calm (stampOf b) := by unfold stampOf; split <;> exact nofun
theorem calm_pyStamp (now : Nat) (v : Option PyVal) : Calm (Ffi.pyStamp now v) := by
  unfold Ffi.pyStamp
  split
  · exact nofun
  · exact calm_bind (calm_orErr _) (fun _ _ => calm_stampOf _)

/-! ### the point -/

/-- What building the point and the object of it gives. -/
theorem point_object {C : Crypto} (L : C.Laws) (dbg : Bool) {c : LinkContent} (hc : c.Sized) (key : Option C.Key) {nh : Bytes} (hn : nh.length = 32) :
    (pointBytes c key.isSome ≤ 65024 → ∃ q, (forget (tryPoint C c.group c.domain c.rspace c.links c.data c.stamp key nh) >>= arcOfParts C dbg) = .ok q ∧
      HasFields C key q c ∧ q.netHeader = nh) ∧
    (¬ pointBytes c key.isSome ≤ 65024 → (forget (tryPoint C c.group c.domain c.rspace c.links c.data c.stamp key nh) >>= arcOfParts C dbg) = .error (.err ())) := by
  rw [tryPoint_eq hc]
  have hs : (contentOf C c key).size = pointBytes c key.isSome := by cases key <;> rfl
  rw [hs]
  constructor
  · intro hle
    rw [if_pos hle]
    have hv := contentOf_valid L hc key (by rw [hs]; exact hle)
    have hse := contentOf_sealed L c key
    have hb : Built C ⟨nh, C.hash (contentOf C c key).layout, (contentOf C c key).parts⟩ :=
      .point c.group c.domain c.rspace c.data nh c.links c.stamp key hn hc.group hc.domain hc.stamp hc.links (by rw [tryPoint_eq hc, hs, if_pos hle])
    obtain ⟨q, c', h1, h2, h3, h4, h5⟩ := object_of_built L dbg 0 hb
    have harc : arcOfParts C dbg ⟨nh, C.hash (contentOf C c key).layout, (contentOf C c key).parts⟩ = .ok q := by
      unfold PyPkt.ofParts at h1
      cases ha : arcOfParts C dbg ⟨nh, C.hash (contentOf C c key).layout, (contentOf C c key).parts⟩ with
      | error e => rw [ha] at h1; cases h1
      | ok q' => rw [ha] at h1; cases h1; rfl
    refine ⟨q, harc, ?_, h3⟩
    have hl : (contentOf C c key).layout = c'.layout := by
      have h5' : (contentOf C c key).parts = c'.parts := h5
      rw [← segments_layout, ← segments_layout, h5']
    have hH : Holds C q (contentOf C c key) := ⟨hv, hse, by rw [h2.point, hl], h2.header, h2.hash32, by rw [h2.hash, hl]⟩
    cases key with
    | none => exact hH
    | some k => exact ⟨_, hH⟩
  · intro hle
    rw [if_neg hle]; rfl

theorem pyMeans_sized {grp dom : Bytes} {now : Nat} {a : PyArgs} {c : LinkContent} (hg : grp.length = 32) (hd : dom.length = 16) (hnow : now < 2 ^ 64)
    (hl : LinksSized (a.links.getD [])) (h : PyMeans grp dom now a c) : c.Sized := by
  constructor
  · have h' := h.group
    generalize a.group = g at h'
    cases h' with
    | none => exact hg
    | given _ _ hx => exact hx.1
  · have h' := h.domain
    generalize a.domain = g at h'
    cases h' with
    | none => exact hd
    | given _ _ hx => exact hx.1
  · have h' := h.stamp
    generalize a.create = g at h'
    generalize c.stamp = n at h'
    cases h' with
    | none => exact hnow
    | given b hx => have := beNat_lt b; rw [hx] at this; exact this
  · rw [h.links]; exact hl
  · obtain ⟨cs, _, h1, h2, h3⟩ := h.space
    rw [h3]
    refine (rooted_check_iff _).2 ?_
    by_cases hcs : cs = []
    · subst hcs; exact .inl rfl
    · refine .inr ⟨UInt8.ofNat cs.length, cs, h1, h2, by rw [rootedOf, if_neg hcs], fun _ => ?_⟩
      simp; omega

/-- **C96**: the fields are those the arguments ask for; in every other case, and if the point would be too big, there is an exception, and never a panic. -/
theorem py_point {C : Crypto} (L : C.Laws) (dbg : Bool) {grp dom nh : Bytes} {now : Nat} (key : Option C.Key) {a : PyArgs} (hg : grp.length = 32)
    (hd : dom.length = 16) (hn : nh.length = 32) (hnow : now < 2 ^ 64) (hl : LinksSized (a.links.getD [])) :
    (∀ c, PyMeans grp dom now a c → pointBytes c key.isSome ≤ 65024 →
      ∃ q, pyPoint C dbg grp dom nh now key a = .ok ⟨nh, now, q⟩ ∧ HasFields C key q c ∧ q.netHeader = nh) ∧
    ((¬ ∃ c, PyMeans grp dom now a c ∧ pointBytes c key.isSome ≤ 65024) → pyPoint C dbg grp dom nh now key a = .error (.err ())) := by
  have shape : ∀ c, PyMeans grp dom now a c → pyPoint C dbg grp dom nh now key a =
      (forget (tryPoint C c.group c.domain c.rspace c.links c.data c.stamp key nh) >>= arcOfParts C dbg).map (PyPkt.new now) := by
    intro c h
    unfold pyPoint
    rw [(pyData_iff _ _).2 h.data, (pyGroup_iff grp _ _).2 h.group, (pyDomain_iff dom _ _).2 h.domain, (pySpace_iff dbg _ _).2 h.space,
      (pyStamp_iff now _ _).2 h.stamp, ← h.links]
    show (forget (tryPoint C c.group c.domain c.rspace c.links c.data c.stamp key nh) >>= fun p => PyPkt.ofParts C dbg now p) = _
    cases forget (tryPoint C c.group c.domain c.rspace c.links c.data c.stamp key nh) <;> rfl
  constructor
  · intro c h hle
    obtain ⟨q, h1, h2, h3⟩ := (point_object L dbg (pyMeans_sized hg hd hnow hl h) key hn).1 hle
    refine ⟨q, ?_, h2, h3⟩
    rw [shape c h, h1, ← h3]; rfl
  · intro hno
    cases e1 : Ffi.pyData a.data with
    | error e =>
      have : Calm (Ffi.pyData a.data) := by unfold Ffi.pyData; split; exact nofun; exact calm_orErr _
      rw [e1] at this
      unfold pyPoint; rw [e1]
      cases e with
      | err u => rfl
      | panic => exact absurd rfl this
    | ok data =>
    cases e2 : Ffi.pyGroup grp a.group with
    | error e =>
      have : Calm (Ffi.pyGroup grp a.group) := by unfold Ffi.pyGroup; split; exact nofun; exact calm_orErr _
      rw [e2] at this
      unfold pyPoint; rw [e1, e2]
      cases e with
      | err u => rfl
      | panic => exact absurd rfl this
    | ok group =>
    cases e3 : Ffi.pyDomain dom a.domain with
    | error e =>
      have : Calm (Ffi.pyDomain dom a.domain) := by unfold Ffi.pyDomain; split; exact nofun; exact calm_orErr _
      rw [e3] at this
      unfold pyPoint; rw [e1, e2, e3]
      cases e with
      | err u => rfl
      | panic => exact absurd rfl this
    | ok domain =>
    cases e4 : Ffi.pySpace dbg a.space with
    | error e =>
      have := calm_pySpace dbg a.space
      rw [e4] at this
      unfold pyPoint; rw [e1, e2, e3, e4]
      cases e with
      | err u => rfl
      | panic => exact absurd rfl this
    | ok rspace =>
    cases e5 : Ffi.pyStamp now a.create with
    | error e =>
      have := calm_pyStamp now a.create
      rw [e5] at this
      unfold pyPoint; rw [e1, e2, e3, e4, e5]
      cases e with
      | err u => rfl
      | panic => exact absurd rfl this
    | ok stamp =>
      have h : PyMeans grp dom now a ⟨group, domain, stamp, a.links.getD [], rspace, data⟩ :=
        ⟨(pyData_iff _ _).1 e1, (pyGroup_iff grp _ _).1 e2, (pyDomain_iff dom _ _).1 e3, (pySpace_iff dbg _ _).1 e4, rfl, (pyStamp_iff now _ _).1 e5⟩
      rw [shape _ h, (point_object L dbg (pyMeans_sized hg hd hnow hl h) key hn).2 (fun hle => hno ⟨_, h, hle⟩)]
      rfl

/-- **C96**: the arguments ask for one content. -/
theorem py_means_unique {grp dom : Bytes} {now : Nat} {a : PyArgs} {c d : LinkContent} (h : PyMeans grp dom now a c) (h' : PyMeans grp dom now a d) : c = d := by
  have e1 := ((pyData_iff _ _).2 h.data).symm.trans ((pyData_iff _ _).2 h'.data)
  have e2 := ((pyGroup_iff grp _ _).2 h.group).symm.trans ((pyGroup_iff grp _ _).2 h'.group)
  have e3 := ((pyDomain_iff dom _ _).2 h.domain).symm.trans ((pyDomain_iff dom _ _).2 h'.domain)
  have e4 := ((pySpace_iff true _ _).2 h.space).symm.trans ((pySpace_iff true _ _).2 h'.space)
  have e5 := ((pyStamp_iff now _ _).2 h.stamp).symm.trans ((pyStamp_iff now _ _).2 h'.stamp)
  have e6 := h.links.trans h'.links.symm
  cases c; cases d
  simp only [Except.ok.injEq] at e1 e2 e3 e4 e5 e6
  simp_all

/-- **C96**: links in Python. -/
theorem py_link (tag ptr : PyVal) (l : Link) : pyLink tag ptr = .ok l ↔ ∃ t p, PyText tag t ∧ PyText ptr p ∧ Names16 t l.tag ∧ Names32 p l.ptr := by
  unfold pyLink
  constructor
  · intro h
    split at h
    · rename_i t p ht hp
      split at h
      · rename_i t' p' ht' hp'
        cases h
        exact ⟨t, p, (pyText_iff _ _).1 ht, (pyText_iff _ _).1 hp, (names16_iff _ _).1 ht', (names32_iff _ _).1 hp'⟩
      · cases h
    · cases h
  · rintro ⟨t, p, h1, h2, h3, h4⟩
    rw [(pyText_iff _ _).2 h1, (pyText_iff _ _).2 h2]
    simp only []
    rw [(names16_iff _ _).2 h3, (names32_iff _ _).2 h4]

/-- **C96**: data points. -/
theorem py_datapoint {C : Crypto} (L : C.Laws) (dbg : Bool) {nh : Bytes} (hn : nh.length = 32) (now : Nat) (v : PyVal) :
    (∀ b, PyText v b → 4 + b.length ≤ 65024 → ∃ q, pyDatapoint C dbg nh now v = .ok ⟨nh, now, q⟩ ∧ Holds C q (.data b)) ∧
    ((¬ ∃ b, PyText v b ∧ 4 + b.length ≤ 65024) → pyDatapoint C dbg nh now v = .error (.err ())) := by
  constructor
  · intro b hb hle
    obtain ⟨p, hp⟩ := (datapoint_iff C b nh).2 hle
    obtain ⟨q, c, h1, h2, h3, h4, h5⟩ := object_of_built L dbg now (.data b nh hn hp)
    have hpp : p.netHeader = nh ∧ p.parts = (Content.data b).parts := by
      have hv : (Content.data b).Valid := ⟨by simp only [Content.size]; omega, trivial⟩
      have := newContentLen_eq hv (n := b.length) (by simp only [Content.size]; omega)
      unfold tryDatapoint at hp
      rw [show tData = (Content.data b).type from rfl, this] at hp
      cases hp; exact ⟨rfl, rfl⟩
    have hc : c.layout = (Content.data b).layout := by rw [← segments_layout, ← segments_layout, ← h5, hpp.2]
    refine ⟨q, ?_, ⟨by simp only [Content.size]; omega, trivial⟩, trivial, by rw [h2.point, hc], h2.header, h2.hash32, by rw [h2.hash, hc]⟩
    unfold pyDatapoint
    rw [(pyText_iff v b).2 hb]
    show (orErr (tryDatapoint C b nh).toOption >>= fun p => PyPkt.ofParts C dbg now p) = _
    rw [hp]
    show PyPkt.ofParts C dbg now p = _
    rw [h1, hpp.1]
  · intro hno
    unfold pyDatapoint
    cases hv : v.bytelike with
    | none => rfl
    | some b =>
      show (orErr (tryDatapoint C b nh).toOption >>= fun p => PyPkt.ofParts C dbg now p) = _
      cases hp : tryDatapoint C b nh with
      | error e => rfl
      | ok p => exact absurd ⟨b, (pyText_iff v b).1 hv, (datapoint_iff C b nh).1 ⟨p, hp⟩⟩ hno

/-! ### JavaScript -/

theorem absent_iff (v : JsVal) : v.isFalsy = true ↔ JsAbsent v := by
  cases v with
  | falsy => exact ⟨fun _ => .falsy, fun _ => rfl⟩
  | str cs =>
    show cs.flatten.isEmpty = true ↔ _
    rw [List.isEmpty_iff, List.flatten_eq_nil_iff]
    exact ⟨fun h => .empty cs h, fun h => by cases h; assumption⟩
  | u8 _ => exact ⟨(fun h => nomatch h), (fun h => nomatch h)⟩
  | iter _ => exact ⟨(fun h => nomatch h), (fun h => nomatch h)⟩
  | obj _ _ => exact ⟨(fun h => nomatch h), (fun h => nomatch h)⟩
  | other => exact ⟨(fun h => nomatch h), (fun h => nomatch h)⟩

theorem optBytelike_cases (v : JsVal) : (JsAbsent v ∧ v.optBytelike = some none) ∨
    (¬ JsAbsent v ∧ ((∃ s, JsText v s ∧ v.optBytelike = some (some s)) ∨ ((∀ s, ¬ JsText v s) ∧ v.optBytelike = none))) := by
  unfold JsVal.optBytelike
  by_cases h : v.isFalsy = true
  · exact .inl ⟨(absent_iff v).1 h, by rw [if_pos h]⟩
  · refine .inr ⟨fun h' => h ((absent_iff v).2 h'), ?_⟩
    rw [if_neg h]
    cases hb : v.bytelike with
    | some s => exact .inl ⟨s, (jsText_iff v s).1 hb, rfl⟩
    | none => exact .inr ⟨(fun s hs => by rw [(jsText_iff v s).2 hs] at hb; cases hb), rfl⟩

theorem jsText_unique {v : JsVal} {s t : Bytes} (h : JsText v s) (h' : JsText v t) : s = t := by
  have := ((jsText_iff v s).2 h).symm.trans ((jsText_iff v t).2 h'); cases this; rfl

theorem jsGroup_iff (v : JsVal) (b : Bytes) : Ffi.jsGroup v = some b ↔ JsGroup v b := by
  unfold Ffi.jsGroup
  rcases optBytelike_cases v with ⟨ha, e⟩ | ⟨ha, ⟨s, hs, e⟩ | ⟨hs, e⟩⟩ <;> rw [e] <;> simp only []
  · constructor
    · intro h; cases h; exact .none v ha
    · intro h
      cases h with
      | none => rfl
      | given _ _ h' => exact absurd ha h'
  · rw [names32_iff]
    constructor
    · intro h; exact .given v s b ha hs h
    · intro h
      cases h with
      | none h' => exact absurd h' ha
      | given _ s' _ h1 h2 => rw [jsText_unique hs h1]; exact h2
  · constructor
    · intro h; cases h
    · intro h
      cases h with
      | none h' => exact absurd h' ha
      | given _ s' _ h1 h2 => exact absurd h1 (hs _)

theorem jsDomain_iff (v : JsVal) (b : Bytes) : Ffi.jsDomain v = some b ↔ JsDomain v b := by
  unfold Ffi.jsDomain
  rcases optBytelike_cases v with ⟨ha, e⟩ | ⟨ha, ⟨s, hs, e⟩ | ⟨hs, e⟩⟩ <;> rw [e] <;> simp only []
  · constructor
    · intro h; cases h; exact .none v ha
    · intro h
      cases h with
      | none => rfl
      | given _ _ h' => exact absurd ha h'
  · rw [names16_iff]
    constructor
    · intro h; exact .given v s b ha hs h
    · intro h
      cases h with
      | none h' => exact absurd h' ha
      | given _ s' _ h1 h2 => rw [jsText_unique hs h1]; exact h2
  · constructor
    · intro h; cases h
    · intro h
      cases h with
      | none h' => exact absurd h' ha
      | given _ s' _ h1 h2 => exact absurd h1 (hs _)

theorem jsStamp_iff (now : Nat) (v : JsVal) (n : Nat) : Ffi.jsStamp now v = .ok n ↔ JsStamp now v n := by
  unfold Ffi.jsStamp
  by_cases h : v.isFalsy = true
  · rw [if_pos h]
    have ha := (absent_iff v).1 h
    constructor
    · intro h'; cases h'; exact .none v ha
    · intro h'
      cases h' with
      | none => rfl
      | given b _ => cases ha
  · rw [if_neg h]
    have ha := fun h' => h ((absent_iff v).2 h')
    cases v with
    | u8 b =>
      simp only []
      rw [stampOf_iff]
      constructor
      · rintro ⟨h1, rfl⟩; exact .given b h1
      · intro h'
        cases h' with
        | none _ h' => exact absurd h' ha
        | given _ h1 => exact ⟨h1, rfl⟩
    | falsy => exact absurd rfl h
    | str cs => exact ⟨(fun h => nomatch h), fun h' => by cases h' with | none _ h' => exact absurd h' ha⟩
    | iter cs => exact ⟨(fun h => nomatch h), fun h' => by cases h' with | none _ h' => exact absurd h' ha⟩
    | obj _ _ => exact ⟨(fun h => nomatch h), fun h' => by cases h' with | none _ h' => exact absurd h' ha⟩
    | other => exact ⟨(fun h => nomatch h), fun h' => by cases h' with | none _ h' => exact absurd h' ha⟩

theorem jsSpace_iff (dbg : Bool) (v : JsVal) (r : Bytes) :
    Ffi.jsSpace dbg v = .ok r ↔ ∃ cs, JsSpace v cs ∧ IsSpace (encodeSpace cs) cs ∧ cs.length ≤ 8 ∧ r = rootedOf cs := by
  have list : ∀ (cs : List Bytes), forget (Rooted.tryFromIter cs) = .ok r ↔ IsSpace (encodeSpace cs) cs ∧ cs.length ≤ 8 ∧ r = rootedOf cs := by
    intro cs; rw [forget_ok, rooted_build_iff]; constructor
    · rintro ⟨a, b, c⟩; exact ⟨b, c, a⟩
    · rintro ⟨b, c, a⟩; exact ⟨a, b, c⟩
  unfold Ffi.jsSpace
  by_cases h : v.isFalsy = true
  · rw [if_pos h]
    have ha := (absent_iff v).1 h
    refine ⟨fun h => by cases h; exact ⟨[], .none v ha, ⟨nofun, rfl, by decide⟩, by decide, rfl⟩, fun ⟨cs, h, _, _, e⟩ => ?_⟩
    cases h with
    | none => rw [e]; rfl
    | bytes _ _ _ => cases ha
    | list _ _ _ _ => cases ha
  · rw [if_neg h]
    have ha := fun h' => h ((absent_iff v).2 h')
    cases v with
    | u8 b =>
      simp only []
      rw [rootedOfBytes_iff]
      constructor
      · rintro ⟨cs, hs, e⟩
        exact ⟨cs.take 8, .bytes b cs hs, (take8_space hs).1, (take8_space hs).2, e⟩
      · rintro ⟨cs, h, _, _, e⟩
        cases h with
        | none _ h' => exact absurd h' ha
        | bytes _ cs hs => exact ⟨cs, hs, e⟩
    | iter l =>
      show (match l.mapM JsVal.bytelike with
        | none => Except.error (Fault.err ())
        | some cs => forget (Rooted.tryFromIter cs)) = .ok r ↔ _
      cases hm : l.mapM JsVal.bytelike with
      | none =>
        refine ⟨(fun h => nomatch h), fun ⟨cs, h, _⟩ => ?_⟩
        cases h with
        | none _ h' => exact absurd h' ha
        | list _ _ h1 h2 => rw [(mapM_some_iff jsText_iff l cs).2 ⟨h1, h2⟩] at hm; cases hm
      | some cs =>
        simp only []
        rw [list]
        obtain ⟨h1, h2⟩ := (mapM_some_iff jsText_iff l cs).1 hm
        refine ⟨fun h => ⟨cs, .list l cs h1 h2, h⟩, fun ⟨cs', h, h'⟩ => ?_⟩
        cases h with
        | none _ h0 => exact absurd h0 ha
        | list _ _ h1 h2 =>
          have := (mapM_some_iff jsText_iff l cs').2 ⟨h1, h2⟩
          rw [hm] at this; cases this; exact h'
    | falsy => exact absurd rfl h
    | str cs => exact ⟨(fun h => nomatch h), fun ⟨_, h', _⟩ => by cases h' with | none _ h' => exact absurd h' ha⟩
    | obj _ _ => exact ⟨(fun h => nomatch h), fun ⟨_, h', _⟩ => by cases h' with | none _ h' => exact absurd h' ha⟩
    | other => exact ⟨(fun h => nomatch h), fun ⟨_, h', _⟩ => by cases h' with | none _ h' => exact absurd h' ha⟩

/-- **C96**: one link of a list in JavaScript is an object with a 32 byte `ptr` and a 16 byte `tag`; nothing else is taken, in particular not the 48 bytes of a link. -/
theorem js_link (v : JsVal) (l : Link) : tryAsLink v = some l ↔ v = .obj (.u8 l.ptr) (.u8 l.tag) ∧ l.ptr.length = 32 ∧ l.tag.length = 16 := by
  have hb : ∀ n w b, byteArray n w = some b ↔ w = .u8 b ∧ b.length = n := by
    intro n w b
    unfold byteArray
    cases w with
    | u8 x =>
      simp only []
      by_cases h : x.length = n
      · rw [if_pos h]; constructor
        · intro e; cases e; exact ⟨rfl, h⟩
        · rintro ⟨e, _⟩; cases e; rfl
      · rw [if_neg h]; constructor
        · intro e; cases e
        · rintro ⟨e, h'⟩; cases e; exact absurd h' h
    | falsy => exact ⟨(fun h => nomatch h), (fun h => nomatch h.1)⟩
    | str _ => exact ⟨(fun h => nomatch h), (fun h => nomatch h.1)⟩
    | iter _ => exact ⟨(fun h => nomatch h), (fun h => nomatch h.1)⟩
    | obj _ _ => exact ⟨(fun h => nomatch h), (fun h => nomatch h.1)⟩
    | other => exact ⟨(fun h => nomatch h), (fun h => nomatch h.1)⟩
  cases v with
  | obj p t =>
    show (match byteArray 32 p with
      | none => none
      | some p => match byteArray 16 t with
        | some t => some (Link.mk t p)
        | none => none) = some l ↔ _
    constructor
    · intro h
      cases h1 : byteArray 32 p with
      | none => rw [h1] at h; cases h
      | some p' =>
        cases h2 : byteArray 16 t with
        | none => rw [h1, h2] at h; cases h
        | some t' =>
          rw [h1, h2] at h; cases h
          obtain ⟨rfl, e1⟩ := (hb _ _ _).1 h1
          obtain ⟨rfl, e2⟩ := (hb _ _ _).1 h2
          exact ⟨rfl, e1, e2⟩
    · rintro ⟨e, h1, h2⟩
      cases e
      rw [(hb 32 _ _).2 ⟨rfl, h1⟩, (hb 16 _ _).2 ⟨rfl, h2⟩]
  | falsy => exact ⟨(fun h => nomatch h), (fun h => nomatch h.1)⟩
  | str _ => exact ⟨(fun h => nomatch h), (fun h => nomatch h.1)⟩
  | u8 _ => exact ⟨(fun h => nomatch h), (fun h => nomatch h.1)⟩
  | iter _ => exact ⟨(fun h => nomatch h), (fun h => nomatch h.1)⟩
  | other => exact ⟨(fun h => nomatch h), (fun h => nomatch h.1)⟩

theorem rawLinks_flat (ls : List Link) (h : LinksSized ls) : rawLinks ls.length (ls.map fun l => l.tag ++ l.ptr).flatten = ls := by
  induction ls with
  | nil => rfl
  | cons l ls ih =>
    have hl := h l (by simp)
    simp only [List.map_cons, List.flatten_cons, List.length_cons, rawLinks]
    rw [List.append_assoc, List.take_left' hl.1, List.drop_left' hl.1, List.take_left' hl.2, ← List.append_assoc, List.drop_left' (by simp [hl]),
      ih (fun x hx => h x (List.mem_cons_of_mem _ hx))]

theorem rawLinks_sized (n : Nat) (b : Bytes) (h : b.length = 48 * n) : LinksSized (rawLinks n b) ∧ ((rawLinks n b).map fun l => l.tag ++ l.ptr).flatten = b := by
  induction n generalizing b with
  | zero => exact ⟨nofun, (List.eq_nil_of_length_eq_zero (by omega)).symm⟩
  | succ n ih =>
    obtain ⟨h1, h2⟩ := ih (b.drop 48) (by simp; omega)
    constructor
    · intro l hl
      rcases List.mem_cons.1 hl with rfl | hl
      · simp; omega
      · exact h1 l hl
    · show (b.take 16 ++ (b.drop 16).take 32) ++ _ = b
      rw [h2, ← List.take_add, List.take_append_drop]

theorem flat_length (ls : List Link) (h : LinksSized ls) : (ls.map fun l => l.tag ++ l.ptr).flatten.length = 48 * ls.length := by
  induction ls with
  | nil => rfl
  | cons l ls ih =>
    have hl := h l (by simp)
    rw [List.map_cons, List.flatten_cons, List.length_append, ih (fun x hx => h x (List.mem_cons_of_mem _ hx))]
    simp [hl]; omega

theorem jsLinks_iff (v : JsVal) (ls : List Link) : jsLinkArgs v = some ls ↔ JsLinks v ls := by
  unfold jsLinkArgs
  by_cases h : v.isFalsy = true
  · rw [if_pos h]
    have ha := (absent_iff v).1 h
    constructor
    · intro h'; cases h'; exact .none v ha
    · intro h'
      cases h' with
      | none => rfl
      | raw _ _ => cases ha
      | list _ _ => cases ha
  · rw [if_neg h]
    have ha := fun h' => h ((absent_iff v).2 h')
    cases v with
    | u8 b =>
      simp only []
      constructor
      · intro h'
        split at h'
        · rename_i hm
          cases h'
          obtain ⟨h1, h2⟩ := rawLinks_sized (b.length / 48) b (by omega)
          have := JsLinks.raw _ h1
          rw [h2] at this; exact this
        · cases h'
      · intro h'
        cases h' with
        | none _ h' => exact absurd h' ha
        | raw _ hs =>
          rw [flat_length ls hs, if_pos (by omega), show 48 * ls.length / 48 = ls.length from by omega, rawLinks_flat ls hs]
    | iter l =>
      show l.mapM tryAsLink = some ls ↔ _
      rw [mapM_some_iff js_link]
      constructor
      · rintro ⟨h1, h2⟩
        have hs : LinksSized ls := by
          intro x hx
          obtain ⟨i, hi, rfl⟩ := List.getElem_of_mem hx
          have := h2 i l[i] ls[i] (List.getElem?_eq_getElem (by omega)) (List.getElem?_eq_getElem hi)
          exact ⟨this.2.2, this.2.1⟩
        have hl : l = ls.map fun l => JsVal.obj (.u8 l.ptr) (.u8 l.tag) := by
          apply List.ext_getElem
          · simp [h1]
          · intro i hi1 hi2
            have hi : i < ls.length := by simpa using hi2
            have := (h2 i l[i] ls[i] (List.getElem?_eq_getElem hi1) (List.getElem?_eq_getElem hi)).1
            rw [this]; simp
        rw [hl]; exact .list ls hs
      · intro h'
        cases h' with
        | none _ h' => exact absurd h' ha
        | list _ hs =>
          refine ⟨by simp, fun i a b h1 h2 => ?_⟩
          rw [List.getElem?_map, h2] at h1
          cases h1
          have := hs b (List.mem_of_getElem? h2)
          exact ⟨rfl, this.2, this.1⟩
    | falsy => exact absurd rfl h
    | str cs => exact ⟨(fun h => nomatch h), fun h' => by cases h' with | none _ h' => exact absurd h' ha⟩
    | obj _ _ => exact ⟨(fun h => nomatch h), fun h' => by cases h' with | none _ h' => exact absurd h' ha⟩
    | other => exact ⟨(fun h => nomatch h), fun h' => by cases h' with | none _ h' => exact absurd h' ha⟩

theorem jsMeans_sized {now : Nat} {data : JsVal} {f : JsFields} {c : LinkContent} (hnow : now < 2 ^ 64) (h : JsMeans now data f c) : c.Sized := by
  constructor
  · have h' := h.group
    generalize f.group = g at h'
    generalize c.group = n at h'
    cases h' with
    | none => rfl
    | given _ _ _ _ hx => exact hx.1
  · have h' := h.domain
    generalize f.domain = g at h'
    generalize c.domain = n at h'
    cases h' with
    | none => rfl
    | given _ _ _ _ hx => exact hx.1
  · have h' := h.stamp
    generalize f.create = g at h'
    generalize c.stamp = n at h'
    cases h' with
    | none => exact hnow
    | given b hx => have := beNat_lt b; rw [hx] at this; exact this
  · have h' := h.links
    generalize f.links = g at h'
    generalize c.links = n at h'
    cases h' with
    | none => exact nofun
    | raw _ hs => exact hs
    | list _ hs => exact hs
  · obtain ⟨cs, _, h1, h2, h3⟩ := h.space
    rw [h3]
    refine (rooted_check_iff _).2 ?_
    by_cases hcs : cs = []
    · subst hcs; exact .inl rfl
    · refine .inr ⟨UInt8.ofNat cs.length, cs, h1, h2, by rw [rootedOf, if_neg hcs], fun _ => ?_⟩
      simp; omega

theorem calm_jsSpace (dbg : Bool) (v : JsVal) : Calm (Ffi.jsSpace dbg v) := by
  unfold Ffi.jsSpace
  split
  · exact nofun
  · split
    · exact calm_rootedOfBytes _ _
    · split
      · exact nofun
      · split
        · exact nofun
        · exact calm_tryFromIter _

theorem calm_jsStamp (now : Nat) (v : JsVal) : Calm (Ffi.jsStamp now v) := by
  unfold Ffi.jsStamp
  split
  · exact nofun
  · split
    · exact calm_stampOf _
    · exact nofun

/-- **C96**: the same for JavaScript. -/
theorem js_point {C : Crypto} (L : C.Laws) (dbg : Bool) {nh : Bytes} {now : Nat} (key : Option C.Key) {data : JsVal} {f : JsFields} (hn : nh.length = 32)
    (hnow : now < 2 ^ 64) :
    (∀ c, JsMeans now data f c → pointBytes c key.isSome ≤ 65024 → ∃ q, jsPoint C dbg nh now key data f = .ok q ∧ HasFields C key q c ∧ q.netHeader = nh) ∧
    ((¬ ∃ c, JsMeans now data f c ∧ pointBytes c key.isSome ≤ 65024) → jsPoint C dbg nh now key data f = .error (.err ())) := by
  have shape : ∀ c, JsMeans now data f c → jsPoint C dbg nh now key data f =
      (forget (tryPoint C c.group c.domain c.rspace c.links c.data c.stamp key nh) >>= arcOfParts C dbg) := by
    intro c h
    unfold jsPoint
    rw [(jsText_iff _ _).2 h.data, (jsGroup_iff _ _).2 h.group, (jsDomain_iff _ _).2 h.domain, (jsSpace_iff dbg _ _).2 h.space, (jsLinks_iff _ _).2 h.links,
      (jsStamp_iff now _ _).2 h.stamp]
    rfl
  constructor
  · intro c h hle
    obtain ⟨q, h1, h2, h3⟩ := (point_object L dbg (jsMeans_sized hnow h) key hn).1 hle
    exact ⟨q, (shape c h).trans h1, h2, h3⟩
  · intro hno
    unfold jsPoint
    cases e1 : data.bytelike with
    | none => rfl
    | some b =>
    cases e2 : Ffi.jsGroup f.group with
    | none => rfl
    | some group =>
    cases e3 : Ffi.jsDomain f.domain with
    | none => rfl
    | some domain =>
    cases e4 : Ffi.jsSpace dbg f.space with
    | error e =>
      have := calm_jsSpace dbg f.space
      rw [e4] at this
      cases e with
      | err u => rfl
      | panic => exact absurd rfl this
    | ok rspace =>
    cases e5 : jsLinkArgs f.links with
    | none => rfl
    | some links =>
    cases e6 : Ffi.jsStamp now f.create with
    | error e =>
      have := calm_jsStamp now f.create
      rw [e6] at this
      cases e with
      | err u => rfl
      | panic => exact absurd rfl this
    | ok stamp =>
      have h : JsMeans now data f ⟨group, domain, stamp, links, rspace, b⟩ :=
        ⟨(jsText_iff _ _).1 e1, (jsGroup_iff _ _).1 e2, (jsDomain_iff _ _).1 e3, (jsSpace_iff dbg _ _).1 e4, (jsLinks_iff _ _).1 e5, (jsStamp_iff now _ _).1 e6⟩
      exact (point_object L dbg (jsMeans_sized hnow h) key hn).2 (fun hle => hno ⟨_, h, hle⟩)

/-! ### where this is not what one expects -/

/-- **C96 is false** of a space given as text in Python: `"ab"` is the space with the two components `a` and `b`, not the one with the component `ab`. -/
theorem py_space_text (cs : List Bytes) (h2 : IsSpace (encodeSpace cs) cs) (h8 : cs.length ≤ 8) (dbg : Bool) :
    Ffi.pySpace dbg (some (.str cs)) = .ok (rootedOf cs) := (pySpace_iff dbg _ _).2 ⟨cs, .chars cs, h2, h8, rfl⟩
example (dbg : Bool) : Ffi.pySpace dbg (some (.str [[97], [98]])) = .ok (rootedOf [[97], [98]]) ∧ rootedOf [[97], [98]] ≠ rootedOf [[97, 98]] :=
  ⟨py_space_text _ ⟨by simp [ValidComps], rfl, by decide⟩ (by decide) dbg, by decide⟩

/-- **C96 is false** of a space given as bytes with more than eight components: nine are refused as a list, but as bytes the last is dropped without an error. -/
theorem space_bytes_dropped (dbg : Bool) :
    Ffi.pySpace dbg (some (.bytes (encodeSpace (List.replicate 9 [65])))) = .ok (rootedOf (List.replicate 8 [65])) ∧
    Ffi.jsSpace dbg (.u8 (encodeSpace (List.replicate 9 [65]))) = .ok (rootedOf (List.replicate 8 [65])) ∧
    Ffi.pySpace dbg (some (.seq (List.replicate 9 (.bytes [65])))) = .error (.err ()) := by
  have hs : IsSpace (encodeSpace (List.replicate 9 [65])) (List.replicate 9 [65]) := ⟨by intro c hc; rw [List.eq_of_mem_replicate hc]; decide, rfl, by decide⟩
  have h := (rootedOfBytes_iff dbg (encodeSpace (List.replicate 9 [65])) (rootedOf (List.replicate 8 [65]))).2 ⟨_, hs, rfl⟩
  exact ⟨h, h, by rfl⟩

/-- **C96 is false** of a link given by its 48 bytes in JavaScript, which the code means to take: it is an exception, whatever the bytes. -/
theorem js_link_bytes (b : Bytes) (l : List JsVal) : jsLinkArgs (.iter (.u8 b :: l)) = none := by
  show (JsVal.u8 b :: l).mapM tryAsLink = none
  rw [List.mapM_cons]
  cases h : tryAsLink (.u8 b) with
  | none => rfl
  | some x => cases ((js_link _ _).1 h).1

/-- A call with a group in base64, a short domain, a list for the space and a link. -/
def exArgs : PyArgs where
  data := some (.str [[104], [105]])
  group := some (.bytes (Abe.base64 (List.replicate 32 7)))
  domain := some (.bytes [100])
  space := some (.seq [.bytes [97, 98], .str [[99], [100]]])
  links := some exLs
  create := some (.bytes [0, 0, 0, 0, 0, 0, 1, 0])
def exContent : LinkContent := ⟨List.replicate 32 7, List.replicate 15 0 ++ [100], 256, exLs, rootedOf [[97, 98], [99, 100]], [104, 105]⟩
theorem exArgs_means : PyMeans (List.replicate 32 1) (List.replicate 16 2) 9 exArgs exContent where
  data := (pyData_iff _ _).1 rfl
  group := .given _ _ ⟨List.length_replicate, .inr ((b64_encode_iff _ _).1 rfl)⟩
  domain := .given _ _ ⟨by decide, 15, rfl⟩
  space := (pySpace_iff true _ _).1 rfl
  links := rfl
  stamp := .given [0, 0, 0, 0, 0, 0, 1, 0] rfl
example : ∃ q, pyPoint toyCrypto true (List.replicate 32 1) (List.replicate 16 2) (List.replicate 32 0) 9 none exArgs = .ok ⟨List.replicate 32 0, 9, q⟩ ∧
    Holds toyCrypto q (.link exContent) := by
  obtain ⟨q, h1, h2, _⟩ := (py_point toyCrypto_laws true (nh := List.replicate 32 0) none (a := exArgs) List.length_replicate List.length_replicate
    List.length_replicate (by decide) (by intro l hl; simp [exArgs, exLs] at hl; rcases hl with rfl | rfl | rfl <;> decide)).1 exContent exArgs_means (by decide)
  exact ⟨q, h1, h2⟩
/-- The same point from JavaScript; with the group left out it is in the public group. -/
def exFields : JsFields where
  group := .str []
  domain := .str [[100]]
  space := .iter [.u8 [97, 98], .str [[99], [100]]]
  links := .iter (exLs.map fun l => .obj (.u8 l.ptr) (.u8 l.tag))
  create := .u8 [0, 0, 0, 0, 0, 0, 1, 0]
example : JsMeans 9 (.str [[104, 105]]) exFields { exContent with group := Lns.publicGroup } where
  data := (jsText_iff _ _).1 rfl
  group := .none _ (.empty [] nofun)
  domain := (jsDomain_iff _ _).1 rfl
  space := (jsSpace_iff true _ _).1 rfl
  links := .list exLs (by intro l hl; simp [exLs] at hl; rcases hl with rfl | rfl | rfl <;> decide)
  stamp := .given [0, 0, 0, 0, 0, 0, 1, 0] rfl

end Verif.Props
