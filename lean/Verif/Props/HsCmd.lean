import Verif.Lemmas.HsCmd
/-!
# C84 the handshake program
-/
namespace Verif.Props
open Verif Verif.Pkt Verif.Spec Verif.Cmd Verif.Pred Verif.Multi Verif.HsCmd

/-- The program is set up: hops are counted (the default), a private packet to forward is no error, and the destinations are files whose
expressions have a value. -/
structure Ready {C : Crypto} (o : HsCmd.Opts C) (t : HsCmd.Clock) (F W : Sent → List (Bytes × Bytes)) : Prop where
  nh : o.nh.length = 32
  hop : o.io.hop ≠ some false
  may : ¬ Forbids o.io
  forward : ∀ s, Lines o.forward s (F s)
  write : ∀ s, Lines o.write s (W s)
  made : t.made < 2 ^ 64
  sign : t.sign < 2 ^ 64

variable {C : Crypto}

/-- The options as the program uses them. -/
def hopped (o : HsCmd.Opts C) : HsCmd.Opts C := { o with io := o.io.defaultHop }

theorem hs_reads {dbg : Bool} {o : HsCmd.Opts C} {t : HsCmd.Clock} {F W : Sent → List (Bytes × Bytes)} (R : Ready o t F W) {i : PktIn} {b : Bytes} (hi : Feeds i b)
    {ss : List Sent} {rest : Bytes} (hr : ReadsOff C o.io b ss rest) (y : Sys) (m : HsCmd.Mode) (w : World) :
    ∃ e, HsCmd.main C dbg y o t m i w = HsCmd.modes C dbg y (hopped o) t w (ss.map (fun s => net (arrive true s)), e) m ∧
      (e = some (.pkt .panic) → ShortPoint rest ∨ dbg = true ∧ BadSpacePoint rest) := by
  have hr' : ReadsOff C o.io.defaultHop b ss rest := ⟨hr.bytes, hr.admits, hr.longest⟩
  obtain ⟨e, h1, _, h3⟩ := input_reads C dbg o.io.defaultHop hi hr'
  have hh : (o.io.defaultHop.hop.getD false) = true := by
    have := R.hop
    unfold IoOpts.defaultHop
    cases ho : o.io.hop with
    | none => rfl
    | some x => cases x with
      | true => rfl
      | false => exact absurd ho this
  rw [hh] at h1
  refine ⟨e, ?_, h3.1⟩
  unfold HsCmd.main
  simp only [h1]
  rfl

theorem hs_genuine {o : HsCmd.Opts C} (hh : o.io.skipHash = false) {b rest : Bytes} {ss : List Sent}
    (hr : ReadsOff C o.io b ss rest) {s : Sent} (hs : s ∈ ss) : (arrive true s).Genuine C :=
  genuine_arrive ((hr.admits s hs).1.resolve_left (by rw [hh]; nofun)) true

/-- The outcome: what was written more, and whether the program succeeded; it panics only on input that no program can read. -/
def Ends (dbg : Bool) (rest : Bytes) (w : World) (x : Left World) (l : List (Bytes × Bytes)) (ok : Bool) : Prop :=
  x.1 = { w with outs := w.outs ++ l } ∧ (x.2 = .ok () ↔ ok = true) ∧ (x.2 = .error .panic → ShortPoint rest ∨ dbg = true ∧ BadSpacePoint rest)

theorem ends_ok {dbg : Bool} {rest : Bytes} {w : World} {l : List (Bytes × Bytes)} : Ends dbg rest w (more w l, .ok ()) l true := ⟨rfl, by simp, nofun⟩
theorem ends_err {dbg : Bool} {rest : Bytes} {w : World} {l : List (Bytes × Bytes)} : Ends dbg rest w (more w l, .error (.err ())) l false := ⟨rfl, by simp, nofun⟩
theorem ends_end {dbg : Bool} {rest : Bytes} {w : World} {l : List (Bytes × Bytes)} {e : Option DecError}
    (h : e = some (.pkt .panic) → ShortPoint rest ∨ dbg = true ∧ BadSpacePoint rest) : Ends dbg rest w (more w l, .error (endOf e)) l false := by
  refine ⟨rfl, by simp, fun hx => h ?_⟩
  unfold endOf at hx
  split at hx
  · assumption
  · cases hx

theorem hs_need (dbg : Bool) (y : Sys) {o : HsCmd.Opts C} {t : HsCmd.Clock} {F W : Sent → List (Bytes × Bytes)} (R : Ready o t F W) (s : Sent) (w : World)
    (qs : List NetPkt) (e : Option DecError) (k : World → HsCmd.Inp → NetParts → Left World) :
    HsCmd.need dbg y (hopped o) w (net s :: qs, e) k = k (more w (passed o.io F s)) (qs, e) s.parts :=
  need_cons dbg y (hopped o) R.forward R.may s w qs e k

theorem hs_send (dbg : Bool) (y : Sys) {o : HsCmd.Opts C} {t : HsCmd.Clock} {F W : Sent → List (Bytes × Bytes)} (R : Ready o t F W) (s : Sent) (w : World) :
    HsCmd.send dbg y (hopped o) s.parts w = (more w (passed o.io W s), .ok ()) := send_ok dbg y (hopped o) R.write R.may s w

/-- **C84**, `handshake serve`: for every input, what is written and whether the program succeeds. -/
theorem serve_spec (L : C.Laws) (dbg : Bool) {o : HsCmd.Opts C} {t : HsCmd.Clock} {F W : Sent → List (Bytes × Bytes)} (R : Ready o t F W) (hh : o.io.skipHash = false) {i : PktIn}
    {b : Bytes} (hi : Feeds i b) {ss : List Sent} {rest : Bytes} (hr : ReadsOff C o.io b ss rest) (y : Sys) (w : World) :
    ∃ l ok, Serves C o.id o.nh (o.maxDiff.getD 15) t.seen t.sign (fun s => passed o.io F (arrive true s)) (passed o.io W) ss l ok ∧
      Ends dbg rest w (HsCmd.main C dbg y o t .serve i w) l ok := by
  obtain ⟨e, hm, he⟩ := hs_reads (dbg := dbg) R hi hr y .serve w
  rw [hm]
  have hg := fun s hs => hs_genuine hh hr (s := s) hs
  have nc := hs_need dbg y R
  have so := hs_send dbg y R
  simp only [HsCmd.modes]
  cases ss with
  | nil =>
    rw [List.map_nil, need_nil]
    exact ⟨_, _, .hungUp, by simpa only [more_nil] using ends_end (w := w) (l := []) he⟩
  | cons s0 ss =>
    rw [List.map_cons, nc]
    by_cases ho : ∃ k, Opening (o.maxDiff.getD 15) t.seen (C.pubkey o.id) k s0
    · obtain ⟨k, ho⟩ := ho
      obtain ⟨s1, h1, h2, h3⟩ := phase1_opening L R.nh (hg s0 (by simp)) (hop_arrive s0) t.seen R.sign o.id o.maxDiff (k := k) ho
      have hk : SignedBy k (arrive true s0) := by obtain ⟨lc, sig, hc, _⟩ := ho; exact ⟨lc, sig, hc⟩
      rw [show Shake.phase1 C (hopped o).nh t.seen t.sign (arrive true s0).parts (hopped o).id (hopped o).maxDiff = _ from h3]
      simp only [Left.get, so, Left.next]
      cases ss with
      | nil =>
        rw [List.map_nil, need_nil, more_more]
        exact ⟨_, _, .alone ho h1, ends_end he⟩
      | cons s2 ss =>
        rw [List.map_cons, nc, more_more, more_more, ← List.append_assoc]
        by_cases hc : Confirms (C.pubkey o.id) k s1.hash s2
        · rw [show Shake.phase3 C (arrive true s0).parts s1.parts (arrive true s2).parts (hopped o).id = _ from
            phase3_confirmed L (hg s2 (by simp)) hk (answer_signed h1) hc]
          exact ⟨_, _, .done ho h1 hc, ends_ok⟩
        · rw [show Shake.phase3 C (arrive true s0).parts s1.parts (arrive true s2).parts (hopped o).id = _ from
            phase3_refused L (hg s2 (by simp)) (by
              rintro ⟨k', q1, q2, q3⟩
              obtain rfl := signed_unique hk q1
              exact hc q3)]
          exact ⟨_, _, .wrong ho h1 hc, ends_err⟩
    · rw [show Shake.phase1 C (hopped o).nh t.seen t.sign (arrive true s0).parts (hopped o).id (hopped o).maxDiff = _ from
        phase1_refused L (hg s0 (by simp)) (hop_arrive s0) t.seen R.sign o.id o.maxDiff (fun k h => ho ⟨k, h⟩)]
      exact ⟨_, _, .refused fun k h => ho ⟨k, h⟩, ends_err⟩

/-- **C84**, `handshake connect`. -/
theorem connect_spec (L : C.Laws) (dbg : Bool) {o : HsCmd.Opts C} {t : HsCmd.Clock} {F W : Sent → List (Bytes × Bytes)} (R : Ready o t F W) (hh : o.io.skipHash = false) {i : PktIn}
    {b : Bytes} (hi : Feeds i b) {ss : List Sent} {rest : Bytes} (hr : ReadsOff C o.io b ss rest) (y : Sys) (w : World) :
    ∃ l ok, Connects C o.id o.nh (o.maxDiff.getD 15) t.made t.seen t.sign (fun s => passed o.io F (arrive true s)) (passed o.io W) ss l ok ∧
      Ends dbg rest w (HsCmd.main C dbg y o t .connect i w) l ok := by
  obtain ⟨e, hm, he⟩ := hs_reads (dbg := dbg) R hi hr y .connect w
  rw [hm]
  have hg := fun s hs => hs_genuine hh hr (s := s) hs
  have nc := hs_need dbg y R
  have so := hs_send dbg y R
  simp only [HsCmd.modes]
  obtain ⟨s0, h1, h2, h3⟩ := hello_sent L R.nh R.made o.id
  rw [show Shake.phase0 C (hopped o).nh t.made (hopped o).id = _ from h3]
  simp only [Left.get, so, Left.next]
  cases ss with
  | nil =>
    rw [List.map_nil, need_nil]
    exact ⟨_, _, .alone h1, ends_end he⟩
  | cons s1 ss =>
    rw [List.map_cons, nc, more_more]
    by_cases ha : ∃ k, Accepted (o.maxDiff.getD 15) t.seen (C.pubkey o.id) k s0.hash s1
    · obtain ⟨k, ha⟩ := ha
      obtain ⟨s2, g1, g2, g3⟩ := phase2_accepted L R.nh (message_signed h1) (hg s1 (by simp)) (hop_arrive s1) t.seen R.sign o.maxDiff (k := k) ha
      rw [show Shake.phase2 C (hopped o).nh t.seen t.sign s0.parts (arrive true s1).parts (hopped o).id (hopped o).maxDiff = _ from g3]
      simp only [so, more_more]
      exact ⟨_, _, .done h1 ha g1, ends_ok⟩
    · rw [show Shake.phase2 C (hopped o).nh t.seen t.sign s0.parts (arrive true s1).parts (hopped o).id (hopped o).maxDiff = _ from
        phase2_refused L (hg s1 (by simp)) (hop_arrive s1) t.seen R.sign o.maxDiff (fun h => ha h.2)]
      exact ⟨_, _, .wrong h1 fun k h => ha ⟨k, h⟩, ends_err⟩

/-- **C84**, `handshake phase1`. -/
theorem phase1_spec (L : C.Laws) (dbg : Bool) {o : HsCmd.Opts C} {t : HsCmd.Clock} {F W : Sent → List (Bytes × Bytes)} (R : Ready o t F W) (hh : o.io.skipHash = false) {i : PktIn}
    {b : Bytes} (hi : Feeds i b) {ss : List Sent} {rest : Bytes} (hr : ReadsOff C o.io b ss rest) (y : Sys) (w : World) :
    ∃ l ok, Replies C o.id o.nh (o.maxDiff.getD 15) t.seen t.sign (fun s => passed o.io F (arrive true s)) (passed o.io W) ss l ok ∧
      Ends dbg rest w (HsCmd.main C dbg y o t .phase1 i w) l ok := by
  obtain ⟨e, hm, he⟩ := hs_reads (dbg := dbg) R hi hr y .phase1 w
  rw [hm]
  have hg := fun s hs => hs_genuine hh hr (s := s) hs
  have nc := hs_need dbg y R
  have so := hs_send dbg y R
  simp only [HsCmd.modes]
  cases ss with
  | nil =>
    rw [List.map_nil, need_nil]
    exact ⟨_, _, .none, by simpa only [more_nil] using ends_end (w := w) (l := []) he⟩
  | cons s0 ss =>
    rw [List.map_cons, nc]
    by_cases ho : ∃ k, Opening (o.maxDiff.getD 15) t.seen (C.pubkey o.id) k s0
    · obtain ⟨k, ho⟩ := ho
      obtain ⟨s1, h1, h2, h3⟩ := phase1_opening L R.nh (hg s0 (by simp)) (hop_arrive s0) t.seen R.sign o.id o.maxDiff (k := k) ho
      rw [show Shake.phase1 C (hopped o).nh t.seen t.sign (arrive true s0).parts (hopped o).id (hopped o).maxDiff = _ from h3]
      simp only [Left.get, so, more_more]
      exact ⟨_, _, .done ho h1, ends_ok⟩
    · rw [show Shake.phase1 C (hopped o).nh t.seen t.sign (arrive true s0).parts (hopped o).id (hopped o).maxDiff = _ from
        phase1_refused L (hg s0 (by simp)) (hop_arrive s0) t.seen R.sign o.id o.maxDiff (fun k h => ho ⟨k, h⟩)]
      exact ⟨_, _, .refused fun k h => ho ⟨k, h⟩, ends_err⟩

/-- **C84**, `handshake phase2`. -/
theorem phase2_spec (L : C.Laws) (dbg : Bool) {o : HsCmd.Opts C} {t : HsCmd.Clock} {F W : Sent → List (Bytes × Bytes)} (R : Ready o t F W) (hh : o.io.skipHash = false) {i : PktIn}
    {b : Bytes} (hi : Feeds i b) {ss : List Sent} {rest : Bytes} (hr : ReadsOff C o.io b ss rest) (y : Sys) (w : World) :
    ∃ l ok, Signs C o.id o.nh (o.maxDiff.getD 15) t.seen t.sign (fun s => passed o.io F (arrive true s)) (passed o.io W) ss l ok ∧
      Ends dbg rest w (HsCmd.main C dbg y o t .phase2 i w) l ok := by
  obtain ⟨e, hm, he⟩ := hs_reads (dbg := dbg) R hi hr y .phase2 w
  rw [hm]
  have hg := fun s hs => hs_genuine hh hr (s := s) hs
  have nc := hs_need dbg y R
  have so := hs_send dbg y R
  simp only [HsCmd.modes]
  match ss, hg with
  | [], _ =>
    rw [List.map_nil, need_nil]
    exact ⟨_, _, .few (by simp), by simpa [more_nil] using ends_end (w := w) (l := []) he⟩
  | [s0], _ =>
    rw [List.map_cons, nc, List.map_nil, need_nil]
    exact ⟨_, _, .few (by simp), by simpa using ends_end (w := w) (l := passed o.io F (arrive true s0)) he⟩
  | s0 :: s1 :: ss, hg =>
    rw [List.map_cons, nc, List.map_cons, nc, more_more]
    by_cases ha : SignedBy (C.pubkey o.id) s0 ∧ ∃ k, Accepted (o.maxDiff.getD 15) t.seen (C.pubkey o.id) k s0.hash s1
    · obtain ⟨hm, k, ha⟩ := ha
      obtain ⟨s2, g1, g2, g3⟩ := phase2_accepted L R.nh (s0 := arrive true s0) hm (hg s1 (by simp)) (hop_arrive s1) t.seen R.sign o.maxDiff (k := k) ha
      rw [show Shake.phase2 C (hopped o).nh t.seen t.sign (arrive true s0).parts (arrive true s1).parts (hopped o).id (hopped o).maxDiff = _ from g3]
      simp only [Left.get, so, more_more]
      exact ⟨_, _, .done hm ha g1, ends_ok⟩
    · rw [show Shake.phase2 C (hopped o).nh t.seen t.sign (arrive true s0).parts (arrive true s1).parts (hopped o).id (hopped o).maxDiff = _ from
        phase2_refused L (s0 := arrive true s0) (hg s1 (by simp)) (hop_arrive s1) t.seen R.sign o.maxDiff ha]
      exact ⟨_, _, .refused ha, ends_err⟩

/-- **C84**, `handshake phase3`; it looks at no clock. -/
theorem phase3_spec (L : C.Laws) (dbg : Bool) {o : HsCmd.Opts C} {t : HsCmd.Clock} {F W : Sent → List (Bytes × Bytes)} (R : Ready o t F W) (hh : o.io.skipHash = false) {i : PktIn}
    {b : Bytes} (hi : Feeds i b) {ss : List Sent} {rest : Bytes} (hr : ReadsOff C o.io b ss rest) (y : Sys) (w : World) :
    ∃ l ok, Verifies (C.pubkey o.id) (fun s => passed o.io F (arrive true s)) ss l ok ∧
      Ends dbg rest w (HsCmd.main C dbg y o t .phase3 i w) l ok := by
  obtain ⟨e, hm, he⟩ := hs_reads (dbg := dbg) R hi hr y .phase3 w
  rw [hm]
  have hg := fun s hs => hs_genuine hh hr (s := s) hs
  have nc := hs_need dbg y R
  simp only [HsCmd.modes]
  match ss, hg with
  | [], _ =>
    rw [List.map_nil, need_nil]
    exact ⟨_, _, .few (by simp), by simpa [more_nil] using ends_end (w := w) (l := []) he⟩
  | [s0], _ =>
    rw [List.map_cons, nc, List.map_nil, need_nil]
    exact ⟨_, _, .few (by simp), by simpa using ends_end (w := w) (l := passed o.io F (arrive true s0)) he⟩
  | [s0, s1], _ =>
    rw [List.map_cons, nc, List.map_cons, nc, List.map_nil, need_nil, more_more]
    exact ⟨_, _, .few (by simp), by simpa using ends_end (w := w) (l := passed o.io F (arrive true s0) ++ passed o.io F (arrive true s1)) he⟩
  | s0 :: s1 :: s2 :: ss, hg =>
    rw [List.map_cons, nc, List.map_cons, nc, List.map_cons, nc, more_more, more_more, ← List.append_assoc]
    by_cases ha : ∃ k, SignedBy k s0 ∧ SignedBy (C.pubkey o.id) s1 ∧ Confirms (C.pubkey o.id) k s1.hash s2
    · obtain ⟨k, q1, q2, q3⟩ := ha
      rw [show Shake.phase3 C (arrive true s0).parts (arrive true s1).parts (arrive true s2).parts (hopped o).id = _ from
        phase3_confirmed L (s0 := arrive true s0) (s1 := arrive true s1) (hg s2 (by simp)) q1 q2 q3]
      exact ⟨_, _, .done q1 q2 q3, ends_ok⟩
    · rw [show Shake.phase3 C (arrive true s0).parts (arrive true s1).parts (arrive true s2).parts (hopped o).id = _ from
        phase3_refused L (s0 := arrive true s0) (s1 := arrive true s1) (hg s2 (by simp)) ha]
      exact ⟨_, _, .refused ha, ends_err⟩

/-- **C84**, `handshake phase0`. -/
theorem phase0_spec (L : C.Laws) (dbg : Bool) {o : HsCmd.Opts C} {t : HsCmd.Clock} {F W : Sent → List (Bytes × Bytes)} (R : Ready o t F W) {i : PktIn}
    {b : Bytes} (hi : Feeds i b) (y : Sys) (w : World) :
    ∃ s, Hello C o.id o.nh t.made s ∧ HsCmd.main C dbg y o t .phase0 i w = ({ w with outs := w.outs ++ passed o.io W s }, .ok ()) := by
  obtain ⟨ss, rest, hr⟩ := reads_exists C o.io b
  obtain ⟨e, hm, he⟩ := hs_reads (dbg := dbg) R hi hr y .phase0 w
  obtain ⟨s0, h1, h2, h3⟩ := hello_sent L R.nh R.made o.id
  refine ⟨s0, h1, ?_⟩
  rw [hm]
  simp only [HsCmd.modes]
  rw [show Shake.phase0 C (hopped o).nh t.made (hopped o).id = _ from h3]
  simp only [Left.get, hs_send dbg y R]
  rfl

/-! ### who can make the program succeed -/

theorem reads_front {o : IoOpts} {ss : List Sent} {t : Bytes} (h : Admits C o ss) : ∃ ss' rest, ReadsOff C o (streamOf ss ++ t) (ss ++ ss') rest := by
  obtain ⟨ss', rest, hr⟩ := reads_exists C o t
  refine ⟨ss', rest, by rw [hr.bytes, streamOf_append, List.append_assoc], ?_, hr.longest⟩
  intro x hx
  rcases List.mem_append.1 hx with hx | hx
  · exact h x hx
  · exact hr.admits x hx

/-- **C84**: `handshake serve` succeeds exactly when the input starts with two packets, the first a recent keypoint of another key, the second a
keypoint of the same key that names the answer to the first. -/
theorem serve_success_iff (L : C.Laws) (dbg : Bool) {o : HsCmd.Opts C} {t : HsCmd.Clock} {F W : Sent → List (Bytes × Bytes)} (R : Ready o t F W)
    (hh : o.io.skipHash = false) {i : PktIn} {b : Bytes} (hi : Feeds i b) (y : Sys) (w : World) :
    (HsCmd.main C dbg y o t .serve i w).2 = .ok () ↔ ∃ s0 s1 s2 rest k, b = s0.bytes ++ (s2.bytes ++ rest) ∧ Admits C o.io [s0, s2] ∧
      Opening (o.maxDiff.getD 15) t.seen (C.pubkey o.id) k s0 ∧ Answer C o.id o.nh t.sign tagAuth k s0 s1 ∧ Confirms (C.pubkey o.id) k s1.hash s2 := by
  constructor
  · intro h
    obtain ⟨ss, rest, hr⟩ := reads_exists C o.io b
    obtain ⟨l, ok, h1, _, h2, _⟩ := serve_spec L dbg R hh hi hr y w
    cases h2.1 h
    cases h1 with
    | @done s0 s1 s2 ss k a1 a2 a3 =>
      refine ⟨s0, s1, s2, streamOf ss ++ rest, k, ?_, fun x hx => hr.admits x ?_, a1, a2, a3⟩
      · rw [hr.bytes, streamOf_cons, streamOf_cons]; simp
      · simp at hx ⊢; rcases hx with h | h <;> simp [h]
  · rintro ⟨s0, s1, s2, rest, k, hb, ha, a1, a2, a3⟩
    obtain ⟨ss', rest', hr⟩ := reads_front (t := rest) ha
    rw [streamOf_cons, streamOf_cons, show streamOf [] = [] from rfl, List.append_nil, List.append_assoc, ← hb] at hr
    obtain ⟨l, ok, h1, _, h2, _⟩ := serve_spec L dbg R hh hi hr y w
    refine h2.2 ?_
    have hk : SignedBy k s0 := by obtain ⟨lc, sig, hc, _⟩ := a1; exact ⟨lc, sig, hc⟩
    cases h1 with
    | refused h => exact absurd a1 (h k)
    | @wrong _ s1' _ _ k' b1 b2 b3 =>
      have hk' : SignedBy k' s0 := by obtain ⟨lc, sig, hc, _⟩ := b1; exact ⟨lc, sig, hc⟩
      obtain rfl := signed_unique hk hk'
      obtain ⟨_, _, hc⟩ := hk
      obtain rfl := answer_unique L (key_len hc) a2 b2
      exact absurd a3 b3
    | done => rfl

/-- **C84**: `handshake connect` succeeds exactly when the input starts with a recent keypoint that names the first message. -/
theorem connect_success_iff (L : C.Laws) (dbg : Bool) {o : HsCmd.Opts C} {t : HsCmd.Clock} {F W : Sent → List (Bytes × Bytes)} (R : Ready o t F W)
    (hh : o.io.skipHash = false) {i : PktIn} {b : Bytes} (hi : Feeds i b) (y : Sys) (w : World) :
    (HsCmd.main C dbg y o t .connect i w).2 = .ok () ↔ ∃ s0 s1 rest k, b = s1.bytes ++ rest ∧ Admits C o.io [s1] ∧
      Hello C o.id o.nh t.made s0 ∧ Accepted (o.maxDiff.getD 15) t.seen (C.pubkey o.id) k s0.hash s1 := by
  constructor
  · intro h
    obtain ⟨ss, rest, hr⟩ := reads_exists C o.io b
    obtain ⟨l, ok, h1, _, h2, _⟩ := connect_spec L dbg R hh hi hr y w
    cases h2.1 h
    cases h1 with
    | @done s0 s1 s2 ss k a1 a2 a3 =>
      refine ⟨s0, s1, streamOf ss ++ rest, k, ?_, fun x hx => hr.admits x ?_, a1, a2⟩
      · rw [hr.bytes, streamOf_cons]; simp
      · simp at hx ⊢; simp [hx]
  · rintro ⟨s0, s1, rest, k, hb, ha, a1, a2⟩
    obtain ⟨ss', rest', hr⟩ := reads_front (t := rest) ha
    rw [streamOf_cons, show streamOf [] = [] from rfl, List.append_nil, ← hb] at hr
    obtain ⟨l, ok, h1, _, h2, _⟩ := connect_spec L dbg R hh hi hr y w
    refine h2.2 ?_
    cases h1 with
    | @wrong s0' _ _ b1 b2 =>
      obtain rfl := message_unique a1 b1
      exact absurd a2 (b2 k)
    | done => rfl

/-! ### two programs connected by pipes -/

/-- The program writes to standard output and forwards nothing: the defaults. -/
def piped (id : C.Key) (nh : Bytes) (md : Option Nat) : HsCmd.Opts C := { write := [{ out := .fd stdout }], maxDiff := md, id, nh }

theorem piped_ready {id : C.Key} {nh : Bytes} (hn : nh.length = 32) (md : Option Nat) {t : HsCmd.Clock} (h1 : t.made < 2 ^ 64) (h2 : t.sign < 2 ^ 64) :
    Ready (piped id nh md) t (fun _ => []) (fun s => [(stdout, s.bytes)]) :=
  ⟨hn, nofun, by simp [Forbids, piped], fun s => .nil s, fun s => .bytes _ (.nil s), h1, h2⟩

theorem not_secret {id : C.Key} {nh : Bytes} {t : Nat} {g : Bytes} {links : List Link} {s : Sent} (h : Message C id nh t g links s) (hg : g ≠ zeroGroup) : ¬ s.Secret := by
  unfold Sent.Secret
  rw [h.content]
  exact fun h => hg (Option.some.inj h)

theorem pair_ne_zero {a b g : Bytes} (ha : a.length = 32) (hb : b.length = 32) (h : IsPair g a b) (hab : a ≠ b) : g ≠ zeroGroup := by
  rw [unicast_is_pair ha hb] at h
  subst h
  intro h
  exact hab ((unicast_private_iff ha hb).1 h)

theorem passed_open {o : IoOpts} {l : Sent → List (Bytes × Bytes)} {s : Sent} (h : ¬ s.Secret) : passed o l s = l s := by
  unfold passed
  rw [if_pos (goesOut_iff.2 fun hs => absurd hs h)]

theorem file_stdout (w : World) (ss : List Sent) (h : w.outs = []) :
    World.file { w with outs := w.outs ++ ss.map fun s => (stdout, s.bytes) } stdout = streamOf ss := by
  unfold World.file
  rw [h, List.nil_append]
  induction ss with
  | nil => rfl
  | cons s ss ih => rw [List.map_cons, streamOf_cons, ← ih]; simp

/-- Two parties: their keys, the clocks that are read, and that these are near where that is checked.  A key of only zeroes is the private group. -/
structure Parties (C : Crypto) (a b : C.Key) (ma mb : Option Nat) (ta tb : HsCmd.Clock) : Prop where
  keys : C.pubkey a ≠ C.pubkey b
  key : C.pubkey a ≠ zeroGroup
  made : ta.made < 2 ^ 64
  signA : ta.sign < 2 ^ 64
  madeB : tb.made < 2 ^ 64
  signB : tb.sign < 2 ^ 64
  first : Near (mb.getD 15) tb.seen ta.made
  second : Near (ma.getD 15) ta.seen tb.sign

/-- The messages of two parties. -/
structure Talk (C : Crypto) (a b : C.Key) (na nb : Bytes) (ta tb : HsCmd.Clock) (s0 s1 s2 : Sent) : Prop where
  hello : Hello C a na ta.made s0
  answer : Answer C b nb tb.sign tagAuth (C.pubkey a) s0 s1
  signed : Answer C a na ta.sign tagSigned (C.pubkey b) s1 s2
  g0 : s0.Genuine C
  g1 : s1.Genuine C
  g2 : s2.Genuine C
  p0 : ¬ s0.Secret
  p1 : ¬ s1.Secret
  p2 : ¬ s2.Secret

theorem talk_exists (L : C.Laws) {a b : C.Key} {na nb : Bytes} (hna : na.length = 32) (hnb : nb.length = 32) {ma mb : Option Nat} {ta tb : HsCmd.Clock}
    (P : Parties C a b ma mb ta tb) : ∃ s0 s1 s2, Talk C a b na nb ta tb s0 s1 s2 := by
  obtain ⟨s0, h0, g0, _⟩ := hello_sent L hna P.made a
  obtain ⟨s1, h1, g1, _⟩ := answer_sent L hnb P.signB b (tag := tagAuth) (by decide) (L.pub_len a) s0
  obtain ⟨s2, h2, g2, _⟩ := answer_sent L hna P.signA a (tag := tagSigned) (by decide) (L.pub_len b) s1
  refine ⟨s0, s1, s2, h0, h1, h2, g0, g1, g2, not_secret h0 P.key, ?_, ?_⟩
  · obtain ⟨g, hp, hm⟩ := h1
    exact not_secret hm (pair_ne_zero (L.pub_len b) (L.pub_len a) hp P.keys.symm)
  · obtain ⟨g, hp, hm⟩ := h2
    exact not_secret hm (pair_ne_zero (L.pub_len a) (L.pub_len b) hp P.keys)

theorem admits_talk {o : IoOpts} {s : Sent} (h1 : s.Genuine C) (h2 : ¬ s.Secret) : Admits C o [s] := by
  intro x hx
  obtain rfl : x = s := by simpa using hx
  exact ⟨.inr h1, fun h => absurd h h2⟩

theorem talk_opening {a b : C.Key} {na nb : Bytes} {ma mb : Option Nat} {ta tb : HsCmd.Clock} (P : Parties C a b ma mb ta tb) {s0 s1 s2 : Sent}
    (T : Talk C a b na nb ta tb s0 s1 s2) : Opening (mb.getD 15) tb.seen (C.pubkey b) (C.pubkey a) s0 := ⟨_, _, T.hello.content, P.first, P.keys⟩

theorem answer_names {id : C.Key} {nh : Bytes} {t : Nat} {tag you : Bytes} {to s : Sent} (h : Answer C id nh t tag you to s) :
    ∃ lc sig, s.c = .key lc (C.pubkey id) sig ∧ lc.stamp = t ∧ Names lc (C.pubkey id) you to.hash := by
  obtain ⟨g, hp, hm⟩ := h
  exact ⟨_, _, hm.content, rfl, rfl, rfl, hp, ⟨_, List.mem_singleton.2 rfl, rfl⟩⟩

theorem names_swap {lc : LinkContent} {a b h : Bytes} (hN : Names lc a b h) : Names lc b a h :=
  ⟨hN.domain, hN.space, ⟨hN.group.1, fun i x y hx hy => by rw [hN.group.2 i y x hy hx, UInt8.xor_comm]⟩, hN.link⟩

theorem talk_accepted {a b : C.Key} {na nb : Bytes} {ma mb : Option Nat} {ta tb : HsCmd.Clock} (P : Parties C a b ma mb ta tb) {s0 s1 s2 : Sent}
    (T : Talk C a b na nb ta tb s0 s1 s2) : Accepted (ma.getD 15) ta.seen (C.pubkey a) (C.pubkey b) s0.hash s1 := by
  obtain ⟨lc, sig, h1, h2, h3⟩ := answer_names T.answer
  exact ⟨lc, sig, h1, by rw [h2]; exact P.second, names_swap h3⟩

theorem talk_confirms {a b : C.Key} {na nb : Bytes} {ta tb : HsCmd.Clock} {s0 s1 s2 : Sent}
    (T : Talk C a b na nb ta tb s0 s1 s2) : Confirms (C.pubkey b) (C.pubkey a) s1.hash s2 := by
  obtain ⟨lc, sig, h1, h2, h3⟩ := answer_names T.signed
  exact ⟨lc, sig, h1, names_swap h3⟩

/-- What the server does when the client's first message comes in, and whatever may follow. -/
theorem serve_talk (L : C.Laws) (dbg : Bool) {a b : C.Key} {na nb : Bytes} (hnb : nb.length = 32) {ma mb : Option Nat} {ta tb : HsCmd.Clock}
    (P : Parties C a b ma mb ta tb) {s0 s1 s2 : Sent} (T : Talk C a b na nb ta tb s0 s1 s2) (y : Sys) {i : PktIn} {rest : Bytes} (hi : Feeds i (s0.bytes ++ rest)) :
    (HsCmd.main C dbg y (piped b nb mb) tb .serve i {}).1 = { outs := [(stdout, s1.bytes)] } ∧
      ((∃ t, rest = s2.bytes ++ t) → (HsCmd.main C dbg y (piped b nb mb) tb .serve i {}).2 = .ok ()) := by
  have R := piped_ready (id := b) hnb mb P.madeB P.signB
  constructor
  · obtain ⟨ss, r, hr⟩ := reads_front (C := C) (o := (piped b nb mb).io) (t := rest) (admits_talk T.g0 T.p0)
    rw [streamOf_cons, show streamOf [] = [] from rfl, List.append_nil] at hr
    obtain ⟨l, ok, h1, h2, _⟩ := serve_spec L dbg R rfl hi hr y {}
    rw [h2]
    have hl : l = [(stdout, s1.bytes)] := by
      have key : ∀ {k : Bytes} {s : Sent}, Opening (mb.getD 15) tb.seen (C.pubkey b) k s0 → Answer C b nb tb.sign tagAuth k s0 s →
          passed (piped b nb mb).io (fun s => [(stdout, s.bytes)]) s = [(stdout, s1.bytes)] := by
        intro k s ho ha
        have hk : k = C.pubkey a := signed_unique (by obtain ⟨lc, sig, hc, _⟩ := ho; exact ⟨lc, sig, hc⟩) (message_signed T.hello)
        subst hk
        obtain rfl := answer_unique L (L.pub_len a) ha T.answer
        exact passed_open T.p1
      have hF : ∀ s, passed (piped b nb mb).io (fun _ => []) s = [] := fun s => by unfold passed; split <;> rfl
      cases h1 with
      | refused h => exact absurd (talk_opening P T) (h _)
      | alone q1 q2 => rw [key q1 q2, hF]; rfl
      | wrong q1 q2 q3 => rw [key q1 q2, hF, hF]; rfl
      | done q1 q2 q3 => rw [key q1 q2, hF, hF]; rfl
    rw [hl]; rfl
  · rintro ⟨t, rfl⟩
    refine (serve_success_iff L dbg R rfl hi y {}).2 ⟨s0, s1, s2, t, C.pubkey a, rfl, ?_, talk_opening P T, T.answer, talk_confirms T⟩
    intro x hx
    simp only [List.mem_cons, List.not_mem_nil, or_false] at hx
    rcases hx with rfl | rfl
    · exact admits_talk T.g0 T.p0 _ (by simp)
    · exact admits_talk T.g2 T.p2 _ (by simp)

/-- What the client does: it writes its first message, and when the answer comes in the second. -/
theorem connect_talk (L : C.Laws) (dbg : Bool) {a b : C.Key} {na nb : Bytes} (hna : na.length = 32) {ma mb : Option Nat} {ta tb : HsCmd.Clock}
    (P : Parties C a b ma mb ta tb) {s0 s1 s2 : Sent} (T : Talk C a b na nb ta tb s0 s1 s2) (y : Sys) {i : PktIn} {bs : Bytes} (hi : Feeds i bs) :
    (∃ l : List Sent, (HsCmd.main C dbg y (piped a na ma) ta .connect i {}).1 = { outs := (stdout, s0.bytes) :: l.map fun s => (stdout, Sent.bytes s) }) ∧
      ((∃ t, bs = s1.bytes ++ t) → HsCmd.main C dbg y (piped a na ma) ta .connect i {} = ({ outs := [(stdout, s0.bytes), (stdout, s2.bytes)] }, .ok ())) := by
  have R := piped_ready (id := a) hna ma P.made P.signA
  have hF : ∀ s, passed (piped a na ma).io (fun _ => []) s = [] := fun s => by unfold passed; split <;> rfl
  have hW : ∀ s, ∃ l : List Sent, passed (piped a na ma).io (fun s => [(stdout, s.bytes)]) s = l.map fun s => (stdout, Sent.bytes s) := fun s => by
    unfold passed; split
    · exact ⟨[s], rfl⟩
    · exact ⟨[], rfl⟩
  constructor
  · obtain ⟨ss, r, hr⟩ := reads_exists C (piped a na ma).io bs
    obtain ⟨l, ok, h1, h2, _⟩ := connect_spec L dbg R rfl hi hr y {}
    rw [h2]
    cases h1 with
    | alone q1 =>
      obtain rfl := message_unique q1 T.hello
      exact ⟨[], by rw [passed_open T.p0]; rfl⟩
    | wrong q1 q2 =>
      obtain rfl := message_unique q1 T.hello
      exact ⟨[], by rw [passed_open T.p0, hF]; rfl⟩
    | @done _ _ s2' _ _ q1 q2 q3 =>
      obtain rfl := message_unique q1 T.hello
      obtain ⟨l, hl⟩ := hW s2'
      exact ⟨l, by rw [passed_open T.p0, hF, hl]; rfl⟩
  · rintro ⟨t, rfl⟩
    obtain ⟨ss, r, hr⟩ := reads_front (C := C) (o := (piped a na ma).io) (t := t) (admits_talk T.g1 T.p1)
    rw [streamOf_cons, show streamOf [] = [] from rfl, List.append_nil] at hr
    obtain ⟨l, ok, h1, h2, h3, _⟩ := connect_spec L dbg R rfl hi hr y {}
    cases h1 with
    | wrong q1 q2 =>
      obtain rfl := message_unique q1 T.hello
      exact absurd (talk_accepted P T) (q2 _)
    | @done _ _ s2' _ k q1 q2 q3 =>
      obtain rfl := message_unique q1 T.hello
      have hk : k = C.pubkey b := signed_unique (by obtain ⟨lc, sig, hc, _⟩ := q2; exact ⟨lc, sig, hc⟩) (answer_signed T.answer)
      subst hk
      obtain rfl := answer_unique L (L.pub_len b) q3 T.signed
      rw [passed_open T.p0, hF, passed_open T.p2] at h2
      exact Prod.ext h2 (h3.2 rfl)

/-- **C84**: a `connect` and a `serve` that are connected by pipes, each reading what the other writes in any pieces, both succeed. -/
theorem pipes_complete (L : C.Laws) (dbg : Bool) {a b : C.Key} {na nb : Bytes} (hna : na.length = 32) (hnb : nb.length = 32) {ma mb : Option Nat}
    {ta tb : HsCmd.Clock} (P : Parties C a b ma mb ta tb) (ya yb : Sys) {ia ib : PktIn}
    (ha : Feeds ia ((HsCmd.main C dbg yb (piped b nb mb) tb .serve ib {}).1.file stdout))
    (hb : Feeds ib ((HsCmd.main C dbg ya (piped a na ma) ta .connect ia {}).1.file stdout)) :
    (HsCmd.main C dbg ya (piped a na ma) ta .connect ia {}).2 = .ok () ∧ (HsCmd.main C dbg yb (piped b nb mb) tb .serve ib {}).2 = .ok () := by
  obtain ⟨s0, s1, s2, T⟩ := talk_exists L hna hnb P
  obtain ⟨⟨l, hl⟩, hc⟩ := connect_talk L dbg hna P T ya ha
  have hb' := hb
  rw [hl] at hb'
  have e1 : World.file { outs := (stdout, s0.bytes) :: l.map fun s => (stdout, Sent.bytes s) } stdout = s0.bytes ++ streamOf l := by
    have := file_stdout {} (s0 :: l) rfl
    rw [streamOf_cons] at this
    exact this
  rw [e1] at hb'
  obtain ⟨h1, _⟩ := serve_talk L dbg hnb P T yb hb'
  have e2 : World.file { outs := [(stdout, s1.bytes)] } stdout = s1.bytes := by
    have := file_stdout {} [s1] rfl
    simpa [streamOf] using this
  rw [h1, e2] at ha
  have hc' := (connect_talk L dbg hna P T ya ha).2 ⟨[], by simp⟩
  rw [hc'] at hb
  have e3 : World.file { outs := [(stdout, s0.bytes), (stdout, s2.bytes)] } stdout = s0.bytes ++ s2.bytes := by
    have := file_stdout {} [s0, s2] rfl
    simpa [streamOf] using this
  rw [e3] at hb
  exact ⟨by rw [hc'], (serve_talk L dbg hnb P T yb hb).2 ⟨[], by simp⟩⟩

/-- There are such inputs. -/
theorem pipes_exist (L : C.Laws) (dbg : Bool) {a b : C.Key} {na nb : Bytes} (hna : na.length = 32) (hnb : nb.length = 32) {ma mb : Option Nat}
    {ta tb : HsCmd.Clock} (P : Parties C a b ma mb ta tb) (ya yb : Sys) : ∃ ia ib,
    Feeds ia ((HsCmd.main C dbg yb (piped b nb mb) tb .serve ib {}).1.file stdout) ∧
    Feeds ib ((HsCmd.main C dbg ya (piped a na ma) ta .connect ia {}).1.file stdout) := by
  obtain ⟨s0, s1, s2, T⟩ := talk_exists L hna hnb P
  have l0 := sent_length s0
  have l1 := sent_length s1
  have fa : Feeds ⟨false, [s1.bytes]⟩ s1.bytes := ⟨rfl, fun c hc => by
    obtain rfl := List.mem_singleton.1 hc; intro h; rw [h] at l1; simp at l1, by simp⟩
  have fb : Feeds ⟨false, [s0.bytes ++ s2.bytes]⟩ (s0.bytes ++ s2.bytes) := ⟨rfl, fun c hc => by
    obtain rfl := List.mem_singleton.1 hc
    intro h
    have := congrArg List.length h
    rw [List.length_append, List.length_nil] at this
    omega, by simp⟩
  have hs := (serve_talk L dbg hnb P T yb fb).1
  have hc := (connect_talk L dbg hna P T ya fa).2 ⟨[], by simp⟩
  refine ⟨⟨false, [s1.bytes]⟩, ⟨false, [s0.bytes ++ s2.bytes]⟩, ?_, ?_⟩
  · rw [hs]
    have := file_stdout {} [s1] rfl
    simp [streamOf] at this
    rw [this]
    exact fa
  · rw [hc]
    have := file_stdout {} [s0, s2] rfl
    simp [streamOf] at this
    rw [this]
    exact fb

/-- Witness: two parties, with clocks four seconds apart. -/
example : Parties toyCrypto (1 : UInt8) (2 : UInt8) none (some 5) ⟨10000000, 14000000, 14000001⟩ ⟨0, 13000000, 13000001⟩ :=
  ⟨by decide, by decide, by decide, by decide, by decide, by decide, by unfold Near; decide, by unfold Near; decide⟩
example : ∃ ia ib, Feeds ia ((HsCmd.main toyCrypto true ⟨fun _ _ => .ok, id⟩ (piped (2 : UInt8) (List.replicate 32 0) (some 5)) ⟨0, 13000000, 13000001⟩ .serve ib {}).1.file stdout) ∧
    Feeds ib ((HsCmd.main toyCrypto true ⟨fun _ _ => .ok, id⟩ (piped (1 : UInt8) (List.replicate 32 0) none) ⟨10000000, 14000000, 14000001⟩ .connect ia {}).1.file stdout) :=
  pipes_exist toyCrypto_laws true rfl rfl ⟨by decide, by decide, by decide, by decide, by decide, by decide, by unfold Near; decide, by unfold Near; decide⟩ _ _

/-! ### findings -/

/-- With `--hop false` the first message of a client, which has made no hop, is a failed assertion. -/
theorem hop_false_panics (L : C.Laws) (dbg : Bool) (y : Sys) {o : HsCmd.Opts C} (ho : o.io.hop = some false) {F : Sent → List (Bytes × Bytes)}
    (hF : ∀ s, Lines o.forward s (F s)) (hf : ¬ Forbids o.io) (t : HsCmd.Clock) {i : PktIn} {s : Sent} {rest : Bytes} (hi : Feeds i (s.bytes ++ rest))
    (ha : Admits C o.io [s]) (h0 : (s.nh.drop 4).take 4 = [0, 0, 0, 0]) (w : World) :
    HsCmd.main C dbg y o t .serve i w = ({ w with outs := w.outs ++ passed o.io F s }, .error .panic) := by
  have hd : o.io.defaultHop = o.io := by
    unfold IoOpts.defaultHop; rw [ho]
    obtain ⟨⟨a, b, c, d, e⟩, _⟩ := o
    cases ho; rfl
  obtain ⟨ss, r, hr⟩ := reads_front (t := rest) ha
  rw [streamOf_cons, show streamOf [] = [] from rfl, List.append_nil] at hr
  obtain ⟨e, h1, _⟩ := input_reads C dbg o.io hi hr
  rw [ho] at h1
  unfold HsCmd.main
  simp only [hd, h1, HsCmd.modes, List.cons_append, List.nil_append, List.map_cons]
  rw [show (fun s => net (arrive ((some false).getD false) s)) = net from rfl, show net (arrive ((some false).getD false) s) = net s from rfl,
    need_cons dbg y o hF hf]
  have : Shake.hopOf s.parts = 0 := by
    unfold Shake.hopOf
    rw [show s.parts.netHeader = s.nh from rfl, h0]
    decide
  simp only [Shake.phase1, this]
  rfl

/-- `phase3` looks at no clock: three messages it has accepted once it accepts at any time. -/
theorem phase3_forever (dbg : Bool) (y : Sys) (o : HsCmd.Opts C) (t t' : HsCmd.Clock) (i : PktIn) (w : World) :
    HsCmd.main C dbg y o t .phase3 i w = HsCmd.main C dbg y o t' .phase3 i w := rfl

/-- With `--skip-hash` signatures are not checked either, and anybody can be anybody: for every key there is an input, of which all signatures are
zeroes, that makes the server succeed. -/
theorem skip_hash_forged (L : C.Laws) (dbg : Bool) (y : Sys) {o : HsCmd.Opts C} {t : HsCmd.Clock} {F W : Sent → List (Bytes × Bytes)} (R : Ready o t F W)
    (hs : o.io.skipHash = true) (hseen : t.seen < 2 ^ 64) (hm : 0 < o.maxDiff.getD 15) {k : Bytes} (hk : k.length = 32) (hne : k ≠ C.pubkey o.id) (w : World) :
    ∃ s0 s2 : Sent, (∃ lc, s0.c = .key lc k (List.replicate 64 0)) ∧ (∃ lc, s2.c = .key lc k (List.replicate 64 0)) ∧
      ∀ i, Feeds i (s0.bytes ++ s2.bytes) → (HsCmd.main C dbg y o t .serve i w).2 = .ok () := by
  let C' : Crypto := { C with verify := fun _ _ _ => true }
  have L' : C'.Laws := ⟨L.hash_len, L.pub_len, L.sign_len, fun _ _ => rfl⟩
  have hz : LinksSized [] := nofun
  have mk : ∀ (g : Bytes) (links : List Link) (st : Nat), g.length = 32 → st < 2 ^ 64 → LinksSized links → links.length ≤ 1 → ∃ s : Sent, s.Genuine C' ∧
      s.c = .key ⟨g, Shake.handshakeD, st, links, Shake.sentinal, []⟩ k (List.replicate 64 0) := by
    intro g links st hg hst hl h1
    have hv : (Content.key ⟨g, Shake.handshakeD, st, links, Shake.sentinal, []⟩ k (List.replicate 64 0)).Valid := by
      refine ⟨?_, ⟨hg, show Shake.handshakeD.length = 16 by decide, hst, hl, show Rooted.checkComponents Shake.sentinal = .ok () by decide⟩, hk, by simp⟩
      show LinkContent.len _ + 96 ≤ 65024
      unfold LinkContent.len
      simp only
      have : Shake.sentinal.length = 17 := by decide
      simp only [this, List.length_nil]
      omega
    exact ⟨⟨List.replicate 32 0, C.hash (Content.layout _), _, by simp, L.hash_len _, hv⟩, ⟨rfl, rfl⟩, rfl⟩
  obtain ⟨s0, g0, c0⟩ := mk (List.replicate 32 1) [] t.seen (by simp) hseen hz (by simp)
  have hop : Opening (o.maxDiff.getD 15) t.seen (C.pubkey o.id) k s0 := ⟨_, _, c0, by unfold Near; simp only; omega, hne⟩
  obtain ⟨s1, a1, _, p1⟩ := phase1_opening (C := C') L' R.nh (genuine_arrive g0 true) (hop_arrive s0) t.seen R.sign o.id o.maxDiff (k := k) hop
  have hgl := Props.xor32_length (L.pub_len o.id) hk
  obtain ⟨s2, g2, c2⟩ := mk (Shake.unicastGroup (C.pubkey o.id) k) [⟨tagSigned, s1.hash⟩] 0 hgl (by decide) (one_sized (by decide) s1.hashLen) (by simp)
  have hcf : Confirms (C.pubkey o.id) k s1.hash s2 :=
    ⟨_, _, c2, rfl, rfl, (unicast_is_pair (L.pub_len _) hk _).2 rfl, ⟨_, List.mem_singleton.2 rfl, rfl⟩⟩
  refine ⟨s0, s2, ⟨_, c0⟩, ⟨_, c2⟩, fun i hi => ?_⟩
  have n0 : ¬ s0.Secret := by unfold Sent.Secret; rw [c0]; intro h; exact absurd (Option.some.inj h) (show ¬ List.replicate 32 1 = zeroGroup by decide)
  have n2 : ¬ s2.Secret := by
    unfold Sent.Secret; rw [c2]
    intro h
    exact hne ((unicast_private_iff (L.pub_len _) hk).1 (Option.some.inj h)).symm
  have ha : Admits C o.io [s0, s2] := by
    intro x hx
    simp only [List.mem_cons, List.not_mem_nil, or_false] at hx
    rcases hx with rfl | rfl
    · exact ⟨.inl hs, fun h => absurd h n0⟩
    · exact ⟨.inl hs, fun h => absurd h n2⟩
  obtain ⟨ss, r, hr⟩ := reads_front (t := []) ha
  rw [streamOf_cons, streamOf_cons, show streamOf [] = [] from rfl, List.append_nil, List.append_nil] at hr
  obtain ⟨e, hmain, _⟩ := hs_reads (dbg := dbg) R hi hr y .serve w
  rw [hmain]
  simp only [HsCmd.modes, List.cons_append, List.nil_append, List.map_cons]
  rw [hs_need dbg y R, show Shake.phase1 C (hopped o).nh t.seen t.sign (arrive true s0).parts (hopped o).id (hopped o).maxDiff = .ok s1.parts from p1]
  simp only [Left.get, hs_send dbg y R, Left.next]
  rw [hs_need dbg y R]
  have p3 : Shake.phase3 C (arrive true s0).parts s1.parts (arrive true s2).parts (hopped o).id = .ok k :=
    phase3_confirmed (C := C') L' (s0 := arrive true s0) (genuine_arrive g2 true) ⟨_, _, c0⟩ (answer_signed a1) hcf
  rw [p3]

end Verif.Props
