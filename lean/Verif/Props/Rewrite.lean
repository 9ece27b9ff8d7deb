import Verif.Lemmas.Rewrite
import Verif.Props.Collect
/-!
# C79: points made anew
-/
namespace Verif.Props
open Verif Verif.Pkt Verif.Spec Verif.Pred Verif.Multi Verif.Env Verif.Rd Verif.Cmd

section
variable {y : Sys} {o : IoOpts} {C : Crypto} {nh : Bytes} {r : Rewrite C} {ts : List Sent} {v : Changes} {fwd wr : Sent → List Put}

theorem rewrite_starts (h : RewriteOk C o nh r ts v fwd wr) : ¬ ((r.mode = .signAll ∨ r.mode = .resign) ∧ r.key.isNone) := by
  rintro ⟨h1, h2⟩
  have := h.key h1
  cases hk : r.key with
  | none => rw [hk] at this; cases this
  | some k => rw [hk] at h2; cases h2

/-- **C79**: `rewrite` writes one packet for each packet, in order.  Datapoints, and key points with `skip`, stay as they are; all other points are made anew with the
fields changed as asked and all others as they were, the links among them, and signed as the mode says; after each the packet it was goes to `--forward`.  It ends at the
first packet that is refused: an error point, data that has ended or cannot be read, or a point that would be too large. -/
theorem rewrite_cmd (dbg : Bool) {ss : List Sent} (ha : Admits C o ss) {i : PktIn} (hi : Feeds i (streamOf ss))
    (h : RewriteOk C o nh r (ss.map (arrive (o.hop.getD false))) v fwd wr) {w : World} (hb : w.buf = none)
    (hc : Clock y w ((dbCount r.write + dbCount r.forward) * ss.length)) (rd : Reader) :
    ∃ pre rest new rd' w' res, rewriteCmd C dbg y o nh r rd i w = (w', res) ∧ ss.map (arrive (o.hop.getD false)) = pre ++ rest ∧
      Rewritten nh r v 0 rd pre new rd' ∧
      w'.outs = w.outs ++ linesOf (rewriteDone o fwd wr pre new) ∧ Saves w w' (savedOf (rewriteDone o fwd wr pre new)) ∧
      ((rest = [] ∧ res = .ok ()) ∨ ∃ s rest' e, rest = s :: rest' ∧ res = .error e ∧ Refuses r v pre.length s rd' e) := by
  unfold rewriteCmd
  rw [if_neg (rewrite_starts h)]
  unfold runCmd
  rw [input_feeds dbg ha (stream_rest hi) (by simp)]
  simp only
  rw [← List.map_map]
  rcases rewrite_each (y := y) (k := 0) h dbg (ss.map (arrive (o.hop.getD false))) (fun _ hs => hs) (n := 0) (rd := rd) hb (by simpa using hc) with
    ⟨new, rd', w', h1, h2, h3, h4⟩ | ⟨pre, s, rest, new, rd', w', e, st, h0, h1, h2, h3, h4, h5⟩
  · exact ⟨_, [], new, rd', w', .ok (), by rw [h1]; rfl, by simp, h2, h3, h4, .inl ⟨rfl, rfl⟩⟩
  · refine ⟨pre, s :: rest, new, rd', w', .error e, by rw [h1], h0, h2, h3, h4, .inr ⟨s, rest, e, rfl, rfl, by simpa using h5⟩⟩

/-- **C79**: without a key to sign with nothing is read or written. -/
theorem rewrite_no_key (dbg : Bool) (hm : r.mode = .signAll ∨ r.mode = .resign) (hk : r.key = none) (rd : Reader) (i : PktIn) (w : World) :
    rewriteCmd C dbg y o nh r rd i w = (w, .error (.err ())) := by
  unfold rewriteCmd
  rw [if_pos ⟨hm, by rw [hk]; rfl⟩]

/-- **C79**: a packet that is not admitted or is cut off is an error after what comes before it is rewritten. -/
theorem rewrite_cmd_spoiled (dbg : Bool) {ss : List Sent} (ha : Admits C o ss) {i i' : PktIn} {rest : Bytes} (hi : Feeds i (streamOf ss))
    (hi' : Feeds i' (streamOf ss ++ rest)) (hr : Spoils C o rest) {rd : Reader} {w w' : World}
    (h : rewriteCmd C dbg y o nh r rd i w = (w', .ok ())) : rewriteCmd C dbg y o nh r rd i' w = (w', .error (.err ())) := by
  unfold rewriteCmd at h ⊢
  split at h
  · cases h
  · rename_i hk
    rw [if_neg hk]
    refine runCmd_spoiled (rest' := []) ha (stream_rest hi) (by simp) hi' hr (fun s q => ?_) h
    unfold rewriteStep
    repeat' split
    all_goals nofun

/-! ### what a packet becomes -/

theorem rewritten_length {n : Nat} {rd rd' : Reader} {ss us : List Sent} (h : Rewritten nh r v n rd ss us rd') : us.length = ss.length := by
  induction h with
  | nil => rfl
  | cons _ _ ih => simp [ih]

/-- Each packet written is that for the packet at its place. -/
theorem rewritten_at {n : Nat} {rd rd' : Reader} {ss us : List Sent} (h : Rewritten nh r v n rd ss us rd') {i : Nat} {s t : Sent} (hs : ss[i]? = some s) (ht : us[i]? = some t) :
    ∃ a b, Becomes nh r v (n + i) s a t b := by
  induction h generalizing i with
  | nil => simp at hs
  | cons hb _ ih =>
    cases i with
    | zero =>
      obtain rfl := Option.some.inj hs
      obtain rfl := Option.some.inj ht
      exact ⟨_, _, hb⟩
    | succ i =>
      obtain ⟨a, b, hx⟩ := ih hs ht
      refine ⟨a, b, ?_⟩
      rw [Nat.add_right_comm] at hx
      exact hx

theorem isPoint_exact {lc : LinkContent} {key : Option C.Key} {s : Sent} (h : IsPoint C nh lc key s.parts) :
    s.nh = nh ∧ s.Genuine C ∧ (key = none → s.c = .link lc) ∧ ∀ k, key = some k → ∃ sig, s.c = .key lc (C.pubkey k) sig := by
  obtain ⟨ct, hv, hs, e, h1, h2⟩ := h
  have hc : s.c = ct := parts_injective (congrArg NetParts.parts e)
  have hn : s.nh = nh := congrArg NetParts.netHeader e
  have hh : s.hash = C.hash ct.layout := congrArg NetParts.hash e
  refine ⟨hn, ⟨by rw [hc]; exact hs, by rw [hc]; exact hh⟩, fun hk => by rw [hc, h1 hk], fun k hk => ?_⟩
  obtain ⟨sig, hx⟩ := h2 k hk
  exact ⟨sig, by rw [hc, hx]⟩

/-- **C79**: what is written is genuine if what was read is. -/
theorem becomes_genuine {n : Nat} {s t : Sent} {rd rd' : Reader} (h : Becomes nh r v n s rd t rd') (hs : s.Genuine C) : t.Genuine C := by
  cases h with
  | stays _ => exact hs
  | made c key d _ _ _ _ hp => exact (isPoint_exact hp).2.1

/-- **C79**: the links of a point are never changed. -/
theorem becomes_links {n : Nat} {s t : Sent} {rd rd' : Reader} (h : Becomes nh r v n s rd t rd') : linksIn t.c = linksIn s.c := by
  cases h with
  | stays _ => rfl
  | made c key d _ _ hr _ hp =>
    rw [(isPoint_content hp).1]
    cases hr with
    | link h _ => rw [h]; rfl
    | signLink h _ => rw [h]; rfl
    | key pk sig h _ => rw [h]; rfl
    | unsign pk sig h _ => rw [h]; rfl

/-- The options leave all fields as they are. -/
structure NoChange {C : Crypto} (r : Rewrite C) (v : Changes) : Prop where
  group : ∀ n s, v.group n s = none
  domain : ∀ n s, v.domain n s = none
  rspace : ∀ n s, v.rspace n s = none
  create : ∀ n s, v.create n s = none
  data : r.interpret = false

theorem apply_same (h : NoChange r v) (n : Nat) (s : Sent) (c : LinkContent) : v.apply n s c c.data = c := by
  unfold Changes.apply
  rw [h.group, h.domain, h.rspace, h.create]
  rfl

/-- **C79**: without options, `skip` keeps the hash of every packet. -/
theorem rewrite_skip_same (hm : r.mode = .skip) (hv : NoChange r v) {n : Nat} {s t : Sent} {rd rd' : Reader} (h : Becomes nh r v n s rd t rd') (hs : s.Genuine C) :
    t.hash = s.hash ∧ t.c = s.c := by
  cases h with
  | stays _ => exact ⟨rfl, rfl⟩
  | made c key d _ _ hr ht hp =>
    have hd : d = c.data := by
      cases ht with
      | own _ => rfl
      | read f _ _ hi _ _ => rw [hv.data] at hi; cases hi
    subst hd
    rw [apply_same hv] at hp
    obtain ⟨-, hg, hx, -⟩ := isPoint_exact hp
    cases hr with
    | link h _ =>
      have hc : t.c = s.c := by rw [hx rfl, h]
      exact ⟨by rw [hg.2, hs.2, hc], hc⟩
    | signLink h h' => rw [hm] at h'; cases h'
    | key pk sig h h' => rw [hm] at h'; rcases h' with h' | h' <;> cases h'
    | unsign pk sig h h' => rw [hm] at h'; cases h'

/-- **C79**: without options, `unsign` makes the link point with the fields of a key point. -/
theorem rewrite_unsign (hm : r.mode = .unsign) (hv : NoChange r v) {n : Nat} {s t : Sent} {rd rd' : Reader} (h : Becomes nh r v n s rd t rd')
    {c : LinkContent} {pk sig : Bytes} (hs : s.c = .key c pk sig) : t.c = .link c := by
  cases h with
  | stays hst =>
    cases hst with
    | data b h => rw [hs] at h; cases h
    | skip c pk sig _ h => rw [hm] at h; cases h
  | made c' key d _ _ hr ht hp =>
    have hd : d = c'.data := by
      cases ht with
      | own _ => rfl
      | read f _ _ hi _ _ => rw [hv.data] at hi; cases hi
    subst hd
    rw [apply_same hv] at hp
    obtain ⟨-, hg, hx, -⟩ := isPoint_exact hp
    cases hr with
    | link h _ => rw [hs] at h; cases h
    | signLink h h' => rw [hm] at h'; cases h'
    | key pk sig h h' => rw [hm] at h'; rcases h' with h' | h' <;> cases h'
    | unsign pk sig h h' =>
      rw [hs] at h
      injection h with h
      rw [h]
      exact hx rfl

/-- **C79**: with `sign-all` every point but datapoints is signed with the key, with `resign` those that were signed. -/
theorem rewrite_signs {n : Nat} {s t : Sent} {rd rd' : Reader} {k : C.Key} (hk : r.key = some k) (h : Becomes nh r v n s rd t rd')
    (hs : (r.mode = .signAll ∧ ∀ b, s.c ≠ .data b) ∨ (r.mode = .resign ∧ ∃ c pk sig, s.c = .key c pk sig)) :
    ∃ lc sig, t.c = .key lc (C.pubkey k) sig := by
  cases h with
  | stays hst =>
    exfalso
    cases hst with
    | data b h =>
      rcases hs with ⟨-, hs⟩ | ⟨-, c, pk, sig, hs⟩
      · exact hs b h
      · rw [hs] at h; cases h
    | skip c pk sig _ h => rcases hs with ⟨hs, -⟩ | ⟨hs, -⟩ <;> rw [hs] at h <;> cases h
  | made c key d _ _ hr _ hp =>
    obtain ⟨-, -, -, hx⟩ := isPoint_exact hp
    cases hr with
    | link h h' =>
      rcases hs with ⟨hs, -⟩ | ⟨-, c, pk, sig, hs⟩
      · exact absurd hs h'
      · rw [hs] at h; cases h
    | signLink h _ => obtain ⟨sig, e⟩ := hx k hk; exact ⟨_, sig, e⟩
    | key pk sig h _ => obtain ⟨sig, e⟩ := hx k hk; exact ⟨_, sig, e⟩
    | unsign pk sig h h' => rcases hs with ⟨hs, -⟩ | ⟨hs, -⟩ <;> rw [hs] at h' <;> cases h'

/-! ### where the command fails -/

/-- **C79 fails**: the routing header of a point made anew is lost. -/
theorem rewrite_forgets_routing {n : Nat} {s t : Sent} {rd rd' : Reader} (h : Becomes nh r v n s rd t rd') (hs : ¬ Stays r s) : t.nh = nh := by
  cases h with
  | stays h => exact absurd h hs
  | made c key d _ _ _ _ hp => exact (isPoint_exact hp).1

/-- **C79 fails**: link points are made anew in all modes, with `skip` and `resign` too, and without a signature. -/
theorem rewrite_link_always {n : Nat} {s t : Sent} {rd rd' : Reader} (h : Becomes nh r v n s rd t rd') {c : LinkContent} (hs : s.c = .link c) (hm : r.mode ≠ .signAll) :
    ∃ d, t.c = .link (v.apply n s c d) := by
  cases h with
  | stays hst =>
    cases hst with
    | data b h => rw [hs] at h; cases h
    | skip c pk sig h _ => rw [hs] at h; cases h
  | made c' key d _ _ hr _ hp =>
    cases hr with
    | link h _ =>
      rw [hs] at h
      injection h with h
      subst h
      exact ⟨d, (isPoint_exact hp).2.2.1 rfl⟩
    | signLink h h' => exact absurd h' hm
    | key pk sig h _ => rw [hs] at h; cases h
    | unsign pk sig h _ => rw [hs] at h; cases h

/-- **C79 fails**: an error point aborts the command. -/
theorem rewrite_error_point (dbg : Bool) {s : Sent} {b : Bytes} (hc : s.c = .error b) (x : World × Reader × Nat) :
    rewriteStep dbg y o nh r x (net s) = (x, .error .panic) := by
  unfold rewriteStep rewriteItem
  rw [ofPkt_net]
  have : s.parts.parts.fields = .error b := by unfold Sent.parts; rw [hc]; rfl
  simp only [this]

/-- **C79 fails**: a link point of almost full size cannot be signed: it ends the command. -/
theorem rewrite_sign_too_large (h : RewriteOk C o nh r ts v fwd wr) (hv : NoChange r v) (dbg : Bool) {s : Sent} (hs : s ∈ ts) {c : LinkContent} (hc : s.c = .link c)
    (hm : r.mode = .signAll) (hl : 64928 < c.len) (n : Nat) (rd : Reader) (w : World) : rewriteStep dbg y o nh r (w, rd, n) (net s) = ((w, rd, n), .error (.err ())) := by
  unfold rewriteStep
  rw [ofPkt_net]
  simp only
  obtain ⟨k, hk⟩ := Option.isSome_iff_exists.1 (h.key (.inl hm))
  rcases rewriteItem_eq h dbg hs n rd with ⟨t, rd', h1, h2⟩ | ⟨e, h1, h2⟩
  · exfalso
    cases h2 with
    | stays hst =>
      cases hst with
      | data b h => rw [hc] at h; cases h
      | skip c pk sig h _ => rw [hc] at h; cases h
    | made c' key d _ _ hr ht hp =>
      have hd : d = c'.data := by
        cases ht with
        | own _ => rfl
        | read f _ _ hi _ _ => rw [hv.data] at hi; cases hi
      subst hd
      rw [apply_same hv] at hp
      cases hr with
      | link h h' => exact h' hm
      | signLink h _ =>
        rw [hc] at h
        injection h with h
        subst h
        obtain ⟨sig, e⟩ := (isPoint_exact hp).2.2.2 k hk
        have := t.valid.1
        rw [e] at this
        simp only [Content.size] at this
        omega
      | key pk sig h _ => rw [hc] at h; cases h
      | unsign pk sig h _ => rw [hc] at h; cases h
  · rw [h1]
    cases h2 with
    | errorPoint b h => rw [hc] at h; cases h
    | noSpace => rfl
    | noData => rfl
    | badData c key f e hr hi _ _ => rw [hv.data] at hi; cases hi
    | tooLarge => rfl

end

/-! ### witnesses -/

def witRewrite (m : SignMode) (key : Option UInt8) : Rewrite toyCrypto :=
  { group := some fun _ _ => .ok (List.replicate 32 3), create := some fun n _ => .ok (2000 + n % 10), mode := m, key }

def witChanges : Changes where
  group _ _ := some (List.replicate 32 3)
  domain _ _ := none
  rspace _ _ := none
  create n _ := some (2000 + n % 10)

/-- Witness for `rewrite_cmd` and what follows from it. -/
theorem wit_rewrite (m : SignMode) (key : Option UInt8) (hk : m = .signAll ∨ m = .resign → key.isSome) (ts : List Sent) :
    RewriteOk toyCrypto {} (List.replicate 32 0) (witRewrite m key) ts witChanges (fun _ => []) fun s => [.file stdout s.bytes] := by
  refine ⟨toyCrypto_laws, rfl, fun _ _ _ => ⟨_, rfl, rfl⟩, fun _ _ => rfl, fun _ _ => rfl, fun _ _ _ => ⟨_, rfl, rfl⟩, ?_, (fun _ _ _ h => nomatch h), (fun _ _ _ h => nomatch h), ?_, hk,
    fun s _ => .nil s, fun s => .file _ (.nil s), fun s b => ⟨by simp, by simp⟩, (fun h => nomatch h.2)⟩
  · intro n s a h
    obtain rfl := Option.some.inj h
    rfl
  · intro n s a h
    obtain rfl := Option.some.inj h
    show 2000 + n % 10 < 2 ^ 64
    omega

/-- The datapoint stays, the link point is signed and in the other group. -/
example : (rewriteCmd toyCrypto true { now := fun _ => 0 } {} (List.replicate 32 0) (witRewrite .signAll (some 9)) { input := none }
      { chunks := [streamOf [witData 1, witPoint]] } {}).1.outs.map (·.2.length) = [72, 136 + 96] := by decide +kernel

/-- Witness for `rewrite_skip_same`. -/
example : NoChange { mode := .skip : Rewrite toyCrypto } ⟨fun _ _ => none, fun _ _ => none, fun _ _ => none, fun _ _ => none⟩ :=
  ⟨fun _ _ => rfl, fun _ _ => rfl, fun _ _ => rfl, fun _ _ => rfl, rfl⟩

end Verif.Props
