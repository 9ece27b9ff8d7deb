import Verif.Spec.PktCmd
import Verif.Props.Packet2
import Verif.Props.Matcher
import Verif.Props.Stream
import Verif.Props.Env
/-!
Lemmas about the commands on streams of packets.
-/
namespace Verif.Cmd
open Verif Verif.Pkt Verif.Spec Verif.Props Verif.Pred Verif.Matcher Verif.Multi Verif.Env

/-- A packet as the decoder makes it. -/
def net (s : Sent) : NetPkt := ⟨s.nh, s.hash, s.c.layout⟩

/-- A packet as a command sees it. -/
def arrive (hop : Bool) (s : Sent) : Sent := if hop then s.routed (hopHeader s.nh) (hop_header s.nh s.nhLen).1 else s

theorem arrive_arrives (hop : Bool) (s : Sent) : Arrives hop s (arrive hop s) := by
  cases hop with
  | false => exact ⟨rfl, rfl, fun _ => rfl, nofun⟩
  | true =>
    obtain ⟨_, h2, h3, h4, h5⟩ := hop_header s.nh s.nhLen
    exact ⟨rfl, rfl, nofun, fun _ => ⟨h2, h4, h5, h3⟩⟩

theorem arrive_false (ss : List Sent) : ss.map (arrive false) = ss := by
  have : arrive false = id := rfl
  rw [this, List.map_id]

theorem arrive_hash (hop : Bool) (s : Sent) : (arrive hop s).hash = s.hash := by cases hop <;> rfl
theorem arrive_c (hop : Bool) (s : Sent) : (arrive hop s).c = s.c := by cases hop <;> rfl
theorem arrive_secret (hop : Bool) (s : Sent) : (arrive hop s).Secret ↔ s.Secret := by unfold Sent.Secret; rw [arrive_c]

theorem net_bytes (s : Sent) : (net s).bytes = s.bytes := rfl
theorem net_arrive (d : Decoder) (s : Sent) : received d (net s) = net (arrive d.hop s) := by
  unfold received arrive
  cases d.hop <;> rfl

theorem sent_length (s : Sent) : 72 ≤ s.bytes.length := by
  have := layout_ge8 s.valid
  simp only [Sent.bytes, List.length_append, s.nhLen, s.hashLen]; omega

theorem streamOf_cons (s : Sent) (ss : List Sent) : streamOf (s :: ss) = s.bytes ++ streamOf ss := by simp [streamOf]
theorem streamOf_append (a b : List Sent) : streamOf (a ++ b) = streamOf a ++ streamOf b := by simp [streamOf]

/-- The decoder reads the front of a packet. -/
theorem next_body (C : Crypto) (dbg : Bool) (d : Decoder) (s : Sent) (chunks : List Bytes) (rest : Bytes)
    (hne : NonemptyChunks chunks) (hf : chunks.flatten = s.bytes ++ rest) :
    ∃ r, NonemptyChunks r ∧ r.flatten = rest ∧ d.next C dbg chunks =
      (match (net s).check C dbg d.skipHash with
       | .error e => some (.error (.pkt e))
       | .ok () =>
         match (if d.allowPrivate then .ok () else checkPrivate s.c.layout : Res Unit) with
         | .error e => some (.error (.pkt e))
         | .ok () => some (.ok (net (arrive d.hop s), r))) := by
  have hl := sent_length s
  have hv := s.valid
  have h1 := s.nhLen
  have h2 := s.hashLen
  have h8 := layout_ge8 hv
  have hb : s.bytes.length = 64 + s.c.layout.length := by simp [Sent.bytes, h1, h2]; omega
  obtain ⟨r, e1, e2, e3⟩ := readHeaderLoop_ok 68 0 chunks hne (by rw [hf]; simp; omega)
  have e1t : chunks.flatten.take 68 = s.nh ++ (s.hash ++ s.c.layout.take 4) := by
    rw [hf, List.take_append_of_le_length (by omega), Sent.bytes, List.append_assoc, List.take_append, h1,
      List.take_of_length_le (by omega), List.take_append, h2, List.take_of_length_le (by omega)]
  have e3' : r.flatten = s.c.layout.drop 4 ++ rest := by
    rw [e3, hf, List.drop_append_of_le_length (by omega), Sent.bytes, List.drop_append, List.drop_of_length_le
      (by simp [h1, h2])]
    simp [h1, h2]
  have hof : PointHeader.ofBytes (s.c.layout.take 4) = ⟨0, s.c.type, s.c.size⟩ := by
    rw [ofBytes_take (by omega), ofBytes_layout hv]
  have hsz : (PointHeader.mk 0 s.c.type s.c.size).size = 64 + s.c.layout.length := by
    rw [PointHeader.size, paddedSize_eq, layout_length hv]; omega
  obtain ⟨r', f1, f2, f3⟩ := readExact_ok (s.c.layout.length - 4) r e2 (by rw [e3']; simp)
  have f1t : r.flatten.take (s.c.layout.length - 4) = s.c.layout.drop 4 := by
    rw [e3', List.take_left' (by simp)]
  refine ⟨r', f2, by rw [f3, e3', List.drop_left' (by simp)], ?_⟩
  unfold Decoder.next
  rw [e1, e1t]
  have d64 : (s.nh ++ (s.hash ++ s.c.layout.take 4)).drop 64 = s.c.layout.take 4 := by
    rw [← List.append_assoc, List.drop_left' (by simp [h1, h2])]
  have d32 : (s.nh ++ (s.hash ++ s.c.layout.take 4)).drop 32 = s.hash ++ s.c.layout.take 4 := List.drop_left' h1
  simp only [d64, d32, hof, header_check hv, hsz, List.take_left' h1, List.take_left' h2]
  rw [if_neg (by omega), show 64 + s.c.layout.length - 68 = s.c.layout.length - 4 by omega, f1, f1t]
  simp only [List.take_append_drop]
  have : net (arrive d.hop s) = (if d.hop then { net s with netHeader := hopHeader s.nh } else net s) := by
    unfold arrive; cases d.hop <;> rfl
  rw [this]
  rfl

theorem checkPrivate_sent (s : Sent) : checkPrivate s.c.layout = if s.Secret then .error (.err .privateGroup) else .ok () :=
  checkPrivate_layout s.valid

/-- The decoder's view of a packet that is let in. -/
def LetIn (C : Crypto) (d : Decoder) (s : Sent) : Prop := (d.skipHash = true ∨ s.Genuine C) ∧ (s.Secret → d.allowPrivate = true)

theorem next_ok {C : Crypto} (dbg : Bool) {d : Decoder} {s : Sent} (h : LetIn C d s) {chunks : List Bytes} {rest : Bytes}
    (hne : NonemptyChunks chunks) (hf : chunks.flatten = s.bytes ++ rest) :
    ∃ r, NonemptyChunks r ∧ r.flatten = rest ∧ d.next C dbg chunks = some (.ok (net (arrive d.hop s), r)) := by
  obtain ⟨r, h1, h2, h3⟩ := next_body C dbg d s chunks rest hne hf
  refine ⟨r, h1, h2, ?_⟩
  rw [h3]
  have hck : (net s).check C dbg d.skipHash = .ok () := (check_layout s.valid).2 (fun hk => by
    rcases h.1 with hk' | hk'
    · rw [hk] at hk'; cases hk'
    · exact hk')
  rw [hck]
  have : (if d.allowPrivate then .ok () else checkPrivate s.c.layout : Res Unit) = .ok () := by
    rw [checkPrivate_sent]
    by_cases hs : s.Secret
    · rw [h.2 hs]; rfl
    · rw [if_neg hs]; cases d.allowPrivate <;> rfl
  simp only [this]

theorem check_err {C : Crypto} {dbg skip : Bool} {s : Sent} {e : Fault PktError} (h : (net s).check C dbg skip = .error e) : e ≠ .panic := by
  unfold NetPkt.check net at h
  simp only [consistent_layout dbg s.valid] at h
  cases skip with
  | true => cases h
  | false =>
    simp only [Bool.false_eq_true, if_false] at h
    rcases checkSignature_layout C s.valid with ⟨e1, hs⟩ | ⟨e1, hs⟩
    · rw [e1] at h; simp only [] at h
      split at h
      · cases h; nofun
      · cases h
    · rw [e1] at h; cases h; nofun

theorem next_bad {C : Crypto} (dbg : Bool) {d : Decoder} {s : Sent} (h : ¬ LetIn C d s) {chunks : List Bytes} {rest : Bytes}
    (hne : NonemptyChunks chunks) (hf : chunks.flatten = s.bytes ++ rest) :
    ∃ e, e ≠ .panic ∧ d.next C dbg chunks = some (.error (.pkt e)) := by
  obtain ⟨r, h1, h2, h3⟩ := next_body C dbg d s chunks rest hne hf
  rw [h3]
  cases hck : (net s).check C dbg d.skipHash with
  | error e => exact ⟨e, check_err hck, rfl⟩
  | ok u =>
    have hg : d.skipHash = true ∨ s.Genuine C := by
      cases hk : d.skipHash with
      | true => exact .inl rfl
      | false => exact .inr ((check_layout s.valid).1 hck hk)
    have hs : s.Secret ∧ d.allowPrivate = false := by
      apply Classical.byContradiction
      intro hx
      refine h ⟨hg, fun hsec => ?_⟩
      cases ha : d.allowPrivate with
      | true => rfl
      | false => exact absurd ⟨hsec, ha⟩ hx
    simp only [hs.2, Bool.false_eq_true, if_false, checkPrivate_sent, if_pos hs.1]
    exact ⟨.err .privateGroup, nofun, rfl⟩

theorem next_cut (C : Crypto) (dbg : Bool) (d : Decoder) (s : Sent) (n : Nat) (h68 : 68 ≤ n) (hn : n < s.bytes.length) (chunks : List Bytes)
    (hne : NonemptyChunks chunks) (hf : chunks.flatten = s.bytes.take n) : d.next C dbg chunks = some (.error .io) := by
  have hlen : chunks.flatten.length = n := by rw [hf]; simp; omega
  have hv := s.valid
  have h1 := s.nhLen
  have h2 := s.hashLen
  have h8 := layout_ge8 hv
  have hb : s.bytes.length = 64 + s.c.layout.length := by simp [Sent.bytes, h1, h2]; omega
  obtain ⟨r, e1, e2, e3⟩ := readHeaderLoop_ok 68 0 chunks hne (by omega)
  have e1t : chunks.flatten.take 68 = s.nh ++ (s.hash ++ s.c.layout.take 4) := by
    rw [hf, List.take_take, show min 68 n = 68 by omega, Sent.bytes, List.append_assoc, List.take_append, h1,
      List.take_of_length_le (by omega), List.take_append, h2, List.take_of_length_le (by omega)]
  have hof : PointHeader.ofBytes (s.c.layout.take 4) = ⟨0, s.c.type, s.c.size⟩ := by
    rw [ofBytes_take (by omega), ofBytes_layout hv]
  have hsz : (PointHeader.mk 0 s.c.type s.c.size).size = 64 + s.c.layout.length := by
    rw [PointHeader.size, paddedSize_eq, layout_length hv]; omega
  unfold Decoder.next
  rw [e1, e1t]
  have d64 : (s.nh ++ (s.hash ++ s.c.layout.take 4)).drop 64 = s.c.layout.take 4 := by
    rw [← List.append_assoc, List.drop_left' (by simp [h1, h2])]
  simp only [d64, hof, header_check hv, hsz]
  rw [if_neg (by omega), readExact_short _ _ (by rw [e3]; simp; simp at hlen; omega)]

theorem next_short (C : Crypto) (dbg : Bool) (d : Decoder) (chunks : List Bytes) (h : chunks.flatten.length < 68) : d.next C dbg chunks = none := by
  unfold Decoder.next
  rw [readHeaderLoop_short _ _ _ h]

theorem collect_prefix {C : Crypto} (dbg : Bool) {d : Decoder} {ss : List Sent} (h : ∀ s ∈ ss, LetIn C d s) {chunks : List Bytes} {rest : Bytes}
    (hne : NonemptyChunks chunks) (hf : chunks.flatten = streamOf ss ++ rest) (fuel : Nat) :
    ∃ r, NonemptyChunks r ∧ r.flatten = rest ∧ d.collect C dbg (ss.length + fuel) chunks =
      (ss.map (net ∘ arrive d.hop) ++ (d.collect C dbg fuel r).1, (d.collect C dbg fuel r).2) := by
  induction ss generalizing chunks with
  | nil => exact ⟨chunks, hne, by simpa [streamOf] using hf, by simp⟩
  | cons s ss ih =>
    rw [streamOf_cons, List.append_assoc] at hf
    obtain ⟨r, h1, h2, h3⟩ := next_ok dbg (h s (by simp)) hne hf
    obtain ⟨r', i1, i2, i3⟩ := ih (fun x hx => h x (by simp [hx])) h1 h2
    refine ⟨r', i1, i2, ?_⟩
    rw [show (s :: ss).length + fuel = (ss.length + fuel) + 1 by simp; omega, Decoder.collect, h3]
    simp only [i3, List.map_cons, Function.comp, List.cons_append]

theorem stream_length (ss : List Sent) : ss.length ≤ (streamOf ss).length := by
  induction ss with
  | nil => simp [streamOf]
  | cons s ss ih =>
    have := sent_length s
    rw [streamOf_cons]; simp; omega

theorem decoder_letIn {C : Crypto} {o : IoOpts} {ss : List Sent} (h : Admits C o ss) : ∀ s ∈ ss, LetIn C o.decoder s := by
  intro s hs
  obtain ⟨h1, h2⟩ := h s hs
  refine ⟨h1, fun hsec => ?_⟩
  unfold IoOpts.decoder IoOpts.reads
  rcases h2 hsec with h | h
  · simp [h]
  · cases o.priv <;> simp [h]

theorem letIn_admits {C : Crypto} {o : IoOpts} {s : Sent} (h : LetIn C o.decoder s) : Admits C o [s] := by
  intro t ht
  obtain rfl : t = s := by simpa using ht
  refine ⟨h.1, fun hsec => ?_⟩
  have := h.2 hsec
  unfold IoOpts.decoder IoOpts.reads at this
  simp only at this
  cases hp : o.priv with
  | true => exact .inl hp
  | false =>
    rw [hp] at this
    cases hr : o.privateRead with
    | none => rw [hr] at this; cases this
    | some b =>
      rw [hr] at this
      have : b = true := this
      exact .inr (by rw [hr, this])

/-- Reading a stream: less than a header may be left over. -/
theorem input_feeds {C : Crypto} (dbg : Bool) {o : IoOpts} {ss : List Sent} (h : Admits C o ss) {i : PktIn} {rest : Bytes}
    (hi : Feeds i (streamOf ss ++ rest)) (hr : rest.length < 68) :
    input C dbg o i = .ok (ss.map (net ∘ arrive (o.hop.getD false)), none) := by
  have hlen := stream_length ss
  obtain ⟨n, hn⟩ : ∃ n, i.chunks.flatten.length + 1 = ss.length + (n + 1) :=
    ⟨i.chunks.flatten.length - ss.length, by rw [hi.bytes]; simp; omega⟩
  obtain ⟨r, h1, h2, h3⟩ := collect_prefix (C := C) dbg (decoder_letIn h) hi.pieces hi.bytes (n + 1)
  unfold input
  rw [hi.opened, hn, h3, Decoder.collect, next_short _ _ _ _ (by rw [h2]; exact hr)]
  simp [IoOpts.decoder]

theorem input_spoiled {C : Crypto} (dbg : Bool) {o : IoOpts} {ss : List Sent} (h : Admits C o ss) {i : PktIn} {rest : Bytes}
    (hi : Feeds i (streamOf ss ++ rest)) (hr : Spoils C o rest) :
    ∃ e, e ≠ .pkt .panic ∧ input C dbg o i = .ok (ss.map (net ∘ arrive (o.hop.getD false)), some e) := by
  have hlen := stream_length ss
  obtain ⟨n, hn⟩ : ∃ n, i.chunks.flatten.length + 1 = ss.length + (n + 1) :=
    ⟨i.chunks.flatten.length - ss.length, by rw [hi.bytes]; simp; omega⟩
  obtain ⟨r, h1, h2, h3⟩ := collect_prefix (C := C) dbg (decoder_letIn h) hi.pieces hi.bytes (n + 1)
  have key : ∃ e, e ≠ .pkt .panic ∧ o.decoder.next C dbg r = some (.error e) := by
    cases hr with
    | refused s rest hb =>
      obtain ⟨e, he, hx⟩ := next_bad (C := C) (d := o.decoder) dbg (fun hx => hb (letIn_admits hx)) h1 h2
      exact ⟨_, fun hx => by injection hx with hx; exact he hx, hx⟩
    | cut s n a b => exact ⟨.io, nofun, next_cut C dbg _ s n a b r h1 h2⟩
  obtain ⟨e, he, hx⟩ := key
  refine ⟨e, he, ?_⟩
  unfold input
  rw [hi.opened, hn, h3, Decoder.collect, hx]
  simp [IoOpts.decoder]

/-! ### the loop -/

theorem each_ok {σ : Type} {step : σ → NetPkt → σ × PRes Bool} {s s' : σ} {q : NetPkt} (h : step s q = (s', .ok true)) (qs : List NetPkt)
    (e : Option DecError) : each step s (q :: qs) e = each step s' qs e := by
  rw [each, h]

/-- An error at the end of the input changes nothing about what was done before. -/
theorem each_spoiled {σ : Type} {step : σ → NetPkt → σ × PRes Bool} (hgo : ∀ s q, (step s q).2 ≠ .ok false) {s s' : σ} {qs : List NetPkt}
    (h : each step s qs none = (s', .ok ())) {e : DecError} (he : e ≠ .pkt .panic) : each step s qs (some e) = (s', .error (.err ())) := by
  induction qs generalizing s with
  | nil =>
    rw [each] at h
    cases h
    rw [each]
    exact he
  | cons q qs ih =>
    rw [each] at h ⊢
    have := hgo s q
    generalize hx : step s q = x at h this
    obtain ⟨s1, r⟩ := x
    cases r with
    | error x => cases h
    | ok b =>
      cases b with
      | true => exact ih h
      | false => exact absurd rfl this

theorem onward_go {σ : Type} (x : Left σ) : (onward x).2 ≠ .ok false := by
  obtain ⟨s, r⟩ := x
  cases r <;> nofun

/-! ### destinations -/

theorem ofPkt_net (dbg : Bool) (s : Sent) : Item.ofPkt dbg (net s) = .ok ⟨s.parts, s.bytes⟩ := by
  unfold Item.ofPkt NetPkt.parts net
  simp only [parts_layout dbg s.valid]
  rfl

theorem partsPrivate (s : Sent) : s.parts.parts.checkPrivate = if s.Secret then .error .privateGroup else .ok () := by
  have := checkPrivate_sent s
  obtain ⟨nh, h, c, h1, h2, hv⟩ := s
  unfold Sent.parts Parts.checkPrivate Sent.Secret
  cases c with
  | data b => rfl
  | error b => rfl
  | link c => simp only [Content.parts, Content.fields, Content.group?, privateGroup_eq, Option.some.injEq]; exact ite_congr rfl (fun _ => rfl) (fun _ => rfl)
  | key c pk sig => simp only [Content.parts, Content.fields, Content.group?, privateGroup_eq, Option.some.injEq]; exact ite_congr rfl (fun _ => rfl) (fun _ => rfl)

theorem goesOut_iff {o : IoOpts} {s : Sent} : goesOut o s = true ↔ (s.Secret → LetsOut o) := by
  unfold goesOut; exact decide_eq_true_iff

theorem passPrivate_eq {o : IoOpts} {s : Sent} (h : s.Secret → ¬ Forbids o) : passPrivate o s.parts = .ok (goesOut o s) := by
  have hg : ∀ b : Bool, ((s.Secret → LetsOut o) ↔ b = true) → goesOut o s = b := by
    intro b hb
    rw [← goesOut_iff] at hb
    cases b <;> simpa using hb
  unfold passPrivate
  rw [partsPrivate]
  obtain ⟨priv, pw, pr, hop, sk⟩ := o
  unfold IoOpts.writes
  cases priv with
  | true => rw [hg true (by simp [LetsOut])]; rfl
  | false =>
    cases pw with
    | none =>
      by_cases hs : s.Secret
      · rw [hg false (by simp [LetsOut, hs]), if_pos hs]; rfl
      · rw [hg true (by simp [hs]), if_neg hs]; rfl
    | some b =>
      cases b with
      | true => rw [hg true (by simp [LetsOut])]; rfl
      | false =>
        by_cases hs : s.Secret
        · exact absurd ⟨rfl, rfl⟩ (h hs)
        · rw [hg true (by simp [hs]), if_neg hs]; rfl

theorem passPrivate_forbids {o : IoOpts} {s : Sent} (hs : s.Secret) (h : Forbids o) : passPrivate o s.parts = .error (.err ()) := by
  unfold passPrivate
  rw [partsPrivate, if_pos hs]
  unfold IoOpts.writes
  rw [h.1, h.2]
  rfl

/-- What a packet adds to the files. -/
theorem writeMulti_lines (y : Sys) {o : IoOpts} {ds : List Dest} {s : Sent} {l : List (Bytes × Bytes)} (hl : Lines ds s l)
    (h : s.Secret → ¬ Forbids o) (w : World) :
    writeMulti y o ds ⟨s.parts, s.bytes⟩ w = ({ w with outs := w.outs ++ (if goesOut o s then l else []) }, .ok ()) := by
  induction hl generalizing w with
  | nil s => unfold writeMulti; simp
  | bytes f hl ih =>
    unfold writeMulti writeDest
    rw [passPrivate_eq h]
    cases hg : goesOut o _ with
    | false =>
      simp only [Left.next, ih h, hg]
      simp
    | true =>
      simp only [Left.next, Left.get, Dest.text, ih h, hg]
      simp
  | expr f hb hl ih =>
    unfold writeMulti writeDest
    rw [passPrivate_eq h]
    cases hg : goesOut o _ with
    | false =>
      simp only [Left.next, ih h, hg]
      simp
    | true =>
      simp only [Left.next, Left.get, Dest.text, hb, ih h, hg]
      simp

/-! ### running a command -/

theorem runCmd_ok {C : Crypto} {dbg : Bool} {o : IoOpts} {ss : List Sent} (h : Admits C o ss) {i : PktIn} {rest : Bytes}
    (hi : Feeds i (streamOf ss ++ rest)) (hr : rest.length < 68) {σ : Type} {step : World × σ → NetPkt → (World × σ) × PRes Bool} {s s' : σ} {w w' : World}
    (he : each step (w, s) ((ss.map (arrive (o.hop.getD false))).map net) none = ((w', s'), .ok ())) :
    runCmd C dbg o i step s w = (w', .ok ()) := by
  unfold runCmd
  rw [input_feeds dbg h hi hr]
  simp only [← List.map_map, he]

theorem runCmd_spoiled {C : Crypto} {dbg : Bool} {o : IoOpts} {ss : List Sent} (h : Admits C o ss) {i i' : PktIn} {rest rest' : Bytes}
    (hi : Feeds i (streamOf ss ++ rest')) (hr' : rest'.length < 68) (hi' : Feeds i' (streamOf ss ++ rest)) (hr : Spoils C o rest) {σ : Type}
    {step : World × σ → NetPkt → (World × σ) × PRes Bool} (hgo : ∀ s q, (step s q).2 ≠ .ok false) {s : σ} {w w' : World}
    (he : runCmd C dbg o i step s w = (w', .ok ())) : runCmd C dbg o i' step s w = (w', .error (.err ())) := by
  unfold runCmd at he ⊢
  obtain ⟨e, hne, hx⟩ := input_spoiled dbg h hi' hr
  rw [input_feeds dbg h hi hr'] at he
  rw [hx]
  simp only at he ⊢
  generalize hq : each step (w, s) (ss.map (net ∘ arrive (o.hop.getD false))) none = x at he
  obtain ⟨⟨w1, s1⟩, r⟩ := x
  cases he
  rw [each_spoiled hgo hq hne]

/-- An error at the end of the input changes nothing about what was done before; a command that has stopped does not meet it. -/
theorem each_spoiled_or {σ : Type} {step : σ → NetPkt → σ × PRes Bool} {s s' : σ} {qs : List NetPkt}
    (h : each step s qs none = (s', .ok ())) {e : DecError} (he : e ≠ .pkt .panic) :
    each step s qs (some e) = (s', .error (.err ())) ∨ each step s qs (some e) = (s', .ok ()) := by
  induction qs generalizing s with
  | nil =>
    rw [each] at h
    cases h
    rw [each]
    · exact .inl rfl
    · exact he
  | cons q qs ih =>
    rw [each] at h ⊢
    generalize hx : step s q = x at h
    obtain ⟨s1, r⟩ := x
    cases r with
    | error x => cases h
    | ok b =>
      cases b with
      | true => exact ih h
      | false => exact .inr h

theorem runCmd_spoiled_or {C : Crypto} {dbg : Bool} {o : IoOpts} {ss : List Sent} (h : Admits C o ss) {i i' : PktIn} {rest rest' : Bytes}
    (hi : Feeds i (streamOf ss ++ rest')) (hr' : rest'.length < 68) (hi' : Feeds i' (streamOf ss ++ rest)) (hr : Spoils C o rest) {σ : Type}
    {step : World × σ → NetPkt → (World × σ) × PRes Bool} {s : σ} {w w' : World}
    (he : runCmd C dbg o i step s w = (w', .ok ())) :
    runCmd C dbg o i' step s w = (w', .error (.err ())) ∨ runCmd C dbg o i' step s w = (w', .ok ()) := by
  unfold runCmd at he ⊢
  obtain ⟨e, hne, hx⟩ := input_spoiled dbg h hi' hr
  rw [input_feeds dbg h hi hr'] at he
  rw [hx]
  simp only at he ⊢
  generalize hq : each step (w, s) (ss.map (net ∘ arrive (o.hop.getD false))) none = x at he
  obtain ⟨⟨w1, s1⟩, r⟩ := x
  cases he
  rcases each_spoiled_or hq hne with h | h <;> rw [h]
  · exact .inl rfl
  · exact .inr rfl

/-! ### dedup -/

/-- The line of a file that a packet adds. -/
def outLines (o : IoOpts) (lines : Sent → List (Bytes × Bytes)) (s : Sent) : List (Bytes × Bytes) := if goesOut o s then lines s else []

theorem dedupRun_snoc {b b' : List Bytes} {hist : List Bytes} (h : Stream.dedupRun b hist = .ok b') (x : Bytes) :
    Stream.dedupRun b (hist ++ [x]) = match Stream.dedup b' x with | .ok (_, c) => .ok c | .error e => .error e := by
  induction hist generalizing b with
  | nil =>
    cases h
    simp only [List.nil_append, Stream.dedupRun]
    cases Stream.dedup b' x <;> rfl
  | cons y hist ih =>
    simp only [List.cons_append, Stream.dedupRun] at h ⊢
    split at h
    · exact ih h
    · cases h

theorem dedup_each (dbg : Bool) (y : Sys) {o : IoOpts} {ds : List Dest} {lines : Sent → List (Bytes × Bytes)} {cap : Nat} (hc : cap ≠ 0)
    (ts : List Sent) (hl : Writes ds ts lines) (hp : ∀ s ∈ ts, s.Secret → ¬ Forbids o) (hist : List Bytes) (b : List Bytes)
    (hb : Stream.dedupRun (Stream.dedupNew cap) hist = .ok b) (w : World) :
    ∃ out b', Deduped cap hist ts out ∧ each (dedupStep dbg y o ds) (w, b) (ts.map net) none =
      (({ w with outs := w.outs ++ out.flatMap (outLines o lines) }, b'), .ok ()) := by
  induction ts generalizing hist b w with
  | nil => exact ⟨[], b, .nil _, by simp [each]⟩
  | cons s ts ih =>
    obtain ⟨r, b1, h1, h2⟩ := dedup_iff cap hist b hb hc s.hash
    have hb1 : Stream.dedupRun (Stream.dedupNew cap) (hist ++ [s.hash]) = .ok b1 := by rw [dedupRun_snoc hb, h1]
    have hl' : Writes ds ts lines := fun x hx => hl x (by simp [hx])
    have hp' : ∀ s ∈ ts, s.Secret → ¬ Forbids o := fun x hx => hp x (by simp [hx])
    cases r with
    | true =>
      obtain ⟨out, b', h3, h4⟩ := ih hl' hp' _ _ hb1 w
      refine ⟨out, b', .drop (h2.1 rfl) h3, ?_⟩
      rw [List.map_cons, each_ok (s' := (w, b1)) ?_, h4]
      unfold dedupStep
      simp only [show (net s).hash = s.hash from rfl, h1]
    | false =>
      obtain ⟨out, b', h3, h4⟩ := ih hl' hp' _ _ hb1 { w with outs := w.outs ++ outLines o lines s }
      refine ⟨s :: out, b', .keep (fun hx => Bool.noConfusion (h2.2 (.inl hx))) (fun hx => Bool.noConfusion (h2.2 (.inr hx))) h3, ?_⟩
      rw [List.map_cons, each_ok (s' := ({ w with outs := w.outs ++ outLines o lines s }, b1)) ?_, h4]
      · simp only [List.flatMap_cons, List.append_assoc]
      · unfold dedupStep
        simp only [show (net s).hash = s.hash from rfl, h1, ofPkt_net, writeMulti_lines y (hl s (by simp)) (hp s (by simp)) w, onward]
        rfl

/-! ### filter -/

theorem isDatapoint_iff (s : Sent) : isDatapoint s.parts = true ↔ s.IsData := by
  obtain ⟨nh, h, c, h1, h2, hv⟩ := s
  unfold isDatapoint Sent.parts Sent.IsData
  cases c <;> simp [Content.parts, Content.fields]

theorem sieve_exists (rs : List Stmt) (allow : Bool) (clock : Nat → Nat) (ts : List Sent) (n k : Nat) :
    ∃ ms, Sieved rs allow clock n k ms ∧ ms.map (·.1) = ts := by
  induction ts generalizing n k with
  | nil => exact ⟨[], .nil _ _, rfl⟩
  | cons s ts ih =>
    by_cases hd : allow = true ∧ s.IsData
    · obtain ⟨ms, h1, h2⟩ := ih n k
      exact ⟨(s, true) :: ms, .data hd.1 hd.2 h1, by simp [h2]⟩
    · by_cases hm : Meets rs (clock n) s.parts
      · obtain ⟨ms, h1, h2⟩ := ih (n + 1) (k + 1)
        by_cases hc : (∀ r ∈ rs, CountOk .new r k) ∧ ∀ r ∈ rs, CountOk .query r k
        · exact ⟨(s, true) :: ms, .hit hd hm ⟨fun _ => hc, fun _ => rfl⟩ h1, by simp [h2]⟩
        · exact ⟨(s, false) :: ms, .hit hd hm ⟨nofun, fun h => absurd h hc⟩ h1, by simp [h2]⟩
      · obtain ⟨ms, h1, h2⟩ := ih (n + 1) k
        exact ⟨(s, false) :: ms, .pass hd hm h1, by simp [h2]⟩

theorem accepts_zero {rs : List Stmt} {k : Nat} : Accepts rs 0 k ↔ (∀ r ∈ rs, CountOk .new r k) ∧ ∀ r ∈ rs, CountOk .query r k := by
  unfold Accepts
  rw [Nat.zero_add]

theorem sieved_dead {rs : List Stmt} {allow : Bool} {clock : Nat → Nat} {n k : Nat} {ms : List (Sent × Bool)} (h : Sieved rs allow clock n k ms)
    (hk : ∀ i, k ≤ i → i < 2 ^ 32 → ¬ Accepts rs 0 i) (hb : k + ms.length < 2 ^ 32) : ∀ x ∈ ms, x.2 = true → allow = true ∧ x.1.IsData := by
  induction h with
  | nil n k => intro x hx; cases hx
  | data ha hd _ ih =>
    intro x hx ht
    cases hx with
    | head => exact ⟨ha, hd⟩
    | tail _ hx => exact ih hk (by simp at hb; omega) x hx ht
  | pass _ _ _ ih =>
    intro x hx ht
    cases hx with
    | head => cases ht
    | tail _ hx => exact ih hk (by simp at hb; omega) x hx ht
  | hit _ _ hc _ ih =>
    intro x hx ht
    cases hx with
    | head => exact absurd (accepts_zero.2 (hc.1 ht)) (hk _ (Nat.le_refl _) (by omega))
    | tail _ hx => exact ih (fun i hi => hk i (by omega)) (by simp at hb; omega) x hx ht

theorem sieved_late {rs : List Stmt} {allow : Bool} {clock : Nat → Nat} (hmono : ∀ a b, a ≤ b → clock a ≤ clock b) (hclock : ∀ n, clock n < 2 ^ 64)
    {n k m : Nat} {ms : List (Sent × Bool)} (h : Sieved rs allow clock n k ms) (hm : m ≤ n)
    (hk : ∀ t, clock m ≤ t → t < 2 ^ 64 → ¬ ∀ r ∈ rs, RecvOk r t) : ∀ x ∈ ms, x.2 = true → allow = true ∧ x.1.IsData := by
  induction h with
  | nil n k => intro x hx; cases hx
  | data ha hd _ ih =>
    intro x hx ht
    cases hx with
    | head => exact ⟨ha, hd⟩
    | tail _ hx => exact ih hm x hx ht
  | pass _ _ _ ih =>
    intro x hx ht
    cases hx with
    | head => cases ht
    | tail _ hx => exact ih (by omega) x hx ht
  | hit _ hme _ _ ih =>
    obtain ⟨_, _, _, hr⟩ := hme
    exact absurd hr (hk _ (hmono _ _ hm) (hclock _))

/-- What a packet and its mark add to the files. -/
def sieveOut (o : IoOpts) (lt lf : Sent → List (Bytes × Bytes)) (x : Sent × Bool) : List (Bytes × Bytes) :=
  outLines o (if x.2 then lt else lf) x.1

theorem filter_each (dbg : Bool) (y : Sys) {o : IoOpts} {f : Filter} (hlive : f.live = false) {lt lf : Sent → List (Bytes × Bytes)} {clock : Nat → Nat}
    (hmono : ∀ a b, a ≤ b → clock a ≤ clock b) (hclock : ∀ n, clock n < 2 ^ 64)
    {rs : List Stmt} {p : Preds} (hrun : Preds.default.run true rs = .ok p) (hr : ∀ r ∈ rs, Plain r) (hnew : SomePosition .new rs)
    (ts : List Sent) (hlt : Writes f.write ts lt) (hlf : Writes f.writeFalse ts lf) (hp : ∀ s ∈ ts, s.Secret → ¬ Forbids o)
    (hs : ∀ s ∈ ts, ∃ x, Shows s.parts x) (w : World) (e : Watch Unit) (n k : Nat) (he : Stands p 0 k e) (hb : k + ts.length + 1 < 2 ^ 32) :
    ∃ ms tail e' n', ts = ms.map (·.1) ++ tail.map (·.1) ∧ Sieved rs f.allowDatapoint clock n k (ms ++ tail) ∧
      each (filterStep dbg y o clock f) (w, e, n) (ts.map net) none = (({ w with outs := w.outs ++ ms.flatMap (sieveOut o lt lf) }, e', n'), .ok ()) ∧
      (∀ x ∈ tail, x.2 = true → f.allowDatapoint = true ∧ x.1.IsData) ∧
      (tail = [] ∨ (∃ k0, k0 ≤ k + ts.length ∧ ∀ i, k0 ≤ i → i < 2 ^ 32 → ¬ Accepts rs 0 i) ∨
        ∃ m, n ≤ m ∧ ∀ t, clock m ≤ t → t < 2 ^ 64 → ¬ ∀ r ∈ rs, RecvOk r t) := by
  induction ts generalizing w e n k with
  | nil => exact ⟨[], [], e, n, rfl, .nil _ _, by simp [each], by simp, .inl rfl⟩
  | cons s ts ih =>
    have ihlt : Writes f.write ts lt := fun x hx => hlt x (by simp [hx])
    have ihlf : Writes f.writeFalse ts lf := fun x hx => hlf x (by simp [hx])
    have ihp : ∀ s ∈ ts, s.Secret → ¬ Forbids o := fun x hx => hp x (by simp [hx])
    have ihs : ∀ s ∈ ts, ∃ x, Shows s.parts x := fun x hx => hs x (by simp [hx])
    simp only [List.length_cons] at hb
    by_cases hd : f.allowDatapoint = true ∧ s.IsData
    · obtain ⟨ms, tail, e', n', h1, h2, h3, h4, h5⟩ := ih ihlt ihlf ihp ihs { w with outs := w.outs ++ outLines o lt s } e n k he (by omega)
      refine ⟨(s, true) :: ms, tail, e', n', by simp [h1], .data hd.1 hd.2 h2, ?_, h4, ?_⟩
      · rw [List.map_cons, each_ok (s' := ({ w with outs := w.outs ++ outLines o lt s }, e, n)) ?_, h3]
        · simp only [List.flatMap_cons, List.append_assoc, sieveOut, if_true]
        · unfold filterStep
          simp only [ofPkt_net, hd.1, (isDatapoint_iff s).2 hd.2, Bool.and_self, if_true, writeMulti_lines y (hlt s (by simp)) (hp s (by simp)) w, onward]
          rfl
      · refine h5.imp_right (Or.imp_left ?_)
        rintro ⟨k0, a, b⟩
        exact ⟨k0, by simp; omega, b⟩
    · have hnd : (f.allowDatapoint && isDatapoint s.parts) = false := by
        cases hx : (f.allowDatapoint && isDatapoint s.parts) with
        | false => rfl
        | true =>
          rw [Bool.and_eq_true, isDatapoint_iff] at hx
          exact absurd hx hd
      obtain ⟨e1, ok, over, k1, ht, hst, -, -, hcase⟩ := test_step hrun hr hnew he (clock n, s.parts) (hclock n) (hs s (by simp)) (by omega)
      simp only at ht hcase
      have hw1 : writeMulti y o (if ok then f.write else f.writeFalse) ⟨s.parts, s.bytes⟩ w =
          ({ w with outs := w.outs ++ sieveOut o lt lf (s, ok) }, .ok ()) := by
        cases ok with
        | true => exact writeMulti_lines y (hlt s (by simp)) (hp s (by simp)) w
        | false => exact writeMulti_lines y (hlf s (by simp)) (hp s (by simp)) w
      have hstep : filterStep dbg y o clock f (w, e, n) (net s) = (({ w with outs := w.outs ++ sieveOut o lt lf (s, ok) }, e1, n + 1), .ok (!over)) := by
        unfold filterStep
        simp only [ofPkt_net, hnd, Bool.false_eq_true, if_false, ht, hw1]
        have : (if ok then relive f s.parts e1 else .ok (some e1)) = .ok (some e1) := by
          unfold relive
          rw [hlive]
          cases ok <;> rfl
        rw [this]
      have hk1 : k1 ≤ k + 1 := by rcases hcase with ⟨_, _, rfl, _⟩ | ⟨_, rfl, _⟩ <;> omega
      have hsieve : ∀ ms, Sieved rs f.allowDatapoint clock (n + 1) k1 ms → Sieved rs f.allowDatapoint clock n k ((s, ok) :: ms) := by
        intro ms hms
        rcases hcase with ⟨hnm, rfl, rfl, _⟩ | ⟨hm, rfl, hok, _⟩
        · exact .pass hd hnm hms
        · exact .hit hd hm (hok.trans accepts_zero) hms
      cases over with
      | false =>
        obtain ⟨ms, tail, e', n', h1, h2, h3, h4, h5⟩ :=
          ih ihlt ihlf ihp ihs { w with outs := w.outs ++ sieveOut o lt lf (s, ok) } e1 (n + 1) k1 hst (by omega)
        refine ⟨(s, ok) :: ms, tail, e', n', by simp [h1], hsieve _ h2, ?_, h4, ?_⟩
        · rw [List.map_cons, each_ok hstep, h3]
          simp only [List.flatMap_cons, List.append_assoc]
        · refine h5.imp_right (Or.imp ?_ ?_)
          · rintro ⟨k0, a, b⟩
            exact ⟨k0, by simp; omega, b⟩
          · rintro ⟨m, a, b⟩
            exact ⟨m, by omega, b⟩
      | true =>
        obtain ⟨tail, ht1, ht2⟩ := sieve_exists rs f.allowDatapoint clock ts (n + 1) k1
        have htl : tail.length = ts.length := by rw [← ht2, List.length_map]
        refine ⟨[(s, ok)], tail, e1, n + 1, by simp [ht2], hsieve _ ht1, ?_, ?_, ?_⟩
        · rw [List.map_cons, each, hstep]
          simp
        · rcases hcase with ⟨_, _, rfl, hov⟩ | ⟨_, rfl, _, _, hov⟩
          · exact sieved_late hmono hclock ht1 (Nat.le_succ n) (hov rfl)
          · exact sieved_dead ht1 (fun i hi hi2 => hov rfl i hi (by omega)) (by omega)
        · refine .inr ?_
          rcases hcase with ⟨_, _, rfl, hov⟩ | ⟨_, rfl, _, _, hov⟩
          · exact .inr ⟨n, Nat.le_refl _, hov rfl⟩
          · exact .inl ⟨k + 1, by simp, fun i hi hi2 => hov rfl i hi (by omega)⟩

/-! ### save -/

theorem saveOne_ok {y : Sys} (hio : ∀ n m, y.io n m = .ok) {w : World} (hc : Spec.Consistent w.db) (s : Sent)
    (hnow : ∀ e ∈ w.db.log, e.1 < y.now w.saves) (hbig : y.now w.saves + 1 < 2 ^ 64) :
    ∃ db, saveOne y w s.parts = ({ w with db, saves := w.saves + 1 }, .ok (!(hashesOf w.db.log).contains s.hash)) ∧ Spec.Consistent db ∧
      db.log = w.db.log ++ (if s.hash ∈ hashesOf w.db.log then [] else [(y.now w.saves, s.parts)]) := by
  have hst : startStamp (y.now w.saves) w.db.log = .ok (y.now w.saves) := by
    unfold startStamp
    cases hl : lastStamp w.db.log with
    | none => rfl
    | some last =>
      simp only [lastStamp, Option.map_eq_some_iff] at hl
      obtain ⟨e, he, rfl⟩ := hl
      have := hnow e (List.mem_of_getLast? he)
      simp only
      rw [if_neg (by omega)]
  have hnl : lastStamp w.db.log ≠ some (y.now w.saves) := by
    intro hl
    simp only [lastStamp, Option.map_eq_some_iff] at hl
    obtain ⟨e, he, hx⟩ := hl
    have := hnow e (List.mem_of_getLast? he)
    omega
  have hN : newsOf w.db ([s.parts].map (fun p => (p, SaveState.pending))) = if s.hash ∈ hashesOf w.db.log then [] else [s.parts] := by
    simp only [newsOf, pendings, List.map_cons, List.map_nil, List.filterMap_cons, List.filterMap_nil, if_true, news]
    rfl
  obtain ⟨⟨a, b⟩, hout⟩ := (save_succeeds_iff hc (hio w.saves) (y.now w.saves) ([s.parts].map (fun p => (p, SaveState.pending)))).2
    ⟨_, hst, .inr ⟨by rw [hN]; split <;> simp <;> omega, hnl⟩⟩
  have hcons := save_consistent hc (y.io w.saves) (y.now w.saves) ([s.parts].map (fun p => (p, SaveState.pending)))
  have hlk : ∃ r, (lkSave (y.io w.saves) (y.now w.saves) w.db s.parts).2 = .ok r := by
    unfold lkSave saveAll
    obtain ⟨st, h1, -⟩ := save_states (batch := [s.parts]) hc hout 0 s.parts rfl
    unfold saveAll at h1
    simp only [hout]
    cases hp : (save (y.io w.saves) (y.now w.saves) w.db ([s.parts].map (fun p => (p, SaveState.pending)))).pkts with
    | nil => rw [hp] at h1; cases h1
    | cons x l => exact ⟨_, rfl⟩
  obtain ⟨r, hr⟩ := hlk
  have hnew := (lk_save_new hc hr).1
  have hread : w.db.read s.parts.hash = none ↔ s.hash ∉ hashesOf w.db.log := by
    rw [Option.eq_none_iff_forall_ne_some]
    simp only [hashesOf, List.mem_map, Prod.exists, not_exists]
    constructor
    · rintro h i p ⟨hp, hh⟩
      exact h (i, p) ((read_hash_iff hc _ _ _).2 ⟨hp, hh⟩)
    · intro h ⟨i, p⟩ hx
      obtain ⟨a1, a2⟩ := (read_hash_iff hc _ _ _).1 hx
      exact h i p ⟨a1, a2⟩
  have hreq : r = !(hashesOf w.db.log).contains s.hash := by
    rw [hread] at hnew
    cases r with
    | true => simp [hnew.1 rfl]
    | false =>
      have : s.hash ∈ hashesOf w.db.log := Classical.byContradiction fun hx => Bool.noConfusion (hnew.2 hx)
      simp [this]
  refine ⟨(lkSave (y.io w.saves) (y.now w.saves) w.db s.parts).1, ?_, hcons, ?_⟩
  · unfold saveOne
    simp only [hr, hreq]
  · rcases save_log hc (y.io w.saves) (y.now w.saves) ([s.parts].map (fun p => (p, SaveState.pending))) with h | ⟨a', h, h0⟩
    · rcases save_cases hc (y.io w.saves) (y.now w.saves) ([s.parts].map (fun p => (p, SaveState.pending))) with ⟨_, e, h1⟩ | ⟨a1, h0, h1, _⟩
      · rw [hout] at h1; cases h1
      · rw [hst] at h0
        cases h0
        rw [hN] at h1
        show (save _ _ _ _).disk.log = _
        rw [h1]
        unfold added
        simp only
        split <;> rfl
    · rw [hst] at h0
      cases h0
      show (save _ _ _ _).disk.log = _
      rw [h, hN]
      split <;> rfl

theorem news_same {a b : List Bytes} (h : ∀ x, x ∈ a ↔ x ∈ b) (ps : List NetParts) : news a ps = news b ps := by
  induction ps generalizing a b with
  | nil => rfl
  | cons p ps ih =>
    rw [news, news]
    by_cases hp : p.hash ∈ a
    · rw [if_pos hp, if_pos ((h _).1 hp)]; exact ih h
    · rw [if_neg hp, if_neg (fun hx => hp ((h _).2 hx))]
      congr 1
      exact ih fun x => by rw [List.mem_cons, List.mem_cons, h]

theorem save_each (dbg : Bool) {y : Sys} (hio : ∀ n m, y.io n m = .ok) {o : IoOpts}
    {new old : List Dest} {ln lo : Sent → List (Bytes × Bytes)} (ts : List Sent) (hln : Writes new ts ln) (hlo : Writes old ts lo)
    (hp : ∀ s ∈ ts, s.Secret → ¬ Forbids o) (w : World) (hc : Spec.Consistent w.db) (hnow : ∀ e ∈ w.db.log, e.1 < y.now w.saves)
    (hmono : ∀ n, n < w.saves + ts.length → y.now n < y.now (n + 1)) (hbig : ∀ n, n ≤ w.saves + ts.length → y.now n + 1 < 2 ^ 64) (known : List Bytes) (hk : ∀ h, h ∈ known ↔ h ∈ hashesOf w.db.log) :
    ∃ db n L, each (saveStep dbg y o new old) (w, ()) (ts.map net) none =
        (({ w with db, saves := n, outs := w.outs ++ (markNew known ts).flatMap (sieveOut o ln lo) }, ()), .ok ()) ∧
      Spec.Consistent db ∧ db.log = w.db.log ++ L ∧ L.map (·.2) = news known (ts.map Sent.parts) := by
  induction ts generalizing w known with
  | nil => exact ⟨w.db, w.saves, [], by simp [each, markNew], hc, by simp, rfl⟩
  | cons s ts ih =>
    obtain ⟨db, h1, h2, h3⟩ := saveOne_ok hio hc s hnow (hbig _ (by omega))
    have hkc : (hashesOf w.db.log).contains s.hash = known.contains s.hash := by
      have := hk s.hash
      rw [Bool.eq_iff_iff, List.contains_iff_mem, List.contains_iff_mem]
      exact this.symm
    have hstep : saveStep dbg y o new old (w, ()) (net s) =
        (({ w with db, saves := w.saves + 1, outs := w.outs ++ sieveOut o ln lo (s, !known.contains s.hash) }, ()), .ok true) := by
      unfold saveStep
      simp only [ofPkt_net, h1, hkc]
      cases hb : known.contains s.hash with
      | true =>
        simp only [Bool.not_true, Bool.false_eq_true, if_false, writeMulti_lines y (hlo s (by simp)) (hp s (by simp)), onward]
        rfl
      | false =>
        simp only [Bool.not_false, if_true, writeMulti_lines y (hln s (by simp)) (hp s (by simp)), onward]
        rfl
    have hnow' : ∀ e ∈ db.log, e.1 < y.now (w.saves + 1) := by
      intro e he
      rw [h3] at he
      rcases List.mem_append.1 he with he | he
      · exact Nat.lt_trans (hnow e he) (hmono _ (by simp))
      · split at he
        · cases he
        · obtain rfl : e = _ := by simpa using he
          exact hmono _ (by simp)
    have hk' : ∀ h, h ∈ s.hash :: known ↔ h ∈ hashesOf db.log := by
      intro h
      rw [h3, List.mem_cons, hk]
      by_cases hm : s.hash ∈ hashesOf w.db.log
      · rw [if_pos hm, List.append_nil]
        exact ⟨fun hx => hx.elim (fun hx => hx ▸ hm) id, .inr⟩
      · rw [if_neg hm]
        simp only [hashesOf, List.map_append, List.mem_append, List.map_cons, List.map_nil, List.mem_singleton]
        exact or_comm
    obtain ⟨db', n', L, i1, i2, i3, i4⟩ := ih (fun x hx => hln x (by simp [hx])) (fun x hx => hlo x (by simp [hx])) (fun x hx => hp x (by simp [hx]))
      { w with db, saves := w.saves + 1, outs := w.outs ++ sieveOut o ln lo (s, !known.contains s.hash) } h2 hnow'
      (fun n hn => hmono n (by simp at hn ⊢; omega)) (fun n hn => hbig n (by simp at hn ⊢; omega)) (s.hash :: known) hk'
    refine ⟨db', n', (if s.hash ∈ hashesOf w.db.log then [] else [(y.now w.saves, s.parts)]) ++ L, ?_, i2, ?_, ?_⟩
    · rw [List.map_cons, each_ok hstep, i1]
      simp only [markNew, List.flatMap_cons, List.append_assoc]
    · rw [i3, h3, List.append_assoc]
    · rw [List.map_append, i4, List.map_cons, news]
      by_cases hm : s.hash ∈ hashesOf w.db.log
      · rw [if_pos hm, if_pos (show s.parts.hash ∈ known from (hk _).2 hm)]
        simp only [List.map_nil, List.nil_append]
        exact news_same (fun h => by
          rw [List.mem_cons]
          exact ⟨fun hx => hx.elim (fun hx => hx ▸ (hk _).2 hm) id, .inr⟩) _
      · rw [if_neg hm, if_neg (show ¬ s.parts.hash ∈ known from fun hx => hm ((hk _).1 hx))]
        rfl

/-! ### route and pktf -/

theorem route_each (dbg : Bool) (y : Sys) {o : IoOpts} (hpriv : o.writes = some true) (m : Mutate) (hm : ∀ h, h.length = 32 → (m.apply h).length = 32)
    (ts : List Sent) (w : World) :
    each (routeStep dbg y o m) (w, ()) (ts.map net) none =
      (({ w with outs := w.outs ++ ts.map fun s => (stdout, m.apply s.nh ++ s.hash ++ s.c.layout) }, ()), .ok ()) := by
  induction ts generalizing w with
  | nil => simp [each]
  | cons s ts ih =>
    rw [List.map_cons, each_ok (s' := ({ w with outs := w.outs ++ [(stdout, m.apply s.nh ++ s.hash ++ s.c.layout)] }, ())) ?_, ih]
    · simp
    · have := ofPkt_net dbg (s.routed (m.apply s.nh) (hm _ s.nhLen))
      unfold net Sent.routed at this
      unfold routeStep net
      simp only at this ⊢
      rw [this]
      have hx : ∀ p, passPrivate o p = .ok true := by intro p; unfold passPrivate; rw [hpriv]
      simp only [onward, writeDest, hx, Dest.text, Left.get]
      rfl

theorem prints_text {f : Fmt} {s : Sent} {t : Bytes} (h : Prints f s t) : f.text s.parts = .ok t := by
  unfold Fmt.text
  rcases h with ⟨g, hg, rfl⟩ | ⟨hf, g, hg, ht⟩
  · rw [hg]
  · rw [hf]
    have : (if s.parts.parts.header.ptype = tData then some f.data else if s.parts.parts.header.ptype = tLink then some f.link
        else if s.parts.parts.header.ptype = tKey then some f.key else none) = some g := by
      rw [← hg]
      unfold Sent.parts
      cases s.c <;> rfl
    simp only [this]
    rcases ht with ht | ⟨ht, he⟩
    · rw [ht]
    · rw [ht, he]

/-- The texts of packets, with the delimiter after each or between them. -/
def joinTexts (join : Bool) (delim : Bytes) (first : Bool) : List Bytes → Bytes
  | [] => []
  | b :: bs => (if join then (if first then [] else delim) ++ b else b ++ delim) ++ joinTexts join delim false bs

/-- Where the texts go, and where the packets. -/
def Fmt.target (f : Fmt) : Bytes := if f.inspect then stderr else stdout
def Fmt.onward (f : Fmt) : List Dest := if f.inspect then f.forward ++ [{ out := .fd stdout }] else f.forward

theorem pktf_each (dbg : Bool) (y : Sys) {o : IoOpts} (wp : Bool) {f : Fmt} {lines : Sent → List (Bytes × Bytes)}
    (ts : List Sent) (hl : Writes f.onward ts lines) (hp : ∀ s ∈ ts, s.Secret → wp = true → ¬ Forbids o) {text : Sent → Bytes}
    (ht : ∀ s ∈ ts, (s.Secret → wp = true) → f.text s.parts = .ok (text s)) (w : World) (first : Bool) :
    ∃ (l : List (Sent × Bytes)) (first' : Bool), each (pktfStep dbg y o wp f) (w, first) (ts.map net) none =
        (({ w with outs := w.outs ++ l.flatMap fun x => (f.target, x.2) :: outLines o lines x.1 }, first'), .ok ()) ∧
      l.map (·.1) = (ts.filter fun s => decide (s.Secret → wp = true)) ∧
      l.flatMap (·.2) = joinTexts f.join f.delimiter first ((ts.filter fun s => decide (s.Secret → wp = true)).map text) := by
  induction ts generalizing w first with
  | nil => exact ⟨[], first, by simp [each], rfl, rfl⟩
  | cons s ts ih =>
    have ht' : ∀ s ∈ ts, (s.Secret → wp = true) → f.text s.parts = .ok (text s) := fun x hx => ht x (by simp [hx])
    have hl' : Writes f.onward ts lines := fun x hx => hl x (by simp [hx])
    have hp' : ∀ s ∈ ts, s.Secret → wp = true → ¬ Forbids o := fun x hx => hp x (by simp [hx])
    by_cases hs : s.Secret → wp = true
    · have hstep : pktfStep dbg y o wp f (w, first) (net s) =
          (({ w with outs := w.outs ++ (f.target, if f.join then (if first then [] else f.delimiter) ++ text s else text s ++ f.delimiter) :: outLines o lines s }, false), .ok true) := by
        unfold pktfStep
        rw [ofPkt_net]
        simp only [partsPrivate]
        have hw := writeMulti_lines y (hl s (by simp)) (fun h => hp s (by simp) h (hs h))
          { w with outs := w.outs ++ [(f.target, if f.join then (if first then [] else f.delimiter) ++ text s else text s ++ f.delimiter)] }
        unfold Fmt.onward Fmt.target at hw
        by_cases hx : s.Secret
        · rw [if_pos hx, hs hx]
          simp only [Bool.not_true, Bool.false_and, Bool.false_eq_true, if_false, ht s (by simp) hs, hw, Cmd.onward, List.append_assoc]
          rfl
        · rw [if_neg hx]
          simp only [Bool.and_false, Bool.false_eq_true, if_false, ht s (by simp) hs, hw, Cmd.onward, List.append_assoc]
          rfl
      obtain ⟨l, first', h1, h2, h3⟩ := ih hl' hp' ht' { w with outs := w.outs ++ (f.target, if f.join then (if first then [] else f.delimiter) ++ text s else text s ++ f.delimiter) :: outLines o lines s } false
      refine ⟨(s, if f.join then (if first then [] else f.delimiter) ++ text s else text s ++ f.delimiter) :: l, first', ?_, ?_, ?_⟩
      · rw [List.map_cons, each_ok hstep, h1]
        simp
      · rw [List.filter_cons, if_pos (decide_eq_true hs), List.map_cons, h2]
      · rw [List.filter_cons, if_pos (decide_eq_true hs), List.map_cons, joinTexts, List.flatMap_cons, h3]
    · obtain ⟨l, first', h1, h2, h3⟩ := ih hl' hp' ht' w first
      refine ⟨l, first', ?_, ?_, ?_⟩
      · rw [List.map_cons, each_ok (s' := (w, first)) ?_, h1]
        unfold pktfStep
        rw [ofPkt_net]
        simp only [partsPrivate]
        have hx : s.Secret ∧ wp = false := by
          apply Classical.byContradiction
          intro hx
          refine hs fun hsec => ?_
          cases wp with
          | true => rfl
          | false => exact absurd ⟨hsec, rfl⟩ hx
        rw [if_pos hx.1, hx.2]
        rfl
      · rw [List.filter_cons, if_neg (by rw [decide_eq_true_iff]; exact hs), h2]
      · rw [List.filter_cons, if_neg (by rw [decide_eq_true_iff]; exact hs), h3]

end Verif.Cmd
