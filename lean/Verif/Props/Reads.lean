import Verif.Spec.Reads
import Verif.Lemmas.PktCmd
/-!
# C83 what a program reads from a stream
-/
namespace Verif.Props
open Verif Verif.Pkt Verif.Spec Verif.Cmd Verif.Pred

/-- The decoder on pieces that hold at least a header does what reading them as one buffer does. -/
theorem next_read (C : Crypto) (dbg : Bool) (d : Decoder) {chunks : List Bytes} (hne : NonemptyChunks chunks) (hl : 68 ≤ chunks.flatten.length) :
    (∃ e e', readPkt C dbg chunks.flatten d.skipHash = .error e ∧ d.next C dbg chunks = some (.error e') ∧ (e' = .pkt .panic ↔ e = .panic)) ∨
    ∃ p r, readPkt C dbg chunks.flatten d.skipHash = .ok p ∧ NonemptyChunks r ∧ chunks.flatten = p.bytes ++ r.flatten ∧
      d.next C dbg chunks = match (if d.allowPrivate then .ok () else checkPrivate p.point : Res Unit) with
        | .error e => some (.error (.pkt e))
        | .ok () => some (.ok (received d p, r)) := by
  obtain ⟨r, e1, e2, e3⟩ := readHeaderLoop_ok 68 0 chunks hne hl
  generalize hb : chunks.flatten = b at *
  have t64 : (b.take 68).drop 64 = (b.drop 64).take 4 := by rw [List.drop_take]
  have hof : PointHeader.ofBytes ((b.drop 64).take 4) = PointHeader.ofBytes (b.drop 64) := ofBytes_take (by simp)
  unfold readPkt Decoder.next
  rw [e1, if_neg (by unfold minNetpktSize; omega)]
  simp only [t64, hof]
  generalize hh : PointHeader.ofBytes (b.drop 64) = h
  have hsize : h.size = 64 + h.paddedSize := by unfold PointHeader.size; omega
  cases hc : h.check with
  | error e => exact .inl ⟨_, _, rfl, rfl, by simp⟩
  | ok _ =>
    simp only
    by_cases h4 : h.paddedSize < 4
    · rw [if_neg (by omega), if_pos h4, if_pos (by omega)]
      exact .inl ⟨_, _, rfl, rfl, by simp⟩
    · rw [if_neg (show ¬ h.size < 68 by omega)]
      by_cases hs : h.size > b.length
      · rw [if_pos hs, readExact_short _ _ (by rw [e3]; simp; omega)]
        exact .inl ⟨_, _, rfl, rfl, by simp⟩
      · rw [if_neg hs, if_neg h4]
        obtain ⟨r', f1, f2, f3⟩ := readExact_ok (h.size - 68) r e2 (by rw [e3]; simp; omega)
        rw [f1]
        have h1 : (b.take 68).take 32 = b.take 32 := by rw [List.take_take]; rfl
        have h2 : ((b.take 68).drop 32).take 32 = (b.drop 32).take 32 := by rw [List.drop_take, List.take_take]; rfl
        have h3 : (b.drop 64).take 4 ++ r.flatten.take (h.size - 68) = (b.drop 64).take h.paddedSize := by
          rw [e3, show b.drop 68 = (b.drop 64).drop 4 by rw [List.drop_drop], show h.size - 68 = h.paddedSize - 4 by omega]
          rw [show h.paddedSize = 4 + (h.paddedSize - 4) by omega, List.take_add]
          simp
        simp only [h1, h2, h3]
        cases hk : (NetPkt.mk (b.take 32) ((b.drop 32).take 32) ((b.drop 64).take h.paddedSize)).check C dbg d.skipHash with
        | error e => exact .inl ⟨e, _, rfl, rfl, by simp⟩
        | ok u =>
          refine .inr ⟨_, r', rfl, f2, ?_, ?_⟩
          · rw [f3, e3, List.drop_drop, show 68 + (h.size - 68) = 64 + h.paddedSize by omega]
            show b = b.take 32 ++ (b.drop 32).take 32 ++ (b.drop 64).take h.paddedSize ++ b.drop (64 + h.paddedSize)
            rw [← List.drop_drop, List.append_assoc, List.take_append_drop, List.append_assoc, show b.drop 64 = (b.drop 32).drop 32 by rw [List.drop_drop],
              List.take_append_drop, List.take_append_drop]
          · rfl

/-- A buffer that is read starts with the bytes of a packet. -/
theorem read_sent {C : Crypto} {dbg skip : Bool} {b : Bytes} {p : NetPkt} (h : readPkt C dbg b skip = .ok p) :
    ∃ s t, b = Sent.bytes s ++ t ∧ p = net s ∧ (skip = false → s.Genuine C) := by
  obtain ⟨c, rest, hv, hp, h1, h2, hb, hg⟩ := (readPkt_ok_iff C dbg skip b p).1 h
  refine ⟨⟨p.netHeader, p.hash, c, h1, h2, hv⟩, rest, ?_, ?_, fun hs => ?_⟩
  · rw [hb, hp]; rfl
  · obtain ⟨a1, a2, a3⟩ := p; cases hp; rfl
  · exact ⟨(hg hs).1, (hg hs).2.trans (by rw [hp])⟩

theorem sent_read (C : Crypto) (dbg : Bool) (s : Sent) (t : Bytes) : readPkt C dbg (s.bytes ++ t) true = .ok (net s) :=
  (readPkt_ok_iff C dbg true _ _).2 ⟨s.c, t, s.valid, rfl, s.nhLen, s.hashLen, rfl, nofun⟩

/-- The packet a stream starts with is unique. -/
theorem sent_unique {s s' : Sent} {t t' : Bytes} (h : s.bytes ++ t = s'.bytes ++ t') : s = s' ∧ t = t' := by
  have h1 := sent_read toyCrypto true s t
  rw [h, sent_read] at h1
  have h2 : net s' = net s := Except.ok.inj h1
  obtain ⟨nh, hs, c, a1, a2, a3⟩ := s
  obtain ⟨nh', hs', c', b1, b2, b3⟩ := s'
  have h3 : nh' = nh := congrArg NetPkt.netHeader h2
  have h4 : hs' = hs := congrArg NetPkt.hash h2
  obtain rfl : c' = c := layout_injective b3 a3 (congrArg NetPkt.point h2)
  subst h3 h4
  exact ⟨rfl, List.append_cancel_left h⟩

/-- **C83**: every byte string splits in one way into the packets that are read and a rest. -/
theorem reads_exists (C : Crypto) (o : IoOpts) (b : Bytes) : ∃ ss rest, ReadsOff C o b ss rest := by
  induction hn : b.length using Nat.strongRecOn generalizing b with
  | ind n ih =>
    by_cases h : ∃ s t, Admits C o [s] ∧ b = Sent.bytes s ++ t
    · obtain ⟨s, t, ha, rfl⟩ := h
      have := sent_length s
      obtain ⟨ss, rest, hr⟩ := ih t.length (by rw [← hn, List.length_append]; omega) t rfl
      refine ⟨s :: ss, rest, by rw [hr.bytes, streamOf_cons, List.append_assoc], ?_, hr.longest⟩
      intro x hx
      rcases List.mem_cons.1 hx with rfl | hx
      · exact ha _ (by simp)
      · exact hr.admits x hx
    · exact ⟨[], b, by simp [streamOf], nofun, fun s t ha hb => h ⟨s, t, ha, hb⟩⟩

theorem reads_unique {C : Crypto} {o : IoOpts} {b : Bytes} {ss ss' : List Sent} {rest rest' : Bytes} (h : ReadsOff C o b ss rest) (h' : ReadsOff C o b ss' rest') :
    ss = ss' ∧ rest = rest' := by
  obtain ⟨h1, h2, h3⟩ := h
  obtain ⟨h1', h2', h3'⟩ := h'
  rw [h1] at h1'
  clear h1
  induction ss generalizing ss' with
  | nil =>
    cases ss' with
    | nil => exact ⟨rfl, by simpa [streamOf] using h1'⟩
    | cons s' ss' =>
      rw [streamOf_cons, List.append_assoc] at h1'
      exact absurd (by simpa [streamOf] using h1') (h3 s' _ fun x hx => h2' x (by simp_all))
  | cons s ss ih =>
    cases ss' with
    | nil =>
      rw [streamOf_cons, List.append_assoc] at h1'
      exact absurd (by simpa [streamOf] using h1'.symm) (h3' s _ fun x hx => h2 x (by simp_all))
    | cons s' ss' =>
      rw [streamOf_cons, streamOf_cons, List.append_assoc, List.append_assoc] at h1'
      obtain ⟨rfl, h4⟩ := sent_unique h1'
      obtain ⟨rfl, rfl⟩ := ih (fun x hx => h2 x (by simp [hx])) h4 (fun x hx => h2' x (by simp [hx]))
      exact ⟨rfl, rfl⟩

/-- **C83**: whatever comes in and in whatever pieces, the packets read are those; reading ends without an error exactly when less than a header
is left, and panics exactly for the rests of C07. -/
theorem input_reads (C : Crypto) (dbg : Bool) (o : IoOpts) {i : PktIn} {b : Bytes} (hi : Feeds i b) {ss : List Sent} {rest : Bytes}
    (hr : ReadsOff C o b ss rest) : ∃ e, input C dbg o i = .ok (ss.map (fun s => net (arrive (o.hop.getD false) s)), e) ∧
      (e = none ↔ rest.length < 68) ∧ (e = some (.pkt .panic) ↔ ShortPoint rest ∨ dbg = true ∧ BadSpacePoint rest) := by
  obtain ⟨rfl, h2, h3⟩ := hr
  have hlen := stream_length ss
  obtain ⟨n, hn⟩ : ∃ n, i.chunks.flatten.length + 1 = ss.length + (n + 1) :=
    ⟨i.chunks.flatten.length - ss.length, by rw [hi.bytes]; simp; omega⟩
  obtain ⟨r, g1, g2, g3⟩ := collect_prefix (C := C) dbg (decoder_letIn h2) hi.pieces hi.bytes (n + 1)
  unfold input
  rw [hi.opened, hn, g3]
  by_cases hs : rest.length < 68
  · rw [Decoder.collect, next_short _ _ _ _ (by rw [g2]; exact hs)]
    refine ⟨none, by simp [IoOpts.decoder, Function.comp], by simp [hs], ⟨nofun, ?_⟩⟩
    rintro (h | ⟨_, h⟩)
    · exact absurd h.1 (by omega)
    · exact absurd h.1 (by omega)
  · have key : ∃ e, o.decoder.next C dbg r = some (.error e) ∧ (e = .pkt .panic ↔ readPkt C dbg rest o.skipHash = .error .panic) := by
      rcases next_read C dbg o.decoder g1 (by rw [g2]; omega) with ⟨e, e', k1, k2, k3⟩ | ⟨p, r', k1, k2, k3, k4⟩
      · rw [g2] at k1
        refine ⟨e', k2, k3.trans ?_⟩
        rw [show o.skipHash = o.decoder.skipHash from rfl, k1]
        simp
      · rw [g2] at k1 k3
        obtain ⟨s, t, q1, q2, q3⟩ := read_sent k1
        have hbad : ¬ LetIn C o.decoder s := fun h => h3 s t (letIn_admits h) q1
        obtain ⟨e, he, hx⟩ := next_bad (C := C) (d := o.decoder) dbg hbad g1 (by rw [g2]; exact q1)
        refine ⟨_, hx, ?_⟩
        rw [show o.skipHash = o.decoder.skipHash from rfl, k1]
        constructor
        · intro h; injection h with h; exact absurd h he
        · nofun
    obtain ⟨e, h5, h6⟩ := key
    rw [Decoder.collect, h5]
    refine ⟨some e, by simp [IoOpts.decoder, Function.comp], by simp; omega, ?_⟩
    rw [← read_panic_iff C dbg o.skipHash]
    simpa using h6

end Verif.Props
