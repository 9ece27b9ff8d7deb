import Verif.Spec.Rewrite
import Verif.Lemmas.Collect
/-!
# Lemmas about `rewrite`
-/
namespace Verif.Cmd
open Verif Verif.Pkt Verif.Spec Verif.Pred Verif.Multi Verif.Env Verif.Rd Verif.Props

section
variable {y : Sys} {o : IoOpts} {C : Crypto} {nh : Bytes} {r : Rewrite C} {ts : List Sent} {v : Changes} {fwd wr : Sent → List Put}

theorem orField_eq {α : Type} {e : Option (Nat → NetParts → PRes α)} {g : Nat → Sent → Option α} (h : ValuesAre e g ts) {s : Sent} (hs : s ∈ ts) (n : Nat) (a : α) :
    orField e n s.parts a = .ok ((g n s).getD a) := by
  unfold orField
  unfold ValuesAre at h
  cases e with
  | none => simp only at h ⊢; rw [h n s]; rfl
  | some f =>
    simp only at h ⊢
    obtain ⟨x, h1, h2⟩ := h n s hs
    rw [h1, h2]; rfl

theorem calc_asked (rspace : Bytes) (links : List Link) (signed : Bool) :
    calcFreeSpace (spaceOf rspace) links [] signed = askedBytes rspace links.length signed := by
  unfold calcFreeSpace askedBytes spaceOf
  have h1 : (maxKeypointData : Int) = 64924 := by decide
  have h2 : (maxLinkpointData : Int) = 64960 := by decide
  simp only [h1, h2, List.length_nil]
  by_cases h : rspace.length ≤ 8
  · have : rspace.drop 8 = [] := List.drop_eq_nil_of_le h
    rw [this]
    simp only [List.isEmpty_nil, Bool.not_true, Bool.false_eq_true, if_false, h, if_true]
    split <;> omega
  · have hne : (rspace.drop 8).isEmpty = false := by
      cases hx : (rspace.drop 8) with
      | nil => exact absurd (List.drop_eq_nil_iff.1 hx) h
      | cons a l => rfl
    simp only [hne, Bool.not_false, if_true, h, if_false, List.length_drop]
    split <;> omega

/-- The point as it was: its parts. -/
theorem fields_link {s : Sent} {c : LinkContent} (h : s.c = .link c) : s.parts.parts.fields =
    .link ⟨64 + 48 * c.links.length, 64 + 48 * c.links.length + c.rspace.length, c.stamp, c.group, c.domain⟩ ⟨c.links, c.data, c.rspace⟩ := by
  unfold Sent.parts; rw [h]; rfl
theorem fields_key {s : Sent} {c : LinkContent} {pk sig : Bytes} (h : s.c = .key c pk sig) : s.parts.parts.fields =
    .key ⟨64 + 48 * c.links.length, 64 + 48 * c.links.length + c.rspace.length, c.stamp, c.group, c.domain⟩ ⟨c.links, c.data, c.rspace⟩ ⟨pk, sig⟩ := by
  unfold Sent.parts; rw [h]; rfl

theorem remakes_sized {s : Sent} {c : LinkContent} {key : Option C.Key} (h : Remakes r s c key) : c.Sized := by
  have hv := s.valid
  cases h with
  | link h _ => rw [h] at hv; exact hv.2
  | signLink h _ => rw [h] at hv; exact hv.2
  | key pk sig h _ => rw [h] at hv; exact hv.2.1
  | unsign pk sig h _ => rw [h] at hv; exact hv.2.1

theorem getD_all {α : Type} {P : α → Prop} {x : Option α} {a : α} (h : ∀ b, x = some b → P b) (ha : P a) : P (x.getD a) := by
  cases x with
  | none => exact ha
  | some b => exact h b rfl

theorem apply_sized (h : RewriteOk C o nh r ts v fwd wr) {c : LinkContent} (hc : c.Sized) (n : Nat) (s : Sent) (d : Bytes) : (v.apply n s c d).Sized :=
  ⟨getD_all (h.groupLen n s) hc.group, getD_all (h.domainLen n s) hc.domain, getD_all (h.stamp n s) hc.stamp, hc.links, getD_all (h.space n s) hc.rspace⟩

theorem size_content (c : LinkContent) (key : Option C.Key) : (contentOf C c key).size = pointSize c key := by
  cases key <;> rfl

/-- A point made anew, or why not. -/
theorem rewritePkt_eq (h : RewriteOk C o nh r ts v fwd wr) {s : Sent} (hs : s ∈ ts) {c : LinkContent} {key : Option C.Key} (hr : Remakes r s c key)
    (n : Nat) (rd : Reader) (a b : Nat) :
    (∃ (d : Bytes) (rd' : Reader) (t : Sent), Takes r v n s c key rd d rd' ∧ rewritePkt nh r n s.parts ⟨a, b, c.stamp, c.group, c.domain⟩ ⟨c.links, c.data, c.rspace⟩ key rd = .ok (t.parts, rd') ∧
      IsPoint C nh (v.apply n s c d) key t.parts) ∨
    (∃ e, Refuses r v n s rd e ∧ rewritePkt nh r n s.parts ⟨a, b, c.stamp, c.group, c.domain⟩ ⟨c.links, c.data, c.rspace⟩ key rd = .error e) := by
  have hc := remakes_sized hr
  unfold rewritePkt
  simp only [orField_eq h.group hs, orField_eq h.domain hs, orField_eq h.rspace hs]
  have fin : ∀ d rd', Takes r v n s c key rd d rd' → ∀ x, x = (match orField r.create n s.parts c.stamp with
          | .error e => (.error e : PRes (NetParts × Reader))
          | .ok stamp => match tryPoint C ((v.group n s).getD c.group) ((v.domain n s).getD c.domain) ((v.rspace n s).getD c.rspace) c.links d stamp key nh with
            | .error .panic => .error .panic
            | .error _ => .error (.err ())
            | .ok p => .ok (p, rd')) →
      (∃ d rd' t, Takes r v n s c key rd d rd' ∧ x = .ok (Sent.parts t, rd') ∧ IsPoint C nh (v.apply n s c d) key t.parts) ∨
      (∃ e, Refuses r v n s rd e ∧ x = .error e) := by
    intro d rd' ht x hx
    rw [orField_eq h.create hs] at hx
    simp only at hx
    have hsz := apply_sized h hc n s d
    have ht' : tryPoint C ((v.group n s).getD c.group) ((v.domain n s).getD c.domain) ((v.rspace n s).getD c.rspace) c.links d ((v.create n s).getD c.stamp) key nh =
        if pointSize (v.apply n s c d) key ≤ 65024 then .ok ⟨nh, C.hash (contentOf C (v.apply n s c d) key).layout, (contentOf C (v.apply n s c d) key).parts⟩
        else .error (.err .contentLen) := by
      have := tryPoint_eq (C := C) hsz key nh
      rw [size_content] at this
      exact this
    by_cases hle : pointSize (v.apply n s c d) key ≤ 65024
    · rw [if_pos hle] at ht'
      rw [ht'] at hx
      simp only at hx
      refine .inl ⟨d, rd', ⟨nh, C.hash (contentOf C (v.apply n s c d) key).layout, contentOf C (v.apply n s c d) key, h.nhLen, h.laws.hash_len _,
        contentOf_valid h.laws hsz key (by rw [size_content]; exact hle)⟩, ht, hx, ?_⟩
      refine ⟨_, contentOf_valid h.laws hsz key (by rw [size_content]; exact hle), contentOf_sealed h.laws _ key, rfl, ?_, ?_⟩
      · intro hk; rw [hk]; rfl
      · intro k hk; rw [hk]; exact ⟨_, rfl⟩
    · rw [if_neg hle] at ht'
      rw [ht'] at hx
      simp only at hx
      exact .inr ⟨_, .tooLarge c key d rd' hr ht (by omega), hx⟩
  unfold Rewrite.data
  cases hi : r.interpret with
  | false =>
    simp only [Bool.false_eq_true, if_false]
    exact fin c.data rd (.own hi) _ rfl
  | true =>
    simp only [if_true, calc_asked]
    by_cases hneg : askedBytes ((v.rspace n s).getD c.rspace) c.links.length key.isSome < 0
    · rw [if_pos hneg]
      exact .inr ⟨_, .noSpace c key hr hi hneg, rfl⟩
    · rw [if_neg hneg]
      obtain ⟨f, hf⟩ : ∃ f : Nat, askedBytes ((v.rspace n s).getD c.rspace) c.links.length key.isSome = f := ⟨_, (Int.toNat_of_nonneg (by omega)).symm⟩
      rw [hf, Int.toNat_natCast]
      cases hrd : readNext (r.ev n s.parts) rd f [] with
      | error e => exact .inr ⟨e, .badData c key f e hr hi hf hrd, rfl⟩
      | ok z =>
        obtain ⟨z, rd', d⟩ := z
        cases z with
        | false => exact .inr ⟨_, .noData c key f rd' d hr hi hf hrd, rfl⟩
        | true => exact fin d rd' (.read f d rd' hi hf hrd) _ rfl

/-- What is written for a packet, or why nothing is. -/
theorem rewriteItem_eq (h : RewriteOk C o nh r ts v fwd wr) (dbg : Bool) {s : Sent} (hs : s ∈ ts) (n : Nat) (rd : Reader) :
    (∃ t rd', rewriteItem dbg nh r n ⟨s.parts, s.bytes⟩ rd = .ok (⟨t.parts, t.bytes⟩, rd') ∧ Becomes nh r v n s rd t rd') ∨
    (∃ e, rewriteItem dbg nh r n ⟨s.parts, s.bytes⟩ rd = .error e ∧ Refuses r v n s rd e) := by
  have make : ∀ (c : LinkContent) (key : Option C.Key), Remakes r s c key → ∀ a b x,
      x = remade dbg (rewritePkt nh r n s.parts ⟨a, b, c.stamp, c.group, c.domain⟩ ⟨c.links, c.data, c.rspace⟩ key rd) →
      (∃ (t : Sent) (rd' : Reader), x = .ok (⟨t.parts, t.bytes⟩, rd') ∧ Becomes nh r v n s rd t rd') ∨ (∃ e, x = .error e ∧ Refuses r v n s rd e) := by
    intro c key hr a b x hx
    rcases rewritePkt_eq h hs hr n rd a b with ⟨d, rd', t, h1, h2, h3⟩ | ⟨e, h1, h2⟩
    · rw [h2] at hx
      unfold remade at hx
      simp only [ofParts_sent] at hx
      exact .inl ⟨t, rd', hx, .made c key d t rd' hr h1 h3⟩
    · rw [h2] at hx
      exact .inr ⟨e, hx, h1⟩
  unfold rewriteItem
  cases hc : s.c with
  | data b =>
    have : s.parts.parts.fields = .data b := by unfold Sent.parts; rw [hc]; rfl
    simp only [this]
    exact .inl ⟨s, rd, rfl, .stays (.data b hc)⟩
  | error b =>
    have : s.parts.parts.fields = .error b := by unfold Sent.parts; rw [hc]; rfl
    simp only [this]
    exact .inr ⟨_, rfl, .errorPoint b hc⟩
  | link c =>
    simp only [fields_link hc]
    by_cases hm : r.mode = .signAll
    · rw [if_pos hm]
      exact make c r.key (.signLink c hc hm) _ _ _ rfl
    · rw [if_neg hm]
      exact make c none (.link c hc hm) _ _ _ rfl
  | key c pk sig =>
    simp only [fields_key hc]
    cases hm : r.mode with
    | skip => exact .inl ⟨s, rd, rfl, .stays (.skip c pk sig hc hm)⟩
    | unsign => exact make c none (.unsign c pk sig hc hm) _ _ _ rfl
    | signAll =>
      obtain ⟨k, hk⟩ := Option.isSome_iff_exists.1 (h.key (.inl hm))
      have := make c r.key (.key c pk sig hc (.inl hm))
      rw [hk] at this
      simp only [hk]
      exact this _ _ _ rfl
    | resign =>
      obtain ⟨k, hk⟩ := Option.isSome_iff_exists.1 (h.key (.inr hm))
      have := make c r.key (.key c pk sig hc (.inr hm))
      rw [hk] at this
      simp only [hk]
      exact this _ _ _ rfl

/-- One packet. -/
theorem rewriteStep_eq (h : RewriteOk C o nh r ts v fwd wr) (dbg : Bool) {s : Sent} (hs : s ∈ ts) {n k : Nat} {rd : Reader} {w : World} (hb : w.buf = none)
    (hc : Clock y w (dbCount r.write + dbCount r.forward + k)) :
    (∃ t rd' w', rewriteStep dbg y o nh r (w, rd, n) (net s) = ((w', rd', n + 1), .ok true) ∧ Becomes nh r v n s rd t rd' ∧ w'.buf = none ∧
      w'.outs = w.outs ++ linesOf (doneWith o wr [t] ++ doneWith o fwd [s]) ∧ Saves w w' (savedOf (doneWith o wr [t] ++ doneWith o fwd [s])) ∧ Clock y w' k) ∨
    (∃ e, rewriteStep dbg y o nh r (w, rd, n) (net s) = ((w, rd, n), .error e) ∧ Refuses r v n s rd e) := by
  unfold rewriteStep
  rw [ofPkt_net]
  simp only
  rcases rewriteItem_eq h dbg hs n rd with ⟨t, rd', h1, h2⟩ | ⟨e, h1, h2⟩
  · left
    rw [h1]
    simp only
    obtain ⟨w1, a1, a2, a3, a4, a5⟩ := writeMulti_puts_any y (h.writes t) (fun _ => h.private_) w (fun x hx => absurd hx (h.direct t x).2)
      (clock_less (m := dbCount r.write + (dbCount r.forward + k)) hc (by omega))
    obtain ⟨w2, b1, b2, b3, b4, b5⟩ := writeMulti_puts_any y (h.fwds s hs) (fun _ => h.private_) w1 (fun x hx => absurd hx (h.direct s x).1) a5
    rw [← doneWith_one] at a2 a3 a4 b2 b3 b4
    simp only [a1, b1]
    refine ⟨t, rd', w2, rfl, h2, by rw [b3, a3, hb]; rfl, ?_, ?_, b5⟩
    · rw [b2, a2, linesOf_append, List.append_assoc]
    · rw [savedOf_append]
      exact saves_trans a4 b4
  · right
    rw [h1]
    exact ⟨e, rfl, h2⟩

/-- All packets. -/
theorem rewrite_each (h : RewriteOk C o nh r ts v fwd wr) (dbg : Bool) (us : List Sent) (hus : ∀ s ∈ us, s ∈ ts) {n k : Nat} {rd : Reader} {w : World} (hb : w.buf = none)
    (hc : Clock y w ((dbCount r.write + dbCount r.forward) * us.length + k)) :
    (∃ new rd' w', (∀ err, each (rewriteStep dbg y o nh r) (w, rd, n) (us.map net) err = each (rewriteStep dbg y o nh r) (w', rd', n + us.length) [] err) ∧
      Rewritten nh r v n rd us new rd' ∧
      w'.outs = w.outs ++ linesOf (rewriteDone o fwd wr us new) ∧ Saves w w' (savedOf (rewriteDone o fwd wr us new))) ∨
    (∃ pre s rest new rd' w' e st, us = pre ++ s :: rest ∧ (∀ err, each (rewriteStep dbg y o nh r) (w, rd, n) (us.map net) err = ((w', st), .error e)) ∧
      Rewritten nh r v n rd pre new rd' ∧
      w'.outs = w.outs ++ linesOf (rewriteDone o fwd wr pre new) ∧ Saves w w' (savedOf (rewriteDone o fwd wr pre new)) ∧ Refuses r v (n + pre.length) s rd' e) := by
  induction us generalizing n rd w with
  | nil => exact .inl ⟨[], rd, w, fun _ => rfl, .nil n rd, by simp [rewriteDone, linesOf], saves_same rfl⟩
  | cons s us ih =>
    have hc' : Clock y w (dbCount r.write + dbCount r.forward + ((dbCount r.write + dbCount r.forward) * us.length + k)) :=
      clock_less hc (by rw [List.length_cons, Nat.mul_succ]; omega)
    rcases rewriteStep_eq h dbg (hus s (by simp)) (n := n) (rd := rd) hb hc' with ⟨t, rd', w', h1, h2, h3, h4, h5, h6⟩ | ⟨e, h1, h2⟩
    · have hstep : ∀ err, each (rewriteStep dbg y o nh r) (w, rd, n) ((s :: us).map net) err = each (rewriteStep dbg y o nh r) (w', rd', n + 1) (us.map net) err := by
        intro err
        rw [List.map_cons, each_ok h1]
      rcases ih (fun x hx => hus x (by simp [hx])) (n := n + 1) (rd := rd') h3 h6 with ⟨new, rd2, w2, g1, g2, g3, g4⟩ | ⟨pre, s2, rest, new, rd2, w2, e, st, g0, g1, g2, g3, g4, g5⟩
      · refine .inl ⟨t :: new, rd2, w2, fun err => ?_, .cons h2 g2, ?_, ?_⟩
        · rw [hstep, g1]
          congr 3
          simp only [List.length_cons]; omega
        · rw [g3, h4]
          simp [rewriteDone, linesOf]
        · have := saves_trans h5 g4
          simpa [rewriteDone, savedOf] using this
      · refine .inr ⟨s :: pre, s2, rest, t :: new, rd2, w2, e, st, by rw [g0]; rfl, fun err => by rw [hstep, g1], .cons h2 g2, ?_, ?_, ?_⟩
        · rw [g3, h4]
          simp [rewriteDone, linesOf]
        · have := saves_trans h5 g4
          simpa [rewriteDone, savedOf] using this
        · rw [show n + (s :: pre).length = n + 1 + pre.length by simp only [List.length_cons]; omega]
          exact g5
    · refine .inr ⟨[], s, us, [], rd, w, e, (rd, n), rfl, fun err => ?_, .nil n rd, by simp [rewriteDone, linesOf], saves_same rfl, h2⟩
      rw [List.map_cons, each, h1]

end

end Verif.Cmd
