import Verif.Model.StatusCmd
import Verif.Spec.StatusCmd
import Verif.Props.Status
import Verif.Props.CliData
import Verif.Lemmas.Rewrite
/-!
# C101: the command `status set`
-/
namespace Verif.Props
open Verif Verif.Pkt Verif.Pred Verif.Spec Verif.Conv Verif.QText Verif.Opt Verif.Query Verif.Abl Verif.Shake Verif.Env Verif.Lns Verif.Rt Verif.Rd

variable {C : Crypto} {nh : Bytes} {now : Nat} {st : Status}

/-- What fits into a reply beside its space and its link. -/
def replyRoom (sp : Bytes) : Nat := 65024 - (64 + 48 + sp.length)
/-- The content of a reply. -/
def replyContent (d sp : Bytes) (now : Nat) (link : Link) (b : Bytes) : LinkContent := ⟨zeroGroup, d, now, [link], sp, b⟩

theorem read_fits {ev : Bytes → PRes Bytes} {r r' : Reader} {f : Nat} {b : Bytes} (h : readNext ev r f [] = .ok (true, r', b)) : b.length ≤ f := by
  have := blocks_fit ev r [f]
  rw [blocks_cons, h] at this
  cases this with
  | cons h _ => exact h

/-- A space of a status. -/
structure StatusAt (st : Status) (i sp : Bytes) : Prop where
  group : st.group.length = 32
  domain : st.domain.length = 16
  fits : StatusFits st.objtype (some i)
  space : sp = rootedOf (statusPlace st.group st.objtype (some i))

theorem StatusAt.length {i sp : Bytes} (h : StatusAt st i sp) : 8 < sp.length ∧ sp.length ≤ 300 := by
  rw [h.space, rootedOf, if_neg (statusPlace_ne _ _ _), Rooted.rootedWith_length]
  have h1 := ((status_place h.group).2 h.fits).size
  have h2 : 0 < (encodeSpace (statusPlace st.group st.objtype (some i))).length := by simp [statusPlace, encodeSpace]
  omega

theorem reply_valid {i sp : Bytes} (h : StatusAt st i sp) (hn : now < 2 ^ 64) {link : Link} (hl : LinksSized [link]) {b : Bytes} (hb : b.length ≤ replyRoom sp) :
    (Content.link (replyContent st.domain sp now link b)).Valid := by
  have hlen := h.length
  refine ⟨?_, rfl, h.domain, hn, hl, ?_⟩
  · show 64 + 48 * 1 + sp.length + b.length ≤ 65024
    unfold replyRoom at hb
    omega
  · show _
    rw [show (replyContent st.domain sp now link b).rspace = sp from rfl, h.space]
    exact rooted_check_accepts _ ((status_place h.group).2 h.fits) (by have := statusPlace_length st.group st.objtype (some i); omega)

/-- The reply as a packet. -/
def replyPkt (C : Crypto) (nh : Bytes) (c : LinkContent) : NetParts := ⟨nh, C.hash (Content.link c).layout, (Content.link c).parts⟩

theorem update_eq (ev : Bytes → PRes Bytes) {i sp : Bytes} (h : StatusAt st i sp) (hn : now < 2 ^ 64) {link : Link} (hl : LinksSized [link]) (r : Reader) :
    setUpdate ev C nh now r st.domain privateGroup sp link = match readNext ev r (replyRoom sp) [] with
      | .error e => .error e
      | .ok (false, _, _) => .error (.err ())
      | .ok (true, r, b) => .ok (replyPkt C nh (replyContent st.domain sp now link b), r) := by
  have hlen := h.length
  have hfree : calcFreeSpace (spaceOf sp) [link] [] false = (replyRoom sp : Nat) := by
    rw [Verif.Cmd.calc_asked]
    unfold Verif.Spec.askedBytes replyRoom
    simp only [List.length_singleton, Bool.false_eq_true, if_false]
    split <;> omega
  unfold setUpdate
  simp only [hfree]
  rw [if_neg (by omega), Int.toNat_natCast]
  cases hr : readNext ev r (replyRoom sp) [] with
  | error e => rfl
  | ok x =>
    obtain ⟨ok, r', b⟩ := x
    cases ok with
    | false => rfl
    | true =>
      simp only
      have hv := reply_valid (now := now) h hn hl (read_fits hr)
      have e : tryLinkpoint C privateGroup st.domain sp [link] b now nh = _ := tryPoint_eq (C := C) (c := replyContent st.domain sp now link b) hv.2 none nh
      have hz : (contentOf C (replyContent st.domain sp now link b) none).size ≤ 65024 := hv.1
      rw [e, if_pos hz]
      rfl

theorem reply_is {sp : Bytes} {link : Link} {b : Bytes} :
    isStatusReply st sp (replyPkt C nh (replyContent st.domain sp now link b)) = !b.isEmpty := by
  have h1 : (replyPkt C nh (replyContent st.domain sp now link b)).getDomain = st.domain := rfl
  have h2 : (replyPkt C nh (replyContent st.domain sp now link b)).getGroup = privateGroup := rfl
  have h3 : getRspace (replyPkt C nh (replyContent st.domain sp now link b)) = sp := rfl
  have h4 : (replyPkt C nh (replyContent st.domain sp now link b)).getLinks = [link] := rfl
  have h5 : (replyPkt C nh (replyContent st.domain sp now link b)).data = b := rfl
  unfold isStatusReply
  rw [h1, h2, h3, h4, h5]
  simp

theorem status_update_eq (ev : Bytes → PRes Bytes) {i sp : Bytes} (h : StatusAt st i sp) (hn : now < 2 ^ 64) {link : Link} (hl : LinksSized [link]) (r : Reader) :
    statusUpdate st sp (fun d g s k => (setUpdate ev C nh now r d g s k).map (·.1)) true link = match readNext ev r (replyRoom sp) [] with
      | .error e => .error e
      | .ok (false, _, _) => .error (.err ())
      | .ok (true, _, b) => if b = [] then .error (.err ()) else .ok (replyPkt C nh (replyContent st.domain sp now link b)) := by
  unfold statusUpdate
  simp only [update_eq ev h hn hl]
  cases hr : readNext ev r (replyRoom sp) [] with
  | error e => rfl
  | ok x =>
    obtain ⟨ok, r', b⟩ := x
    cases ok with
    | false => rfl
    | true =>
      simp only [Except.map, reply_is]
      cases b <;> rfl

theorem link_sized {tag ptr : Bytes} (ht : tag.length = 16) (hp : ptr.length = 32) : LinksSized [⟨tag, ptr⟩] := by
  intro l hl
  rw [List.mem_singleton.1 hl]
  exact ⟨ht, hp⟩

theorem set_answers (hC : C.Laws) (ev : Bytes → PRes Bytes) {i sp : Bytes} (h : StatusAt st i sp) {l : List (NetParts × Nat × Bool)}
    (hl : ∀ e ∈ l, e.2.1 < 2 ^ 64 ∧ e.2.2 = true ∧ ∃ c cs, PointAt e.1 c cs ∧ c.links = [] ∧ c.data = [] ∧ statusPlace st.group st.objtype none <+: cs)
    [DecidablePred fun p => StatusAsks p st.group st.objtype i] (r : Reader) {prev : Bytes} (hp : prev.length = 32) :
    ReplyChain C nh st.domain sp (List.replicate 12 0 ++ ascii "prev") (List.replicate 12 0 ++ ascii "prev") prev
      ((l.filter fun e => decide (StatusAsks e.1 st.group st.objtype i)).map (·.2.1))
      (untilEmpty (blocks ev r (List.replicate (l.filter fun e => decide (StatusAsks e.1 st.group st.objtype i)).length (replyRoom sp))).1) (setAnswers ev C nh st sp r prev l).1 ∧
    ((setAnswers ev C nh st sp r prev l).2 = none ↔
      (blocks ev r (List.replicate (l.filter fun e => decide (StatusAsks e.1 st.group st.objtype i)).length (replyRoom sp))).2 = .running ∧
      ∀ b ∈ (blocks ev r (List.replicate (l.filter fun e => decide (StatusAsks e.1 st.group st.objtype i)).length (replyRoom sp))).1, b ≠ []) := by
  have htag : tagOf (ascii "prev") = List.replicate 12 0 ++ ascii "prev" := by decide
  induction l generalizing r prev with
  | nil => exact ⟨.nil, fun _ => ⟨rfl, fun _ h => nomatch h⟩, fun _ => rfl⟩
  | cons e l ih =>
    obtain ⟨p, t, sv⟩ := e
    obtain ⟨ht, hsv, c, cs, hpt, hc1, hc2, hc3⟩ := hl _ List.mem_cons_self
    simp only at ht hsv
    subst hsv
    have ih' := fun r prev hp => ih (fun e he => hl e (List.mem_cons_of_mem _ he)) r (prev := prev) hp
    have hsz : LinksSized [⟨List.replicate 12 0 ++ ascii "prev", prev⟩] := link_sized (by decide) hp
    unfold setAnswers
    rw [List.filter_cons]
    have hrep := status_replies h.group h.fits hpt hc1 hc2 hc3 prev (fun d g s k => (setUpdate ev C nh t r d g s k).map (·.1)) true
    rw [← h.space] at hrep
    rcases hrep with ⟨k1, k2⟩ | ⟨k1, k2⟩
    · rw [if_pos (decide_eq_true k1), k2, status_update_eq ev h ht hsz, htag, update_eq ev h ht hsz, List.length_cons, List.replicate_succ (n := List.length _), blocks_cons]
      cases hr : readNext ev r (replyRoom sp) [] with
      | error e =>
        simp only
        exact ⟨.nil, nofun, (fun k => nomatch k.1)⟩
      | ok x =>
        obtain ⟨ok, r', b⟩ := x
        cases ok with
        | false =>
          simp only
          exact ⟨.nil, nofun, (fun k => nomatch k.1)⟩
        | true =>
          simp only
          by_cases hb : b = []
          · rw [if_pos hb]
            simp only [hb]
            exact ⟨.nil, nofun, fun k => absurd rfl (k.2 [] List.mem_cons_self)⟩
          · rw [if_neg hb]
            simp only
            have hb' : untilEmpty (b :: (blocks ev r' (List.replicate (l.filter fun e => decide (StatusAsks e.1 st.group st.objtype i)).length (replyRoom sp))).1) =
                b :: untilEmpty (blocks ev r' (List.replicate (l.filter fun e => decide (StatusAsks e.1 st.group st.objtype i)).length (replyRoom sp))).1 := by
              unfold untilEmpty
              rw [List.takeWhile_cons, if_pos]
              cases b with
              | nil => exact absurd rfl hb
              | cons => rfl
            obtain ⟨i1, i2⟩ := ih' r' (replyPkt C nh (replyContent st.domain sp t ⟨List.replicate 12 0 ++ ascii "prev", prev⟩ b)).hash (hC.hash_len _)
            rw [hb']
            refine ⟨.cons (reply_valid h ht hsz (read_fits hr)) rfl i1, ?_⟩
            rw [i2]
            simp only [List.mem_cons, forall_eq_or_imp]
            exact ⟨fun k => ⟨k.1, hb, k.2⟩, fun k => ⟨k.1, k.2.2⟩⟩
    · rw [if_neg (by simpa using k1), k2]
      exact ih' r prev hp

/-- The same with the fields of the status given apart. -/
theorem set_answers_of (hC : C.Laws) (ev : Bytes → PRes Bytes) {g d o i sp : Bytes} (h : StatusAt st i sp) (hg : st.group = g) (hd : st.domain = d) (ho : st.objtype = o)
    {l : List (NetParts × Nat × Bool)}
    (hl : ∀ e ∈ l, e.2.1 < 2 ^ 64 ∧ e.2.2 = true ∧ ∃ c cs, PointAt e.1 c cs ∧ c.links = [] ∧ c.data = [] ∧ statusPlace g o none <+: cs)
    [DecidablePred fun p => StatusAsks p g o i] (r : Reader) {prev : Bytes} (hp : prev.length = 32) :
    ReplyChain C nh d sp (List.replicate 12 0 ++ ascii "prev") (List.replicate 12 0 ++ ascii "prev") prev
      ((l.filter fun e => decide (StatusAsks e.1 g o i)).map (·.2.1))
      (untilEmpty (blocks ev r (List.replicate (l.filter fun e => decide (StatusAsks e.1 g o i)).length (replyRoom sp))).1) (setAnswers ev C nh st sp r prev l).1 ∧
    ((setAnswers ev C nh st sp r prev l).2 = none ↔
      (blocks ev r (List.replicate (l.filter fun e => decide (StatusAsks e.1 g o i)).length (replyRoom sp))).2 = .running ∧
      ∀ b ∈ (blocks ev r (List.replicate (l.filter fun e => decide (StatusAsks e.1 g o i)).length (replyRoom sp))).1, b ≠ []) := by
  subst hg hd ho
  exact set_answers hC ev h hl r hp

theorem set_first (ev : Bytes → PRes Bytes) (saved : Bool) (r : Reader) (l : List (NetParts × Nat × Bool)) {s : Status} (hs : st.named = s) (hn : s.named = s) {sp : Bytes}
    {q : QText.Query} (h1 : statusSpace s = .ok sp) (h2 : statusSetQuery s = .ok q) :
    statusSetCmd ev C nh now saved r st l =
      match statusUpdate s sp (fun d g s k => (setUpdate ev C nh now r d g s k).map (·.1)) saved ⟨tagOf (ascii "init"), privateGroup⟩ with
      | .error e => ([], some e)
      | .ok p => match setUpdate ev C nh now r st.domain privateGroup sp ⟨tagOf (ascii "init"), privateGroup⟩ with
        | .error e => ([], some e)
        | .ok (_, r) => (p :: (setAnswers ev C nh s sp r p.hash l).1, (setAnswers ev C nh s sp r p.hash l).2) := by
  unfold statusSetCmd statusSet
  rw [hs, hn, h1, h2]
  generalize (⟨tagOf (ascii "init"), privateGroup⟩ : Link) = link
  cases hu : statusUpdate s sp (fun d g s k => (setUpdate ev C nh now r d g s k).map (·.1)) saved link with
  | error e => simp only [hu]
  | ok p =>
    simp only [hu]
    rcases setUpdate ev C nh now r st.domain privateGroup sp link with e | ⟨_, r'⟩ <;> rfl

theorem reply_first (x : PRes (Bool × Reader × Bytes)) (f : Bytes → NetParts) (A : Reader → Bytes → List NetParts × Option (Fault Unit)) :
    (match (match x with
        | .error e => .error e
        | .ok (false, _, _) => .error (.err ())
        | .ok (true, _, b) => if b = [] then .error (.err ()) else .ok (f b) : PRes NetParts) with
      | .error e => (([], some e) : List NetParts × Option (Fault Unit))
      | .ok p => match (match x with
          | .error e => .error e
          | .ok (false, _, _) => .error (.err ())
          | .ok (true, r, b) => .ok (f b, r) : PRes (NetParts × Reader)) with
        | .error e => ([], some e)
        | .ok (_, r) => (p :: (A r p.hash).1, (A r p.hash).2)) =
    match x with
      | .error e => ([], some e)
      | .ok (false, _, _) => ([], some (.err ()))
      | .ok (true, r, b) => if b = [] then ([], some (.err ())) else (f b :: (A r (f b).hash).1, (A r (f b).hash).2) := by
  rcases x with e | ⟨ok, r, b⟩
  · rfl
  · cases ok with
    | false => rfl
    | true =>
      by_cases hb : b = []
      · simp only [hb, if_true]
      · simp only [hb, if_false]

/-- The first reply and those after it. -/
theorem chain_first (hC : C.Laws) {d sp ti tp : Bytes} {ts : List Nat} (x : PRes (Bool × Reader × Bytes)) {A : Reader → Bytes → List NetParts × Option (Fault Unit)}
    {B : Reader → List Bytes × Ending}
    (hv : ∀ b r', x = .ok (true, r', b) → (Content.link (replyContent d sp now ⟨ti, zeroGroup⟩ b)).Valid)
    (h : ∀ r prev, prev.length = 32 → ReplyChain C nh d sp tp tp prev ts (untilEmpty (B r).1) (A r prev).1 ∧
      ((A r prev).2 = none ↔ (B r).2 = .running ∧ ∀ b ∈ (B r).1, b ≠ [])) :
    let c := match x with
      | .error e => (([], some e) : List NetParts × Option (Fault Unit))
      | .ok (false, _, _) => ([], some (.err ()))
      | .ok (true, r, b) => if b = [] then ([], some (.err ())) else
        (replyPkt C nh (replyContent d sp now ⟨ti, zeroGroup⟩ b) :: (A r (replyPkt C nh (replyContent d sp now ⟨ti, zeroGroup⟩ b)).hash).1,
          (A r (replyPkt C nh (replyContent d sp now ⟨ti, zeroGroup⟩ b)).hash).2)
    let k := match x with
      | .error e => (([], .stop e) : List Bytes × Ending)
      | .ok (false, _, _) => ([], .ended)
      | .ok (true, r, b) => (b :: (B r).1, (B r).2)
    ReplyChain C nh d sp tp ti zeroGroup (now :: ts) (untilEmpty k.1) c.1 ∧ (c.2 = none ↔ k.2 = .running ∧ ∀ b ∈ k.1, b ≠ []) := by
  intro c k
  rcases x with e | ⟨ok, r, b⟩
  · exact ⟨.nil, nofun, (fun k => nomatch k.1)⟩
  · cases ok with
    | false => exact ⟨.nil, nofun, (fun k => nomatch k.1)⟩
    | true =>
      by_cases hb : b = []
      · subst hb
        exact ⟨.nil, nofun, fun k => absurd rfl (k.2 [] List.mem_cons_self)⟩
      · obtain ⟨i1, i2⟩ := h r (replyPkt C nh (replyContent d sp now ⟨ti, zeroGroup⟩ b)).hash (hC.hash_len _)
        have hc : c = (replyPkt C nh (replyContent d sp now ⟨ti, zeroGroup⟩ b) :: (A r (replyPkt C nh (replyContent d sp now ⟨ti, zeroGroup⟩ b)).hash).1,
          (A r (replyPkt C nh (replyContent d sp now ⟨ti, zeroGroup⟩ b)).hash).2) := if_neg hb
        have hk : k = (b :: (B r).1, (B r).2) := rfl
        have hb' : untilEmpty (b :: (B r).1) = b :: untilEmpty (B r).1 := by
          unfold untilEmpty
          rw [List.takeWhile_cons, if_pos]
          cases b with
          | nil => exact absurd rfl hb
          | cons => rfl
        rw [hc, hk]
        refine ⟨?_, ?_⟩
        · show ReplyChain C nh d sp tp ti zeroGroup (now :: ts) (untilEmpty (b :: (B r).1)) (_ :: _)
          rw [hb']
          exact .cons (hv b r rfl) rfl i1
        · refine Iff.trans i2 ?_
          simp only [List.mem_cons, forall_eq_or_imp]
          exact ⟨fun k => ⟨k.1, hb, k.2⟩, fun k => ⟨k.1, k.2.2⟩⟩

/-- **C101**: `status set` makes replies at its instance, by default the one named `default`, at the start and for each point that asks for one: their data are the blocks that the reader gives, one after
the other, up to the first empty one; the first links to nothing with the tag `init` and each of the others to the one before with the tag `prev`.  It goes on exactly as long as the
reader gives blocks and none is empty.  Saving is assumed to succeed. -/
theorem status_set_cmd (hC : C.Laws) (ev : Bytes → PRes Bytes) (hg : st.group.length = 32) (hd : st.domain.length = 16) {i : Bytes} (hi : i = st.inst.getD (ascii "default"))
    (hf : StatusFits st.objtype (some i)) (hn : now < 2 ^ 64) {l : List (NetParts × Nat × Bool)}
    (hl : ∀ e ∈ l, e.2.1 < 2 ^ 64 ∧ e.2.2 = true ∧ ∃ c cs, PointAt e.1 c cs ∧ c.links = [] ∧ c.data = [] ∧ statusPlace st.group st.objtype none <+: cs)
    [DecidablePred fun p => StatusAsks p st.group st.objtype i] (r : Reader) :
    ∃ sp, WellRooted sp (statusPlace st.group st.objtype (some i)) ∧
      ReplyChain C nh st.domain sp (List.replicate 12 0 ++ ascii "prev") (List.replicate 12 0 ++ ascii "init") zeroGroup
        (now :: (l.filter fun e => decide (StatusAsks e.1 st.group st.objtype i)).map (·.2.1))
        (untilEmpty (blocks ev r (List.replicate (1 + (l.filter fun e => decide (StatusAsks e.1 st.group st.objtype i)).length) (65024 - (64 + 48 + sp.length)))).1)
        (statusSetCmd ev C nh now true r st l).1 ∧
      ((statusSetCmd ev C nh now true r st l).2 = none ↔
        (blocks ev r (List.replicate (1 + (l.filter fun e => decide (StatusAsks e.1 st.group st.objtype i)).length) (65024 - (64 + 48 + sp.length)))).2 = .running ∧
        ∀ b ∈ (blocks ev r (List.replicate (1 + (l.filter fun e => decide (StatusAsks e.1 st.group st.objtype i)).length) (65024 - (64 + 48 + sp.length)))).1, b ≠ []) := by
  have hat : StatusAt st.named i (rootedOf (statusPlace st.group st.objtype (some i))) := ⟨hg, hd, hf, rfl⟩
  generalize hsp : rootedOf (statusPlace st.group st.objtype (some i)) = sp at hat
  have htag : tagOf (ascii "init") = List.replicate 12 0 ++ ascii "init" := by decide
  have hsz : LinksSized [⟨List.replicate 12 0 ++ ascii "init", privateGroup⟩] := link_sized (by decide) (by decide)
  refine ⟨sp, hsp ▸ status_rooted hg hf, ?_⟩
  have hspace : statusSpace st.named = .ok sp := (statusSpace_iff (st := st.named) hg sp).2 (by
    show StatusFits st.objtype (some (st.inst.getD (ascii "default"))) ∧ _
    rw [← hi]
    exact ⟨hf, by rw [← hsp, hi]; rfl⟩)
  obtain ⟨⟨q, hq⟩, _⟩ := status_set_query (st := st.named) (i := i) hg hf
  have hdom : st.domain = st.named.domain := rfl
  have hgrp : st.named.group = st.group := rfl
  have hobj : st.named.objtype = st.objtype := rfl
  have hnn : st.named.named = st.named := rfl
  have hcmd : statusSetCmd ev C nh now true r st l = match readNext ev r (replyRoom sp) [] with
      | .error e => ([], some e)
      | .ok (false, _, _) => ([], some (.err ()))
      | .ok (true, r, b) => if b = [] then ([], some (.err ())) else
        (replyPkt C nh (replyContent st.domain sp now ⟨List.replicate 12 0 ++ ascii "init", zeroGroup⟩ b) ::
          (setAnswers ev C nh st.named sp r (replyPkt C nh (replyContent st.domain sp now ⟨List.replicate 12 0 ++ ascii "init", zeroGroup⟩ b)).hash l).1,
          (setAnswers ev C nh st.named sp r (replyPkt C nh (replyContent st.domain sp now ⟨List.replicate 12 0 ++ ascii "init", zeroGroup⟩ b)).hash l).2) := by
    refine (set_first ev true r l rfl hnn hspace hq).trans ?_
    rw [htag, status_update_eq (C := C) (nh := nh) ev hat hn hsz r, hdom, update_eq (C := C) (nh := nh) ev hat hn hsz r]
    exact reply_first _ _ fun r h => setAnswers ev C nh st.named sp r h l
  have hans := fun r' prev hp => set_answers_of (C := C) (nh := nh) (st := st.named) (g := st.group) (d := st.domain) (o := st.objtype) hC ev hat hgrp hdom.symm hobj hl r' (prev := prev) hp
  have hval : ∀ b : Bytes, b.length ≤ replyRoom sp → (Content.link (replyContent st.domain sp now ⟨List.replicate 12 0 ++ ascii "init", zeroGroup⟩ b)).Valid :=
    fun b hb => hdom ▸ reply_valid (now := now) hat hn hsz hb
  rw [← replyRoom, Nat.add_comm 1, List.replicate_succ (n := List.length _), blocks_cons, hcmd]
  generalize replyRoom sp = room at hans hval ⊢
  generalize List.replicate 12 0 ++ ascii "init" = ti at hval ⊢
  generalize List.replicate 12 0 ++ ascii "prev" = tp at hans ⊢
  exact chain_first hC (readNext ev r room []) (fun b r' hr => hval b (read_fits hr)) hans

/-- The requests of C69 are among the points that are answered; a file with two lines answers the start and one request, and ends at the next. -/
theorem status_set_example :
    let r : Reader := { input := some ⟨ascii "OK\nERR\n", ascii "OK\nERR\n"⟩, delim := some 10 }
    let a := spotAt 1 [98] none 950 [] []
    let b := spotAt 2 [98] (some [99]) 950 [] []
    let c := spotAt 3 [98] (some [100]) 950 [] []
    ((statusSetCmd .ok toyCrypto (List.replicate 32 0) 1000 true r (exStatus [98] (some [99])) [(c, 1001, true), (a, 1002, true)]).1.map (·.data),
      (statusSetCmd .ok toyCrypto (List.replicate 32 0) 1000 true r (exStatus [98] (some [99])) [(c, 1001, true), (a, 1002, true)]).2) = ([ascii "OK", ascii "ERR"], none) ∧
    ((statusSetCmd .ok toyCrypto (List.replicate 32 0) 1000 true r (exStatus [98] (some [99])) [(a, 1001, true), (b, 1002, true)]).1.map (·.data),
      (statusSetCmd .ok toyCrypto (List.replicate 32 0) 1000 true r (exStatus [98] (some [99])) [(a, 1001, true), (b, 1002, true)]).2) = ([ascii "OK", ascii "ERR"], some (.err ())) := by
  decide +kernel

end Verif.Props
