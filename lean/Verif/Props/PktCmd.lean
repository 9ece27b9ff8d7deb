import Verif.Lemmas.PktCmd
/-!
# C77: the commands that pass on packets

A stream of packets goes in, in pieces of any size, and the packets that the command is for come out in their order, byte for byte.
-/
namespace Verif.Props
open Verif Verif.Pkt Verif.Spec Verif.Pred Verif.Matcher Verif.Multi Verif.Env Verif.Query Verif.Cmd

/-! ### the files -/

theorem file_append (w : World) (l : List (Bytes × Bytes)) (f : Bytes) :
    ({ w with outs := w.outs ++ l } : World).file f = w.file f ++ (l.filter fun e => e.1 == f).flatMap (·.2) := by
  unfold World.file
  rw [List.filter_append, List.flatMap_append]

/-- The files after writing packets to one file. -/
theorem file_stream (o : IoOpts) (f g : Bytes) (ts : List Sent) :
    ((ts.flatMap (outLines o fun s => [(f, s.bytes)])).filter fun e => e.1 == g).flatMap (·.2) = if f = g then streamOf (ts.filter (goesOut o)) else [] := by
  induction ts with
  | nil => simp [streamOf]
  | cons s ts ih =>
    rw [List.flatMap_cons, List.filter_append, List.flatMap_append, ih, List.filter_cons]
    unfold outLines
    by_cases hf : f = g
    · subst hf
      cases goesOut o s <;> simp [streamOf]
    · cases goesOut o s <;> simp [hf]

theorem lines_file (f : Bytes) (ts : List Sent) : Writes [{ out := .fd f }] ts fun s => [(f, s.bytes)] := fun s _ => .bytes f (.nil s)
theorem lines_null (ts : List Sent) : Writes [] ts fun _ => [] := fun s _ => .nil s

/-- What a command does not get to see: an input that ends in less than the headers of a packet ends as if it were complete. -/
theorem stream_rest {i : PktIn} {ss : List Sent} (h : Feeds i (streamOf ss)) : Feeds i (streamOf ss ++ []) := by rwa [List.append_nil]

/-! ### filter -/

theorem recv_default {rs : List Stmt} {p : Preds} (h : Preds.default.run true rs = .ok p) (hr : ∀ r ∈ rs, Plain r) (hn : ∀ r ∈ rs, r.kind ≠ .recv) :
    p.recv = Bound.default 64 := by
  have hm : ∀ x : BitVec 64, p.recv.Mem x := fun x => (run_recv h hr x).2 fun r hx hk => absurd hk (hn r hx)
  have h1 := (hm 0#64).1
  have h2 := (hm (BitVec.allOnes 64)).2
  generalize p.recv = b at h1 h2
  obtain ⟨lo, hi⟩ := b
  have e1 : lo = 0#64 := BitVec.eq_of_toNat_eq (by simp at h1 ⊢; omega)
  have e2 : hi = BitVec.allOnes 64 := BitVec.eq_of_toNat_eq (by
    have := hi.isLt
    simp only [BitVec.toNat_allOnes] at h2 ⊢
    omega)
  subst e1; subst e2
  rfl

/-- What `filter` is asked: these statements, with a clock that does not run backwards. -/
structure Asks (f : Filter) (clock : Nat → Nat) (rs : List Stmt) (p : Preds) : Prop where
  query : f.query none = .ok p
  run : Preds.default.run true rs = .ok p
  plain : ∀ r ∈ rs, Plain r
  once : f.live = false
  recv : f.recvNow = true ∨ ∀ r ∈ rs, r.kind ≠ .recv
  new : SomePosition .new rs
  any : SomePosition .query rs
  mono : ∀ a b, a ≤ b → clock a ≤ clock b
  bound : ∀ n, clock n < 2 ^ 64

/-- A packet whose space, if it has one, is well formed. -/
def SpaceOk (s : Sent) : Prop := ∃ x, Shows s.parts x

/-- **C77**: `filter` goes through the packets in order and marks each with whether it satisfies the statements at a position the counts
accept, or is an allowed datapoint; those marked go to `--write`, the others to `--write-false`.  It stops reading when no later packet
can be accepted; the packets after that go nowhere, and none of them would have been marked, allowed datapoints apart.  For all statements,
streams, cuts of the stream into pieces, and destinations. -/
theorem filter_splits {C : Crypto} (dbg : Bool) (y : Sys) {o : IoOpts} {clock : Nat → Nat} {f : Filter} {rs : List Stmt} {p : Preds} (hq : Asks f clock rs p)
    {ss : List Sent} (ha : Admits C o ss) (hs : ∀ s ∈ ss, SpaceOk (arrive (o.hop.getD false) s)) (hp : ∀ s ∈ ss, s.Secret → ¬ Forbids o)
    {lt lf : Sent → List (Bytes × Bytes)} (hlt : Writes f.write (ss.map (arrive (o.hop.getD false))) lt)
    (hlf : Writes f.writeFalse (ss.map (arrive (o.hop.getD false))) lf) {i : PktIn} (hi : Feeds i (streamOf ss)) (hb : ss.length + 1 < 2 ^ 32) (w : World) :
    ∃ ms tail : List (Sent × Bool), ss.map (arrive (o.hop.getD false)) = ms.map (·.1) ++ tail.map (·.1) ∧ Sieved rs f.allowDatapoint clock 0 0 (ms ++ tail) ∧
      filterCmd C dbg y o clock f i w = ({ w with outs := w.outs ++ ms.flatMap (sieveOut o lt lf) }, .ok ()) ∧
      (∀ x ∈ tail, x.2 = true → f.allowDatapoint = true ∧ x.1.IsData) ∧
      (tail = [] ∨ (∃ k, k ≤ ss.length ∧ ∀ i, k ≤ i → i < 2 ^ 32 → ¬ ((∀ r ∈ rs, CountOk .new r i) ∧ ∀ r ∈ rs, CountOk .query r i)) ∨
        ∃ n, ∀ t, clock n ≤ t → t < 2 ^ 64 → ¬ ∀ r ∈ rs, RecvOk r t) := by
  unfold filterCmd
  rw [hq.query]
  simp only
  have hrecv : (!f.recvNow && p.recv != Bound.default 64) = false := by
    rcases hq.recv with h | h
    · rw [h]; rfl
    · rw [recv_default hq.run hq.plain h]; simp
  rw [hrecv]
  simp only [Bool.false_eq_true, if_false]
  rcases watch_made hq.run hq.new [] 0#32 () with ⟨e, h1, -, -, h4, -⟩ | ⟨-, h2⟩
  · rw [h1]
    simp only
    have hp' : ∀ s ∈ ss.map (arrive (o.hop.getD false)), s.Secret → ¬ Forbids o := by
      intro s hm
      obtain ⟨x, hx, rfl⟩ := List.mem_map.1 hm
      rw [arrive_secret]; exact hp x hx
    have hs' : ∀ s ∈ ss.map (arrive (o.hop.getD false)), ∃ x, Shows s.parts x := by
      intro s hm
      obtain ⟨x, hx, rfl⟩ := List.mem_map.1 hm
      exact hs x hx
    obtain ⟨ms, tail, e', n', i1, i2, i3, i4, i5⟩ := filter_each dbg y hq.once hq.mono hq.bound hq.run hq.plain hq.new _ hlt hlf hp' hs' w e 0 0 h4
      (by rw [List.length_map]; omega)
    refine ⟨ms, tail, i1, i2, runCmd_ok ha (stream_rest hi) (by simp) i3, i4, ?_⟩
    refine i5.imp_right (Or.imp ?_ ?_)
    · rintro ⟨k, a, b⟩
      refine ⟨k, by rw [List.length_map] at a; omega, fun i h1 h2 h3 => b i h1 h2 (accepts_zero.2 h3)⟩
    · rintro ⟨n, _, b⟩
      exact ⟨n, b⟩
  · obtain ⟨k, hk, hx⟩ := hq.any
    exact absurd hx (h2 k (by simp) hk)

/-- Statements that are only about the packet: no counts, no receive time, no hash. -/
def AboutPacket (rs : List Stmt) : Prop := ∀ r ∈ rs, (∀ q, r.kind ≠ .limit q) ∧ r.kind ≠ .recv ∧ ¬ (r.kind = .field .hash ∧ r.op = .equal)
/-- The packet satisfies them. -/
def Satisfies (rs : List Stmt) (s : Sent) : Prop := ∃ x, Shows s.parts x ∧ ∀ r ∈ rs, Sat r x

theorem about_count {rs : List Stmt} (h : AboutPacket rs) (q : QScope) (n : Nat) : ∀ r ∈ rs, CountOk q r n :=
  fun r hr => ⟨fun hk => absurd hk ((h r hr).1 q), fun _ hk ho => absurd ⟨hk, ho⟩ (h r hr).2.2⟩
theorem about_recv {rs : List Stmt} (h : AboutPacket rs) (t : Nat) : ∀ r ∈ rs, RecvOk r t := fun r hr hk => absurd hk (h r hr).2.1
theorem about_meets {rs : List Stmt} (h : AboutPacket rs) (t : Nat) (s : Sent) : Meets rs t s.parts ↔ Satisfies rs s :=
  ⟨fun ⟨x, a, b, _⟩ => ⟨x, a, b⟩, fun ⟨x, a, b⟩ => ⟨x, a, b, about_recv h t⟩⟩

theorem sieved_about {rs : List Stmt} (h : AboutPacket rs) {allow : Bool} {clock : Nat → Nat} {n k : Nat} {ms : List (Sent × Bool)}
    (hm : Sieved rs allow clock n k ms) : ∀ x ∈ ms, (x.2 = true ↔ (allow = true ∧ x.1.IsData) ∨ Satisfies rs x.1) := by
  induction hm with
  | nil n k => intro x hx; cases hx
  | data ha hd _ ih =>
    intro x hx
    cases hx with
    | head => exact ⟨fun _ => .inl ⟨ha, hd⟩, fun _ => rfl⟩
    | tail _ hx => exact ih x hx
  | pass hd hn _ ih =>
    intro x hx
    cases hx with
    | head =>
      refine ⟨nofun, fun hy => ?_⟩
      rcases hy with hy | hy
      · exact absurd hy hd
      · exact absurd ((about_meets h _ _).2 hy) hn
    | tail _ hx => exact ih x hx
  | hit hd hy hb _ ih =>
    intro x hx
    cases hx with
    | head => exact ⟨fun _ => .inr ((about_meets h _ _).1 hy), fun _ => hb.2 ⟨about_count h .new _, about_count h .query _⟩⟩
    | tail _ hx => exact ih x hx

/-- What `filter` is asked, when the statements are about the packet. -/
structure AsksOf (f : Filter) (rs : List Stmt) (p : Preds) : Prop where
  query : f.query none = .ok p
  run : Preds.default.run true rs = .ok p
  plain : ∀ r ∈ rs, Plain r
  once : f.live = false
  about : AboutPacket rs

theorem AsksOf.asks {f : Filter} {rs : List Stmt} {p : Preds} (h : AsksOf f rs p) {clock : Nat → Nat} (hmono : ∀ a b, a ≤ b → clock a ≤ clock b)
    (hbound : ∀ n, clock n < 2 ^ 64) : Asks f clock rs p :=
  ⟨h.query, h.run, h.plain, h.once, .inr fun r hr => (h.about r hr).2.1, ⟨0, by decide, about_count h.about _ _⟩, ⟨0, by decide, about_count h.about _ _⟩,
    hmono, hbound⟩

/-- **C77**: with statements about the packet alone, every packet goes to `--write` if it satisfies them or is an allowed datapoint, and to
`--write-false` otherwise. -/
theorem filter_cmd_exact {C : Crypto} (dbg : Bool) (y : Sys) {o : IoOpts} {clock : Nat → Nat} (hmono : ∀ a b, a ≤ b → clock a ≤ clock b)
    (hbound : ∀ n, clock n < 2 ^ 64) {f : Filter} {rs : List Stmt} {p : Preds} (hq : AsksOf f rs p)
    {ss : List Sent} (ha : Admits C o ss) (hs : ∀ s ∈ ss, SpaceOk (arrive (o.hop.getD false) s)) (hp : ∀ s ∈ ss, s.Secret → ¬ Forbids o)
    {lt lf : Sent → List (Bytes × Bytes)} (hlt : Writes f.write (ss.map (arrive (o.hop.getD false))) lt)
    (hlf : Writes f.writeFalse (ss.map (arrive (o.hop.getD false))) lf) {i : PktIn} (hi : Feeds i (streamOf ss)) (hb : ss.length + 1 < 2 ^ 32) (w : World) :
    ∃ ms : List (Sent × Bool), ms.map (·.1) = ss.map (arrive (o.hop.getD false)) ∧ (∀ x ∈ ms, (x.2 = true ↔ (f.allowDatapoint = true ∧ x.1.IsData) ∨ Satisfies rs x.1)) ∧
      filterCmd C dbg y o clock f i w = ({ w with outs := w.outs ++ ms.flatMap (sieveOut o lt lf) }, .ok ()) := by
  obtain ⟨ms, tail, h1, h2, h3, -, h5⟩ := filter_splits dbg y (hq.asks hmono hbound) ha hs hp hlt hlf hi hb w
  have : tail = [] := by
    rcases h5 with h | ⟨k, hk, h⟩ | ⟨n, h⟩
    · exact h
    · exact absurd ⟨about_count hq.about .new _, about_count hq.about .query _⟩ (h (k) (Nat.le_refl _) (by omega))
    · exact absurd (about_recv hq.about _) (h (clock n) (Nat.le_refl _) (hbound n))
  subst this
  rw [List.append_nil] at h2
  exact ⟨ms, by rw [h1]; simp, sieved_about hq.about h2, h3⟩

theorem sieve_file (o : IoOpts) (a g : Bytes) (ms : List (Sent × Bool)) :
    ((ms.flatMap (sieveOut o (fun s => [(a, s.bytes)]) fun _ => [])).filter fun e => e.1 == g).flatMap (·.2) =
      if a = g then streamOf (((ms.filter (·.2)).map (·.1)).filter (goesOut o)) else [] := by
  rw [← file_stream]
  congr 2
  induction ms with
  | nil => rfl
  | cons x ms ih =>
    rw [List.flatMap_cons, ih, List.filter_cons]
    cases hx : x.2 with
    | true => simp [sieveOut, hx]
    | false => simp [sieveOut, hx, outLines]

/-- **C77**: `filter` writing to one file gives the file the packets that satisfy the statements, and nothing else changes. -/
theorem filter_file {C : Crypto} (dbg : Bool) (y : Sys) {o : IoOpts} {clock : Nat → Nat} (hmono : ∀ a b, a ≤ b → clock a ≤ clock b)
    (hbound : ∀ n, clock n < 2 ^ 64) {f : Filter} {rs : List Stmt} {p : Preds} (hq : AsksOf f rs p) {a : Bytes} (hw : f.write = [{ out := .fd a }])
    (hwf : f.writeFalse = []) {ss : List Sent} (ha : Admits C o ss) (hs : ∀ s ∈ ss, SpaceOk (arrive (o.hop.getD false) s)) (hp : ∀ s ∈ ss, s.Secret → ¬ Forbids o)
    {i : PktIn} (hi : Feeds i (streamOf ss)) (hb : ss.length + 1 < 2 ^ 32) (w : World) :
    ∃ (ms : List (Sent × Bool)) (w' : World), ms.map (·.1) = ss.map (arrive (o.hop.getD false)) ∧ (∀ x ∈ ms, (x.2 = true ↔ (f.allowDatapoint = true ∧ x.1.IsData) ∨ Satisfies rs x.1)) ∧
      filterCmd C dbg y o clock f i w = (w', .ok ()) ∧ w'.file a = w.file a ++ streamOf (((ms.filter (·.2)).map (·.1)).filter (goesOut o)) ∧
      (∀ g, g ≠ a → w'.file g = w.file g) ∧ w'.db = w.db := by
  obtain ⟨ms, h1, h2, h3⟩ := filter_cmd_exact dbg y hmono hbound hq ha hs hp (hw ▸ lines_file a _) (hwf ▸ lines_null _) hi hb w
  refine ⟨ms, _, h1, h2, h3, ?_, fun g hg => ?_, rfl⟩
  · rw [file_append, sieve_file, if_pos rfl]
  · rw [file_append, sieve_file, if_neg (Ne.symm hg), List.append_nil]

/-- **C77**: `ignore` passes on the packets that do not satisfy the statements. -/
theorem ignore_file {C : Crypto} (dbg : Bool) (y : Sys) {o : IoOpts} {clock : Nat → Nat} (hmono : ∀ a b, a ≤ b → clock a ≤ clock b)
    (hbound : ∀ n, clock n < 2 ^ 64) {f : Filter} {rs : List Stmt} {p : Preds} (hq : AsksOf f rs p) {a : Bytes} (hw : f.write = [{ out := .fd a }])
    (hwf : f.writeFalse = []) (hd : f.allowDatapoint = false)
    {ss : List Sent} (ha : Admits C o ss) (hs : ∀ s ∈ ss, SpaceOk (arrive (o.hop.getD false) s)) (hp : ∀ s ∈ ss, s.Secret → ¬ Forbids o)
    {i : PktIn} (hi : Feeds i (streamOf ss)) (hb : ss.length + 1 < 2 ^ 32) (w : World) :
    ∃ (ms : List (Sent × Bool)) (w' : World), ms.map (·.1) = ss.map (arrive (o.hop.getD false)) ∧ (∀ x ∈ ms, (x.2 = true ↔ ¬ Satisfies rs x.1)) ∧
      ignoreCmd C dbg y o clock f i w = (w', .ok ()) ∧ w'.file a = w.file a ++ streamOf (((ms.filter (·.2)).map (·.1)).filter (goesOut o)) ∧
      (∀ g, g ≠ a → w'.file g = w.file g) ∧ w'.db = w.db := by
  have hq' : AsksOf { f with write := f.writeFalse, writeFalse := f.write } rs p := ⟨hq.query, hq.run, hq.plain, hq.once, hq.about⟩
  obtain ⟨ms, h1, h2, h3⟩ := filter_cmd_exact dbg y hmono hbound hq' ha hs hp (by simp only [hwf]; exact lines_null _) (by simp only [hw]; exact lines_file a _) hi hb w
  have e : ms.flatMap (sieveOut o (fun _ => []) fun s => [(a, s.bytes)]) =
      (ms.map fun x => (x.1, !x.2)).flatMap (sieveOut o (fun s => [(a, s.bytes)]) fun _ => []) := by
    rw [List.flatMap_map]
    congr 1
    funext x
    unfold sieveOut
    cases x.2 <;> rfl
  rw [e] at h3
  refine ⟨ms.map fun x => (x.1, !x.2), _, by rw [← h1, List.map_map]; rfl, ?_, h3, ?_, fun g hg => ?_, rfl⟩
  · intro x hx
    obtain ⟨z, hz, rfl⟩ := List.mem_map.1 hx
    have := h2 z hz
    simp only [hd, Bool.false_eq_true, false_and, false_or] at this
    rw [← this]
    simp
  · rw [file_append, sieve_file, if_pos rfl]
  · rw [file_append, sieve_file, if_neg (Ne.symm hg), List.append_nil]

/-- Two lists of marks on the same list, one on what the other keeps. -/
theorem marks_trans {P Q : Sent → Prop} {ms ms' : List (Sent × Bool)} (h : ∀ x ∈ ms, (x.2 = true ↔ P x.1))
    (he : ms'.map (·.1) = (ms.filter (·.2)).map (·.1)) (h' : ∀ x ∈ ms', (x.2 = true ↔ Q x.1)) :
    ∃ ks : List (Sent × Bool), ks.map (·.1) = ms.map (·.1) ∧ (∀ x ∈ ks, (x.2 = true ↔ P x.1 ∧ Q x.1)) ∧ (ks.filter (·.2)).map (·.1) = (ms'.filter (·.2)).map (·.1) := by
  induction ms generalizing ms' with
  | nil =>
    have : ms' = [] := by simpa using he
    subst this
    exact ⟨[], rfl, (fun _ hx => nomatch hx), rfl⟩
  | cons x ms ih =>
    have hx := h x (by simp)
    cases hb : x.2 with
    | false =>
      rw [List.filter_cons, if_neg (by simp [hb])] at he
      obtain ⟨ks, a, b, c⟩ := ih (fun z hz => h z (by simp [hz])) he h'
      refine ⟨(x.1, false) :: ks, by simp [a], ?_, by simpa using c⟩
      intro z hz
      cases hz with
      | head =>
        refine ⟨nofun, fun hy => ?_⟩
        rw [hb] at hx
        exact absurd (hx.2 hy.1) (by simp)
      | tail _ hz => exact b z hz
    | true =>
      rw [List.filter_cons, if_pos hb, List.map_cons] at he
      cases ms' with
      | nil => simp at he
      | cons m ms' =>
        rw [List.map_cons, List.cons.injEq] at he
        obtain ⟨ks, a, b, c⟩ := ih (fun z hz => h z (by simp [hz])) he.2 (fun z hz => h' z (by simp [hz]))
        refine ⟨(x.1, m.2) :: ks, by simp [a], ?_, ?_⟩
        · intro z hz
          cases hz with
          | head =>
            have := h' m (by simp)
            rw [he.1] at this
            exact this.trans ⟨fun hy => ⟨hx.1 hb, hy⟩, (·.2)⟩
          | tail _ hz => exact b z hz
        · rw [List.filter_cons, List.filter_cons]
          cases hm : m.2 with
          | true => simp [c, he.1]
          | false => simpa using c

/-- **C77**: a filter piped into another passes on the packets that satisfy the statements of both, in order and byte for byte.  However the
pipe cuts the stream. -/
theorem filter_pipe {C : Crypto} (dbg : Bool) (y y' : Sys) {o : IoOpts} (hhop : o.hop = none) {clock clock' : Nat → Nat} (hmono : ∀ a b, a ≤ b → clock a ≤ clock b)
    (hbound : ∀ n, clock n < 2 ^ 64) (hmono' : ∀ a b, a ≤ b → clock' a ≤ clock' b) (hbound' : ∀ n, clock' n < 2 ^ 64)
    {f g : Filter} {rs rs' : List Stmt} {p p' : Preds} (hq : AsksOf f rs p) (hq' : AsksOf g rs' p') {a b : Bytes}
    (hw : f.write = [{ out := .fd a }]) (hwf : f.writeFalse = []) (hd : f.allowDatapoint = false)
    (hw' : g.write = [{ out := .fd b }]) (hwf' : g.writeFalse = []) (hd' : g.allowDatapoint = false)
    {ss : List Sent} (ha : Admits C o ss) (hs : ∀ s ∈ ss, SpaceOk s) (hp : ∀ s ∈ ss, ¬ s.Secret)
    {i : PktIn} (hi : Feeds i (streamOf ss)) (hb : ss.length + 1 < 2 ^ 32) :
    ∃ w1, filterCmd C dbg y o clock f i {} = (w1, .ok ()) ∧ ∀ i', Feeds i' (w1.file a) →
      ∃ (ks : List (Sent × Bool)) (w2 : World), ks.map (·.1) = ss ∧ (∀ x ∈ ks, (x.2 = true ↔ Satisfies rs x.1 ∧ Satisfies rs' x.1)) ∧
        filterCmd C dbg y' o clock' g i' {} = (w2, .ok ()) ∧ w2.file b = streamOf ((ks.filter (·.2)).map (·.1)) := by
  have hh : o.hop.getD false = false := by rw [hhop]; rfl
  have goes : ∀ ts : List Sent, (∀ s ∈ ts, ¬ s.Secret) → ts.filter (goesOut o) = ts := by
    intro ts h
    rw [List.filter_eq_self]
    exact fun s hx => goesOut_iff.2 fun hsec => absurd hsec (h s hx)
  obtain ⟨ms, w1, h1, h2, h3, h4, -, -⟩ := filter_file (C := C) (o := o) dbg y hmono hbound hq hw hwf ha (by rw [hh]; exact hs) (fun s h1 h2 => absurd h2 (hp s h1)) hi hb {}
  rw [hh, arrive_false] at h1
  have hmem : ∀ s ∈ (ms.filter (·.2)).map (·.1), s ∈ ss := by
    intro s hx
    obtain ⟨z, hz, rfl⟩ := List.mem_map.1 hx
    rw [← h1]
    exact List.mem_map_of_mem (List.mem_filter.1 hz).1
  rw [goes _ fun s hx => hp s (hmem s hx)] at h4
  have h4 : w1.file a = streamOf ((ms.filter (·.2)).map (·.1)) := h4
  refine ⟨w1, h3, fun i' hi' => ?_⟩
  rw [h4] at hi'
  have hlen : ((ms.filter (·.2)).map (·.1)).length ≤ ss.length := by
    rw [List.length_map, ← h1, List.length_map]
    exact List.length_filter_le _ _
  obtain ⟨ms', w2, k1, k2, k3, k4, -, -⟩ := filter_file (C := C) (o := o) dbg y' hmono' hbound' hq' hw' hwf' (fun s hx => ha s (hmem s hx))
    (by rw [hh]; exact fun s hx => hs s (hmem s hx)) (fun s h1 h2 => absurd h2 (hp s (hmem s h1))) hi' (by omega) {}
  rw [hh, arrive_false] at k1
  have hmem' : ∀ s ∈ (ms'.filter (·.2)).map (·.1), s ∈ ss := by
    intro s hx
    obtain ⟨z, hz, rfl⟩ := List.mem_map.1 hx
    exact hmem _ (by rw [← k1]; exact List.mem_map_of_mem (List.mem_filter.1 hz).1)
  rw [goes _ fun s hx => hp s (hmem' s hx)] at k4
  simp only [hd, hd', Bool.false_eq_true, false_and, false_or] at h2 k2
  obtain ⟨ks, l1, l2, l3⟩ := marks_trans h2 k1 k2
  exact ⟨ks, w2, by rw [l1, h1], l2, k3, by rw [l3]; exact k4⟩

/-! ### dedup -/

/-- **C77**: `dedup` passes on the packets its memory does not take for seen; private points too. -/
theorem dedup_cmd {C : Crypto} (dbg : Bool) (y : Sys) {o : IoOpts} {cap : Nat} (hc : cap ≠ 0) {ds : List Dest} {lines : Sent → List (Bytes × Bytes)} {ss : List Sent}
    (ha : ∀ s ∈ ss, o.skipHash = true ∨ s.Genuine C) (hl : Writes ds (ss.map (arrive (o.hop.getD false))) lines) {i : PktIn} (hi : Feeds i (streamOf ss)) (w : World) :
    ∃ out, Deduped cap [] (ss.map (arrive (o.hop.getD false))) out ∧
      dedupCmd C dbg y o cap ds i w = ({ w with outs := w.outs ++ out.flatMap lines }, .ok ()) := by
  have hout : ∀ s, goesOut o.enablePrivate s = true := fun s => goesOut_iff.2 fun _ => .inl rfl
  obtain ⟨out, b', h1, h2⟩ := dedup_each (o := o.enablePrivate) dbg y hc _ hl (fun s _ _ hx => Bool.noConfusion hx.1) [] _ rfl w
  refine ⟨out, h1, ?_⟩
  have e : outLines o.enablePrivate lines = lines := by
    funext s
    unfold outLines
    rw [hout, if_pos rfl]
  rw [e] at h2
  exact runCmd_ok (o := o.enablePrivate) (fun s hs => ⟨ha s hs, fun _ => .inl rfl⟩) (stream_rest hi) (by simp) h2

/-- What is passed on is part of the stream, in order. -/
theorem deduped_sublist {cap : Nat} {hist : List Bytes} {ss out : List Sent} (h : Deduped cap hist ss out) : out.Sublist ss := by
  induction h with
  | nil => exact List.Sublist.refl _
  | keep _ _ _ ih => exact ih.cons_cons _
  | drop _ _ ih => exact ih.cons _

/-- **C77**: no packet is lost: of every packet whose hash is not zero one with its hash is passed on. -/
theorem deduped_covers {cap : Nat} {hist : List Bytes} {ss out : List Sent} (h : Deduped cap hist ss out) :
    ∀ s ∈ ss, s.hash ≠ List.replicate 32 0 → s.hash ∈ hist ∨ ∃ t ∈ out, t.hash = s.hash := by
  induction h with
  | nil => intro s hs; cases hs
  | keep _ _ _ ih =>
    intro s hs hz
    cases hs with
    | head => exact .inr ⟨_, by simp, rfl⟩
    | tail _ hs =>
      rcases ih s hs hz with hx | ⟨t, ht, e⟩
      · rcases List.mem_append.1 hx with hx | hx
        · exact .inl hx
        · exact .inr ⟨_, List.mem_cons_self, (List.mem_singleton.1 hx).symm⟩
      · exact .inr ⟨t, by simp [ht], e⟩
  | drop hd _ ih =>
    intro s hs hz
    cases hs with
    | head =>
      rcases hd with ⟨a, b, e, _⟩ | ⟨e, _⟩
      · exact .inl (by rw [e]; simp)
      · exact absurd e hz
    | tail _ hs =>
      rcases ih s hs hz with hx | hx
      · rcases List.mem_append.1 hx with hx | hx
        · exact .inl hx
        · have e1 := List.mem_singleton.1 hx
          rcases hd with ⟨a, b, e, _⟩ | ⟨e, _⟩
          · exact .inl (by rw [e, e1]; simp)
          · exact absurd (e1.trans e) hz
      · exact .inr hx

/-- Two copies of a packet with nothing between them that has its place: the second is not passed on. -/
theorem deduped_next {cap : Nat} {hist : List Bytes} {s t : Sent} (e : t.hash = s.hash) {ss out : List Sent} (h : Deduped cap hist (s :: t :: ss) out) :
    ∃ out', (out = s :: out' ∨ out = out') ∧ Deduped cap (hist ++ [s.hash] ++ [s.hash]) ss out' := by
  have key : ∀ o', Deduped cap (hist ++ [s.hash]) (t :: ss) o' → Deduped cap (hist ++ [s.hash] ++ [s.hash]) ss o' := by
    intro o' h
    cases h with
    | keep h1 _ _ => exact absurd ⟨hist, [], by rw [e], (fun _ h => nomatch h)⟩ h1
    | drop _ h2 => rw [e] at h2; exact h2
  cases h with
  | keep _ _ h => exact ⟨_, .inl rfl, key _ h⟩
  | drop _ h => exact ⟨_, .inr rfl, key _ h⟩

/-! ### save -/

theorem lines_last {ds : List Dest} {s : Sent} {l : List (Bytes × Bytes)} (f : Bytes) (h : Lines ds s l) : Lines (ds ++ [{ out := .fd f }]) s (l ++ [(f, s.bytes)]) := by
  induction h with
  | nil s => exact .bytes f (.nil s)
  | bytes g _ ih => exact .bytes g ih
  | expr g hb _ ih => exact .expr g hb ih

/-- The destinations other than the database write these lines. -/
theorem lines_notDb' {ds : List Dest} {ts : List Sent} {lines : Sent → List (Bytes × Bytes)} (h : Writes ds ts lines) : Writes (notDb (ds ++ [{ out := .db }])) ts lines := by
  intro s hs
  have hl := h s hs
  have key : ∀ {ds : List Dest} {l}, Lines ds s l → notDb ds = ds := by
    intro ds l hl
    unfold notDb
    rw [List.filter_eq_self]
    induction hl with
    | nil => intro d hd; cases hd
    | bytes f _ ih =>
      intro d hd
      cases hd with
      | head => rfl
      | tail _ hd => exact ih hs hl d hd
    | expr f _ _ ih =>
      intro d hd
      cases hd with
      | head => rfl
      | tail _ hd => exact ih hs hl d hd
  have : notDb (ds ++ [{ out := .db }]) = ds := by
    have e := key hl
    unfold notDb at e ⊢
    rw [List.filter_append, e]
    simp
  rw [this]; exact hl
theorem lines_notDb {ds : List Dest} {ts : List Sent} {lines : Sent → List (Bytes × Bytes)} (h : Writes ds ts lines) (fwd : Bool) :
    Writes (notDb (if fwd then ds ++ [{ out := .db }] ++ [{ out := .fd stdout }] else ds ++ [{ out := .db }])) ts (forwarded fwd lines) := by
  intro s hs
  have hn := lines_notDb' h s hs
  unfold forwarded
  cases fwd with
  | false => simpa using hn
  | true =>
    have : notDb (ds ++ [{ out := .db }] ++ [{ out := .fd stdout }]) = notDb (ds ++ [{ out := .db }]) ++ [{ out := .fd stdout }] := by
      unfold notDb
      rw [List.filter_append]
      rfl
    rw [if_pos rfl, if_pos rfl, this]
    exact lines_last stdout hn

/-- **C77**: `save` appends the new packets to the log in their order, with the hop counted unless `--hop false`; a packet whose hash is in the
database or came before goes to `--old`, the others to `--new`, and with `--forward` all go on to standard output.  When the clock is ahead of the log and ticks between two saves. -/
theorem save_cmd_partial {C : Crypto} (dbg : Bool) {y : Sys} (hio : ∀ n m, y.io n m = .ok) {o : IoOpts} {new old : List Dest} {ln lo : Sent → List (Bytes × Bytes)}
    {ss : List Sent} (ha : Admits C o ss) (hp : ∀ s ∈ ss, s.Secret → ¬ Forbids o) (hln : Writes new (ss.map (arrive (o.hop.getD true))) ln)
    (hlo : Writes old (ss.map (arrive (o.hop.getD true))) lo) {i : PktIn} (hi : Feeds i (streamOf ss)) {w : World} (hc : Spec.Consistent w.db)
    (hnow : ∀ e ∈ w.db.log, e.1 < y.now w.saves) (hmono : ∀ n, n < w.saves + ss.length → y.now n < y.now (n + 1))
    (hbig : ∀ n, n ≤ w.saves + ss.length → y.now n + 1 < 2 ^ 64) (fwd : Bool) :
    ∃ db n L, saveCmd C dbg y o (new ++ [{ out := .db }]) (old ++ [{ out := .db }]) fwd i w =
        ({ w with db, saves := n, outs := w.outs ++ (markNew (hashesOf w.db.log) (ss.map (arrive (o.hop.getD true)))).flatMap (sieveOut o (forwarded fwd ln) (forwarded fwd lo)) }, .ok ()) ∧
      Spec.Consistent db ∧ db.log = w.db.log ++ L ∧
      L.map (·.2) = news (hashesOf w.db.log) ((ss.map (arrive (o.hop.getD true))).map Sent.parts) := by
  have hhop : (o.defaultHop.hop.getD false) = o.hop.getD true := rfl
  have hp' : ∀ s ∈ ss.map (arrive (o.hop.getD true)), s.Secret → ¬ Forbids o.defaultHop := by
    intro s hm
    obtain ⟨x, hx, rfl⟩ := List.mem_map.1 hm
    rw [arrive_secret]; exact hp x hx
  obtain ⟨db, n, L, h1, h2, h3, h4⟩ := save_each (o := o.defaultHop) dbg hio _ (lines_notDb hln fwd) (lines_notDb hlo fwd) hp' w hc hnow
    (by rw [List.length_map]; exact hmono) (by rw [List.length_map]; exact hbig) (hashesOf w.db.log) (fun _ => Iff.rfl)
  refine ⟨db, n, L, ?_, h2, h3, h4⟩
  unfold saveCmd
  simp only
  rw [if_neg (by rw [hi.opened]; simp), if_neg (by cases fwd <;> simp)]
  exact runCmd_ok (o := o.defaultHop) ha (stream_rest hi) (by simp) (by rw [hhop]; exact h1)

/-! ### route -/

theorem route_file (g : Sent → Bytes) (f : Bytes) (ss : List Sent) :
    ((ss.map fun s => (stdout, g s)).filter fun x => x.1 == f).flatMap (·.2) = if f = stdout then ss.flatMap g else [] := by
  induction ss with
  | nil => simp
  | cons s ss ih =>
    rw [List.map_cons, List.filter_cons]
    by_cases hf : f = stdout
    · rw [if_pos hf] at ih
      rw [if_pos (by simp [hf]), List.flatMap_cons, ih, if_pos hf, List.flatMap_cons]
    · rw [if_neg hf] at ih
      rw [if_neg (by simp only [beq_iff_eq]; exact fun hx => hf hx.symm), ih, if_neg hf]

/-- **C77**: `route` changes the routing headers and nothing else: hash and point of every packet are written as they were, whatever their
hash is. -/
theorem route_cmd {C : Crypto} (dbg : Bool) (y : Sys) {o : IoOpts} {m : Mutate} (hm : ∀ h, h.length = 32 → (m.apply h).length = 32)
    {ss : List Sent} {i : PktIn} (hi : Feeds i (streamOf ss)) (w : World) :
    ∃ w', routeCmd C dbg y o m i w = (w', .ok ()) ∧
      w'.file stdout = w.file stdout ++ ss.flatMap (fun s => m.apply (arrive (o.hop.getD false) s).nh ++ s.hash ++ s.c.layout) ∧
      (∀ g, g ≠ stdout → w'.file g = w.file g) ∧ w'.db = w.db := by
  have h1 := route_each dbg y (o := { o.enablePrivate with skipHash := true }) rfl m hm (ss.map (arrive (o.hop.getD false))) w
  have h2 := runCmd_ok (C := C) (dbg := dbg) (o := { o.enablePrivate with skipHash := true }) (ss := ss) (fun s hs => ⟨.inl rfl, fun _ => .inl rfl⟩) (stream_rest hi) (by simp) h1
  have e := fun g => route_file (fun s => m.apply (arrive (o.hop.getD false) s).nh ++ s.hash ++ s.c.layout) g ss
  have e2 : (ss.map (arrive (o.hop.getD false))).map (fun s => (stdout, m.apply s.nh ++ s.hash ++ s.c.layout)) =
      ss.map fun s => (stdout, m.apply (arrive (o.hop.getD false) s).nh ++ s.hash ++ s.c.layout) := by
    rw [List.map_map]
    congr 1
    funext s
    simp only [Function.comp, arrive_hash, arrive_c]
  rw [e2] at h2
  exact ⟨_, h2, by rw [file_append, e, if_pos rfl], fun g hg => by rw [file_append, e, if_neg hg, List.append_nil], rfl⟩

/-! ### pktf -/

/-- The texts one after the other, each with the delimiter behind it; with `--join` the delimiter stands between them. -/
def textsOf (join : Bool) (delim : Bytes) (texts : List Bytes) : Bytes :=
  if join then (texts.intersperse delim).flatten else texts.flatMap (· ++ delim)

theorem joinTexts_false (delim : Bytes) (first : Bool) (l : List Bytes) : joinTexts false delim first l = l.flatMap (· ++ delim) := by
  induction l generalizing first with
  | nil => rfl
  | cons b l ih => rw [joinTexts, ih, List.flatMap_cons]; rfl

theorem joinTexts_rest (delim : Bytes) (b : Bytes) (l : List Bytes) : b ++ joinTexts true delim false l = ((b :: l).intersperse delim).flatten := by
  induction l generalizing b with
  | nil => simp [joinTexts]
  | cons c l ih =>
    rw [joinTexts, List.intersperse_cons₂, List.flatten_cons, List.flatten_cons, ← ih]
    simp

theorem joinTexts_eq (join : Bool) (delim : Bytes) (l : List Bytes) : joinTexts join delim true l = textsOf join delim l := by
  unfold textsOf
  cases join with
  | false => rw [joinTexts_false]; rfl
  | true =>
    cases l with
    | nil => rfl
    | cons b l =>
      rw [if_pos rfl, ← joinTexts_rest, joinTexts]
      rfl

/-- **C77**: `pktf` prints the texts of the packets in order, one per packet; private points are left out only with `--private-write false`.  With
`--inspect` the texts go to standard error and the packets on to standard output, byte for byte, private ones only if that is allowed. -/
theorem pktf_cmd {C : Crypto} (dbg : Bool) (y : Sys) {o : IoOpts} {f : Fmt} (hf : f.forward = []) {ss : List Sent}
    (ha : ∀ s ∈ ss, (o.skipHash = true ∨ s.Genuine C) ∧ (s.Secret → o.priv = true ∨ o.privateRead ≠ some false)) {text : Sent → Bytes}
    (ht : ∀ s ∈ ss, (s.Secret → ¬ Forbids o) → Prints f (arrive (o.hop.getD false) s) (text (arrive (o.hop.getD false) s)))
    {i : PktIn} (hi : Feeds i (streamOf ss)) (w : World) :
    ∃ shown w', shown = (ss.map (arrive (o.hop.getD false))).filter (fun s => decide (s.Secret → ¬ Forbids o)) ∧
      pktfCmd C dbg y o f i w = (w', .ok ()) ∧
      w'.file (if f.inspect then stderr else stdout) = w.file (if f.inspect then stderr else stdout) ++ textsOf f.join f.delimiter (shown.map text) ∧
      (f.inspect = true → w'.file stdout = w.file stdout ++ streamOf (shown.filter (goesOut o))) ∧ w'.db = w.db := by
  have hwp : (o.writes.getD true = true) ↔ ¬ Forbids o := by
    obtain ⟨pr, pw, r, h, k⟩ := o
    unfold IoOpts.writes Forbids
    cases pr <;> cases pw <;> simp
  have harr : ∀ s ∈ ss.map (arrive (o.hop.getD false)), ∃ x ∈ ss, arrive (o.hop.getD false) x = s := fun s hm => List.mem_map.1 hm
  have hl : Writes f.onward (ss.map (arrive (o.hop.getD false))) fun s => if f.inspect then [(stdout, s.bytes)] else [] := by
    intro s _
    unfold Fmt.onward
    rw [hf]
    cases f.inspect with
    | true => exact .bytes stdout (.nil s)
    | false => exact .nil s
  obtain ⟨l, fst', h1, h2, h3⟩ := pktf_each dbg y (o := { o with privateRead := some (o.privateRead.getD true) }) (o.writes.getD true) _ hl
    (fun s _ _ hx => hwp.1 hx) (text := text) (fun s hm hx => by
      obtain ⟨z, hz, rfl⟩ := harr s hm
      exact prints_text (ht z hz fun hsec => hwp.1 (hx ((arrive_secret _ _).2 hsec)))) w true
  have hfil : (ss.map (arrive (o.hop.getD false))).filter (fun s => decide (s.Secret → o.writes.getD true = true)) =
      (ss.map (arrive (o.hop.getD false))).filter (fun s => decide (s.Secret → ¬ Forbids o)) := by
    congr 1
    funext s
    rw [decide_eq_decide, hwp]
  rw [hfil] at h2 h3
  have hadm : Admits C { o with privateRead := some (o.privateRead.getD true) } ss := by
    intro s hs
    refine ⟨(ha s hs).1, fun hsec => ?_⟩
    rcases (ha s hs).2 hsec with h | h
    · exact .inl h
    · refine .inr ?_
      cases hr : o.privateRead with
      | none => rfl
      | some b =>
        cases b with
        | true => rfl
        | false => exact absurd hr h
  refine ⟨_, _, rfl, runCmd_ok (o := { o with privateRead := some (o.privateRead.getD true) }) hadm (stream_rest hi) (by simp) h1, ?_, ?_, rfl⟩
  · rw [file_append, ← joinTexts_eq, ← h3]
    congr 1
    unfold Fmt.target
    clear h1 h2 h3
    induction l with
    | nil => rfl
    | cons x l ih =>
      rw [List.flatMap_cons, List.filter_append, List.flatMap_append, ih, List.flatMap_cons]
      congr 1
      rw [List.filter_cons, if_pos (by simp), List.flatMap_cons]
      have : (List.filter (fun e => e.1 == (if f.inspect then stderr else stdout)) (outLines { o with privateRead := some (o.privateRead.getD true) }
          (fun s => if f.inspect then [(stdout, s.bytes)] else []) x.1)) = [] := by
        unfold outLines
        cases f.inspect with
        | false => simp
        | true =>
          have hne : stdout ≠ stderr := by decide
          split <;> simp [hne]
      rw [this]
      simp
  · intro hins
    rw [file_append, ← h2]
    congr 1
    unfold Fmt.target
    rw [hins]
    clear h1 h2 h3
    induction l with
    | nil => rfl
    | cons x l ih =>
      have hne : (stderr == stdout) = false := by decide
      rw [List.flatMap_cons, List.filter_append, List.flatMap_append, ih, List.map_cons, List.filter_cons]
      simp only [if_true, List.filter_cons, hne, Bool.false_eq_true, if_false]
      have hg : goesOut { o with privateRead := some (o.privateRead.getD true) } x.1 = goesOut o x.1 := rfl
      unfold outLines
      rw [hg]
      cases goesOut o x.1 <;> simp [streamOf]

/-! ### an input that is not good to its end -/

/-- **C77**: a packet that is not admitted, or one that is cut off, ends the command with an error; what was done for the packets before it
stays done, as if the stream had ended there.  For `dedup`, -/
theorem dedup_cmd_spoiled {C : Crypto} (dbg : Bool) (y : Sys) {o : IoOpts} {cap : Nat} {ds : List Dest} {ss : List Sent} (ha : Admits C o.enablePrivate ss) {i i' : PktIn} {rest : Bytes}
    (hi : Feeds i (streamOf ss)) (hi' : Feeds i' (streamOf ss ++ rest)) (hr : Spoils C o.enablePrivate rest) {w w' : World}
    (h : dedupCmd C dbg y o cap ds i w = (w', .ok ())) : dedupCmd C dbg y o cap ds i' w = (w', .error (.err ())) := by
  refine runCmd_spoiled (rest' := []) ha (stream_rest hi) (by simp) hi' hr (fun s q => ?_) h
  unfold dedupStep
  split
  · nofun
  · nofun
  · split
    · nofun
    · exact onward_go _

/-- for `save`, -/
theorem save_cmd_spoiled {C : Crypto} (dbg : Bool) (y : Sys) {o : IoOpts} {new old : List Dest} {fwd : Bool} {ss : List Sent} (ha : Admits C o ss) {i i' : PktIn} {rest : Bytes}
    (hi : Feeds i (streamOf ss)) (hi' : Feeds i' (streamOf ss ++ rest)) (hr : Spoils C o rest) {w w' : World}
    (h : saveCmd C dbg y o new old fwd i w = (w', .ok ())) : saveCmd C dbg y o new old fwd i' w = (w', .error (.err ())) := by
  have hr' : Spoils C o.defaultHop rest := by
    cases hr with
    | refused s rest h => exact .refused s rest h
    | cut s n a b => exact .cut s n a b
  unfold saveCmd at h ⊢
  simp only [hi.opened, hi'.opened, Bool.false_eq_true, if_false] at h ⊢
  generalize (if fwd then new ++ [{ out := .fd stdout }] else new) = new at h ⊢
  generalize (if fwd then old ++ [{ out := .fd stdout }] else old) = old at h ⊢
  by_cases hdb : (!new.any fun d => decide (d.out = .db)) = true
  · rw [if_pos hdb] at h; cases h
  · rw [if_neg hdb] at h ⊢
    refine runCmd_spoiled (o := o.defaultHop) (rest' := []) ha (stream_rest hi) (by simp) hi' hr' (fun s q => ?_) h
    unfold saveStep
    split
    · nofun
    · split
      · nofun
      · exact onward_go _

/-- for `route`, -/
theorem route_cmd_spoiled {C : Crypto} (dbg : Bool) (y : Sys) {o : IoOpts} {m : Mutate} {ss : List Sent} {i i' : PktIn} {rest : Bytes}
    (hi : Feeds i (streamOf ss)) (hi' : Feeds i' (streamOf ss ++ rest)) (hr : Spoils C { o.enablePrivate with skipHash := true } rest) {w w' : World}
    (h : routeCmd C dbg y o m i w = (w', .ok ())) : routeCmd C dbg y o m i' w = (w', .error (.err ())) := by
  refine runCmd_spoiled (ss := ss) (rest' := []) (fun s hs => ⟨.inl rfl, fun _ => .inl rfl⟩) (stream_rest hi) (by simp) hi' hr (fun s q => ?_) h
  unfold routeStep
  split
  · nofun
  · exact onward_go _

/-- for `pktf`, -/
theorem pktf_cmd_spoiled {C : Crypto} (dbg : Bool) (y : Sys) {o : IoOpts} {f : Fmt} {ss : List Sent} (ha : Admits C { o with privateRead := some (o.privateRead.getD true) } ss) {i i' : PktIn} {rest : Bytes}
    (hi : Feeds i (streamOf ss)) (hi' : Feeds i' (streamOf ss ++ rest)) (hr : Spoils C { o with privateRead := some (o.privateRead.getD true) } rest) {w w' : World}
    (h : pktfCmd C dbg y o f i w = (w', .ok ())) : pktfCmd C dbg y o f i' w = (w', .error (.err ())) := by
  refine runCmd_spoiled (rest' := []) ha (stream_rest hi) (by simp) hi' hr (fun s q => ?_) h
  unfold pktfStep
  repeat' split
  all_goals first | exact onward_go _ | nofun

/-- and for `filter`, which may have stopped reading before it. -/
theorem filter_cmd_spoiled {C : Crypto} (dbg : Bool) (y : Sys) {o : IoOpts} {clock : Nat → Nat} {f : Filter} {ss : List Sent} (ha : Admits C o ss) {i i' : PktIn} {rest : Bytes}
    (hi : Feeds i (streamOf ss)) (hi' : Feeds i' (streamOf ss ++ rest)) (hr : Spoils C o rest) {w w' : World}
    (h : filterCmd C dbg y o clock f i w = (w', .ok ())) :
    filterCmd C dbg y o clock f i' w = (w', .error (.err ())) ∨ filterCmd C dbg y o clock f i' w = (w', .ok ()) := by
  unfold filterCmd at h ⊢
  cases hq : f.query none with
  | error e => rw [hq] at h; cases h
  | ok p =>
    rw [hq] at h
    simp only at h ⊢
    split at h
    · cases h
    · rename_i hrecv
      rw [if_neg hrecv]
      cases hw : Watch.new [] p 0#32 () with
      | error e => rw [hw] at h; cases h
      | ok e =>
        rw [hw] at h
        simp only at h ⊢
        exact runCmd_spoiled_or ha (stream_rest hi) (by simp) hi' hr h

/-! ### where the commands fail -/

/-- **C77 fails**: `--no-pkts`, which the error about a missing input suggests, panics in every one of these commands. -/
theorem no_pkts_panics (C : Crypto) (dbg : Bool) (y : Sys) (o : IoOpts) (w : World) (cs : List Bytes) :
    (∀ cap ds, dedupCmd C dbg y o cap ds ⟨true, cs⟩ w = (w, .error .panic)) ∧
    (∀ new old fwd, saveCmd C dbg y o new old fwd ⟨true, cs⟩ w = (w, .error .panic)) ∧
    (∀ m, routeCmd C dbg y o m ⟨true, cs⟩ w = (w, .error .panic)) ∧ (∀ f, pktfCmd C dbg y o f ⟨true, cs⟩ w = (w, .error .panic)) ∧
    ∀ clock f rs p, Asks f clock rs p → filterCmd C dbg y o clock f ⟨true, cs⟩ w = (w, .error .panic) := by
  refine ⟨fun _ _ => rfl, fun _ _ _ => rfl, fun _ => rfl, fun _ => rfl, fun clock f rs p hq => ?_⟩
  unfold filterCmd
  rw [hq.query]
  simp only
  have hrecv : (!f.recvNow && p.recv != Bound.default 64) = false := by
    rcases hq.recv with h | h
    · rw [h]; rfl
    · rw [recv_default hq.run hq.plain h]; simp
  rw [hrecv]
  simp only [Bool.false_eq_true, if_false]
  rcases watch_made hq.run hq.new [] 0#32 () with ⟨e, h1, -, -, h4, -⟩ | ⟨-, h2⟩
  · rw [h1]; rfl
  · obtain ⟨k, hk, hx⟩ := hq.any
    exact absurd hx (h2 k (by simp) hk)

/-- **C77 fails**: a point in the private group ends `filter` and `save` with an error unless `--private` or `--private-read true` is given. -/
theorem private_in_refused {C : Crypto} {o : IoOpts} (s : Sent) (hs : s.Secret) (ho : ¬ LetsIn o) : Spoils C o s.bytes := by
  rw [← List.append_nil s.bytes]
  exact .refused s [] fun h => ho ((h s (by simp)).2 hs)

/-- **C77 fails**: with `--private-read true` alone, private points are read and then dropped without a word, whatever the destinations. -/
theorem private_dropped (y : Sys) {o : IoOpts} (s : Sent) (hs : s.Secret) (h1 : ¬ LetsOut o) (h2 : ¬ Forbids o) (ds : List Dest) (w : World) :
    writeMulti y o ds ⟨s.parts, s.bytes⟩ w = (w, .ok ()) := by
  have hg : goesOut o s = false := by
    cases hx : goesOut o s with
    | false => rfl
    | true => exact absurd (goesOut_iff.1 hx hs) h1
  induction ds with
  | nil => rfl
  | cons d ds ih =>
    unfold writeMulti writeDest
    rw [passPrivate_eq fun _ => h2, hg]
    exact ih

/-- With `--private-write false` they are an error at the first destination, if there is one. -/
theorem private_forbidden (y : Sys) {o : IoOpts} (s : Sent) (hs : s.Secret) (h2 : Forbids o) (d : Dest) (ds : List Dest) (w : World) :
    writeMulti y o (d :: ds) ⟨s.parts, s.bytes⟩ w = (w, .error (.err ())) := by
  unfold writeMulti writeDest
  rw [passPrivate_forbids hs h2]
  rfl

/-- **C77 fails**: the destination `buffer` is an error at the first packet in every command but `collect`. -/
theorem buffer_fails (y : Sys) {o : IoOpts} (s : Sent) (hs : ¬ s.Secret) (prep : Option (NetParts → PRes Bytes)) (ds : List Dest) (w : World) (hb : w.buf = none) :
    writeMulti y o (⟨prep, .buffer⟩ :: ds) ⟨s.parts, s.bytes⟩ w = (w, .error (.err ())) := by
  have hg : goesOut o s = true := goesOut_iff.2 fun h => absurd h hs
  unfold writeMulti writeDest
  rw [passPrivate_eq fun h => absurd h hs, hg]
  simp only [hb]
  rfl

/-- **C77 fails**: `pktf` panics on an error point, unless it prints with `--fast`. -/
theorem pktf_error_point (f : Fmt) (hf : f.fast = none) (s : Sent) (b : Bytes) (hc : s.c = .error b) : f.text s.parts = .error .panic := by
  unfold Fmt.text Sent.parts
  rw [hf, hc]
  rfl

/-- **C77 fails**: `dedup` with a memory of no places panics at the first packet. -/
theorem dedup_cmd_zero {C : Crypto} (dbg : Bool) (y : Sys) {o : IoOpts} {ds : List Dest} {s : Sent} {ss : List Sent}
    (ha : ∀ x ∈ s :: ss, o.skipHash = true ∨ x.Genuine C) {i : PktIn} (hi : Feeds i (streamOf (s :: ss))) (w : World) :
    dedupCmd C dbg y o 0 ds i w = (w, .error .panic) := by
  unfold dedupCmd runCmd
  rw [input_feeds (o := o.enablePrivate) dbg (fun x hx => ⟨ha x hx, fun _ => .inl rfl⟩) (stream_rest hi) (by simp)]
  rfl

/-- **C77 fails**: a second new packet that `save` reads in the microsecond of the first is not saved: it ends with a failure. -/
theorem save_cmd_same_clock {C : Crypto} (dbg : Bool) {y : Sys} (hio : ∀ n m, y.io n m = .ok) {o : IoOpts} {s t : Sent} (hne : s.hash ≠ t.hash)
    (ha : Admits C o [s, t]) {i : PktIn} (hi : Feeds i (streamOf [s, t])) (hnow : y.now 1 = y.now 0) (hbig : y.now 0 + 1 < 2 ^ 64) :
    ∃ db n e, saveCmd C dbg y o [{ out := .db }] [] false i {} = ({ db, saves := n }, .error e) ∧
      db.log = [(y.now 0, (arrive (o.hop.getD true) s).parts)] := by
  unfold saveCmd
  simp only [Bool.false_eq_true, if_false]
  rw [if_neg (by rw [hi.opened]; simp), if_neg (by simp)]
  unfold runCmd
  rw [input_feeds (o := o.defaultHop) dbg ha (stream_rest hi) (by simp)]
  simp only
  have hhop : (o.defaultHop.hop.getD false) = o.hop.getD true := rfl
  rw [hhop]
  obtain ⟨db, h1, h2, h3⟩ := saveOne_ok (w := {}) hio empty_consistent (arrive (o.hop.getD true) s) (fun e he => nomatch he) hbig
  simp only [List.map_cons, List.map_nil, Function.comp]
  have hstep : saveStep dbg y o.defaultHop (notDb [{ out := .db }]) (notDb []) ({}, ()) (net (arrive (o.hop.getD true) s)) = (({ db, saves := 1 }, ()), .ok true) := by
    unfold saveStep
    simp only [ofPkt_net, h1]
    rfl
  rw [each_ok hstep]
  have hlog : db.log = [(y.now 0, (arrive (o.hop.getD true) s).parts)] := by rw [h3]; rfl
  have hfail := save_same_clock h2 (y.io 1) (y.now 1) [((arrive (o.hop.getD true) t).parts, .pending)] (by rw [hlog, hnow]; rfl) (by
    simp only [newsOf, hlog, hashesOf, pendings, List.filterMap_cons, List.filterMap_nil, if_true, news, List.map_cons, List.map_nil, List.mem_singleton]
    rw [if_neg]
    · nofun
    · show (arrive (o.hop.getD true) t).hash ≠ (arrive (o.hop.getD true) s).hash
      rw [arrive_hash, arrive_hash]
      exact hne.symm)
  obtain ⟨hd, e, he⟩ := hfail
  have hone : saveOne y { db, saves := 1 } (arrive (o.hop.getD true) t).parts = ({ db, saves := 2 }, .error (ofStop e)) := by
    unfold saveOne lkSave saveAll
    simp only [List.map_cons, List.map_nil, hd, he]
  refine ⟨db, 2, ofStop e, ?_, hlog⟩
  rw [each]
  have : saveStep dbg y o.defaultHop (notDb [{ out := .db }]) (notDb []) ({ db, saves := 1 }, ()) (net (arrive (o.hop.getD true) t)) = (({ db, saves := 2 }, ()), .error (ofStop e)) := by
    unfold saveStep
    simp only [ofPkt_net, hone]
  rw [this]

/-- The hop is counted by `save` unless it is told not to, and by the other commands only if they are told to. -/
theorem hop_defaults : (IoOpts.decoder {}).hop = false ∧ (IoOpts.decoder ({} : IoOpts).defaultHop).hop = true := ⟨rfl, rfl⟩

/-- **C77 fails**: `ignore --allow-datapoint` does not let datapoints through, it drops them: they go where the packets that satisfy the
statements go. -/
theorem ignore_datapoint {C : Crypto} (dbg : Bool) (y : Sys) {o : IoOpts} {clock : Nat → Nat} (hmono : ∀ a b, a ≤ b → clock a ≤ clock b)
    (hbound : ∀ n, clock n < 2 ^ 64) {f : Filter} {rs : List Stmt} {p : Preds} (hq : AsksOf f rs p) {a : Bytes} (hw : f.write = [{ out := .fd a }])
    (hwf : f.writeFalse = []) (hd : f.allowDatapoint = true) {ss : List Sent} (ha : Admits C o ss) (hdata : ∀ s ∈ ss, s.IsData)
    {i : PktIn} (hi : Feeds i (streamOf ss)) (hb : ss.length + 1 < 2 ^ 32) (w : World) : ignoreCmd C dbg y o clock f i w = (w, .ok ()) := by
  have hq' : AsksOf { f with write := f.writeFalse, writeFalse := f.write } rs p := ⟨hq.query, hq.run, hq.plain, hq.once, hq.about⟩
  have hs : ∀ s ∈ ss, SpaceOk (arrive (o.hop.getD false) s) := by
    intro s hs
    obtain ⟨b, hb⟩ := hdata s hs
    have e := arrive_c (o.hop.getD false) s
    generalize arrive (o.hop.getD false) s = t at e
    rw [hb] at e
    obtain ⟨nh, h, c, h1, h2, hv⟩ := t
    simp only at e
    subst e
    exact ⟨_, .data b, [], ⟨rfl, hv, h2, h1⟩, rfl, trivial⟩
  obtain ⟨ms, h1, h2, h3⟩ := filter_cmd_exact (o := o) dbg y hmono hbound hq' ha hs (fun s hs hsec => by
    obtain ⟨b, hb⟩ := hdata s hs
    unfold Sent.Secret at hsec
    rw [hb] at hsec
    cases hsec) (by simp only [hwf]; exact lines_null _) (by simp only [hw]; exact lines_file a _) hi hb w
  have e : ms.flatMap (sieveOut o (fun _ => []) fun s => [(a, s.bytes)]) = [] := by
    rw [List.flatMap_eq_nil_iff]
    intro x hx
    have hx1 : x.1 ∈ ss.map (arrive (o.hop.getD false)) := by rw [← h1]; exact List.mem_map_of_mem hx
    obtain ⟨s, hs, he⟩ := List.mem_map.1 hx1
    have : x.1.IsData := by
      obtain ⟨b, hb⟩ := hdata s hs
      exact ⟨b, by rw [← he, arrive_c, hb]⟩
    unfold sieveOut outLines
    rw [(h2 x hx).2 (.inl ⟨hd, this⟩)]
    simp
  rw [e, List.append_nil] at h3
  exact h3

/-! ### witnesses -/

def wit (c : Content) (h : c.Valid) : Sent := ⟨List.replicate 32 0, toyCrypto.hash c.layout, c, rfl, toyCrypto_laws.hash_len _, h⟩
/-- A datapoint of one byte. -/
def witData (x : UInt8) : Sent := wit (.data [x]) ⟨(by show 5 ≤ 65024; decide), trivial⟩
def witLink : LinkContent := ⟨List.replicate 32 1, List.replicate 16 2, 1000, [], rootedOf [], [5]⟩
theorem witLink_sized : witLink.Sized := ⟨by decide, by decide, by decide, (fun _ h => nomatch h), by decide⟩
/-- A link point. -/
def witPoint : Sent := wit (.link witLink) ⟨by decide, witLink_sized⟩

theorem wit_genuine (c : Content) (h : c.Valid) (hs : c.Sealed toyCrypto) : (wit c h).Genuine toyCrypto := ⟨hs, rfl⟩
theorem wit_admits (o : IoOpts) : Admits toyCrypto o [witData 1, witPoint, witData 2] := by
  intro s hs
  simp only [List.mem_cons, List.not_mem_nil, or_false] at hs
  rcases hs with rfl | rfl | rfl
  · exact ⟨.inr ⟨trivial, rfl⟩, fun h => absurd h (by decide)⟩
  · exact ⟨.inr ⟨trivial, rfl⟩, fun h => absurd h (by decide)⟩
  · exact ⟨.inr ⟨trivial, rfl⟩, fun h => absurd h (by decide)⟩
theorem wit_space : ∀ s ∈ [witData 1, witPoint, witData 2], SpaceOk s := by
  intro s hs
  simp only [List.mem_cons, List.not_mem_nil, or_false] at hs
  rcases hs with rfl | rfl | rfl
  · exact ⟨_, _, [], ⟨rfl, (witData 1).valid, (witData 1).hashLen, rfl⟩, rfl, trivial⟩
  · exact ⟨_, _, [], ⟨rfl, witPoint.valid, witPoint.hashLen, rfl⟩, rfl, ⟨⟨(fun _ h => nomatch h), rfl, by decide⟩, by decide, .inl rfl⟩⟩
  · exact ⟨_, _, [], ⟨rfl, (witData 2).valid, (witData 2).hashLen, rfl⟩, rfl, trivial⟩

/-- Statements of a query: link points only; and a count. -/
def witStmt : Stmt := ⟨.field .linksLen, .less, [(none, [0, 5])]⟩
def witCount : Stmt := ⟨.limit .query, .less, [(none, [0, 0, 0, 1])]⟩
def witFilter (rs : List Stmt) : Filter :=
  { query := fun _ => Preds.default.run true rs, write := [{ out := .fd stdout }], writeFalse := [{ out := .fd stderr }] }

theorem wit_feeds : Feeds { chunks := [streamOf [witData 1, witPoint, witData 2]] } (streamOf [witData 1, witPoint, witData 2]) :=
  ⟨rfl, by decide +kernel, by simp⟩

theorem wit_preds (rs : List Stmt) (h : rs = [witStmt] ∨ rs = [witStmt, witCount]) : ∃ p, Preds.default.run true rs = .ok p := by
  have key : ∀ x : PRes Preds, (match x with | .ok _ => true | .error _ => false) = true → ∃ p, x = .ok p := by
    intro x hx
    cases x with
    | ok p => exact ⟨p, rfl⟩
    | error e => cases hx
  rcases h with rfl | rfl <;> exact key _ (by decide +kernel)

/-- Witness for `filter_splits`: a query with a count, on a stream of three packets. -/
example : ∃ p, Asks (witFilter [witStmt, witCount]) (fun n => min n 5) [witStmt, witCount] p := by
  obtain ⟨p, hp⟩ := wit_preds _ (.inr rfl)
  refine ⟨p, hp, hp, ?_, rfl, .inr ?_, ⟨0, by decide, ?_⟩, ⟨0, by decide, ?_⟩, fun a b h => ?_, fun n => ?_⟩
  · intro r hr
    simp only [List.mem_cons, List.not_mem_nil, or_false] at hr
    rcases hr with rfl | rfl <;> exact ⟨fun h => by simp [witStmt, witCount] at h, fun h => by simp [witStmt, witCount] at h, fun h => by simp [witStmt, witCount] at h⟩
  · decide
  · intro r hr
    simp only [List.mem_cons, List.not_mem_nil, or_false] at hr
    rcases hr with rfl | rfl <;> exact ⟨fun h => by simp [witStmt, witCount] at h, fun h => by cases h⟩
  · intro r hr
    simp only [List.mem_cons, List.not_mem_nil, or_false] at hr
    rcases hr with rfl | rfl
    · exact ⟨fun h => by simp [witStmt] at h, fun _ h => by simp [witStmt] at h⟩
    · exact ⟨fun _ => ⟨[0, 0, 0, 1], rfl, rfl, by show 0 < beNat [0, 0, 0, 1]; decide⟩, fun _ h => by simp [witCount] at h⟩
  · omega
  · omega

/-- Witness for `filter_cmd_exact`, `filter_file`, `ignore_file` and `filter_pipe`. -/
theorem wit_asks : ∃ p, AsksOf (witFilter [witStmt]) [witStmt] p := by
  obtain ⟨p, hp⟩ := wit_preds _ (.inl rfl)
  refine ⟨p, hp, hp, ?_, rfl, ?_⟩
  · intro r hr
    simp only [List.mem_cons, List.not_mem_nil, or_false] at hr
    subst hr
    exact ⟨fun h => by simp [witStmt] at h, fun h => by simp [witStmt] at h, fun h => by simp [witStmt] at h⟩
  · intro r hr
    simp only [List.mem_cons, List.not_mem_nil, or_false] at hr
    subst hr
    refine ⟨fun q => by simp [witStmt], by simp [witStmt], by simp [witStmt]⟩

example : ∃ ms : List (Sent × Bool), ms.map (·.1) = [witData 1, witPoint, witData 2] ∧
    (∀ x ∈ ms, (x.2 = true ↔ (false = true ∧ x.1.IsData) ∨ Satisfies [witStmt] x.1)) ∧
    filterCmd toyCrypto true { now := fun _ => 0 } {} (fun n => min n 5) (witFilter [witStmt]) { chunks := [streamOf [witData 1, witPoint, witData 2]] } {} =
      ({ outs := ms.flatMap (sieveOut {} (fun s => [(stdout, s.bytes)]) fun s => [(stderr, s.bytes)]) }, .ok ()) := by
  obtain ⟨p, hp⟩ := wit_asks
  obtain ⟨ms, h1, h2, h3⟩ := filter_cmd_exact (C := toyCrypto) (o := {}) true { now := fun _ => 0 } (clock := fun n => min n 5) (fun a b h => by omega) (fun n => by omega) hp (wit_admits {})
    (fun s hs => wit_space s hs) (fun s _ _ hx => by cases hx.2) (lines_file stdout _) (lines_file stderr _) wit_feeds (by decide) {}
  exact ⟨ms, h1, h2, h3⟩

/-- The link point has fewer than five links and is not a datapoint: it alone is passed on. -/
example : (filterCmd toyCrypto true { now := fun _ => 0 } {} (fun n => min n 5) (witFilter [witStmt]) { chunks := [streamOf [witData 1, witPoint, witData 2]] } {}).1.outs =
    [(stderr, (witData 1).bytes), (stdout, witPoint.bytes), (stderr, (witData 2).bytes)] := by decide +kernel

/-- **C77 fails**: once the count is reached the rest of the input is not read: the last packet goes neither to `--write` nor to
`--write-false`. -/
theorem filter_stops_reading : (filterCmd toyCrypto true { now := fun _ => 0 } {} (fun n => min n 5) (witFilter [witStmt, witCount])
      { chunks := [streamOf [witData 1, witPoint, witData 2]] } {}).1.outs = [(stderr, (witData 1).bytes), (stdout, witPoint.bytes)] := by decide +kernel

/-- Witness for `dedup_cmd`: the repeated packet is dropped. -/
example : (dedupCmd toyCrypto true { now := fun _ => 0 } {} 1000 [{ out := .fd stdout }] { chunks := [streamOf [witData 1, witPoint, witData 1]] } {}).1.outs =
    [(stdout, (witData 1).bytes), (stdout, witPoint.bytes)] := by decide +kernel

/-- Witness for `save_cmd_partial` and for `save_cmd_same_clock`: clocks that tick, and one that does not. -/
example : ∃ y : Sys, (∀ n m, y.io n m = .ok) ∧ (∀ n, n < 0 + 3 → y.now n < y.now (n + 1)) ∧ ∀ n, n ≤ 0 + 3 → y.now n + 1 < 2 ^ 64 :=
  ⟨{ now := fun n => 100 + n }, fun _ _ => rfl, fun n _ => by show 100 + n < 100 + (n + 1); omega, fun n h => by show 100 + n + 1 < 2 ^ 64; omega⟩
example : (witData 1).hash ≠ (witData 2).hash := by decide +kernel

/-- Witness for `route_cmd`: the rules of a command line keep the length. -/
theorem mutate_length {rules : List (RouteField × Bytes)} {m : Mutate} (h : Mutate.fromRules rules = some m) : ∀ hd : Bytes, hd.length = 32 → (m.apply hd).length = 32 := by
  intro hd hl
  obtain ⟨h1, h2, -⟩ := fromRules_inv rules Mutate.default m (fun _ => none) rfl (by rfl)
    (by intro i hi; simp only [Mutate.default, Option.getD_none]; rw [List.getElem?_replicate, if_pos hi]) h
  unfold Mutate.apply
  rw [List.length_zipWith, List.length_zipWith, h1, h2, hl]
  simp

/-- Witness for `pktf_cmd`: a text for each packet. -/
example : (pktfCmd toyCrypto true { now := fun _ => 0 } {} { data := fun _ => .ok [65], link := fun _ => .ok [66], key := fun _ => .ok [67], inspect := true }
      { chunks := [streamOf [witData 1, witPoint]] } {}).1.outs =
    [(stderr, [65, 10]), (stdout, (witData 1).bytes), (stderr, [66, 10]), (stdout, witPoint.bytes)] := by decide +kernel

/-- Witness for the spoiled streams: a packet with a wrong hash. -/
example : Spoils toyCrypto {} { witData 1 with hash := (witData 2).hash, hashLen := (witData 2).hashLen }.bytes := by
  rw [← List.append_nil (Sent.bytes _)]
  refine .refused _ [] fun h => ?_
  rcases (h _ List.mem_cons_self).1 with h | h
  · cases h
  · exact absurd h.2 (by decide +kernel)

end Verif.Props
