import Verif.Spec.Defaults
/-!
# C102, C103: sessions, default instances, the group and the domain of a thread
-/
namespace Verif.Props
open Verif Verif.Pred Verif.Spec Verif.Defs

variable {w : World}

/-! ### sessions -/

/-- The table has a session per handle and a handle per session. -/
structure EnvInv (p : Proc) : Prop where
  keys : (p.envs.map (·.1)).Nodup
  vals : (p.envs.map (·.2)).Nodup
  old : ∀ x ∈ p.envs, x.2 < p.sessions

/-- A process later. -/
structure Grows (p p' : Proc) : Prop where
  inv : EnvInv p → EnvInv p'
  sub : ∀ x ∈ p.envs, x ∈ p'.envs
  ids : p.runtimes ≤ p'.runtimes

theorem Grows.refl (p : Proc) : Grows p p := ⟨id, fun _ h => h, Nat.le_refl _⟩
theorem Grows.trans {p q r : Proc} (h : Grows p q) (k : Grows q r) : Grows p r := ⟨fun i => k.inv (h.inv i), fun x hx => k.sub x (h.sub x hx), Nat.le_trans h.ids k.ids⟩

theorem handle_same (p : Proc) (q : Path) (c : Bool) :
    (handleOf w p q c).2.envs = p.envs ∧ (handleOf w p q c).2.sessions = p.sessions ∧ (handleOf w p q c).2.runtimes = p.runtimes ∧
    ∀ h, (handleOf w p q c).1 = .ok h → (handleOf w p q c).2.fs q = some h := by
  unfold handleOf
  cases hf : p.fs q with
  | some h => exact ⟨rfl, rfl, rfl, fun h' e => by cases e; exact hf⟩
  | none =>
    cases c with
    | false => exact ⟨rfl, rfl, rfl, fun _ e => by cases e⟩
    | true =>
      simp only [if_true]
      cases hc : w.creates p.fs q with
      | none => exact ⟨rfl, rfl, rfl, fun _ e => by cases e⟩
      | some fs =>
        simp only
        cases hq : fs q with
        | none => exact ⟨rfl, rfl, rfl, fun _ e => by cases e⟩
        | some h => exact ⟨rfl, rfl, rfl, fun h' e => by cases e; exact hq⟩

theorem look_none {p : Proc} {h : Nat} (k : lookEnv p h = none) : ∀ x ∈ p.envs, x.1 ≠ h := by
  unfold lookEnv at k
  rw [Option.map_eq_none_iff, List.find?_eq_none] at k
  intro x hx e
  exact k x hx (by simpa using e)
theorem look_some {p : Proc} {h e : Nat} (k : lookEnv p h = some e) : (h, e) ∈ p.envs := by
  unfold lookEnv at k
  rw [Option.map_eq_some_iff] at k
  obtain ⟨⟨a, b⟩, hx, rfl⟩ := k
  have h1 := List.find?_some hx
  have h2 := List.mem_of_find?_eq_some hx
  simp only [beq_iff_eq] at h1
  subst h1
  exact h2

theorem env_step (p : Proc) (q : Path) (c : Bool) :
    Grows p (getEnv w p q c).2 ∧ ∀ e, (getEnv w p q c).1 = .ok e → ∃ h, (getEnv w p q c).2.fs q = some h ∧ (h, e) ∈ (getEnv w p q c).2.envs := by
  obtain ⟨e1, e2, e3, e4⟩ := handle_same (w := w) p q c
  unfold getEnv
  cases hh : handleOf w p q c with
  | mk r p1 =>
    rw [hh] at e1 e2 e3 e4
    simp only at e1 e2 e3 e4
    have hg : Grows p p1 := ⟨fun i => ⟨e1 ▸ i.keys, e1 ▸ i.vals, by rw [e1, e2]; exact i.old⟩, by rw [e1]; exact fun _ h => h, by omega⟩
    cases r with
    | error e => exact ⟨hg, fun _ k => by cases k⟩
    | ok h =>
      simp only
      cases hl : lookEnv p1 h with
      | some e => exact ⟨hg, fun e' k => by cases k; exact ⟨h, e4 h rfl, look_some hl⟩⟩
      | none =>
        simp only
        unfold openEnv
        cases ho : w.opens q c with
        | false =>
          simp only [Bool.false_eq_true, if_false]
          exact ⟨hg, fun _ k => by cases k⟩
        | true =>
          simp only [if_true]
          have hno := look_none hl
          have hfil : p1.envs.filter (fun x => x.1 != h) = p1.envs := List.filter_eq_self.2 fun x hx => by simpa using hno x hx
          unfold insertEnv
          simp only [hfil]
          refine ⟨hg.trans ⟨fun i => ⟨?_, ?_, ?_⟩, fun x hx => List.mem_cons_of_mem _ hx, Nat.le_refl _⟩, fun e k => by cases k; exact ⟨h, e4 h rfl, List.mem_cons_self⟩⟩
          · simp only [List.map_cons, List.nodup_cons]
            exact ⟨fun hm => by obtain ⟨x, hx, rfl⟩ := List.mem_map.1 hm; exact hno x hx rfl, i.keys⟩
          · simp only [List.map_cons, List.nodup_cons]
            exact ⟨fun hm => by obtain ⟨x, hx, k⟩ := List.mem_map.1 hm; have := i.old x hx; omega, i.vals⟩
          · intro x hx
            rcases List.mem_cons.1 hx with rfl | hx
            · exact Nat.lt_succ_self _
            · exact Nat.lt_succ_of_lt (i.old x hx)

theorem join_meant (a : Path) (h0 : w.lkDir = none) (h1 : w.home = some a) : Meant w none (joinPath a (ascii "linkspace")) := by
  unfold joinPath
  split
  · next h =>
    refine .homeSlash a h0 h1 (h.imp id fun h => ?_)
    exact List.getLast?_eq_some_iff.1 h
  · next h =>
    rw [not_or] at h
    refine .home a h0 h1 h.1 fun b hb => h.2 ?_
    rw [hb, List.getLast?_concat]

/-- **C102**: `lk_dir`, and the path of `open_linkspace_dir`: the one that is meant; it fails exactly if there is none. -/
theorem lk_dir_meant (root : Option Path) (q : Path) : lkDirOf w root = .ok q ↔ Meant w root q := by
  unfold lkDirOf
  constructor
  · intro h
    cases root with
    | some r => cases h; exact .given _
    | none =>
      cases hl : w.lkDir with
      | some d => rw [hl] at h; cases h; exact .var _ hl
      | none =>
        cases hh : w.home with
        | none => rw [hl, hh] at h; cases h
        | some a => rw [hl, hh] at h; cases h; exact join_meant a hl hh
  · intro h
    cases h with
    | given => rfl
    | var _ h => rw [h]; rfl
    | home _ h0 h1 h2 h3 =>
      rw [h0, h1]
      show Except.ok (joinPath _ _) = _
      unfold joinPath
      rw [if_neg]
      · rfl
      · rw [not_or]
        exact ⟨h2, fun k => (List.getLast?_eq_some_iff.1 k).elim fun b hb => h3 b hb⟩
    | homeSlash a h0 h1 h2 =>
      rw [h0, h1]
      show Except.ok (joinPath _ _) = _
      unfold joinPath
      rw [if_pos]
      exact h2.imp id fun ⟨b, hb⟩ => by rw [hb, List.getLast?_concat]

theorem dir_given (path : Option Path) : dirArg w path = lkDirOf w path := by
  cases path <;> rfl

/-- What `open_linkspace_dir` does. -/
theorem open_step (p : Proc) (t : Thread) (q : Option Path) (c : Bool) :
    Grows p (openDir w p t q c).2.1 ∧ (openDir w p t q c).2.2.group = t.group ∧ (openDir w p t q c).2.2.domain = t.domain ∧ (openDir w p t q c).2.2.scope = t.scope ∧
    (∀ r, t.lk = some r → (openDir w p t q c).2.2.lk = some r) ∧
    ∀ r, (openDir w p t q c).1 = .ok r → (∃ d h, Meant w q d ∧ (openDir w p t q c).2.1.fs d = some h ∧ (h, r.session) ∈ (openDir w p t q c).2.1.envs) ∧
      p.runtimes ≤ r.id ∧ r.id < (openDir w p t q c).2.1.runtimes ∧ (t.lk = none → (openDir w p t q c).2.2.lk = some r) := by
  unfold openDir
  rw [dir_given]
  cases hd : lkDirOf w q with
  | error e => exact ⟨.refl p, rfl, rfl, rfl, fun _ h => h, fun _ k => by cases k⟩
  | ok d =>
    simp only
    obtain ⟨g1, g2⟩ := env_step (w := w) p d c
    cases hh : getEnv w p d c with
    | mk r p1 =>
      rw [hh] at g1 g2
      simp only at g1 g2
      cases r with
      | error e => exact ⟨g1, rfl, rfl, rfl, fun _ h => h, fun _ k => by cases k⟩
      | ok e =>
        dsimp only
        obtain ⟨h, k1, k2⟩ := g2 e rfl
        refine ⟨g1.trans ⟨fun i => ⟨i.keys, i.vals, i.old⟩, fun _ h => h, Nat.le_succ _⟩, rfl, rfl, rfl, fun r k => by rw [k]; rfl, fun r k => ?_⟩
        cases k
        exact ⟨⟨d, h, (lk_dir_meant q d).1 hd, k1, k2⟩, g1.ids, Nat.lt_succ_self _, fun k => by rw [k]; rfl⟩

theorem var_step (p : Proc) (t : Thread) (v : LkVar) (dflt : Bytes) :
    Grows p (evalVar w p t v dflt).2.1 ∧ (evalVar w p t v dflt).2.2.group = t.group ∧ (evalVar w p t v dflt).2.2.domain = t.domain ∧
    (evalVar w p t v dflt).2.2.scope = t.scope ∧ (∀ r, t.lk = some r → (evalVar w p t v dflt).2.2.lk = some r) ∧
    (∀ b, (evalVar w p t v dflt).1 = .ok b → VarGives dflt v b) ∧ ((∀ f, v ≠ .named f) → (evalVar w p t v dflt).2.2.lk = t.lk) := by
  unfold evalVar
  cases v with
  | absent => exact ⟨.refl p, rfl, rfl, rfl, fun _ h => h, fun b k => by cases k; exact .absent, fun _ => rfl⟩
  | notUtf8 => exact ⟨.refl p, rfl, rfl, rfl, fun _ h => h, fun b k => (by cases k), fun _ => rfl⟩
  | plain o =>
    cases o with
    | none => exact ⟨.refl p, rfl, rfl, rfl, fun _ h => h, fun b k => (by cases k), fun _ => rfl⟩
    | some b => exact ⟨.refl p, rfl, rfl, rfl, fun _ h => h, fun b k => by cases k; exact .plain _, fun _ => rfl⟩
  | named f =>
    have hf : ∀ e b, (match f e with | some b => .ok b | none => .error .panic : PRes Bytes) = .ok b → VarGives dflt (.named f) b := by
      intro e b k
      cases hx : f e with
      | none => rw [hx] at k; cases k
      | some y => rw [hx] at k; cases k; exact .named f e _ hx
    simp only
    cases hl : t.lk with
    | some r => exact ⟨.refl p, rfl, rfl, rfl, fun _ h => hl.trans h, fun b k => hf _ b k, fun k => absurd rfl (k f)⟩
    | none =>
      simp only
      obtain ⟨o1, o2, o3, o4, o5, o6⟩ := open_step (w := w) p t none false
      rcases ho : openDir w p t none false with ⟨r, p1, t1⟩
      rw [ho] at o1 o2 o3 o4 o5 o6
      cases r with
      | error e => exact ⟨o1, o2, o3, o4, fun r k => (by cases k), fun _ k => (by cases k), fun k => absurd rfl (k f)⟩
      | ok r => exact ⟨o1, o2, o3, o4, fun r k => (by cases k), fun b k => hf _ b k, fun k => absurd rfl (k f)⟩

theorem set_group_step (t : Thread) (g : Bytes) : (setGroup t g).2.lk = t.lk ∧ (setGroup t g).2.scope = t.scope ∧ (setGroup t g).2.domain = t.domain ∧
    (∀ x, t.group = some x → (setGroup t g).2.group = some x ∧ ((setGroup t g).1 = .ok () ↔ x = g) ∧ (x ≠ g → (setGroup t g).1 = .error .panic)) ∧
    ((setGroup t g).1 = .ok () → (setGroup t g).2.group = some g) ∧ (∀ x, (setGroup t g).2.group = some x → t.group = some x ∨ x = g ∧ (setGroup t g).1 = .ok ()) := by
  unfold setGroup
  cases ht : t.group with
  | none => exact ⟨rfl, rfl, rfl, fun _ k => (by cases k), fun _ => rfl, fun x k => by cases k; exact .inr ⟨rfl, rfl⟩⟩
  | some y =>
    dsimp only
    by_cases h : y = g
    · rw [if_pos h]
      exact ⟨rfl, rfl, rfl, fun x k => by cases k; exact ⟨ht, ⟨fun _ => h, fun _ => rfl⟩, fun n => absurd h n⟩, fun _ => h ▸ ht, fun x k => .inl (ht ▸ k)⟩
    · rw [if_neg h]
      exact ⟨rfl, rfl, rfl, fun x k => by cases k; exact ⟨ht, ⟨fun k => (by cases k), fun k => absurd k h⟩, fun _ => rfl⟩, fun k => (by cases k), fun x k => .inl (ht ▸ k)⟩

theorem group_step (p : Proc) (t : Thread) : Grows p (group w p t).2.1 ∧ (group w p t).2.2.domain = t.domain ∧ (group w p t).2.2.scope = t.scope ∧
    (∀ r, t.lk = some r → (group w p t).2.2.lk = some r) ∧ (∀ x, t.group = some x → (group w p t).1 = .ok x ∧ (group w p t).2.2.group = some x) ∧
    (∀ g, (group w p t).1 = .ok g → (group w p t).2.2.group = some g) ∧
    (∀ g, (group w p t).2.2.group = some g → t.group = some g ∨ VarGives Lns.publicGroup w.group g) ∧
    ((∀ f, w.group ≠ .named f) → (group w p t).2.2.lk = t.lk) := by
  unfold group
  cases ht : t.group with
  | some g => exact ⟨.refl p, rfl, rfl, fun _ h => h, fun x k => by cases k; exact ⟨rfl, ht⟩, fun x k => by cases k; exact ht, fun x k => .inl (ht ▸ k), fun _ => rfl⟩
  | none =>
    simp only
    obtain ⟨o1, o2, o3, o4, o5, o6, o7⟩ := var_step (w := w) p t w.group Lns.publicGroup
    rcases ho : evalVar w p t w.group Lns.publicGroup with ⟨r, p1, t1⟩
    rw [ho] at o1 o2 o3 o4 o5 o6 o7
    cases r with
    | error e => exact ⟨o1, o3, o4, o5, fun _ k => (by cases k), fun _ k => (by cases k), fun g k => .inl (by rw [show t1.group = t.group from o2, ht] at k; exact k), o7⟩
    | ok b => exact ⟨o1, o3, o4, o5, fun _ k => (by cases k), fun g k => by cases k; rfl, fun g k => by cases k; exact .inr (o6 _ rfl), o7⟩

theorem set_domain_step (t : Thread) (g : Bytes) : (setDomain t g).2.lk = t.lk ∧ (setDomain t g).2.scope = t.scope ∧ (setDomain t g).2.group = t.group ∧
    (∀ x, t.domain = some x → (setDomain t g).2.domain = some x ∧ ((setDomain t g).1 = .ok () ↔ x = g) ∧ (x ≠ g → (setDomain t g).1 = .error .panic)) ∧
    ((setDomain t g).1 = .ok () → (setDomain t g).2.domain = some g) ∧ (∀ x, (setDomain t g).2.domain = some x → t.domain = some x ∨ x = g ∧ (setDomain t g).1 = .ok ()) := by
  unfold setDomain
  cases ht : t.domain with
  | none => exact ⟨rfl, rfl, rfl, fun _ k => (by cases k), fun _ => rfl, fun x k => by cases k; exact .inr ⟨rfl, rfl⟩⟩
  | some y =>
    dsimp only
    by_cases h : y = g
    · rw [if_pos h]
      exact ⟨rfl, rfl, rfl, fun x k => by cases k; exact ⟨ht, ⟨fun _ => h, fun _ => rfl⟩, fun n => absurd h n⟩, fun _ => h ▸ ht, fun x k => .inl (ht ▸ k)⟩
    · rw [if_neg h]
      exact ⟨rfl, rfl, rfl, fun x k => by cases k; exact ⟨ht, ⟨fun k => (by cases k), fun k => absurd k h⟩, fun _ => rfl⟩, fun k => (by cases k), fun x k => .inl (ht ▸ k)⟩

theorem domain_step (p : Proc) (t : Thread) : Grows p (domain w p t).2.1 ∧ (domain w p t).2.2.group = t.group ∧ (domain w p t).2.2.scope = t.scope ∧
    (∀ r, t.lk = some r → (domain w p t).2.2.lk = some r) ∧ (∀ x, t.domain = some x → (domain w p t).1 = .ok x ∧ (domain w p t).2.2.domain = some x) ∧
    (∀ g, (domain w p t).1 = .ok g → (domain w p t).2.2.domain = some g) ∧
    (∀ g, (domain w p t).2.2.domain = some g → t.domain = some g ∨ VarGives (List.replicate 16 0) w.domain g) ∧
    ((∀ f, w.domain ≠ .named f) → (domain w p t).2.2.lk = t.lk) := by
  unfold domain
  cases ht : t.domain with
  | some g => exact ⟨.refl p, rfl, rfl, fun _ h => h, fun x k => by cases k; exact ⟨rfl, ht⟩, fun x k => by cases k; exact ht, fun x k => .inl (ht ▸ k), fun _ => rfl⟩
  | none =>
    simp only
    obtain ⟨o1, o3, o2, o4, o5, o6, o7⟩ := var_step (w := w) p t w.domain (List.replicate 16 0)
    rcases ho : evalVar w p t w.domain (List.replicate 16 0) with ⟨r, p1, t1⟩
    rw [ho] at o1 o2 o3 o4 o5 o6 o7
    cases r with
    | error e => exact ⟨o1, o3, o4, o5, fun _ k => (by cases k), fun _ k => (by cases k), fun g k => .inl (by rw [show t1.domain = t.domain from o2, ht] at k; exact k), o7⟩
    | ok b => exact ⟨o1, o3, o4, o5, fun _ k => (by cases k), fun g k => by cases k; rfl, fun g k => by cases k; exact .inr (o6 _ rfl), o7⟩

/-! ### calls -/

theorem call_grows (p : Proc) (t : Thread) (op : Op) : Grows p (callOp w p t op).2.1 := by
  cases op with
  | setGroup g => exact .refl p
  | setDomain g => exact .refl p
  | group => exact (group_step p t).1
  | domain => exact (domain_step p t).1
  | openDir q c => exact (open_step p t q c).1
  | getLk q c =>
    show Grows p (getLk w p t q c).2.1
    unfold getLk
    cases t.lk with
    | some r => exact .refl p
    | none => exact (open_step p t q c).1
  | lkOpen q c =>
    show Grows p (lkOpen w p t q c).2.1
    unfold lkOpen
    have := (open_step (w := w) p t q c).1
    rcases ho : openDir w p t q c with ⟨r, p1, t1⟩
    rw [ho] at this
    cases r <;> exact this

theorem call_lk (p : Proc) (t : Thread) (op : Op) {r : Runtime} (h : t.lk = some r) : (callOp w p t op).2.2.lk = some r := by
  cases op with
  | setGroup g => exact (set_group_step t g).1.trans h
  | setDomain g => exact (set_domain_step t g).1.trans h
  | group => exact (group_step p t).2.2.2.1 r h
  | domain => exact (domain_step p t).2.2.2.1 r h
  | openDir q c => exact (open_step p t q c).2.2.2.2.1 r h
  | getLk q c =>
    show (getLk w p t q c).2.2.lk = _
    unfold getLk
    rw [h]
    exact h
  | lkOpen q c =>
    show (lkOpen w p t q c).2.2.lk = _
    unfold lkOpen
    have := (open_step (w := w) p t q c).2.2.2.2.1 r h
    rcases ho : openDir w p t q c with ⟨r, p1, t1⟩
    rw [ho] at this
    cases r <;> exact this

theorem call_scope (p : Proc) (t : Thread) (op : Op) {r : Runtime} (h : t.scope = some r) : (callOp w p t op).2.2.scope = some r := by
  cases op with
  | setGroup g => exact (set_group_step t g).2.1.trans h
  | setDomain g => exact (set_domain_step t g).2.1.trans h
  | group => exact (group_step p t).2.2.1.trans h
  | domain => exact (domain_step p t).2.2.1.trans h
  | openDir q c => exact (open_step p t q c).2.2.2.1.trans h
  | getLk q c =>
    show (getLk w p t q c).2.2.scope = _
    unfold getLk
    cases t.lk with
    | some _ => exact h
    | none => exact (open_step p t q c).2.2.2.1.trans h
  | lkOpen q c =>
    show (lkOpen w p t q c).2.2.scope = _
    unfold lkOpen
    have := (open_step (w := w) p t q c).2.2.2.1
    rcases ho : openDir w p t q c with ⟨r', p1, t1⟩
    rw [ho] at this
    simp only at this
    cases r' with
    | error e => exact this.trans h
    | ok r' => show t1.scope.or _ = _; rw [this, h]; rfl

theorem step_grows (s : State) (e : Ev) : Grows s.proc (stepEv w s e).2.proc := by
  cases e with
  | files fs => exact ⟨fun i => ⟨i.keys, i.vals, i.old⟩, fun _ h => h, Nat.le_refl _⟩
  | call n op => exact call_grows _ _ _

theorem after_grows (s : State) (l : List Ev) : Grows s.proc (after w s l).proc := by
  induction l generalizing s with
  | nil => exact .refl _
  | cons e l ih => exact (step_grows s e).trans (ih _)

theorem history_mem {l : List Ev} : ∀ {s : State} {x : Ev × Out × State}, x ∈ history w s l →
    (∃ s0, Grows s.proc s0.proc ∧ stepEv w s0 x.1 = x.2) ∧ Grows x.2.2.proc (after w s l).proc := by
  induction l with
  | nil => intro s x h; cases h
  | cons e l ih =>
    intro s x h
    rcases List.mem_cons.1 h with rfl | h
    · exact ⟨⟨s, .refl _, rfl⟩, after_grows _ l⟩
    · obtain ⟨⟨s0, h1, h2⟩, h3⟩ := ih h
      exact ⟨⟨s0, (step_grows s e).trans h1, h2⟩, h3⟩

theorem meant_unique {q : Option Path} {a b : Path} (h : Meant w q a) (k : Meant w q b) : a = b := by
  have h := (lk_dir_meant q a).2 h
  rw [(lk_dir_meant q b).2 k] at h
  cases h; rfl

theorem opened_step {s : State} {x : Ev × Out × State} (hs : stepEv w s x.1 = x.2) {n h : Nat} {r : Runtime} (ho : Opened w n h r x) :
    (h, r.session) ∈ x.2.2.proc.envs ∧ s.proc.runtimes ≤ r.id ∧ r.id < x.2.2.proc.runtimes := by
  obtain ⟨q, c, d, he, hr, hm, hf⟩ := ho
  obtain ⟨o1, o2, o3, o4, o5, o6⟩ := open_step (w := w) s.proc (s.thread n) q c
  obtain ⟨e, o, s'⟩ := x
  simp only at hs he hr hf ⊢
  rcases he with rfl | rfl
  · simp only [stepEv, callOp, Prod.mk.injEq] at hs
    obtain ⟨h1, h2⟩ := hs
    rw [hr] at h1
    rw [← h2] at hf ⊢
    simp only at hf ⊢
    cases hx : (openDir w s.proc (s.thread n) q c).1 with
    | error e => rw [hx] at h1; cases h1
    | ok r' =>
      rw [hx] at h1
      cases h1
      obtain ⟨⟨d', h', m, f, me⟩, i1, i2, _⟩ := o6 r hx
      rw [meant_unique m hm, hf] at f
      cases f
      exact ⟨me, i1, i2⟩
  · simp only [stepEv, callOp, Prod.mk.injEq, lkOpen] at hs
    obtain ⟨h1, h2⟩ := hs
    rw [hr] at h1
    rcases hx : openDir w s.proc (s.thread n) q c with ⟨r', p1, t1⟩
    rw [hx] at h1 h2 o6
    cases r' with
    | error e => cases h1
    | ok r' =>
      cases h1
      subst h2
      simp only at hf ⊢
      obtain ⟨⟨d', h', m, f, me⟩, i1, i2, _⟩ := o6 r rfl
      rw [meant_unique m hm, hf] at f
      cases f
      exact ⟨me, i1, i2⟩

theorem nodup_map_inj {α β : Type} {f : α → β} {l : List α} (h : (l.map f).Nodup) {x y : α} (hx : x ∈ l) (hy : y ∈ l) (e : f x = f y) : x = y := by
  induction l with
  | nil => cases hx
  | cons a l ih =>
    simp only [List.map_cons, List.nodup_cons] at h
    rcases List.mem_cons.1 hx with hx' | hx <;> rcases List.mem_cons.1 hy with hy' | hy
    · exact hx'.trans hy'.symm
    · exact absurd (List.mem_map.2 ⟨y, hy, by rw [← e, hx']⟩) h.1
    · exact absurd (List.mem_map.2 ⟨x, hx, by rw [e, hy']⟩) h.1
    · exact ih h.2 hx hy

theorem fresh_inv (fs : Path → Option Nat) : EnvInv (fresh fs).proc := ⟨.nil, .nil, fun _ h => nomatch h⟩

/-- **C102**: whatever the threads of a process call, one call at a time, and whatever happens to the directories: two runtimes that were opened share a session exactly if their paths led to the same directory. -/
theorem session_per_dir (fs : Path → Option Nat) {l : List Ev} {x y : Ev × Out × State} (hx : x ∈ history w (fresh fs) l) (hy : y ∈ history w (fresh fs) l)
    {n m h k : Nat} {r q : Runtime} (ox : Opened w n h r x) (oy : Opened w m k q y) : r.session = q.session ↔ h = k := by
  obtain ⟨⟨s, h1, h2⟩, h3⟩ := history_mem hx
  obtain ⟨⟨s', k1, k2⟩, k3⟩ := history_mem hy
  have hi : EnvInv (after w (fresh fs) l).proc := (after_grows _ l).inv (fresh_inv fs)
  have m1 := h3.sub _ (opened_step h2 ox).1
  have m2 := k3.sub _ (opened_step k2 oy).1
  constructor
  · intro e
    exact congrArg Prod.fst (nodup_map_inj hi.vals m1 m2 e)
  · intro e
    exact congrArg Prod.snd (nodup_map_inj hi.keys m1 m2 e)

/-- **C102**: each call opens a runtime of its own. -/
theorem runtimes_new (s : State) (l : List Ev) :
    (history w s l).Pairwise fun x y => ∀ n m h k r q, Opened w n h r x → Opened w m k q y → r ≠ q := by
  induction l generalizing s with
  | nil => exact .nil
  | cons e l ih =>
    refine .cons (fun y hy n m h k r q ox oy e' => ?_) (ih _)
    subst e'
    obtain ⟨⟨s', k1, k2⟩, _⟩ := history_mem hy
    have h1 := (opened_step (s := s) rfl ox).2.2
    have h2 := (opened_step k2 oy).2.1
    have := k1.ids
    simp only at h1
    omega

/-! ### calls at the same time -/

theorem moves_known {l : List (Nat × Move)} : ∀ {p : Proc} {a : Nat → At} {K : Nat × Nat → Prop}, (∀ x ∈ p.envs, K x) → (∀ n h e, a n = .opened h e → K (h, e)) →
    (∀ x, K x → x.2 < p.sessions) → (∀ x y, K x → K y → x.2 = y.2 → x.1 = y.1) →
    ∃ K' : Nat × Nat → Prop, (∀ x, K x → K' x) ∧ (∀ x y, K' x → K' y → x.2 = y.2 → x.1 = y.1) ∧ ∀ x ∈ moves w p a l, K' x := by
  induction l with
  | nil => intro p a K _ _ _ h4; exact ⟨K, fun _ h => h, h4, fun _ h => nomatch h⟩
  | cons m l ih =>
    obtain ⟨n, m⟩ := m
    intro p a K h1 h2 h3 h4
    have key : ∀ (p' : Proc) (b : At) (r : Option (Nat × Nat)) (K1 : Nat × Nat → Prop), moveEnv w p (a n) m = (p', b, r) → (∀ x, K x → K1 x) → (∀ x ∈ p'.envs, K1 x) →
        (∀ h e, b = .opened h e → K1 (h, e)) → (∀ x, K1 x → x.2 < p'.sessions) → (∀ x y, K1 x → K1 y → x.2 = y.2 → x.1 = y.1) → (∀ x, r = some x → K1 x) →
        ∃ K' : Nat × Nat → Prop, (∀ x, K x → K' x) ∧ (∀ x y, K' x → K' y → x.2 = y.2 → x.1 = y.1) ∧ ∀ x ∈ moves w p a ((n, m) :: l), K' x := by
      intro p' b r K1 hm g0 g1 g2 g3 g4 g5
      obtain ⟨K', i1, i2, i3⟩ := ih (p := p') (a := fun k => if k = n then b else a k) (K := K1) g1
        (fun k h e hk => by
          by_cases hkn : k = n
          · rw [if_pos hkn] at hk; exact g2 h e hk
          · rw [if_neg hkn] at hk; exact g0 _ (h2 k h e hk)) g3 g4
      refine ⟨K', fun x hx => i1 x (g0 x hx), i2, fun x hx => ?_⟩
      unfold moves at hx
      rw [hm] at hx
      rcases List.mem_append.1 hx with hx | hx
      · exact i1 x (g5 x (by simpa using hx))
      · exact i3 x hx
    cases ha : a n with
    | out =>
      cases m with
      | go => exact key p .out none K (by rw [ha]; rfl) (fun _ h => h) h1 (fun _ _ k => nomatch k) h3 h4 (fun _ k => nomatch k)
      | enter q c =>
        obtain ⟨e1, e2, _, _⟩ := handle_same (w := w) p q c
        rcases hh : handleOf w p q c with ⟨r, p1⟩
        rw [hh] at e1 e2
        simp only at e1 e2
        cases r with
        | error e => exact key p1 .out none K (by rw [ha]; simp only [moveEnv, hh]) (fun _ h => h) (e1 ▸ h1) (fun _ _ k => nomatch k) (e2 ▸ h3) h4 (fun _ k => nomatch k)
        | ok h =>
          cases hl : lookEnv p1 h with
          | some e =>
            exact key p1 .out (some (h, e)) K (by rw [ha]; simp only [moveEnv, hh, hl]) (fun _ h => h) (e1 ▸ h1) (fun _ _ k => nomatch k) (e2 ▸ h3) h4
              (fun x k => by cases k; exact h1 _ (e1 ▸ look_some hl))
          | none => exact key p1 (.looked h q c) none K (by rw [ha]; simp only [moveEnv, hh, hl]) (fun _ h => h) (e1 ▸ h1) (fun _ _ k => nomatch k) (e2 ▸ h3) h4 (fun _ k => nomatch k)
    | looked h q c =>
      cases m with
      | enter q' c' => exact key p (.looked h q c) none K (by rw [ha]; rfl) (fun _ h => h) h1 (fun _ _ k => nomatch k) h3 h4 (fun _ k => nomatch k)
      | go =>
        cases ho : w.opens q c with
        | false => exact key p .out none K (by rw [ha]; simp only [moveEnv, openEnv, ho]; rfl) (fun _ h => h) h1 (fun _ _ k => nomatch k) h3 h4 (fun _ k => nomatch k)
        | true =>
          refine key { p with sessions := p.sessions + 1 } (.opened h p.sessions) none (fun x => K x ∨ x = (h, p.sessions)) (by rw [ha]; simp only [moveEnv, openEnv, ho]; rfl)
            (fun _ h => .inl h) (fun x hx => .inl (h1 x hx)) (fun _ _ k => by cases k; exact .inr rfl) ?_ ?_ (fun _ k => nomatch k)
          · rintro x (hx | rfl)
            · exact Nat.lt_succ_of_lt (h3 x hx)
            · exact Nat.lt_succ_self _
          · rintro x y (hx | rfl) (hy | rfl) e
            · exact h4 x y hx hy e
            · have := h3 x hx; simp only at e; omega
            · have := h3 y hy; simp only at e; omega
            · rfl
    | opened h e =>
      have hk := h2 n h e ha
      cases m with
      | enter q' c' => exact key p (.opened h e) none K (by rw [ha]; rfl) (fun _ h => h) h1 (fun _ _ k => by cases k; exact hk) h3 h4 (fun _ k => nomatch k)
      | go =>
        refine key (insertEnv p h e) .out (some (h, e)) K (by rw [ha]; rfl) (fun _ h => h) ?_ (fun _ _ k => nomatch k) h3 h4 (fun x k => by cases k; exact hk)
        intro x hx
        rcases List.mem_cons.1 hx with rfl | hx
        · exact hk
        · exact h1 x (List.mem_filter.1 hx).1

/-- **C102**, calls of any threads at the same time: a session is of one directory only. -/
theorem session_one_dir (fs : Path → Option Nat) (l : List (Nat × Move)) {x y : Nat × Nat} (hx : x ∈ moves w { fs } (fun _ => .out) l)
    (hy : y ∈ moves w { fs } (fun _ => .out) l) (h : x.2 = y.2) : x.1 = y.1 := by
  obtain ⟨K, _, h2, h3⟩ := moves_known (w := w) (l := l) (p := { fs }) (a := fun _ => .out) (K := fun _ => False) (fun _ h => nomatch h) (fun _ _ _ h => nomatch h) (fun _ h => h.elim) (fun _ _ h => h.elim)
  exact h2 x y (h3 x hx) (h3 y hy) h

/-- A thread that is alone in `get_env` does what `getEnv` says. -/
theorem moves_alone (p : Proc) (a : Nat → At) (n : Nat) (ha : a n = .out) (q : Path) (c : Bool) :
    (moves w p a [(n, .enter q c), (n, .go), (n, .go)]).map (·.2) = match (getEnv w p q c).1 with | .ok e => [e] | .error _ => [] := by
  unfold getEnv
  simp only [moves, ha, moveEnv]
  rcases hh : handleOf w p q c with ⟨r, p1⟩
  cases r with
  | error e => simp [moveEnv]
  | ok h =>
    simp only
    cases hl : lookEnv p1 h with
    | some e => simp [moveEnv]
    | none =>
      simp only [if_true, moveEnv]
      unfold openEnv
      cases ho : w.opens q c <;> simp [moveEnv]

/-- The path `/d`. -/
def aPath (b : UInt8) : Path := [47, b]
/-- A process with HOME at `/h`, where `/h/linkspace` and `/x` are directories, and LK_GROUP has to be looked up. -/
def aWorld (g : LkVar) : World := { lkDir := none, home := some (aPath 104), opens := fun _ _ => true, creates := fun _ _ => none, group := g, domain := .absent }
def someDirs : Path → Option Nat := fun q => if q = aPath 104 ++ ascii "/linkspace" then some 1 else if q = aPath 120 then some 2 else none

/-- **C102** is false of calls at the same time: two threads that open one directory can get two sessions. -/
theorem sessions_race : moves (aWorld .absent) { fs := someDirs } (fun _ => .out)
    [(0, .enter (aPath 120) false), (1, .enter (aPath 120) false), (0, .go), (0, .go), (1, .go), (1, .go)] = [(2, 0), (2, 1)] := by decide +kernel

/-! ### the instance of a thread -/

theorem history_lk {l : List Ev} {n : Nat} {r : Runtime} : ∀ {s : State}, (s.thread n).lk = some r → ∀ x ∈ history w s l, (x.2.2.thread n).lk = some r ∧
    ∀ q c, x.1 = .call n (.getLk q c) → x.2.1 = .runtime r := by
  induction l with
  | nil => intro s _ x hx; cases hx
  | cons e l ih =>
    intro s h x hx
    have hstep : ((stepEv w s e).2.thread n).lk = some r := by
      cases e with
      | files fs => exact h
      | call m op =>
        show (if n = m then _ else s.thread n).lk = _
        by_cases hm : n = m
        · subst hm; rw [if_pos rfl]; exact call_lk _ _ _ h
        · rw [if_neg hm]; exact h
    rcases List.mem_cons.1 hx with rfl | hx
    · refine ⟨hstep, fun q c he => ?_⟩
      simp only at he ⊢
      subst he
      simp only [stepEv, callOp, getLk, h]
      rfl
    · exact ih hstep x hx

theorem history_scope {l : List Ev} {n : Nat} {r : Runtime} : ∀ {s : State}, (s.thread n).scope = some r → ∀ x ∈ history w s l, (x.2.2.thread n).scope = some r := by
  induction l with
  | nil => intro s _ x hx; cases hx
  | cons e l ih =>
    intro s h x hx
    have hstep : ((stepEv w s e).2.thread n).scope = some r := by
      cases e with
      | files fs => exact h
      | call m op =>
        show (if n = m then _ else s.thread n).scope = _
        by_cases hm : n = m
        · subst hm; rw [if_pos rfl]; exact call_scope _ _ _ h
        · rw [if_neg hm]; exact h
    rcases List.mem_cons.1 hx with rfl | hx
    · exact hstep
    · exact ih hstep x hx

/-- **C102**: the first runtime that a thread opens, with whatever function, is what `get_lk` gives on it ever after, whatever is called and whatever path it is given. -/
theorem first_stays {s : State} {n : Nat} (h : (s.thread n).lk = none) {q : Option Path} {c : Bool} {op : Op} (hop : op = .openDir q c ∨ op = .getLk q c ∨ op = .lkOpen q c) {r : Runtime}
    (hr : (stepEv w s (.call n op)).1 = .runtime r) {l : List Ev} {x : Ev × Out × State} (hx : x ∈ history w (stepEv w s (.call n op)).2 l) {q' : Option Path} {c' : Bool}
    (he : x.1 = .call n (.getLk q' c')) : x.2.1 = .runtime r := by
  refine (history_lk (s := (stepEv w s (.call n op)).2) ?_ x hx).2 q' c' he
  show (if n = n then (callOp w s.proc (s.thread n) op).2.2 else _).lk = _
  rw [if_pos rfl]
  obtain ⟨_, _, _, _, _, o6⟩ := open_step (w := w) s.proc (s.thread n) q c
  rcases ho : openDir w s.proc (s.thread n) q c with ⟨r', p1, t1⟩
  rw [ho] at o6
  rcases hop with rfl | rfl | rfl
  · simp only [stepEv, callOp, ho] at hr ⊢
    cases r' with
    | error e => cases hr
    | ok r' => cases hr; exact (o6 r rfl).2.2.2 h
  · simp only [stepEv, callOp, getLk, h, ho] at hr ⊢
    cases r' with
    | error e => cases hr
    | ok r' => cases hr; exact (o6 r rfl).2.2.2 h
  · simp only [stepEv, callOp, lkOpen, ho] at hr ⊢
    cases r' with
    | error e => cases hr
    | ok r' => cases hr; exact (o6 r rfl).2.2.2 h

/-- **C102**: the first runtime that `lk_open` gives on a thread is the default of `lk_eval` ever after. -/
theorem scope_stays {s : State} {n : Nat} (h : (s.thread n).scope = none) {q : Option Path} {c : Bool} {r : Runtime}
    (hr : (stepEv w s (.call n (.lkOpen q c))).1 = .runtime r) (l : List Ev) {x : Ev × Out × State} (hx : x ∈ history w (stepEv w s (.call n (.lkOpen q c))).2 l) :
    (x.2.2.thread n).scope = some r := by
  refine history_scope ?_ x hx
  show (if n = n then (callOp w s.proc (s.thread n) (.lkOpen q c)).2.2 else _).scope = _
  rw [if_pos rfl]
  obtain ⟨_, _, _, o4, _, _⟩ := open_step (w := w) s.proc (s.thread n) q c
  rcases ho : openDir w s.proc (s.thread n) q c with ⟨r', p1, t1⟩
  rw [ho] at o4
  simp only at o4
  simp only [stepEv, callOp, lkOpen, ho] at hr ⊢
  cases r' with
  | error e => cases hr
  | ok r' =>
    cases hr
    show t1.scope.or _ = _
    rw [o4, h]
    rfl

/-- **C102**: a command line whose `LK_GROUP` and `LK_DOMAIN` need no lookup works on the directory it names: after any calls of `group` and `domain`, `get_lk` opens it. -/
theorem command_dir (hg : ∀ f, w.group ≠ .named f) (hd : ∀ f, w.domain ≠ .named f) (fs : Path → Option Nat) (n : Nat) {l : List Ev}
    (hl : ∀ e ∈ l, e = .call n .group ∨ e = .call n .domain) (q : Option Path) (c : Bool) :
    stepEv w (after w (fresh fs) l) (.call n (.getLk q c)) = stepEv w (after w (fresh fs) l) (.call n (.openDir q c)) := by
  have key : ∀ (l : List Ev) (s : State), (∀ e ∈ l, e = .call n .group ∨ e = .call n .domain) → (s.thread n).lk = none → ((after w s l).thread n).lk = none := by
    intro l
    induction l with
    | nil => intro s _ h; exact h
    | cons e l ih =>
      intro s hl h
      refine ih _ (fun e he => hl e (List.mem_cons_of_mem _ he)) ?_
      rcases hl e List.mem_cons_self with rfl | rfl
      · show (if n = n then (group w s.proc (s.thread n)).2.2 else _).lk = _
        rw [if_pos rfl, (group_step _ _).2.2.2.2.2.2.2 hg, h]
      · show (if n = n then (domain w s.proc (s.thread n)).2.2 else _).lk = _
        rw [if_pos rfl, (domain_step _ _).2.2.2.2.2.2.2 hd, h]
  have := key l (fresh fs) hl rfl
  simp only [stepEv, callOp, getLk, this]

/-- The outputs. -/
def outsOf (w : World) (l : List Ev) : List Out := (history w (fresh someDirs) l).map (·.2.1)

/-- **C102** is false of a command line with an `LK_GROUP` that is looked up: reading the default group opens `HOME/linkspace`, and then the directory that the command line names (`/x`) is not
the one it works on. -/
theorem dir_ignored : outsOf (aWorld (.named fun _ => some Lns.publicGroup)) [.call 0 .group, .call 0 (.getLk (some (aPath 120)) false), .call 0 (.openDir (some (aPath 120)) false)] =
    [.bytes Lns.publicGroup, .runtime ⟨0, 0⟩, .runtime ⟨1, 1⟩] := by rfl

/-- "without it will clone the first opened" is false: without a path `open_linkspace_dir` opens the default directory, also if another one was opened first. -/
theorem open_not_cloned : outsOf (aWorld .absent) [.call 0 (.openDir (some (aPath 120)) false), .call 0 (.openDir none false), .call 1 (.openDir (some (aPath 120)) false)] =
    [.runtime ⟨0, 0⟩, .runtime ⟨1, 1⟩, .runtime ⟨2, 0⟩] := by rfl

/-! ### the group and the domain -/

theorem call_group (p : Proc) (t : Thread) (op : Op) : (∀ g, t.group = some g → (callOp w p t op).2.2.group = some g) ∧
    (∀ g, (callOp w p t op).2.2.group = some g → t.group = some g ∨ VarGives Lns.publicGroup w.group g ∨ (op = .setGroup g ∧ (callOp w p t op).1 = .done)) := by
  cases op with
  | setGroup g =>
    obtain ⟨_, _, _, s4, _, s6⟩ := set_group_step t g
    refine ⟨fun x hx => (s4 x hx).1, fun x hx => ?_⟩
    rcases s6 x hx with h | ⟨rfl, h⟩
    · exact .inl h
    · exact .inr (.inr ⟨rfl, by show Out.ofUnit (setGroup t x).1 = _; rw [h]; rfl⟩)
  | setDomain g =>
    have := (set_domain_step t g).2.2.1
    exact ⟨fun x hx => this.trans hx, fun x hx => .inl (this ▸ hx)⟩
  | group =>
    obtain ⟨_, _, _, _, g5, _, g7, _⟩ := group_step (w := w) p t
    exact ⟨fun x hx => (g5 x hx).2, fun x hx => (g7 x hx).imp id .inl⟩
  | domain =>
    have := (domain_step (w := w) p t).2.1
    exact ⟨fun x hx => this.trans hx, fun x hx => .inl (this ▸ hx)⟩
  | openDir q c =>
    have := (open_step (w := w) p t q c).2.1
    exact ⟨fun x hx => this.trans hx, fun x hx => .inl (this ▸ hx)⟩
  | getLk q c =>
    have hs : (getLk w p t q c).2.2.group = t.group := by
      unfold getLk
      cases t.lk with
      | some r => rfl
      | none => exact (open_step (w := w) p t q c).2.1
    exact ⟨fun x hx => hs.trans hx, fun x hx => .inl (hs ▸ hx)⟩
  | lkOpen q c =>
    have hs : (lkOpen w p t q c).2.2.group = t.group := by
      unfold lkOpen
      have := (open_step (w := w) p t q c).2.1
      rcases ho : openDir w p t q c with ⟨r, p1, t1⟩
      rw [ho] at this
      cases r <;> exact this
    exact ⟨fun x hx => hs.trans hx, fun x hx => .inl (hs ▸ hx)⟩

theorem step_group (s : State) (e : Ev) (n : Nat) : (∀ g, (s.thread n).group = some g → ((stepEv w s e).2.thread n).group = some g) ∧
    (∀ g, ((stepEv w s e).2.thread n).group = some g → (s.thread n).group = some g ∨ VarGives Lns.publicGroup w.group g ∨ (e = .call n (.setGroup g) ∧ (stepEv w s e).1 = .done)) ∧
    (∀ g, SaysGroup n g (e, stepEv w s e) → ((stepEv w s e).2.thread n).group = some g) := by
  cases e with
  | files fs => exact ⟨fun _ h => h, fun _ h => .inl h, fun g h => by rcases h with ⟨h, _⟩ | ⟨h, _⟩ <;> cases h⟩
  | call m op =>
    by_cases hm : n = m
    · subst hm
      have ht : (stepEv w s (.call n op)).2.thread n = (callOp w s.proc (s.thread n) op).2.2 := if_pos rfl
      rw [ht]
      obtain ⟨h1, h2⟩ := call_group (w := w) s.proc (s.thread n) op
      refine ⟨h1, fun g hg => ?_, fun g hg => ?_⟩
      · rcases h2 g hg with h | h | ⟨rfl, h⟩
        · exact .inl h
        · exact .inr (.inl h)
        · exact .inr (.inr ⟨rfl, h⟩)
      · rcases hg with ⟨h, k⟩ | ⟨h, k⟩
        · cases h
          refine (group_step s.proc (s.thread n)).2.2.2.2.2.1 g ?_
          have k : Out.ofBytes (group w s.proc (s.thread n)).1 = .bytes g := k
          cases hx : (group w s.proc (s.thread n)).1 with
          | error e => rw [hx] at k; cases k
          | ok b => rw [hx] at k; cases k; rfl
        · cases h
          refine (set_group_step (s.thread n) g).2.2.2.2.1 ?_
          have k : Out.ofUnit (setGroup (s.thread n) g).1 = .done := k
          cases hx : (setGroup (s.thread n) g).1 with
          | error e => rw [hx] at k; cases k
          | ok b => rfl
    · have ht : (stepEv w s (.call m op)).2.thread n = s.thread n := if_neg hm
      rw [ht]
      exact ⟨fun _ h => h, fun _ h => .inl h, fun g h => by rcases h with ⟨h, _⟩ | ⟨h, _⟩ <;> (cases h; exact absurd rfl hm)⟩

theorem group_fixed {l : List Ev} {n : Nat} {g : Bytes} : ∀ {s : State}, (s.thread n).group = some g → ∀ x ∈ history w s l, ∀ g', SaysGroup n g' x → g' = g := by
  induction l with
  | nil => intro s _ x hx; cases hx
  | cons e l ih =>
    intro s h x hx g' hg
    obtain ⟨h1, _, h3⟩ := step_group (w := w) s e n
    rcases List.mem_cons.1 hx with rfl | hx
    · have := h3 g' hg
      rw [h1 g h] at this
      cases this; rfl
    · exact ih (h1 g h) x hx g' hg

/-- **C103**: on a thread all calls of `group` give the same group, and it is the only one that `set_group` accepts, whatever is called in between and on other threads. -/
theorem group_constant (s : State) (l : List Ev) (n : Nat) : ∃ g, ∀ x ∈ history w s l, ∀ g', SaysGroup n g' x → g' = g := by
  induction l generalizing s with
  | nil => exact ⟨[], fun _ h => nomatch h⟩
  | cons e l ih =>
    cases hs : (s.thread n).group with
    | some g => exact ⟨g, fun x hx => group_fixed hs x hx⟩
    | none =>
      by_cases h : ∃ g, SaysGroup n g (e, stepEv w s e)
      · obtain ⟨g, hg⟩ := h
        have hk := (step_group s e n).2.2 g hg
        refine ⟨g, fun x hx g' hg' => ?_⟩
        rcases List.mem_cons.1 hx with rfl | hx
        · have := (step_group s e n).2.2 g' hg'
          rw [hk] at this
          cases this; rfl
        · exact group_fixed hk x hx g' hg'
      · obtain ⟨g, hg⟩ := ih (stepEv w s e).2
        refine ⟨g, fun x hx g' hg' => ?_⟩
        rcases List.mem_cons.1 hx with rfl | hx
        · exact absurd ⟨g', hg'⟩ h
        · exact hg x hx g' hg'

/-- **C103**: the group of a thread is one that was set on it, or the value of `LK_GROUP`, or the public group if that is not set. -/
theorem group_source (fs : Path → Option Nat) (l : List Ev) (n : Nat) {x : Ev × Out × State} (hx : x ∈ history w (fresh fs) l) {g : Bytes} (hg : SaysGroup n g x) :
    (∃ y ∈ history w (fresh fs) l, y.1 = .call n (.setGroup g) ∧ y.2.1 = .done) ∨ VarGives Lns.publicGroup w.group g := by
  have key : ∀ (Q : Bytes → Prop) (l : List Ev) (s : State), (∀ g, (s.thread n).group = some g → Q g) → (∀ g, VarGives Lns.publicGroup w.group g → Q g) →
      (∀ y ∈ history w s l, ∀ g, y.1 = .call n (.setGroup g) ∧ y.2.1 = .done → Q g) → ∀ x ∈ history w s l, ∀ g, SaysGroup n g x → Q g := by
    intro Q l
    induction l with
    | nil => intro s _ _ _ x hx; cases hx
    | cons e l ih =>
      intro s h1 h2 h3 x hx g hg
      have hnext : ∀ g, ((stepEv w s e).2.thread n).group = some g → Q g := by
        intro g hg
        rcases (step_group s e n).2.1 g hg with h | h | ⟨h, k⟩
        · exact h1 g h
        · exact h2 g h
        · exact h3 _ List.mem_cons_self g ⟨h, k⟩
      rcases List.mem_cons.1 hx with rfl | hx
      · exact hnext g ((step_group s e n).2.2 g hg)
      · exact ih _ hnext h2 (fun y hy => h3 y (List.mem_cons_of_mem _ hy)) x hx g hg
  exact key (fun g => (∃ y ∈ history w (fresh fs) l, y.1 = .call n (.setGroup g) ∧ y.2.1 = .done) ∨ VarGives Lns.publicGroup w.group g) l (fresh fs)
    (fun _ h => nomatch h) (fun _ h => .inr h) (fun y hy g h => .inl ⟨y, hy, h⟩) x hx g hg

/-- **C103**: `set_group` accepts a group exactly if the thread has none yet or has this one, and panics otherwise. -/
theorem set_group_iff (t : Thread) (g : Bytes) : ((setGroup t g).1 = .ok () ↔ t.group = none ∨ t.group = some g) ∧
    (¬ (t.group = none ∨ t.group = some g) → (setGroup t g).1 = .error .panic) := by
  cases ht : t.group with
  | none =>
    have : (setGroup t g).1 = .ok () := by unfold setGroup; rw [ht]
    exact ⟨⟨fun _ => .inl rfl, fun _ => this⟩, fun k => absurd (.inl rfl) k⟩
  | some x =>
    obtain ⟨_, h2, h3⟩ := (set_group_step t g).2.2.2.1 x ht
    refine ⟨h2.trans ⟨fun k => .inr (k ▸ rfl), fun k => ?_⟩, fun k => h3 fun e => k (.inr (e ▸ rfl))⟩
    rcases k with k | k <;> cases k
    rfl

theorem call_domain (p : Proc) (t : Thread) (op : Op) : (∀ g, t.domain = some g → (callOp w p t op).2.2.domain = some g) ∧
    (∀ g, (callOp w p t op).2.2.domain = some g → t.domain = some g ∨ VarGives (List.replicate 16 0) w.domain g ∨ (op = .setDomain g ∧ (callOp w p t op).1 = .done)) := by
  cases op with
  | setDomain g =>
    obtain ⟨_, _, _, s4, _, s6⟩ := set_domain_step t g
    refine ⟨fun x hx => (s4 x hx).1, fun x hx => ?_⟩
    rcases s6 x hx with h | ⟨rfl, h⟩
    · exact .inl h
    · exact .inr (.inr ⟨rfl, by show Out.ofUnit (setDomain t x).1 = _; rw [h]; rfl⟩)
  | setGroup g =>
    have := (set_group_step t g).2.2.1
    exact ⟨fun x hx => this.trans hx, fun x hx => .inl (this ▸ hx)⟩
  | domain =>
    obtain ⟨_, _, _, _, g5, _, g7, _⟩ := domain_step (w := w) p t
    exact ⟨fun x hx => (g5 x hx).2, fun x hx => (g7 x hx).imp id .inl⟩
  | group =>
    have := (group_step (w := w) p t).2.1
    exact ⟨fun x hx => this.trans hx, fun x hx => .inl (this ▸ hx)⟩
  | openDir q c =>
    have := (open_step (w := w) p t q c).2.2.1
    exact ⟨fun x hx => this.trans hx, fun x hx => .inl (this ▸ hx)⟩
  | getLk q c =>
    have hs : (getLk w p t q c).2.2.domain = t.domain := by
      unfold getLk
      cases t.lk with
      | some r => rfl
      | none => exact (open_step (w := w) p t q c).2.2.1
    exact ⟨fun x hx => hs.trans hx, fun x hx => .inl (hs ▸ hx)⟩
  | lkOpen q c =>
    have hs : (lkOpen w p t q c).2.2.domain = t.domain := by
      unfold lkOpen
      have := (open_step (w := w) p t q c).2.2.1
      rcases ho : openDir w p t q c with ⟨r, p1, t1⟩
      rw [ho] at this
      cases r <;> exact this
    exact ⟨fun x hx => hs.trans hx, fun x hx => .inl (hs ▸ hx)⟩

theorem step_domain (s : State) (e : Ev) (n : Nat) : (∀ g, (s.thread n).domain = some g → ((stepEv w s e).2.thread n).domain = some g) ∧
    (∀ g, ((stepEv w s e).2.thread n).domain = some g → (s.thread n).domain = some g ∨ VarGives (List.replicate 16 0) w.domain g ∨ (e = .call n (.setDomain g) ∧ (stepEv w s e).1 = .done)) ∧
    (∀ g, SaysDomain n g (e, stepEv w s e) → ((stepEv w s e).2.thread n).domain = some g) := by
  cases e with
  | files fs => exact ⟨fun _ h => h, fun _ h => .inl h, fun g h => by rcases h with ⟨h, _⟩ | ⟨h, _⟩ <;> cases h⟩
  | call m op =>
    by_cases hm : n = m
    · subst hm
      have ht : (stepEv w s (.call n op)).2.thread n = (callOp w s.proc (s.thread n) op).2.2 := if_pos rfl
      rw [ht]
      obtain ⟨h1, h2⟩ := call_domain (w := w) s.proc (s.thread n) op
      refine ⟨h1, fun g hg => ?_, fun g hg => ?_⟩
      · rcases h2 g hg with h | h | ⟨rfl, h⟩
        · exact .inl h
        · exact .inr (.inl h)
        · exact .inr (.inr ⟨rfl, h⟩)
      · rcases hg with ⟨h, k⟩ | ⟨h, k⟩
        · cases h
          refine (domain_step s.proc (s.thread n)).2.2.2.2.2.1 g ?_
          have k : Out.ofBytes (domain w s.proc (s.thread n)).1 = .bytes g := k
          cases hx : (domain w s.proc (s.thread n)).1 with
          | error e => rw [hx] at k; cases k
          | ok b => rw [hx] at k; cases k; rfl
        · cases h
          refine (set_domain_step (s.thread n) g).2.2.2.2.1 ?_
          have k : Out.ofUnit (setDomain (s.thread n) g).1 = .done := k
          cases hx : (setDomain (s.thread n) g).1 with
          | error e => rw [hx] at k; cases k
          | ok b => rfl
    · have ht : (stepEv w s (.call m op)).2.thread n = s.thread n := if_neg hm
      rw [ht]
      exact ⟨fun _ h => h, fun _ h => .inl h, fun g h => by rcases h with ⟨h, _⟩ | ⟨h, _⟩ <;> (cases h; exact absurd rfl hm)⟩

theorem domain_fixed {l : List Ev} {n : Nat} {g : Bytes} : ∀ {s : State}, (s.thread n).domain = some g → ∀ x ∈ history w s l, ∀ g', SaysDomain n g' x → g' = g := by
  induction l with
  | nil => intro s _ x hx; cases hx
  | cons e l ih =>
    intro s h x hx g' hg
    obtain ⟨h1, _, h3⟩ := step_domain (w := w) s e n
    rcases List.mem_cons.1 hx with rfl | hx
    · have := h3 g' hg
      rw [h1 g h] at this
      cases this; rfl
    · exact ih (h1 g h) x hx g' hg

/-- **C103**: on a thread all calls of `domain` give the same domain, and it is the only one that `set_domain` accepts, whatever is called in between and on other threads. -/
theorem domain_constant (s : State) (l : List Ev) (n : Nat) : ∃ g, ∀ x ∈ history w s l, ∀ g', SaysDomain n g' x → g' = g := by
  induction l generalizing s with
  | nil => exact ⟨[], fun _ h => nomatch h⟩
  | cons e l ih =>
    cases hs : (s.thread n).domain with
    | some g => exact ⟨g, fun x hx => domain_fixed hs x hx⟩
    | none =>
      by_cases h : ∃ g, SaysDomain n g (e, stepEv w s e)
      · obtain ⟨g, hg⟩ := h
        have hk := (step_domain s e n).2.2 g hg
        refine ⟨g, fun x hx g' hg' => ?_⟩
        rcases List.mem_cons.1 hx with rfl | hx
        · have := (step_domain s e n).2.2 g' hg'
          rw [hk] at this
          cases this; rfl
        · exact domain_fixed hk x hx g' hg'
      · obtain ⟨g, hg⟩ := ih (stepEv w s e).2
        refine ⟨g, fun x hx g' hg' => ?_⟩
        rcases List.mem_cons.1 hx with rfl | hx
        · exact absurd ⟨g', hg'⟩ h
        · exact hg x hx g' hg'

/-- **C103**: the domain of a thread is one that was set on it, or the value of `LK_DOMAIN`, or the empty one if that is not set. -/
theorem domain_source (fs : Path → Option Nat) (l : List Ev) (n : Nat) {x : Ev × Out × State} (hx : x ∈ history w (fresh fs) l) {g : Bytes} (hg : SaysDomain n g x) :
    (∃ y ∈ history w (fresh fs) l, y.1 = .call n (.setDomain g) ∧ y.2.1 = .done) ∨ VarGives (List.replicate 16 0) w.domain g := by
  have key : ∀ (Q : Bytes → Prop) (l : List Ev) (s : State), (∀ g, (s.thread n).domain = some g → Q g) → (∀ g, VarGives (List.replicate 16 0) w.domain g → Q g) →
      (∀ y ∈ history w s l, ∀ g, y.1 = .call n (.setDomain g) ∧ y.2.1 = .done → Q g) → ∀ x ∈ history w s l, ∀ g, SaysDomain n g x → Q g := by
    intro Q l
    induction l with
    | nil => intro s _ _ _ x hx; cases hx
    | cons e l ih =>
      intro s h1 h2 h3 x hx g hg
      have hnext : ∀ g, ((stepEv w s e).2.thread n).domain = some g → Q g := by
        intro g hg
        rcases (step_domain s e n).2.1 g hg with h | h | ⟨h, k⟩
        · exact h1 g h
        · exact h2 g h
        · exact h3 _ List.mem_cons_self g ⟨h, k⟩
      rcases List.mem_cons.1 hx with rfl | hx
      · exact hnext g ((step_domain s e n).2.2 g hg)
      · exact ih _ hnext h2 (fun y hy => h3 y (List.mem_cons_of_mem _ hy)) x hx g hg
  exact key (fun g => (∃ y ∈ history w (fresh fs) l, y.1 = .call n (.setDomain g) ∧ y.2.1 = .done) ∨ VarGives (List.replicate 16 0) w.domain g) l (fresh fs)
    (fun _ h => nomatch h) (fun _ h => .inr h) (fun y hy g h => .inl ⟨y, hy, h⟩) x hx g hg

/-- **C103**: `set_domain` accepts a domain exactly if the thread has none yet or has this one, and panics otherwise. -/
theorem set_domain_iff (t : Thread) (g : Bytes) : ((setDomain t g).1 = .ok () ↔ t.domain = none ∨ t.domain = some g) ∧
    (¬ (t.domain = none ∨ t.domain = some g) → (setDomain t g).1 = .error .panic) := by
  cases ht : t.domain with
  | none =>
    have : (setDomain t g).1 = .ok () := by unfold setDomain; rw [ht]
    exact ⟨⟨fun _ => .inl rfl, fun _ => this⟩, fun k => absurd (.inl rfl) k⟩
  | some x =>
    obtain ⟨_, h2, h3⟩ := (set_domain_step t g).2.2.2.1 x ht
    refine ⟨h2.trans ⟨fun k => .inr (k ▸ rfl), fun k => ?_⟩, fun k => h3 fun e => k (.inr (e ▸ rfl))⟩
    rcases k with k | k <;> cases k
    rfl

/-- A thread that reads its defaults, then tries to change the group; another thread sets it first. -/
theorem defaults_example : outsOf (aWorld (.plain (some [7]))) [.call 0 .group, .call 0 (.setGroup [8]), .call 1 (.setGroup [8]), .call 1 .group, .call 0 (.setGroup [7]), .call 0 .domain] =
    [.bytes [7], .fail .panic, .done, .bytes [8], .done, .bytes (List.replicate 16 0)] := by rfl

end Verif.Props
