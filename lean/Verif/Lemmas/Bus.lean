import Verif.Spec.Bus
/-!
# Steps of the bus
-/
namespace Verif.Bus
open Verif Verif.Pred Verif.Spec

/-- The steps that change something. -/
inductive Next (s : Setup) (w : World) : Act → World → Prop
  | emit (t p v) : w.thr t = .idle → p ∈ s.members → Next s w (.emit t p v) { w with thr := upd w.thr t (.loading p true v) }
  | save (t p v) : w.thr t = .idle → p ∈ s.members → w.db < v → Next s w (.save t p v) { w with db := v, thr := upd w.thr t (.loading p true v) }
  | load (t p udp v c) : w.thr t = .loading p udp v → Next s w (.load t c) { w with thr := upd w.thr t (.testing p udp v (readAny w p c)) }
  | above (t p udp v old c f) : w.thr t = .testing p udp v old → v < old → Next s w (.test t c f) { w with thr := upd w.thr t (.returned p v old) }
  | swap (t p udp v c) : w.thr t = .testing p udp v (w.val p) → w.val p ≤ v → Next s w (.test t c false)
      { w with val := upd w.val p v, past := upd w.past p (w.val p :: w.past p), thr := upd w.thr t (if udp then .sending p v else .notifying p v) }
  | again (t p udp v old c f) : w.thr t = .testing p udp v old → Next s w (.test t c f) { w with thr := upd w.thr t (.testing p udp v (readAny w p c)) }
  | send (t p v l) : w.thr t = .sending p v → Next s w (.send t l)
      { w with thr := upd w.thr t (.notifying p v), flying := if l then w.flying else w.flying ++ s.members.map fun q => (q, message s.bus (s.pid p) v) }
  | notify (t p v) : w.thr t = .notifying p v → Next s w (.notify t) { w with thr := upd (notifyAll p w.thr) t (.returned p v v) }
  | skip (t i p b) : w.flying[i]? = some (p, b) → handle s.bus (s.pid p) b = .ok none → Next s w (.recv t i) { w with flying := w.flying.eraseIdx i }
  | recv (t i p b v) : w.flying[i]? = some (p, b) → handle s.bus (s.pid p) b = .ok (some v) → w.thr t = .idle → Next s w (.recv t i)
      { w with flying := w.flying.eraseIdx i, thr := upd w.thr t (.loading p false v) }
  | crash (t i p b e) : w.flying[i]? = some (p, b) → handle s.bus (s.pid p) b = .error e → Next s w (.recv t i)
      { w with flying := w.flying.eraseIdx i, deaf := upd w.deaf p true }
  | lose (i) : Next s w (.lose i) { w with flying := w.flying.eraseIdx i }
  | stray (p b) : Next s w (.stray p b) { w with flying := w.flying ++ [(p, b)] }
  | look (t p) : w.thr t = .idle → Next s w (.look t p) { w with thr := upd w.thr t (.looked p w.db) }
  | listen (t p h) : w.thr t = .looked p h → Next s w (.listen t) { w with thr := upd w.thr t (.listening p h) }
  | wake (t p h) : w.thr t = .notified p h → Next s w (.wake t) { w with thr := upd w.thr t (.awake p h (w.val p)) }
  | timeout (t p h) : w.thr t = .listening p h → Next s w (.timeout t) { w with thr := upd w.thr t (.timedOut p h) }

theorem act_next (s : Setup) (w : World) (a : Act) : act s w a = w ∨ Next s w a (act s w a) := by
  cases a with
  | emit t p v =>
    simp only [act]; split
    · split
      · exact .inr (.emit t p v ‹_› ‹_›)
      · exact .inl rfl
    · exact .inl rfl
  | save t p v =>
    simp only [act]; split
    · split
      · exact .inr (.save t p v ‹_› (And.left ‹_›) (And.right ‹_›))
      · exact .inl rfl
    · exact .inl rfl
  | load t c =>
    simp only [act]; split
    · exact .inr (.load t _ _ _ c ‹_›)
    · exact .inl rfl
  | test t c f =>
    simp only [act]; split
    next p udp v old h =>
      split
      · exact .inr (.above t p udp v old c f h ‹_›)
      · split
        next h1 h2 =>
          obtain ⟨h2, rfl⟩ := h2
          subst h2
          exact .inr (.swap t p udp v c h (UInt64.not_lt.mp h1))
        · exact .inr (.again t p udp v old c f h)
    · exact .inl rfl
  | send t l =>
    simp only [act]; split
    · exact .inr (.send t _ _ l ‹_›)
    · exact .inl rfl
  | notify t =>
    simp only [act]; split
    · exact .inr (.notify t _ _ ‹_›)
    · exact .inl rfl
  | recv t i =>
    simp only [act]; split
    · exact .inl rfl
    next p b h =>
      split
      next h1 h2 h3 => exact .inr (.skip t i p b h h3)
      next v h1 h2 h3 => exact .inr (.recv t i p b v h h3 h2)
      next e h1 h2 h3 => exact .inr (.crash t i p b e h h3)
      · exact .inl rfl
  | lose i => exact .inr (.lose i)
  | stray p b => exact .inr (.stray p b)
  | look t p =>
    simp only [act]; split
    · exact .inr (.look t p ‹_›)
    · exact .inl rfl
  | listen t =>
    simp only [act]; split
    · exact .inr (.listen t _ _ ‹_›)
    · exact .inl rfl
  | wake t =>
    simp only [act]; split
    · exact .inr (.wake t _ _ ‹_›)
    · exact .inl rfl
  | timeout t =>
    simp only [act]; split
    · exact .inr (.timeout t _ _ ‹_›)
    · exact .inl rfl

/-- An invariant holds after any execution of actions that are allowed. -/
theorem exec_inv {s : Setup} {P : World → Prop} {A : Act → Prop} (hs : ∀ w a w', A a → P w → Next s w a w' → P w') :
    ∀ (as : List Act) (w : World), (∀ a ∈ as, A a) → P w → P (exec s w as)
  | [], _, _, h => h
  | a :: as, w, ha, h => exec_inv hs as _ (fun b hb => ha b (List.mem_cons_of_mem _ hb))
      ((act_next s w a).elim (fun e => by rw [e]; exact h) (hs _ _ _ (ha a List.mem_cons_self) h))

theorem exec_append (s : Setup) : ∀ (as bs : List Act) (w : World), exec s w (as ++ bs) = exec s (exec s w as) bs
  | [], _, _ => rfl
  | _ :: as, bs, _ => exec_append s as bs _

theorem upd_same {α : Type} (f : Nat → α) (k : Nat) (a : α) : upd f k a k = a := if_pos rfl

theorem upd_ne {α : Type} (f : Nat → α) {k i : Nat} (a : α) (h : i ≠ k) : upd f k a i = f i := if_neg h

/-- The value only grows. -/
theorem next_val {s : Setup} {w w' : World} {a : Act} (h : Next s w a w') (p : Nat) : w.val p ≤ w'.val p := by
  cases h with
  | swap t q udp v c h1 h2 =>
    show w.val p ≤ upd w.val q v p
    by_cases e : p = q
    · subst e; rw [upd_same]; exact h2
    · rw [upd_ne _ _ e]; exact UInt64.le_refl _
  | _ => exact UInt64.le_refl _

theorem exec_val (s : Setup) : ∀ (as : List Act) (w : World) (p : Nat), w.val p ≤ (exec s w as).val p
  | [], _, _ => UInt64.le_refl _
  | a :: as, w, p => UInt64.le_trans ((act_next s w a).elim (fun e => by rw [e]; exact UInt64.le_refl _) (fun h => next_val h p)) (exec_val s as _ p)

/-! ## What threads know -/

/-- What a thread knows of the values. -/
def Knows (w : World) : Thr → Prop
  | .testing p _ _ old => old = w.val p ∨ old ∈ w.past p
  | .sending p v => v ≤ w.val p
  | .notifying p v => v ≤ w.val p
  | .returned p v r => v ≤ r ∧ r ≤ w.val p
  | _ => True

def Sound (w : World) : Prop := (∀ p, ∀ x ∈ w.past p, x ≤ w.val p) ∧ ∀ t, Knows w (w.thr t)

theorem readAny_mem (w : World) (p : Nat) (c : Option Nat) : readAny w p c = w.val p ∨ readAny w p c ∈ w.past p := by
  cases c with
  | none => exact .inl rfl
  | some i =>
    show (w.past p).getD i (w.val p) = _ ∨ (w.past p).getD i (w.val p) ∈ _
    rw [List.getD_eq_getElem?_getD]
    cases h : (w.past p)[i]? with
    | none => exact .inl rfl
    | some x => exact .inr (List.mem_of_getElem? h)

theorem Knows.mono {w w' : World} (hv : ∀ p, w.val p ≤ w'.val p) (hp : ∀ p x, (x = w.val p ∨ x ∈ w.past p) → x = w'.val p ∨ x ∈ w'.past p) {t : Thr}
    (h : Knows w t) : Knows w' t := by
  cases t with
  | testing p u v old => exact hp _ _ h
  | sending p v => exact UInt64.le_trans h (hv p)
  | notifying p v => exact UInt64.le_trans h (hv p)
  | returned p v r => exact ⟨h.1, UInt64.le_trans h.2 (hv p)⟩
  | _ => trivial

/-- A thread with a new place. -/
theorem knows_upd {w w' : World} {t : Nat} {x : Thr} (hw : w'.thr = upd w.thr t x) (hv : ∀ p, w.val p ≤ w'.val p)
    (hp : ∀ p x, (x = w.val p ∨ x ∈ w.past p) → x = w'.val p ∨ x ∈ w'.past p) (h : ∀ t, Knows w (w.thr t)) (hx : Knows w' x) : ∀ t, Knows w' (w'.thr t) := by
  intro u
  rw [hw]
  by_cases e : u = t
  · subst e; rw [upd_same]; exact hx
  · rw [upd_ne _ _ e]; exact (h u).mono hv hp

theorem next_sound {s : Setup} {w w' : World} {a : Act} (h : Next s w a w') (hs : Sound w) : Sound w' := by
  obtain ⟨h1, h2⟩ := hs
  have top : ∀ {p x}, (x = w.val p ∨ x ∈ w.past p) → x ≤ w.val p := fun h => h.elim (fun e => e ▸ UInt64.le_refl _) (h1 _ _)
  cases h with
  | emit t p v => exact ⟨h1, knows_upd rfl (fun _ => UInt64.le_refl _) (fun _ _ h => h) h2 trivial⟩
  | save t p v => exact ⟨h1, knows_upd rfl (fun _ => UInt64.le_refl _) (fun _ _ h => h) h2 trivial⟩
  | load t p u v c => exact ⟨h1, knows_upd rfl (fun _ => UInt64.le_refl _) (fun _ _ h => h) h2 (readAny_mem w p c)⟩
  | above t p u v old c f ht ho =>
    have := h2 t
    rw [ht] at this
    exact ⟨h1, knows_upd rfl (fun _ => UInt64.le_refl _) (fun _ _ h => h) h2 ⟨UInt64.le_of_lt ho, top this⟩⟩
  | swap t p u v c ht hv =>
    have hval : ∀ q, w.val q ≤ upd w.val p v q := fun q => next_val (Next.swap (s := s) t p u v c ht hv) q
    have hpast : ∀ q x, (x = w.val q ∨ x ∈ w.past q) → x = upd w.val p v q ∨ x ∈ upd w.past p (w.val p :: w.past p) q := by
      intro q x hx
      by_cases e : q = p
      · subst e
        rw [upd_same, upd_same]
        exact .inr (List.mem_cons.mpr hx)
      · rw [upd_ne _ _ e, upd_ne _ _ e]; exact hx
    refine ⟨?_, knows_upd rfl hval hpast h2 ?_⟩
    · intro q x
      show x ∈ upd w.past p (w.val p :: w.past p) q → x ≤ upd w.val p v q
      by_cases e : q = p
      · subst e
        rw [upd_same, upd_same]
        exact fun hx => UInt64.le_trans (top (List.mem_cons.mp hx)) hv
      · rw [upd_ne _ _ e, upd_ne _ _ e]; exact h1 q x
    · cases u with
      | true => show v ≤ upd w.val p v p; rw [upd_same]; exact UInt64.le_refl _
      | false => show v ≤ upd w.val p v p; rw [upd_same]; exact UInt64.le_refl _
  | again t p u v old c f ht => exact ⟨h1, knows_upd rfl (fun _ => UInt64.le_refl _) (fun _ _ h => h) h2 (readAny_mem w p c)⟩
  | send t p v l ht =>
    have := h2 t
    rw [ht] at this
    exact ⟨h1, knows_upd rfl (fun _ => UInt64.le_refl _) (fun _ _ h => h) h2 this⟩
  | notify t p v ht =>
    have := h2 t
    rw [ht] at this
    refine ⟨h1, fun u => ?_⟩
    show Knows _ (upd (notifyAll p w.thr) t (.returned p v v) u)
    by_cases e : u = t
    · subst e; rw [upd_same]; exact ⟨UInt64.le_refl _, this⟩
    · rw [upd_ne _ _ e]
      have hu := h2 u
      unfold notifyAll
      split
      · split <;> trivial
      · exact hu
  | skip t i p b => exact ⟨h1, h2⟩
  | recv t i p b v => exact ⟨h1, knows_upd rfl (fun _ => UInt64.le_refl _) (fun _ _ h => h) h2 trivial⟩
  | crash t i p b e => exact ⟨h1, h2⟩
  | lose i => exact ⟨h1, h2⟩
  | stray p b => exact ⟨h1, h2⟩
  | look t p => exact ⟨h1, knows_upd rfl (fun _ => UInt64.le_refl _) (fun _ _ h => h) h2 trivial⟩
  | listen t p h => exact ⟨h1, knows_upd rfl (fun _ => UInt64.le_refl _) (fun _ _ h => h) h2 trivial⟩
  | wake t p h => exact ⟨h1, knows_upd rfl (fun _ => UInt64.le_refl _) (fun _ _ h => h) h2 trivial⟩
  | timeout t p h => exact ⟨h1, knows_upd rfl (fun _ => UInt64.le_refl _) (fun _ _ h => h) h2 trivial⟩

theorem sound_start (db : UInt64) : Sound (start db) := ⟨(fun _ _ h => nomatch h), fun _ => trivial⟩

theorem exec_sound (s : Setup) (w : World) (as : List Act) (h : Sound w) : Sound (exec s w as) :=
  exec_inv (A := fun _ => True) (fun _ _ _ _ hp hn => next_sound hn hp) as w (fun _ _ => trivial) h

/-! ## Messages -/

theorem leBytes_length : ∀ (k n : Nat), (leBytes k n).length = k
  | 0, _ => rfl
  | k + 1, n => congrArg (· + 1) (leBytes_length k (n / 256))

theorem leNat_leBytes : ∀ (k n : Nat), n < 256 ^ k → leNat (leBytes k n) = n
  | 0, n, h => by
    have : n = 0 := by rw [Nat.pow_zero] at h; omega
    rw [this]; rfl
  | k + 1, n, h => by
    show (UInt8.ofNat (n % 256)).toNat + 256 * leNat (leBytes k (n / 256)) = n
    rw [leNat_leBytes k (n / 256) (by rw [Nat.pow_succ] at h; omega)]
    have : (UInt8.ofNat (n % 256)).toNat = n % 256 := by
      show n % 256 % 256 = n % 256
      omega
    rw [this]; omega

theorem leBytes_leNat : ∀ (b : Bytes), leBytes b.length (leNat b) = b
  | [] => rfl
  | x :: b => by
    have hx : x.toNat < 256 := x.toNat_lt
    show UInt8.ofNat ((x.toNat + 256 * leNat b) % 256) :: leBytes b.length ((x.toNat + 256 * leNat b) / 256) = x :: b
    have h1 : (x.toNat + 256 * leNat b) % 256 = x.toNat := by omega
    have h2 : (x.toNat + 256 * leNat b) / 256 = leNat b := by omega
    rw [h1, h2, leBytes_leNat b, UInt8.ofNat_toNat]

theorem leNat_lt : ∀ (b : Bytes), leNat b < 256 ^ b.length
  | [] => by decide
  | x :: b => by
    have hx : x.toNat < 256 := x.toNat_lt
    have := leNat_lt b
    show x.toNat + 256 * leNat b < 256 ^ (b.length + 1)
    rw [Nat.pow_succ]; omega

theorem leNat_bus (x : UInt64) : leNat (leBytes 8 x.toNat) = x.toNat :=
  leNat_leBytes 8 _ (by have := x.toNat_lt; simpa using this)

theorem leNat_pid (x : UInt32) : leNat (leBytes 4 x.toNat) = x.toNat :=
  leNat_leBytes 4 _ (by have := x.toNat_lt; simpa using this)

theorem message_length (bus : UInt64) (pid : UInt32) (v : UInt64) : (message bus pid v).length = 20 := by
  unfold message
  rw [List.length_append, List.length_append, leBytes_length, leBytes_length, leBytes_length]

theorem message_take8 (bus : UInt64) (pid : UInt32) (v : UInt64) : (message bus pid v).take 8 = leBytes 8 bus.toNat := by
  unfold message
  rw [List.append_assoc, List.take_append_of_le_length (by rw [leBytes_length]; omega), List.take_of_length_le (by rw [leBytes_length]; omega)]

theorem message_drop8 (bus : UInt64) (pid : UInt32) (v : UInt64) : (message bus pid v).drop 8 = leBytes 4 pid.toNat ++ leBytes 8 v.toNat := by
  unfold message
  rw [List.append_assoc, List.drop_append_of_le_length (by rw [leBytes_length]; omega), List.drop_of_length_le (by rw [leBytes_length]; omega)]
  rfl

theorem message_drop12 (bus : UInt64) (pid : UInt32) (v : UInt64) : (message bus pid v).drop 12 = leBytes 8 v.toNat := by
  have : (message bus pid v).drop 12 = ((message bus pid v).drop 8).drop 4 := by rw [List.drop_drop]
  rw [this, message_drop8, List.drop_append_of_le_length (by rw [leBytes_length]; omega), List.drop_of_length_le (by rw [leBytes_length]; omega)]
  rfl

theorem pid_bytes_inj {x y : UInt32} (h : leBytes 4 x.toNat = leBytes 4 y.toNat) : x = y :=
  UInt32.toNat_inj.mp (by rw [← leNat_pid x, h, leNat_pid])

theorem message_pid (bus : UInt64) (pid : UInt32) (v : UInt64) : ((message bus pid v).drop 8).take 4 = leBytes 4 pid.toNat := by
  rw [message_drop8, List.take_append_of_le_length (by rw [leBytes_length]; omega), List.take_of_length_le (by rw [leBytes_length]; omega)]

theorem handle_message (bus : UInt64) (pid pid' : UInt32) (v : UInt64) :
    handle bus pid (message bus pid' v) = .ok (if pid' = pid then none else some v) := by
  unfold handle
  rw [if_neg (by rw [message_length]; omega), if_neg (by rw [message_take8, leNat_bus]; exact fun h => h rfl), if_neg (by rw [message_length]; omega), message_pid,
    message_drop12, leBytes_length]
  by_cases h : pid' = pid
  · subst h; rw [if_pos rfl, if_pos rfl]
  · rw [if_neg (fun e => h (pid_bytes_inj e)), if_neg (fun h => h rfl), if_neg h, leNat_bus, UInt64.ofNat_toNat]

/-! ## Where values come from -/

/-- What a thread emits. -/
def emitsOf : Thr → Option (Nat × UInt64)
  | .loading p _ v => some (p, v)
  | .testing p _ v _ => some (p, v)
  | .sending p v => some (p, v)
  | .notifying p v => some (p, v)
  | .returned p v _ => some (p, v)
  | _ => none

theorem emitsIn_iff (w : World) (t p : Nat) (v : UInt64) : EmitsIn w t p v ↔ emitsOf (w.thr t) = some (p, v) := by
  unfold EmitsIn
  cases w.thr t <;> simp [emitsOf, eq_comm]

/-- The values of the atomics, of threads and of datagrams are all among these. -/
def AmongG (G : UInt64 → Prop) (w : World) : Prop :=
  (∀ p, G (w.val p)) ∧ (∀ t p v, emitsOf (w.thr t) = some (p, v) → G v) ∧
    ∀ p b v, (p, b) ∈ w.flying → b.length = 20 → leNat (b.drop 12) = v.toNat → G v

theorem handle_some {bus : UInt64} {pid : UInt32} {b : Bytes} {v : UInt64} (h : handle bus pid b = .ok (some v)) :
    b.length = 20 ∧ leNat (b.drop 12) = v.toNat ∧ leNat (b.take 8) = bus.toNat ∧ (b.drop 8).take 4 ≠ leBytes 4 pid.toNat := by
  unfold handle at h
  split at h
  · exact nomatch h
  · split at h
    · exact nomatch h
    next h2 =>
      split at h
      · exact nomatch h
      · split at h
        · exact nomatch h
        next h4 =>
          split at h
          · exact nomatch h
          next h5 =>
            have h6 : (b.drop 12).length = 8 := Decidable.not_not.mp h5
            have e : UInt64.ofNat (leNat (b.drop 12)) = v := by
              injection h with h; injection h
            have hl := leNat_lt (b.drop 12)
            rw [h6] at hl
            refine ⟨by rw [List.length_drop] at h6; omega, ?_, Decidable.not_not.mp h2, h4⟩
            rw [← e, UInt64.toNat_ofNat']
            exact (Nat.mod_eq_of_lt (by simpa using hl)).symm

theorem emits_upd {G : UInt64 → Prop} {thr : Nat → Thr} {t : Nat} {x : Thr} (h : ∀ t p v, emitsOf (thr t) = some (p, v) → G v)
    (hx : ∀ p v, emitsOf x = some (p, v) → G v) : ∀ u p v, emitsOf (upd thr t x u) = some (p, v) → G v := by
  intro u p v
  by_cases e : u = t
  · subst e; rw [upd_same]; exact hx p v
  · rw [upd_ne _ _ e]; exact h u p v

theorem emits_notifyAll (p : Nat) (thr : Nat → Thr) (u : Nat) : emitsOf (notifyAll p thr u) = emitsOf (thr u) := by
  unfold notifyAll
  split
  next q h e => rw [e]; split <;> rfl
  · rfl

theorem mem_eraseIdx_of {α : Type} {l : List α} {i : Nat} {x : α} (h : x ∈ l.eraseIdx i) : x ∈ l := (List.eraseIdx_sublist l i).mem h

theorem mem_eraseIdx_ne {α : Type} {l : List α} {i : Nat} {x y : α} (h : x ∈ l) (hy : l[i]? = some y) (hne : x ≠ y) : x ∈ l.eraseIdx i := by
  obtain ⟨j, hj⟩ := List.mem_iff_getElem?.mp h
  have hij : j ≠ i := fun e => hne (by rw [e, hy] at hj; injection hj with hj; exact hj.symm)
  rw [List.mem_iff_getElem?]
  by_cases hlt : j < i
  · exact ⟨j, by rw [List.getElem?_eraseIdx, if_pos hlt]; exact hj⟩
  · exact ⟨j - 1, by rw [List.getElem?_eraseIdx, if_neg (by omega), Nat.sub_add_cancel (by omega)]; exact hj⟩

theorem next_among {s : Setup} {G : UInt64 → Prop} {w w' : World} {a : Act} (ha : ∀ v, GivesBus a v → G v) (hg : AmongG G w) (h : Next s w a w') : AmongG G w' := by
  obtain ⟨h1, h2, h3⟩ := hg
  have one : ∀ {t : Nat} {x : Thr}, emitsOf x = emitsOf (w.thr t) → ∀ u p v, emitsOf (upd w.thr t x u) = some (p, v) → G v :=
    fun hx => emits_upd h2 (fun p v e => h2 _ p v (hx ▸ e))
  have none : ∀ {t : Nat} {x : Thr}, emitsOf x = none → ∀ u p v, emitsOf (upd w.thr t x u) = some (p, v) → G v :=
    fun hx => emits_upd h2 (fun p v e => by rw [hx] at e; exact nomatch e)
  have new : ∀ {t p u v}, G v → ∀ x q y, emitsOf (upd w.thr t (.loading p u v) x) = some (q, y) → G y :=
    fun hv => emits_upd h2 (fun p v e => by injection e with e; injection e with _ e; exact e ▸ hv)
  cases h with
  | emit t p v ht hp => exact ⟨h1, new (ha v (.inl ⟨t, p, rfl⟩)), h3⟩
  | save t p v ht hp hd => exact ⟨h1, new (ha v (.inr (.inl ⟨t, p, rfl⟩))), h3⟩
  | load t p u v c ht => exact ⟨h1, one (by rw [ht]; rfl), h3⟩
  | above t p u v old c f ht ho => exact ⟨h1, one (by rw [ht]; rfl), h3⟩
  | swap t p u v c ht hv =>
    have hG : G v := h2 t p v (by rw [ht]; rfl)
    refine ⟨fun q => ?_, one (by rw [ht]; cases u <;> rfl), h3⟩
    show G (upd w.val p v q)
    by_cases e : q = p
    · subst e; rw [upd_same]; exact hG
    · rw [upd_ne _ _ e]; exact h1 q
  | again t p u v old c f ht => exact ⟨h1, one (by rw [ht]; rfl), h3⟩
  | send t p v l ht =>
    have hG : G v := h2 t p v (by rw [ht]; rfl)
    refine ⟨h1, one (by rw [ht]; rfl), fun q b x hb hl hx => ?_⟩
    cases l with
    | true => exact h3 q b x hb hl hx
    | false =>
      rcases List.mem_append.mp hb with hb | hb
      · exact h3 q b x hb hl hx
      · obtain ⟨q', _, e⟩ := List.mem_map.mp hb
        injection e with _ e
        rw [← e, message_drop12, leNat_bus] at hx
        exact UInt64.toNat_inj.mp hx ▸ hG
  | notify t p v ht =>
    refine ⟨h1, fun u q x => ?_, h3⟩
    show emitsOf (upd (notifyAll p w.thr) t (.returned p v v) u) = _ → _
    by_cases e : u = t
    · subst e; rw [upd_same]; exact fun e => h2 u q x (by rw [ht]; exact e)
    · rw [upd_ne _ _ e, emits_notifyAll]; exact h2 u q x
  | skip t i p b => exact ⟨h1, h2, fun q b x hb => h3 q b x (mem_eraseIdx_of hb)⟩
  | recv t i p b v hf hh =>
    obtain ⟨hl, hv, _⟩ := handle_some hh
    exact ⟨h1, new (h3 p b v (List.mem_of_getElem? hf) hl hv), fun q b x hb => h3 q b x (mem_eraseIdx_of hb)⟩
  | crash t i p b e => exact ⟨h1, h2, fun q b x hb => h3 q b x (mem_eraseIdx_of hb)⟩
  | lose i => exact ⟨h1, h2, fun q b x hb => h3 q b x (mem_eraseIdx_of hb)⟩
  | stray p b =>
    refine ⟨h1, h2, fun q c x hb hl hx => ?_⟩
    rcases List.mem_append.mp hb with hb | hb
    · exact h3 q c x hb hl hx
    · have e := List.mem_singleton.mp hb
      injection e with e1 e2
      exact ha x (.inr (.inr ⟨p, b, rfl, e2 ▸ hl, e2 ▸ hx⟩))
  | look t p => exact ⟨h1, none rfl, h3⟩
  | listen t p h => exact ⟨h1, none rfl, h3⟩
  | wake t p h => exact ⟨h1, none rfl, h3⟩
  | timeout t p h => exact ⟨h1, none rfl, h3⟩

/-! ## Telling every process -/

/-- The thread is to tell `p` a value that is at least `x`. -/
def Tells (s : Setup) (p : Nat) (x : UInt64) : Thr → Prop
  | .loading q _ v => q = p ∧ x ≤ v
  | .testing q _ v _ => q = p ∧ x ≤ v
  | .sending q v => q ∈ s.members ∧ q ≠ p ∧ x ≤ v
  | _ => False

/-- Process `p` has the value, or a larger one, or something is on its way to tell it. -/
def Told (s : Setup) (w : World) (p : Nat) (x : UInt64) : Prop :=
  x ≤ w.val p ∨ (∃ pid v, (p, message s.bus pid v) ∈ w.flying ∧ pid ≠ s.pid p ∧ x ≤ v) ∨ ∃ t, Tells s p x (w.thr t)

/-- Where values that were received come from, and who emits. -/
def Origin (s : Setup) (w : World) : Thr → Prop
  | .loading p u v => p ∈ s.members ∧ (u = false → ∃ q, v ≤ w.val q)
  | .testing p u v _ => p ∈ s.members ∧ (u = false → ∃ q, v ≤ w.val q)
  | .sending p _ => p ∈ s.members
  | _ => True

/-- The invariant of a faithful network. -/
structure Telling (s : Setup) (w : World) : Prop where
  sound : Sound w
  origin : ∀ t, Origin s w (w.thr t)
  flying : ∀ p b, (p, b) ∈ w.flying → p ∈ s.members ∧ ∃ pid v q, b = message s.bus pid v ∧ v ≤ w.val q
  told : ∀ p ∈ s.members, ∀ q, Told s w p (w.val q)

theorem Tells.le {s : Setup} {p : Nat} {x y : UInt64} {t : Thr} (h : Tells s p y t) (hx : x ≤ y) : Tells s p x t := by
  cases t with
  | loading => exact ⟨h.1, UInt64.le_trans hx h.2⟩
  | testing => exact ⟨h.1, UInt64.le_trans hx h.2⟩
  | sending => exact ⟨h.1, h.2.1, UInt64.le_trans hx h.2.2⟩
  | _ => exact h

theorem Told.le {s : Setup} {w : World} {p : Nat} {x y : UInt64} (h : Told s w p y) (hx : x ≤ y) : Told s w p x := by
  rcases h with h | ⟨pid, v, h1, h2, h3⟩ | ⟨t, h⟩
  · exact .inl (UInt64.le_trans hx h)
  · exact .inr (.inl ⟨pid, v, h1, h2, UInt64.le_trans hx h3⟩)
  · exact .inr (.inr ⟨t, h.le hx⟩)

/-- A step that changes one thread. -/
theorem told_upd {s : Setup} {w w' : World} {t : Nat} {y : Thr} (hv : ∀ p, w.val p ≤ w'.val p) (hf : ∀ m ∈ w.flying, m ∈ w'.flying) (ht : w'.thr = upd w.thr t y)
    (hy : ∀ p x, Tells s p x (w.thr t) → Told s w' p x) {p : Nat} {x : UInt64} (h : Told s w p x) : Told s w' p x := by
  rcases h with h | ⟨pid, v, h1, h2, h3⟩ | ⟨u, h⟩
  · exact .inl (UInt64.le_trans h (hv p))
  · exact .inr (.inl ⟨pid, v, hf _ h1, h2, h3⟩)
  · by_cases e : u = t
    · subst e; exact hy p x h
    · exact .inr (.inr ⟨u, by rw [ht, upd_ne _ _ e]; exact h⟩)

theorem Origin.mono {s : Setup} {w w' : World} (hv : ∀ p, w.val p ≤ w'.val p) {t : Thr} (h : Origin s w t) : Origin s w' t := by
  cases t with
  | loading p u v => exact ⟨h.1, fun e => (h.2 e).elim fun q hq => ⟨q, UInt64.le_trans hq (hv q)⟩⟩
  | testing p u v o => exact ⟨h.1, fun e => (h.2 e).elim fun q hq => ⟨q, UInt64.le_trans hq (hv q)⟩⟩
  | _ => exact h

theorem origin_upd {s : Setup} {w w' : World} {t : Nat} {y : Thr} (hv : ∀ p, w.val p ≤ w'.val p) (ht : w'.thr = upd w.thr t y) (h : ∀ t, Origin s w (w.thr t))
    (hy : Origin s w' y) : ∀ t, Origin s w' (w'.thr t) := by
  intro u
  rw [ht]
  by_cases e : u = t
  · subst e; rw [upd_same]; exact hy
  · rw [upd_ne _ _ e]; exact (h u).mono hv

/-- A step of one thread that tells nobody less, with the same values and datagrams. -/
theorem telling_thr {s : Setup} {w w' : World} {t : Nat} {y : Thr} (h : Telling s w) (hs : Sound w') (hv : w'.val = w.val) (hf : w'.flying = w.flying)
    (ht : w'.thr = upd w.thr t y) (ho : Origin s w' y) (hy : ∀ p x, Tells s p x (w.thr t) → x ≤ w.val p ∨ Tells s p x y) : Telling s w' where
  sound := hs
  origin := origin_upd (fun p => by rw [hv]; exact UInt64.le_refl _) ht h.origin ho
  flying := by rw [hv, hf]; exact h.flying
  told p hp q := by
    rw [hv]
    refine told_upd (fun p => by rw [hv]; exact UInt64.le_refl _) (fun m hm => by rw [hf]; exact hm) ht (fun p x hx => ?_) (h.told p hp q)
    rcases hy p x hx with h | h
    · exact .inl (by rw [hv]; exact h)
    · exact .inr (.inr ⟨t, by rw [ht, upd_same]; exact h⟩)

theorem next_telling {s : Setup} (hpid : OwnPids s) {w w' : World} {a : Act} (ha : Faithful a) (h : Telling s w) (hn : Next s w a w') : Telling s w' := by
  have hs := next_sound hn h.sound
  have key : ∀ {p x}, (x = w.val p ∨ x ∈ w.past p) → x ≤ w.val p := fun h' => h'.elim (fun e => e ▸ UInt64.le_refl _) (h.sound.1 _ _)
  have idle : ∀ {t : Nat} {y : Thr}, w.thr t = .idle → ∀ p x, Tells s p x (w.thr t) → x ≤ w.val p ∨ Tells s p x y :=
    fun ht p x hx => by rw [ht] at hx; exact hx.elim
  cases hn with
  | emit t p v ht hp => exact telling_thr h hs rfl rfl rfl ⟨hp, fun e => nomatch e⟩ (idle ht)
  | save t p v ht hp hd => exact telling_thr h hs rfl rfl rfl ⟨hp, fun e => nomatch e⟩ (idle ht)
  | load t p u v c ht =>
    have := h.origin t
    rw [ht] at this
    exact telling_thr h hs rfl rfl rfl this (fun p x hx => .inr (by rw [ht] at hx; exact hx))
  | above t p u v old c f ht ho =>
    have hk := h.sound.2 t
    rw [ht] at hk
    refine telling_thr h hs rfl rfl rfl trivial (fun q x hx => .inl ?_)
    rw [ht] at hx
    obtain ⟨rfl, hx⟩ := hx
    exact UInt64.le_trans hx (UInt64.le_trans (UInt64.le_of_lt ho) (key hk))
  | swap t p u v c ht hv =>
    have hval : ∀ q, w.val q ≤ upd w.val p v q := fun q => next_val (Next.swap (s := s) t p u v c ht hv) q
    have ho := h.origin t
    rw [ht] at ho
    have hvp : upd w.val p v p = v := upd_same _ _ _
    have step : ∀ {q x}, Told s w q x → Told s { w with val := upd w.val p v, past := upd w.past p (w.val p :: w.past p)
                                                        thr := upd w.thr t (if u then .sending p v else .notifying p v) } q x := by
      intro q x hm
      refine told_upd (w := w) (t := t) (y := if u then .sending p v else .notifying p v)
        (w' := { w with val := upd w.val p v, past := upd w.past p (w.val p :: w.past p), thr := upd w.thr t (if u then .sending p v else .notifying p v) })
        hval (fun _ h => h) rfl (fun q x hx => ?_) hm
      rw [ht] at hx
      obtain ⟨rfl, hx⟩ := hx
      exact .inl (by show x ≤ upd w.val p v p; rw [hvp]; exact hx)
    refine ⟨hs, origin_upd (w := w) (t := t) hval rfl h.origin ?_, ?_, ?_⟩
    · cases u with
      | true => exact ho.1
      | false => trivial
    · intro q b hb
      obtain ⟨h1, pid, x, r, h2, h3⟩ := h.flying q b hb
      exact ⟨h1, pid, x, r, h2, UInt64.le_trans h3 (hval r)⟩
    · intro q hq r
      show Told s _ q (upd w.val p v r)
      by_cases e : r = p
      · subst e
        rw [hvp]
        by_cases e' : q = r
        · subst e'; exact .inl (by show v ≤ upd w.val q v q; rw [hvp]; exact UInt64.le_refl _)
        · cases u with
          | true => exact .inr (.inr ⟨t, by show Tells s q v (upd w.thr t (Thr.sending r v) t); rw [upd_same]; exact ⟨ho.1, fun h => e' h.symm, UInt64.le_refl _⟩⟩)
          | false =>
            obtain ⟨r', hr'⟩ := ho.2 rfl
            exact (step (h.told q hq r')).le hr'
      · rw [upd_ne _ _ e]; exact step (h.told q hq r)
  | again t p u v old c f ht =>
    have := h.origin t
    rw [ht] at this
    exact telling_thr h hs rfl rfl rfl this (fun p x hx => .inr (by rw [ht] at hx; exact hx))
  | send t p v l ht =>
    obtain rfl : l = false := ha
    have ho := h.origin t
    rw [ht] at ho
    have hk := h.sound.2 t
    rw [ht] at hk
    refine ⟨hs, origin_upd (w := w) (t := t) (fun _ => UInt64.le_refl _) rfl h.origin trivial, ?_, ?_⟩
    · intro q b hb
      rcases List.mem_append.mp hb with hb | hb
      · exact h.flying q b hb
      · obtain ⟨q', hq', e⟩ := List.mem_map.mp hb
        injection e with e1 e2
        exact ⟨e1 ▸ hq', s.pid p, v, p, e2.symm, hk⟩
    · intro q hq r
      rcases h.told q hq r with h' | ⟨pid, x, h1, h2, h3⟩ | ⟨u, h'⟩
      · exact .inl h'
      · exact .inr (.inl ⟨pid, x, List.mem_append_left _ h1, h2, h3⟩)
      · by_cases e : u = t
        · subst e
          rw [ht] at h'
          obtain ⟨h1, h2, h3⟩ := h'
          exact .inr (.inl ⟨s.pid p, v, List.mem_append_right _ (List.mem_map.mpr ⟨q, hq, rfl⟩), fun e => h2 (hpid _ h1 _ hq e), h3⟩)
        · exact .inr (.inr ⟨u, by show Tells s q _ (upd w.thr t _ u); rw [upd_ne _ _ e]; exact h'⟩)
  | notify t p v ht =>
    have hthr : ∀ u, (upd (notifyAll p w.thr) t (.returned p v v) u) = w.thr u ∨ (∀ q x, ¬ Tells s q x (w.thr u)) ∧
        Origin s w (upd (notifyAll p w.thr) t (.returned p v v) u) := by
      intro u
      by_cases e : u = t
      · subst e; rw [upd_same, ht]; exact .inr ⟨fun _ _ h => h, trivial⟩
      · rw [upd_ne _ _ e]
        unfold notifyAll
        split
        next q h' e' => rw [e']; exact .inr ⟨fun _ _ h => h, by split <;> trivial⟩
        · exact .inl rfl
    refine ⟨hs, fun u => ?_, h.flying, fun q hq r => ?_⟩
    · rcases hthr u with e | e
      · show Origin s _ (upd (notifyAll p w.thr) t (.returned p v v) u)
        rw [e]; exact (h.origin u).mono (fun _ => UInt64.le_refl _)
      · exact e.2.mono (fun _ => UInt64.le_refl _)
    · rcases h.told q hq r with h' | ⟨pid, x, h1, h2, h3⟩ | ⟨u, h'⟩
      · exact .inl h'
      · exact .inr (.inl ⟨pid, x, h1, h2, h3⟩)
      · rcases hthr u with e | e
        · exact .inr (.inr ⟨u, by show Tells s q _ (upd (notifyAll p w.thr) t (.returned p v v) u); rw [e]; exact h'⟩)
        · exact (e.1 _ _ h').elim
  | skip t i p b hf hh =>
    refine ⟨hs, fun u => (h.origin u).mono (fun _ => UInt64.le_refl _), fun q c hc => h.flying q c (mem_eraseIdx_of hc), fun q hq r => ?_⟩
    rcases h.told q hq r with h' | ⟨pid, x, h1, h2, h3⟩ | h'
    · exact .inl h'
    · by_cases e : (q, message s.bus pid x) = (p, b)
      · injection e with e1 e2
        subst e1 e2
        rw [handle_message, if_neg h2] at hh
        injection hh with hh
        exact nomatch hh
      · refine .inr (.inl ⟨pid, x, ?_, h2, h3⟩)
        exact mem_eraseIdx_ne h1 hf e
    · exact .inr (.inr h')
  | recv t i p b v hf hh ht =>
    obtain ⟨hp, pid0, v0, q0, hb, hv0⟩ := h.flying p b (List.mem_of_getElem? hf)
    have hv : v ≤ w.val q0 := by
      rw [hb, handle_message] at hh
      injection hh with hh
      split at hh
      · exact nomatch hh
      · injection hh with hh; exact hh ▸ hv0
    refine ⟨hs, origin_upd (w := w) (t := t) (fun _ => UInt64.le_refl _) rfl h.origin ⟨hp, fun _ => ⟨q0, hv⟩⟩, fun q c hc => h.flying q c (mem_eraseIdx_of hc), fun q hq r => ?_⟩
    rcases h.told q hq r with h' | ⟨pid, x, h1, h2, h3⟩ | ⟨u, h'⟩
    · exact .inl h'
    · by_cases e : (q, message s.bus pid x) = (p, b)
      · injection e with e1 e2
        subst e1 e2
        rw [handle_message, if_neg h2] at hh
        injection hh with hh
        injection hh with hh
        subst hh
        exact .inr (.inr ⟨t, by show Tells s q _ (upd w.thr t (Thr.loading q false x) t); rw [upd_same]; exact ⟨rfl, h3⟩⟩)
      · exact .inr (.inl ⟨pid, x, mem_eraseIdx_ne h1 hf e, h2, h3⟩)
    · by_cases e : u = t
      · subst e; rw [ht] at h'; exact h'.elim
      · exact .inr (.inr ⟨u, by show Tells s q _ (upd w.thr t _ u); rw [upd_ne _ _ e]; exact h'⟩)
  | crash t i p b e hf hh =>
    obtain ⟨hp, pid0, v0, q0, hb, hv0⟩ := h.flying p b (List.mem_of_getElem? hf)
    rw [hb, handle_message] at hh
    exact nomatch hh
  | lose i => exact ha.elim
  | stray p b => exact ha.elim
  | look t p ht => exact telling_thr h hs rfl rfl rfl trivial (idle ht)
  | listen t p h' ht => exact telling_thr h hs rfl rfl rfl trivial (fun p x hx => by rw [ht] at hx; exact hx.elim)
  | wake t p h' ht => exact telling_thr h hs rfl rfl rfl trivial (fun p x hx => by rw [ht] at hx; exact hx.elim)
  | timeout t p h' ht => exact telling_thr h hs rfl rfl rfl trivial (fun p x hx => by rw [ht] at hx; exact hx.elim)

theorem telling_start (s : Setup) (db : UInt64) : Telling s (start db) where
  sound := sound_start db
  origin _ := trivial
  flying _ _ h := nomatch h
  told _ _ _ := .inl (UInt64.le_refl _)

theorem exec_telling {s : Setup} (hpid : OwnPids s) {as : List Act} (ha : ∀ a ∈ as, Faithful a) {w : World} (h : Telling s w) : Telling s (exec s w as) :=
  exec_inv (fun _ _ _ ha hp hn => next_telling hpid ha hp hn) as w ha h

/-- When nothing is under way, no process has a larger value than a member. -/
theorem Telling.quiet {s : Setup} {w : World} (h : Telling s w) (hq : AllQuiet w) {p : Nat} (hp : p ∈ s.members) (q : Nat) : w.val q ≤ w.val p := by
  rcases h.told p hp q with h' | ⟨pid, x, h1, _⟩ | ⟨u, h'⟩
  · exact h'
  · rw [hq.2] at h1; exact nomatch h1
  · exfalso
    have none : ∀ p v, emitsOf (w.thr u) = some (p, v) → ∃ r, w.thr u = .returned p v r := fun p v e => hq.1 u p v ((emitsIn_iff w u p v).mpr e)
    cases e : w.thr u with
    | loading a b c => obtain ⟨r, hr⟩ := none a c (by rw [e]; rfl); rw [e] at hr; exact nomatch hr
    | testing a b c d => obtain ⟨r, hr⟩ := none a c (by rw [e]; rfl); rw [e] at hr; exact nomatch hr
    | sending a c => obtain ⟨r, hr⟩ := none a c (by rw [e]; rfl); rw [e] at hr; exact nomatch hr
    | _ => rw [e] at h'; exact h'

/-! ## Waiting -/

/-- Since `w` nothing was installed in `p`, or `t` is awake, or it is about to be woken. -/
def Waiting (w0 : World) (t p : Nat) (h : UInt64) (w : World) : Prop :=
  (w.thr t = .notified p h ∨ (∃ r, w.thr t = .awake p h r) ∨ w.thr t = .timedOut p h) ∨
    w.thr t = .listening p h ∧ ((w.val p = w0.val p ∧ w.past p = w0.past p) ∨ ∃ u v, w.thr u = .sending p v ∨ w.thr u = .notifying p v)

theorem notifyAll_self {p : Nat} {thr : Nat → Thr} {t : Nat} {h : UInt64} (ht : thr t = .listening p h) : notifyAll p thr t = .notified p h := by
  unfold notifyAll
  rw [ht]
  exact if_pos rfl

theorem notifyAll_of_ne {q : Nat} {thr : Nat → Thr} {u : Nat} (h : ∀ p h, thr u = .listening p h → p ≠ q) : notifyAll q thr u = thr u := by
  unfold notifyAll
  split
  next p x e => rw [if_neg (h p x e), e]
  · rfl

/-- Neither waiting nor about to wake others. -/
def Aside : Thr → Prop
  | .idle => True
  | .loading _ _ _ => True
  | .testing _ _ _ _ => True
  | .returned _ _ _ => True
  | .looked _ _ => True
  | _ => False

theorem waiting_upd {w0 w w' : World} {t p t' : Nat} {h : UInt64} {y : Thr} (hw : Waiting w0 t p h w) (ht : w'.thr = upd w.thr t' y) (ha : Aside (w.thr t'))
    (hv : w.val p = w0.val p ∧ w.past p = w0.past p → (w'.val p = w0.val p ∧ w'.past p = w0.past p) ∨ y = .sending p (w'.val p) ∨ y = .notifying p (w'.val p)) :
    Waiting w0 t p h w' := by
  have hne : t ≠ t' := by
    intro e
    subst e
    rcases hw with (e | ⟨r, e⟩ | e) | ⟨e, _⟩ <;> rw [e] at ha <;> exact ha
  have e1 : w'.thr t = w.thr t := by rw [ht, upd_ne _ _ hne]
  unfold Waiting
  rw [e1]
  rcases hw with hw | ⟨hw, hc⟩
  · exact .inl hw
  · refine .inr ⟨hw, ?_⟩
    rcases hc with hc | ⟨u, v, hc⟩
    · rcases hv hc with hv | hv | hv
      · exact .inl hv
      · exact .inr ⟨t', _, .inl (by rw [ht, upd_same]; exact hv)⟩
      · exact .inr ⟨t', _, .inr (by rw [ht, upd_same]; exact hv)⟩
    · have : u ≠ t' := by
        intro e
        subst e
        rcases hc with e | e <;> rw [e] at ha <;> exact ha
      exact .inr ⟨u, v, by rw [ht, upd_ne _ _ this]; exact hc⟩

theorem next_waiting {s : Setup} {w0 w w' : World} {t p : Nat} {h : UInt64} {a : Act} (hw : Waiting w0 t p h w) (hn : Next s w a w') : Waiting w0 t p h w' := by
  cases hn with
  | emit t' q v ht => exact waiting_upd hw rfl (by rw [ht]; trivial) .inl
  | save t' q v ht => exact waiting_upd hw rfl (by rw [ht]; trivial) .inl
  | load t' q u v c ht => exact waiting_upd hw rfl (by rw [ht]; trivial) .inl
  | above t' q u v old c f ht => exact waiting_upd hw rfl (by rw [ht]; trivial) .inl
  | again t' q u v old c f ht => exact waiting_upd hw rfl (by rw [ht]; trivial) .inl
  | look t' q ht => exact waiting_upd hw rfl (by rw [ht]; trivial) .inl
  | listen t' q h' ht => exact waiting_upd hw rfl (by rw [ht]; trivial) .inl
  | recv t' i q b v hf hh ht => exact waiting_upd hw rfl (by rw [ht]; trivial) .inl
  | skip => exact hw
  | crash => exact hw
  | lose => exact hw
  | stray => exact hw
  | swap t' q u v c ht hv =>
    refine waiting_upd hw rfl (by rw [ht]; trivial) (fun hc => ?_)
    by_cases e : p = q
    · subst e
      show _ ∨ _ = Thr.sending p (upd w.val p v p) ∨ _ = Thr.notifying p (upd w.val p v p)
      rw [upd_same]
      cases u with
      | true => exact .inr (.inl rfl)
      | false => exact .inr (.inr rfl)
    · show (upd w.val q v p = _ ∧ upd w.past q _ p = _) ∨ _
      rw [upd_ne _ _ e, upd_ne _ _ e]
      exact .inl hc
  | send t' q v l ht =>
    have hne : t ≠ t' := by
      intro e
      subst e
      rcases hw with (e | ⟨r, e⟩ | e) | ⟨e, _⟩ <;> rw [e] at ht <;> exact nomatch ht
    unfold Waiting
    show ((upd w.thr t' (Thr.notifying q v) t = _ ∨ (∃ r, upd w.thr t' (Thr.notifying q v) t = _) ∨ upd w.thr t' (Thr.notifying q v) t = _) ∨
      upd w.thr t' (Thr.notifying q v) t = _ ∧ (_ ∨ ∃ x y, upd w.thr t' (Thr.notifying q v) x = .sending p y ∨ upd w.thr t' (Thr.notifying q v) x = .notifying p y))
    rw [upd_ne _ _ hne]
    rcases hw with hw | ⟨hw, hc⟩
    · exact .inl hw
    · refine .inr ⟨hw, hc.elim .inl fun ⟨x, y, hx⟩ => .inr ?_⟩
      by_cases e : x = t'
      · subst e
        rw [ht] at hx
        rcases hx with hx | hx
        · injection hx with e1 e2
          subst e1
          exact ⟨x, v, .inr (upd_same _ _ _)⟩
        · exact nomatch hx
      · exact ⟨x, y, by rw [upd_ne _ _ e]; exact hx⟩
  | notify t' q v ht =>
    have hne : t ≠ t' := by
      intro e
      subst e
      rcases hw with (e | ⟨r, e⟩ | e) | ⟨e, _⟩ <;> rw [e] at ht <;> exact nomatch ht
    have e0 : ∀ x : Thr, upd (notifyAll q w.thr) t' x t = notifyAll q w.thr t := fun x => upd_ne _ _ hne
    rcases hw with hw | ⟨hw, hc⟩
    · refine .inl ?_
      show upd (notifyAll q w.thr) t' _ t = _ ∨ (∃ r, upd (notifyAll q w.thr) t' _ t = _) ∨ upd (notifyAll q w.thr) t' _ t = _
      rw [e0, notifyAll_of_ne]
      · exact hw
      · intro a b e
        rcases hw with e' | ⟨r, e'⟩ | e' <;> rw [e'] at e <;> exact nomatch e
    · by_cases hq : q = p
      · subst hq
        refine .inl (.inl ?_)
        show upd (notifyAll q w.thr) t' _ t = _
        rw [e0]; exact notifyAll_self hw
      · refine .inr ⟨?_, ?_⟩
        · show upd (notifyAll q w.thr) t' _ t = _
          rw [e0, notifyAll_of_ne]
          · exact hw
          · intro a b e
            rw [hw] at e
            injection e with e
            exact fun e' => hq (by rw [← e', ← e])
        · refine hc.elim .inl fun ⟨x, y, hx⟩ => .inr ⟨x, y, ?_⟩
          have hx' : x ≠ t' := by
            intro e
            subst e
            rw [ht] at hx
            rcases hx with hx | hx
            · exact nomatch hx
            · injection hx with e1; exact hq e1
          show upd (notifyAll q w.thr) t' _ x = _ ∨ upd (notifyAll q w.thr) t' _ x = _
          rw [upd_ne _ _ hx', notifyAll_of_ne]
          · exact hx
          · intro a b e
            rcases hx with e' | e' <;> rw [e'] at e <;> exact nomatch e
  | wake t' q h' ht =>
    by_cases e : t = t'
    · subst e
      rcases hw with (e | ⟨r, e⟩ | e) | ⟨e, _⟩ <;> rw [e] at ht
      · injection ht with e1 e2
        subst e1 e2
        exact .inl (.inr (.inl ⟨_, upd_same _ _ _⟩))
      all_goals exact nomatch ht
    · unfold Waiting
      show ((upd w.thr t' _ t = _ ∨ (∃ r, upd w.thr t' _ t = _) ∨ upd w.thr t' _ t = _) ∨
        upd w.thr t' _ t = _ ∧ (_ ∨ ∃ x y, upd w.thr t' (Thr.awake q h' (w.val q)) x = .sending p y ∨ upd w.thr t' (Thr.awake q h' (w.val q)) x = .notifying p y))
      rw [upd_ne _ _ e]
      refine hw.elim .inl fun ⟨hw, hc⟩ => .inr ⟨hw, hc.elim .inl fun ⟨x, y, hx⟩ => .inr ⟨x, y, ?_⟩⟩
      have : x ≠ t' := by
        intro e; subst e; rw [ht] at hx; exact hx.elim (fun h => nomatch h) (fun h => nomatch h)
      rw [upd_ne _ _ this]; exact hx
  | timeout t' q h' ht =>
    by_cases e : t = t'
    · subst e
      rcases hw with (e | ⟨r, e⟩ | e) | ⟨e, _⟩ <;> rw [e] at ht
      · exact nomatch ht
      · exact nomatch ht
      · exact nomatch ht
      · injection ht with e1 e2
        subst e1 e2
        exact .inl (.inr (.inr (upd_same _ _ _)))
    · unfold Waiting
      show ((upd w.thr t' _ t = _ ∨ (∃ r, upd w.thr t' _ t = _) ∨ upd w.thr t' _ t = _) ∨
        upd w.thr t' _ t = _ ∧ (_ ∨ ∃ x y, upd w.thr t' (Thr.timedOut q h') x = .sending p y ∨ upd w.thr t' (Thr.timedOut q h') x = .notifying p y))
      rw [upd_ne _ _ e]
      refine hw.elim .inl fun ⟨hw, hc⟩ => .inr ⟨hw, hc.elim .inl fun ⟨x, y, hx⟩ => .inr ⟨x, y, ?_⟩⟩
      have : x ≠ t' := by
        intro e; subst e; rw [ht] at hx; exact hx.elim (fun h => nomatch h) (fun h => nomatch h)
      rw [upd_ne _ _ this]; exact hx

theorem exec_waiting {s : Setup} {w : World} {t p : Nat} {h : UInt64} (hw : Sleeps w t p h) (as : List Act) : Waiting w t p h (exec s w as) :=
  exec_inv (A := fun _ => True) (fun _ _ _ _ hp hn => next_waiting hp hn) as w (fun _ _ => trivial) (.inr ⟨hw, .inl ⟨rfl, rfl⟩⟩)

/-! ## Saves -/

/-- The last stamp has been emitted or is about to be, unless it is from before. -/
def SaveTold (base : UInt64) (w : World) : Prop :=
  base ≤ w.db ∧ (w.db = base ∨ (∃ q, w.db ≤ w.val q) ∨ ∃ t q, (∃ u, w.thr t = .loading q u w.db) ∨ ∃ u old, w.thr t = .testing q u w.db old)

theorem next_db {s : Setup} {w w' : World} {a : Act} (hn : Next s w a w') : w.db ≤ w'.db := by
  cases hn with
  | save t p v ht hp hd => exact UInt64.le_of_lt hd
  | _ => exact UInt64.le_refl _

theorem saveTold_upd {base : UInt64} {w w' : World} {t : Nat} {y : Thr} (h : SaveTold base w) (hd : w'.db = w.db) (hv : ∀ q, w.val q ≤ w'.val q)
    (ht : w'.thr = upd w.thr t y)
    (hy : ((∃ q u, w.thr t = .loading q u w.db) ∨ ∃ q u old, w.thr t = .testing q u w.db old) →
      (∃ q, w.db ≤ w'.val q) ∨ ∃ q, (∃ u, y = .loading q u w.db) ∨ ∃ u old, y = .testing q u w.db old) : SaveTold base w' := by
  obtain ⟨h1, h2⟩ := h
  unfold SaveTold
  rw [hd]
  refine ⟨h1, ?_⟩
  rcases h2 with h2 | ⟨q, h2⟩ | ⟨x, q, h2⟩
  · exact .inl h2
  · exact .inr (.inl ⟨q, UInt64.le_trans h2 (hv q)⟩)
  · by_cases e : x = t
    · subst e
      rcases hy (h2.elim (fun ⟨u, h⟩ => .inl ⟨q, u, h⟩) (fun ⟨u, o, h⟩ => .inr ⟨q, u, o, h⟩)) with h | ⟨q, h⟩
      · exact .inr (.inl h)
      · exact .inr (.inr ⟨x, q, by rw [ht, upd_same]; exact h⟩)
    · exact .inr (.inr ⟨x, q, by rw [ht, upd_ne _ _ e]; exact h2⟩)

theorem next_saveTold {s : Setup} {base : UInt64} {w w' : World} {a : Act} (hs : Sound w) (h : SaveTold base w) (hn : Next s w a w') : SaveTold base w' := by
  have key : ∀ {p x}, (x = w.val p ∨ x ∈ w.past p) → x ≤ w.val p := fun h' => h'.elim (fun e => e ▸ UInt64.le_refl _) (hs.1 _ _)
  have same : ∀ q, w.val q ≤ w.val q := fun _ => UInt64.le_refl _
  have aside : ∀ {t : Nat} {y : Thr}, ¬ ((∃ q u, w.thr t = .loading q u w.db) ∨ ∃ q u old, w.thr t = .testing q u w.db old) →
      ((∃ q u, w.thr t = .loading q u w.db) ∨ ∃ q u old, w.thr t = .testing q u w.db old) →
      (∃ q, w.db ≤ w.val q) ∨ ∃ q, (∃ u, y = .loading q u w.db) ∨ ∃ u old, y = .testing q u w.db old := fun h h' => (h h').elim
  have nope : ∀ {t : Nat} {z : Thr}, w.thr t = z → (∀ q u v, z ≠ .loading q u v) → (∀ q u v o, z ≠ .testing q u v o) →
      ¬ ((∃ q u, w.thr t = .loading q u w.db) ∨ ∃ q u old, w.thr t = .testing q u w.db old) := by
    intro t z e h1 h2 h3
    rcases h3 with ⟨q, u, h3⟩ | ⟨q, u, o, h3⟩
    · exact h1 q u _ (e ▸ h3)
    · exact h2 q u _ o (e ▸ h3)
  cases hn with
  | emit t p v ht => exact saveTold_upd h rfl same rfl (aside (nope ht (fun _ _ _ h => nomatch h) (fun _ _ _ _ h => nomatch h)))
  | save t p v ht hp hd =>
    exact ⟨UInt64.le_trans h.1 (UInt64.le_of_lt hd), .inr (.inr ⟨t, p, .inl ⟨true, upd_same _ _ _⟩⟩)⟩
  | load t p u v c ht =>
    refine saveTold_upd h rfl same rfl (fun hx => .inr ⟨p, .inr ⟨u, readAny w p c, ?_⟩⟩)
    rw [ht] at hx
    rcases hx with ⟨q, u', hx⟩ | ⟨q, u', o, hx⟩
    · injection hx with _ _ e; rw [e]
    · exact nomatch hx
  | above t p u v old c f ht ho =>
    have hk := hs.2 t
    rw [ht] at hk
    refine saveTold_upd h rfl same rfl (fun hx => .inl ⟨p, ?_⟩)
    rw [ht] at hx
    rcases hx with ⟨q, u', hx⟩ | ⟨q, u', o, hx⟩
    · exact nomatch hx
    · injection hx with _ _ e; rw [← e]; exact UInt64.le_trans (UInt64.le_of_lt ho) (key hk)
  | swap t p u v c ht hv =>
    refine saveTold_upd h rfl (fun q => next_val (Next.swap (s := s) t p u v c ht hv) q) rfl (fun hx => .inl ⟨p, ?_⟩)
    rw [ht] at hx
    rcases hx with ⟨q, u', hx⟩ | ⟨q, u', o, hx⟩
    · exact nomatch hx
    · injection hx with _ _ e
      show w.db ≤ upd w.val p v p
      rw [upd_same, ← e]; exact UInt64.le_refl _
  | again t p u v old c f ht =>
    refine saveTold_upd h rfl same rfl (fun hx => .inr ⟨p, .inr ⟨u, readAny w p c, ?_⟩⟩)
    rw [ht] at hx
    rcases hx with ⟨q, u', hx⟩ | ⟨q, u', o, hx⟩
    · exact nomatch hx
    · injection hx with _ _ e; rw [e]
  | send t p v l ht => exact saveTold_upd h rfl same rfl (aside (nope ht (fun _ _ _ h => nomatch h) (fun _ _ _ _ h => nomatch h)))
  | notify t p v ht =>
    refine ⟨h.1, ?_⟩
    rcases h.2 with h2 | h2 | ⟨x, q, h2⟩
    · exact .inl h2
    · exact .inr (.inl h2)
    · have e : upd (notifyAll p w.thr) t (.returned p v v) x = w.thr x := by
        have : x ≠ t := by
          intro e; subst e
          rcases h2 with ⟨u, h2⟩ | ⟨u, o, h2⟩ <;> rw [ht] at h2 <;> exact nomatch h2
        rw [upd_ne _ _ this, notifyAll_of_ne]
        intro a b e
        rcases h2 with ⟨u, h2⟩ | ⟨u, o, h2⟩ <;> rw [h2] at e <;> exact nomatch e
      exact .inr (.inr ⟨x, q, by show (∃ u, upd (notifyAll p w.thr) t (.returned p v v) x = _) ∨ ∃ u o, upd (notifyAll p w.thr) t (.returned p v v) x = _; rw [e]; exact h2⟩)
  | skip => exact h
  | recv t i p b v hf hh ht => exact saveTold_upd h rfl same rfl (aside (nope ht (fun _ _ _ h => nomatch h) (fun _ _ _ _ h => nomatch h)))
  | crash => exact h
  | lose => exact h
  | stray => exact h
  | look t p ht => exact saveTold_upd h rfl same rfl (aside (nope ht (fun _ _ _ h => nomatch h) (fun _ _ _ _ h => nomatch h)))
  | listen t p h' ht => exact saveTold_upd h rfl same rfl (aside (nope ht (fun _ _ _ h => nomatch h) (fun _ _ _ _ h => nomatch h)))
  | wake t p h' ht => exact saveTold_upd h rfl same rfl (aside (nope ht (fun _ _ _ h => nomatch h) (fun _ _ _ _ h => nomatch h)))
  | timeout t p h' ht => exact saveTold_upd h rfl same rfl (aside (nope ht (fun _ _ _ h => nomatch h) (fun _ _ _ _ h => nomatch h)))

theorem exec_saveTold {s : Setup} {w : World} (hs : Sound w) (as : List Act) : SaveTold w.db (exec s w as) :=
  (exec_inv (P := fun x => Sound x ∧ SaveTold w.db x) (A := fun _ => True) (fun _ _ _ _ hp hn => ⟨next_sound hn hp.1, next_saveTold hp.1 hp.2 hn⟩) as w (fun _ _ => trivial)
    ⟨hs, UInt64.le_refl _, .inl rfl⟩).2

/-- When nothing is under way the last stamp is known to some process, unless it is from before. -/
theorem SaveTold.quiet {base : UInt64} {w : World} (h : SaveTold base w) (hq : AllQuiet w) : w.db = base ∨ ∃ q, w.db ≤ w.val q := by
  rcases h.2 with h | h | ⟨t, q, h⟩
  · exact .inl h
  · exact .inr h
  · exfalso
    rcases h with ⟨u, h⟩ | ⟨u, o, h⟩
    · obtain ⟨r, hr⟩ := hq.1 t q w.db (.inl ⟨u, h⟩)
      rw [h] at hr; exact nomatch hr
    · obtain ⟨r, hr⟩ := hq.1 t q w.db (.inr (.inl ⟨u, o, h⟩))
      rw [h] at hr; exact nomatch hr

/-- With saves only, no value is above the last stamp. -/
def Below (w : World) : Prop := AmongG (fun v => v ≤ w.db) w

theorem next_below {s : Setup} {w w' : World} {a : Act} (ha : OnlySaves a) (hf : ∀ p b, a ≠ .stray p b) (h : Below w) (hn : Next s w a w') : Below w' := by
  have mono : AmongG (fun v => v ≤ w'.db) w :=
    ⟨fun p => UInt64.le_trans (h.1 p) (next_db hn), fun t p v e => UInt64.le_trans (h.2.1 t p v e) (next_db hn),
      fun p b v h1 h2 h3 => UInt64.le_trans (h.2.2 p b v h1 h2 h3) (next_db hn)⟩
  refine next_among (fun v hv => ?_) mono hn
  rcases hv with ⟨t, p, e⟩ | ⟨t, p, e⟩ | ⟨p, b, e, _⟩
  · exact (ha t p v e).elim
  · subst e
    cases hn with
    | save t p v ht hp hd => exact UInt64.le_refl _
  · exact (hf p b e).elim

end Verif.Bus
