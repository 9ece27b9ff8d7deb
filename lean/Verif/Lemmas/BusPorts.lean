import Verif.Lemmas.Bus
/-!
# The table of ports
-/
namespace Verif.Bus
open Verif Verif.Pred Verif.Spec

/-- The file of a table. -/
def encT : List (UInt64 × Nat) → Bytes
  | [] => []
  | e :: es => leBytes 8 e.1.toNat ++ leBytes 2 e.2 ++ encT es

theorem encT_append : ∀ (a b : List (UInt64 × Nat)), encT (a ++ b) = encT a ++ encT b
  | [], _ => rfl
  | e :: a, b => by
    show _ ++ encT (a ++ b) = _ ++ encT a ++ encT b
    rw [encT_append a b, ← List.append_assoc]

theorem entry_length (e : UInt64 × Nat) : (leBytes 8 e.1.toNat ++ leBytes 2 e.2).length = 10 := by
  rw [List.length_append, leBytes_length, leBytes_length]

theorem encT_length : ∀ (a : List (UInt64 × Nat)), (encT a).length = 10 * a.length
  | [] => rfl
  | e :: a => by
    show (leBytes 8 e.1.toNat ++ leBytes 2 e.2 ++ encT a).length = _
    rw [List.length_append, entry_length, encT_length a, List.length_cons]; omega

/-- The port of an id in a table. -/
def portIn (id : UInt64) : List (UInt64 × Nat) → Option Nat
  | [] => none
  | e :: es => if e.1 = id then some e.2 else portIn id es

/-- The largest port, and at least `p`. -/
def topPort : Nat → List (UInt64 × Nat) → Nat
  | p, [] => p
  | p, e :: es => topPort (max p e.2) es

theorem findPort_enc (id : UInt64) : ∀ (es : List (UInt64 × Nat)) (fuel p : Nat), (∀ e ∈ es, e.2 < 65536) → es.length < fuel →
    findPort id fuel p (encT es) = match portIn id es with | some q => (q, true) | none => (topPort p es, false)
  | [], fuel + 1, p, _, _ => rfl
  | e :: es, fuel + 1, p, h, hf => by
    have hl : ¬ (encT (e :: es)).length < 10 := by rw [encT_length, List.length_cons]; omega
    have e8 : (encT (e :: es)).take 8 = leBytes 8 e.1.toNat := by
      show (leBytes 8 e.1.toNat ++ leBytes 2 e.2 ++ encT es).take 8 = _
      rw [List.append_assoc, List.take_append_of_le_length (by rw [leBytes_length]; omega), List.take_of_length_le (by rw [leBytes_length]; omega)]
    have e2 : ((encT (e :: es)).drop 8).take 2 = leBytes 2 e.2 := by
      show ((leBytes 8 e.1.toNat ++ leBytes 2 e.2 ++ encT es).drop 8).take 2 = _
      rw [List.append_assoc, List.drop_append_of_le_length (by rw [leBytes_length]; omega), List.drop_of_length_le (by rw [leBytes_length]; omega), List.nil_append,
        List.take_append_of_le_length (by rw [leBytes_length]; omega), List.take_of_length_le (by rw [leBytes_length]; omega)]
    have e10 : (encT (e :: es)).drop 10 = encT es := by
      show (leBytes 8 e.1.toNat ++ leBytes 2 e.2 ++ encT es).drop 10 = _
      rw [List.drop_append_of_le_length (by rw [entry_length]; omega), List.drop_of_length_le (by rw [entry_length]; omega), List.nil_append]
    have hp : leNat (leBytes 2 e.2) = e.2 := leNat_leBytes 2 _ (by have := h e List.mem_cons_self; omega)
    unfold findPort
    rw [if_neg hl]
    simp only [e8, e2, e10, hp, leNat_bus]
    by_cases hid : e.1 = id
    · rw [if_pos (by rw [hid])]
      simp only [portIn, if_pos hid]
    · rw [if_neg (fun h => hid (UInt64.toNat_inj.mp h)), findPort_enc id es fuel _ (fun x hx => h x (List.mem_cons_of_mem _ hx)) (by rw [List.length_cons] at hf; omega)]
      simp only [portIn, if_neg hid, topPort]

/-- Every file of whole entries is that of a table. -/
theorem whole_table : ∀ (n : Nat) (file : Bytes), file.length = 10 * n → ∃ es, file = encT es ∧ es.length = n ∧ ∀ e ∈ es, e.2 < 65536
  | 0, file, h => ⟨[], List.eq_nil_of_length_eq_zero h, rfl, fun _ h => nomatch h⟩
  | n + 1, file, h => by
    obtain ⟨es, h1, h2, h3⟩ := whole_table n (file.drop 10) (by rw [List.length_drop]; omega)
    have l8 : (file.take 8).length = 8 := by rw [List.length_take]; omega
    have l2 : ((file.drop 8).take 2).length = 2 := by rw [List.length_take, List.length_drop]; omega
    have b8 := leNat_lt (file.take 8)
    have b2 := leNat_lt ((file.drop 8).take 2)
    rw [l8] at b8
    rw [l2] at b2
    refine ⟨(UInt64.ofNat (leNat (file.take 8)), leNat ((file.drop 8).take 2)) :: es, ?_, by rw [List.length_cons, h2], ?_⟩
    · show file = leBytes 8 (UInt64.ofNat (leNat (file.take 8))).toNat ++ leBytes 2 (leNat ((file.drop 8).take 2)) ++ encT es
      rw [UInt64.toNat_ofNat', Nat.mod_eq_of_lt (by simpa using b8), ← h1]
      have e8 := leBytes_leNat (file.take 8)
      have e2 := leBytes_leNat ((file.drop 8).take 2)
      rw [l8] at e8
      rw [l2] at e2
      rw [e8, e2, List.append_assoc]
      have : file.drop 10 = (file.drop 8).drop 2 := by rw [List.drop_drop]
      rw [this, List.take_append_drop, List.take_append_drop]
    · intro e he
      rcases List.mem_cons.mp he with rfl | he
      · exact b2
      · exact h3 e he

theorem topPort_le (p : Nat) : ∀ (es : List (UInt64 × Nat)) (q : Nat), q ≤ 65535 → (∀ e ∈ es, e.2 < 65536) → topPort q es ≤ 65535
  | [], _, h, _ => h
  | e :: es, q, h, he => topPort_le p es _ (Nat.max_le.mpr ⟨h, by have := he e List.mem_cons_self; omega⟩) (fun x hx => he x (List.mem_cons_of_mem _ hx))

/-- `get_port` on a table. -/
theorem getPort_enc (es : List (UInt64 × Nat)) (id : UInt64) (h : ∀ e ∈ es, e.2 < 65536) :
    getPort (encT es) id = match portIn id es with
      | some q => (q, encT es)
      | none => (min (topPort 10501 es + 1) 65535, encT (es ++ [(id, min (topPort 10501 es + 1) 65535)])) := by
  unfold getPort
  rw [findPort_enc id es _ _ h (by rw [encT_length]; omega)]
  cases portIn id es with
  | some q => rfl
  | none =>
    simp only
    rw [encT_append]
    show (_, encT es ++ _ ++ _) = (_, encT es ++ (_ ++ _ ++ []))
    rw [List.append_nil, List.append_assoc]

theorem portIn_append {id : UInt64} {q : Nat} : ∀ {es : List (UInt64 × Nat)} (more : List (UInt64 × Nat)), portIn id es = some q → portIn id (es ++ more) = some q
  | e :: es, more, h => by
    show (if e.1 = id then some e.2 else portIn id (es ++ more)) = some q
    have h : (if e.1 = id then some e.2 else portIn id es) = some q := h
    by_cases c : e.1 = id
    · rw [if_pos c] at h ⊢; exact h
    · rw [if_neg c] at h ⊢; exact portIn_append more h

theorem portIn_append_none {id : UInt64} : ∀ {es : List (UInt64 × Nat)} (more : List (UInt64 × Nat)), portIn id es = none → portIn id (es ++ more) = portIn id more
  | [], _, _ => rfl
  | e :: es, more, h => by
    show (if e.1 = id then some e.2 else portIn id (es ++ more)) = _
    have h : (if e.1 = id then some e.2 else portIn id es) = none := h
    by_cases c : e.1 = id
    · rw [if_pos c] at h; exact nomatch h
    · rw [if_neg c] at h ⊢; exact portIn_append_none more h

/-- After a call the table has the id, and has all that it had. -/
theorem getPort_table (es : List (UInt64 × Nat)) (id : UInt64) (h : ∀ e ∈ es, e.2 < 65536) :
    ∃ more, (getPort (encT es) id).2 = encT (es ++ more) ∧ (∀ e ∈ es ++ more, e.2 < 65536) ∧ portIn id (es ++ more) = some (getPort (encT es) id).1 := by
  rw [getPort_enc es id h]
  cases c : portIn id es with
  | some q => exact ⟨[], by rw [List.append_nil], by rw [List.append_nil]; exact h, by rw [List.append_nil]; exact c⟩
  | none =>
    refine ⟨_, rfl, fun e he => ?_, ?_⟩
    · rcases List.mem_append.mp he with he | he
      · exact h e he
      · rw [List.mem_singleton.mp he]; show min _ 65535 < 65536; omega
    · rw [portIn_append_none _ c]
      show (if id = id then some (min (topPort 10501 es + 1) 65535) else none) = _
      rw [if_pos rfl]

theorem getPorts_table : ∀ (ids : List UInt64) (es : List (UInt64 × Nat)), (∀ e ∈ es, e.2 < 65536) →
    ∃ more, (getPorts (encT es) ids).2 = encT (es ++ more) ∧ ∀ e ∈ es ++ more, e.2 < 65536
  | [], es, h => ⟨[], by rw [List.append_nil]; rfl, by rw [List.append_nil]; exact h⟩
  | id :: ids, es, h => by
    obtain ⟨m1, h1, h2, _⟩ := getPort_table es id h
    obtain ⟨m2, h3, h4⟩ := getPorts_table ids (es ++ m1) h2
    refine ⟨m1 ++ m2, ?_, by rw [← List.append_assoc]; exact h4⟩
    show (getPorts (getPort (encT es) id).2 ids).2 = _
    rw [h1, h3, List.append_assoc]

/-! ## A table from the start -/

/-- The table of these ids, from the `k`-th port on. -/
def tableOf : Nat → List UInt64 → List (UInt64 × Nat)
  | _, [] => []
  | k, i :: is => (i, min (10502 + k) 65535) :: tableOf (k + 1) is

theorem tableOf_small : ∀ (k : Nat) (is : List UInt64), ∀ e ∈ tableOf k is, e.2 < 65536
  | k, i :: is, e, h => by
    rcases List.mem_cons.mp h with rfl | h
    · show min _ 65535 < 65536; omega
    · exact tableOf_small (k + 1) is e h

theorem tableOf_snoc : ∀ (k : Nat) (is : List UInt64) (i : UInt64), tableOf k (is ++ [i]) = tableOf k is ++ [(i, min (10502 + (k + is.length)) 65535)]
  | k, [], i => rfl
  | k, j :: is, i => by
    show _ :: tableOf (k + 1) (is ++ [i]) = _ :: (tableOf (k + 1) is ++ _)
    rw [tableOf_snoc (k + 1) is i, List.length_cons]
    have : k + 1 + is.length = k + (is.length + 1) := by omega
    rw [this]

theorem portIn_tableOf (id : UInt64) : ∀ (k : Nat) (is : List UInt64),
    portIn id (tableOf k is) = if id ∈ is then some (min (10502 + (k + is.idxOf id)) 65535) else none
  | _, [] => by rw [if_neg (fun h => nomatch h)]; rfl
  | k, i :: is => by
    show (if i = id then some (min (10502 + k) 65535) else portIn id (tableOf (k + 1) is)) = _
    by_cases c : i = id
    · subst c
      rw [if_pos rfl, if_pos List.mem_cons_self, List.idxOf_cons_self]; rfl
    · rw [if_neg c, portIn_tableOf id (k + 1) is]
      by_cases m : id ∈ is
      · rw [if_pos m, if_pos (List.mem_cons_of_mem _ m), List.idxOf_cons, beq_false_of_ne c]
        have : k + 1 + is.idxOf id = k + (is.idxOf id + 1) := by omega
        rw [this]; rfl
      · rw [if_neg m, if_neg (fun h => (List.mem_cons.mp h).elim (fun e => c e.symm) m)]

theorem topPort_tableOf : ∀ (is : List UInt64) (k p : Nat), p = min (10501 + k) 65535 → topPort p (tableOf k is) = min (10501 + (k + is.length)) 65535
  | [], k, p, h => h
  | i :: is, k, p, h => by
    show topPort (max p (min (10502 + k) 65535)) (tableOf (k + 1) is) = _
    rw [topPort_tableOf is (k + 1) _ (by omega), List.length_cons]; congr 1; omega

theorem getPort_tableOf (is : List UInt64) (id : UInt64) :
    getPort (encT (tableOf 0 is)) id = (min (10502 + (if id ∈ is then is.idxOf id else is.length)) 65535, encT (tableOf 0 (if id ∈ is then is else is ++ [id]))) := by
  rw [getPort_enc _ _ (tableOf_small 0 is), portIn_tableOf]
  by_cases m : id ∈ is
  · rw [if_pos m, if_pos m, if_pos m, Nat.zero_add]
  · rw [if_neg m, if_neg m, if_neg m, tableOf_snoc, topPort_tableOf is 0 10501 rfl, Nat.zero_add]
    have : min (min (10501 + is.length) 65535 + 1) 65535 = min (10502 + is.length) 65535 := by omega
    simp only [this]

def addFirst (l : List UInt64) (i : UInt64) : List UInt64 := if i ∈ l then l else l ++ [i]

theorem firsts_eq (ids : List UInt64) : firsts ids = ids.foldl addFirst [] := rfl

theorem foldl_first_mem : ∀ (ids seen : List UInt64), ∃ more, ids.foldl addFirst seen = seen ++ more
  | [], seen => ⟨[], (List.append_nil _).symm⟩
  | i :: ids, seen => by
    obtain ⟨m, hm⟩ := foldl_first_mem ids (addFirst seen i)
    show ∃ more, ids.foldl addFirst (addFirst seen i) = _
    rw [hm]
    unfold addFirst
    by_cases c : i ∈ seen
    · rw [if_pos c]; exact ⟨m, rfl⟩
    · rw [if_neg c]; exact ⟨[i] ++ m, by rw [List.append_assoc]⟩

theorem idxOf_append_mem {i : UInt64} {a : List UInt64} (b : List UInt64) (h : i ∈ a) : (a ++ b).idxOf i = a.idxOf i := by
  rw [List.idxOf_append, if_pos h]

theorem idxOf_addFirst (seen : List UInt64) (id : UInt64) : id ∈ addFirst seen id ∧ (addFirst seen id).idxOf id = if id ∈ seen then seen.idxOf id else seen.length := by
  unfold addFirst
  by_cases c : id ∈ seen
  · rw [if_pos c, if_pos c]; exact ⟨c, rfl⟩
  · rw [if_neg c, if_neg c]
    refine ⟨List.mem_append_right _ List.mem_cons_self, ?_⟩
    rw [List.idxOf_append, if_neg c, List.idxOf_cons_self, Nat.zero_add]

theorem getPorts_tableOf : ∀ (ids seen : List UInt64),
    getPorts (encT (tableOf 0 seen)) ids = (ids.map fun i => min (10502 + (ids.foldl addFirst seen).idxOf i) 65535, encT (tableOf 0 (ids.foldl addFirst seen)))
  | [], seen => rfl
  | id :: ids, seen => by
    have h1 := getPort_tableOf seen id
    have h2 : (getPort (encT (tableOf 0 seen)) id).2 = encT (tableOf 0 (addFirst seen id)) := by rw [h1]; rfl
    have h3 : (getPort (encT (tableOf 0 seen)) id).1 = min (10502 + (addFirst seen id).idxOf id) 65535 := by rw [h1, (idxOf_addFirst seen id).2]
    show ((getPort (encT (tableOf 0 seen)) id).1 :: (getPorts (getPort (encT (tableOf 0 seen)) id).2 ids).1, (getPorts (getPort (encT (tableOf 0 seen)) id).2 ids).2) = _
    rw [h2, h3, getPorts_tableOf ids (addFirst seen id)]
    obtain ⟨m, hm⟩ := foldl_first_mem ids (addFirst seen id)
    have h4 : (ids.foldl addFirst (addFirst seen id)).idxOf id = (addFirst seen id).idxOf id := by
      rw [hm]; exact idxOf_append_mem m (idxOf_addFirst seen id).1
    rw [List.map_cons]
    show _ = (min (10502 + (ids.foldl addFirst (addFirst seen id)).idxOf id) 65535 :: _, _)
    rw [h4]; rfl

theorem mem_firsts {i : UInt64} : ∀ {ids seen : List UInt64}, i ∈ ids.foldl addFirst seen ↔ i ∈ seen ∨ i ∈ ids
  | [], seen => ⟨.inl, fun h => h.elim id (fun h => nomatch h)⟩
  | j :: ids, seen => by
    show i ∈ ids.foldl addFirst (addFirst seen j) ↔ _
    rw [mem_firsts]
    have : i ∈ addFirst seen j ↔ i ∈ seen ∨ i = j := by
      unfold addFirst
      by_cases c : j ∈ seen
      · rw [if_pos c]; exact ⟨.inl, fun h => h.elim id (fun e => e ▸ c)⟩
      · rw [if_neg c, List.mem_append, List.mem_singleton]
    rw [this, List.mem_cons]
    constructor
    · rintro ((h | h) | h)
      · exact .inl h
      · exact .inr (.inl h)
      · exact .inr (.inr h)
    · rintro (h | h | h)
      · exact .inl (.inl h)
      · exact .inl (.inr h)
      · exact .inr h

theorem firsts_nodup : ∀ (ids seen : List UInt64), (seen ++ ids).Nodup → ids.foldl addFirst seen = seen ++ ids
  | [], seen, _ => (List.append_nil _).symm
  | i :: ids, seen, h => by
    have hi : i ∉ seen := by
      intro hm
      have := (List.nodup_append.mp h).2.2 i hm i List.mem_cons_self
      exact this rfl
    show ids.foldl addFirst (addFirst seen i) = _
    have e : addFirst seen i = seen ++ [i] := if_neg hi
    rw [e, firsts_nodup ids (seen ++ [i]) (by rw [List.append_assoc]; exact h), List.append_assoc]; rfl

end Verif.Bus
