import Verif.Model.Base64
import Verif.Spec.Base64
import Verif.Lemmas.Bytes
import Verif.Lemmas.Abtxt
namespace Verif.Abe
open Verif Verif.Num Verif.Fit Verif.Spec

theorem ofDigits_append (b : Nat) (x y : List Nat) : ofDigits b (x ++ y) = ofDigits b x * b ^ y.length + ofDigits b y := by
  induction x with
  | nil => simp [ofDigits]
  | cons d x ih =>
    simp only [List.cons_append, ofDigits, ih, List.length_append, Nat.pow_add, Nat.add_mul, Nat.mul_assoc, Nat.add_assoc]

theorem ofDigits_lt (b : Nat) (x : List Nat) (h : ∀ d ∈ x, d < b) : ofDigits b x < b ^ x.length := by
  induction x with
  | nil => simp [ofDigits]
  | cons d x ih =>
    have h1 := ih (fun e he => h e (List.mem_cons_of_mem _ he))
    have h2 := h d List.mem_cons_self
    simp only [ofDigits, List.length_cons, Nat.pow_succ]
    calc d * b ^ x.length + ofDigits b x < d * b ^ x.length + b ^ x.length := by omega
      _ = (d + 1) * b ^ x.length := by rw [Nat.add_mul, Nat.one_mul]
      _ ≤ b * b ^ x.length := Nat.mul_le_mul_right _ h2
      _ = b ^ x.length * b := Nat.mul_comm _ _

theorem ofDigits_inj (b : Nat) (x y : List Nat) (hl : x.length = y.length) (hx : ∀ d ∈ x, d < b) (hy : ∀ d ∈ y, d < b)
    (h : ofDigits b x = ofDigits b y) : x = y := by
  induction x generalizing y with
  | nil => cases y with
    | nil => rfl
    | cons _ _ => simp at hl
  | cons d x ih =>
    cases y with
    | nil => simp at hl
    | cons e y =>
      simp only [List.length_cons, Nat.add_right_cancel_iff] at hl
      have h1 := ofDigits_lt b x (fun e he => hx e (List.mem_cons_of_mem _ he))
      have h2 := ofDigits_lt b y (fun e he => hy e (List.mem_cons_of_mem _ he))
      simp only [ofDigits] at h
      rw [← hl] at h h2
      have hp : 0 < b ^ x.length := by omega
      have hd : d = e := by
        have e1 : (d * b ^ x.length + ofDigits b x) / b ^ x.length = d := by
          rw [Nat.mul_comm, Nat.mul_add_div hp, Nat.div_eq_of_lt h1]; omega
        have e2 : (e * b ^ x.length + ofDigits b y) / b ^ x.length = e := by
          rw [Nat.mul_comm, Nat.mul_add_div hp, Nat.div_eq_of_lt h2]; omega
        rw [← e1, h, e2]
      subst hd
      rw [ih y hl (fun e he => hx e (List.mem_cons_of_mem _ he)) (fun e he => hy e (List.mem_cons_of_mem _ he)) (by omega)]

theorem beNat_cons (a : UInt8) (r : Bytes) : beNat (a :: r) = a.toNat * 256 ^ r.length + beNat r := by
  induction hl : r.length generalizing r with
  | zero => 
    have : r = [] := List.eq_nil_of_length_eq_zero hl
    subst this; simp [beNat]
  | succ n ih =>
    have hne : r ≠ [] := by intro h; rw [h] at hl; simp at hl
    have hd := List.dropLast_concat_getLast hne
    have hlen : r.dropLast.length = n := by simp [hl]
    have := ih r.dropLast hlen
    rw [← hd, ← List.cons_append, beNat_append, this, beNat_append, Nat.pow_succ]
    simp only [Nat.add_mul, Nat.mul_assoc]
    omega

/-- The 6-bit values of `b64Enc`. -/
def sext : Bytes → List Nat
  | a :: b :: c :: r =>
    let n := a.toNat * 65536 + b.toNat * 256 + c.toNat
    n / 262144 :: n / 4096 % 64 :: n / 64 % 64 :: n % 64 :: sext r
  | [a, b] =>
    let n := a.toNat * 1024 + b.toNat * 4
    [n / 4096, n / 64 % 64, n % 64]
  | [a] =>
    let n := a.toNat * 16
    [n / 64, n % 64]
  | [] => []

theorem b64Enc_sext (al : Alphabet) (b : Bytes) : b64Enc al b = (sext b).map al.char := by
  fun_induction sext b <;> simp_all [b64Enc]
  · exact ⟨rfl, rfl, rfl, rfl⟩
  · exact ⟨rfl, rfl, rfl⟩
  · exact ⟨rfl, rfl⟩

theorem sext_lt (b : Bytes) : ∀ d ∈ sext b, d < 64 := by
  fun_induction sext b with
  | case1 a b c r n ih =>
    have ha := a.toNat_lt; have hb := b.toNat_lt; have hc := c.toNat_lt
    intro d hd
    simp only [List.mem_cons] at hd
    rcases hd with h | h | h | h | h
    · omega
    · omega
    · omega
    · omega
    · exact ih d h
  | case2 a b n =>
    have ha := a.toNat_lt; have hb := b.toNat_lt
    intro d hd
    simp at hd
    omega
  | case3 a n =>
    have ha := a.toNat_lt
    intro d hd
    simp at hd
    omega
  | case4 => simp

theorem sext_length (b : Bytes) : (sext b).length = (4 * b.length + 2) / 3 := by
  fun_induction sext b <;> simp_all <;> omega

theorem ofNat_eq (x : UInt8) (n : Nat) (h : n = x.toNat) : UInt8.ofNat n = x := by
  subst h; exact UInt8.ofNat_toNat

theorem b64Dec_sext (b : Bytes) : b64Dec (sext b) = some b := by
  fun_induction sext b with
  | case1 a b c r n ih =>
    have ha := a.toNat_lt; have hb := b.toNat_lt; have hc := c.toNat_lt
    have hn : n / 262144 * 262144 + n / 4096 % 64 * 4096 + n / 64 % 64 * 64 + n % 64 = n := by omega
    rw [b64Dec]
    simp only [hn]
    rw [ih, Option.map_some, ofNat_eq a (n / 65536) (by omega), ofNat_eq b (n / 256 % 256) (by omega), ofNat_eq c (n % 256) (by omega)]
  | case2 a b n =>
    have ha := a.toNat_lt; have hb := b.toNat_lt
    have hn : n / 4096 * 4096 + n / 64 % 64 * 64 + n % 64 = n := by omega
    rw [b64Dec]
    simp only [hn]
    rw [if_pos (by omega), ofNat_eq a (n / 1024) (by omega), ofNat_eq b (n / 4 % 256) (by omega)]
  | case3 a n =>
    have ha := a.toNat_lt
    have hn : n / 64 * 64 + n % 64 = n := by omega
    rw [b64Dec]
    simp only [hn]
    rw [if_pos (by omega), ofNat_eq a (n / 16) (by omega)]
  | case4 => rfl

theorem sext_of_dec (ds : List Nat) (b : Bytes) (hd : ∀ d ∈ ds, d < 64) (h : b64Dec ds = some b) : sext b = ds := by
  fun_induction b64Dec ds generalizing b with
  | case1 w x y z r n ih =>
    simp at hd
    cases hr : b64Dec r with
    | none => rw [hr] at h; cases h
    | some t =>
      rw [hr] at h
      simp at h
      subst h
      have := ih t (fun d h => hd.2.2.2.2 d h) hr
      have e1 : (UInt8.ofNat (n / 65536)).toNat = n / 65536 := by
        rw [UInt8.toNat_ofNat', Nat.mod_eq_of_lt]; omega
      have e2 : (UInt8.ofNat (n / 256 % 256)).toNat = n / 256 % 256 := by
        rw [UInt8.toNat_ofNat', Nat.mod_eq_of_lt]; omega
      have e3 : (UInt8.ofNat (n % 256)).toNat = n % 256 := by
        rw [UInt8.toNat_ofNat', Nat.mod_eq_of_lt]; omega
      have e : n / 65536 * 65536 + n / 256 % 256 * 256 + n % 256 = n := by omega
      simp only [sext, e1, e2, e3, e, this]
      congr 1
      · omega
      · congr 1
        · omega
        · congr 1
          · omega
          · congr 1; omega
  | case2 w x y n hm =>
    simp at hd h
    subst h
    have e1 : (UInt8.ofNat (n / 1024)).toNat = n / 1024 := by
      rw [UInt8.toNat_ofNat', Nat.mod_eq_of_lt]; omega
    have e2 : (UInt8.ofNat (n / 4 % 256)).toNat = n / 4 % 256 := by
      rw [UInt8.toNat_ofNat', Nat.mod_eq_of_lt]; omega
    have e : n / 1024 * 1024 + n / 4 % 256 * 4 = n := by omega
    simp only [sext, e1, e2, e]
    congr 1
    · omega
    · congr 1
      · omega
      · congr 1; omega
  | case3 => cases h
  | case4 w x n hm =>
    simp at hd h
    subst h
    have e1 : (UInt8.ofNat (n / 16)).toNat = n / 16 := by
      rw [UInt8.toNat_ofNat', Nat.mod_eq_of_lt]; omega
    have e : n / 16 * 16 = n := by omega
    simp only [sext, e1, e]
    congr 1
    · omega
    · congr 1; omega
  | case5 => cases h
  | case6 => cases h
  | case7 => simp at h; subst h; rfl

theorem val_char (al : Alphabet) (hal : al = urlSafe ∨ al = standard) (v : Nat) (h : v < 64) : al.val (al.char v) = some v := by
  have key : ∀ n : Fin 64, urlSafe.val (urlSafe.char n.1) = some n.1 ∧ standard.val (standard.char n.1) = some n.1 := by decide +kernel
  rcases hal with rfl | rfl
  · exact (key ⟨v, h⟩).1
  · exact (key ⟨v, h⟩).2

theorem char_val (al : Alphabet) (hal : al = urlSafe ∨ al = standard) (c : UInt8) (v : Nat) (h : al.val c = some v) :
    v < 64 ∧ al.char v = c := by
  have key : ∀ n : Fin 256, (∀ v, urlSafe.val (UInt8.ofFin n) = some v → v < 64 ∧ urlSafe.char v = UInt8.ofFin n) ∧
      (∀ v, standard.val (UInt8.ofFin n) = some v → v < 64 ∧ standard.char v = UInt8.ofFin n) := by
    have h1 : ∀ n : Fin 256, ((urlSafe.val (UInt8.ofFin n)).all (fun v => decide (v < 64 ∧ urlSafe.char v = UInt8.ofFin n)) = true) ∧
      ((standard.val (UInt8.ofFin n)).all (fun v => decide (v < 64 ∧ standard.char v = UInt8.ofFin n)) = true) := by decide +kernel
    intro n
    obtain ⟨a, b⟩ := h1 n
    constructor
    · intro v hv; rw [hv] at a; simpa using a
    · intro v hv; rw [hv] at b; simpa using b
  have := Verif.Abtxt.all_u8 (fun c => (∀ v, urlSafe.val c = some v → v < 64 ∧ urlSafe.char v = c) ∧
      (∀ v, standard.val c = some v → v < 64 ∧ standard.char v = c)) key c
  rcases hal with rfl | rfl
  · exact this.1 v h
  · exact this.2 v h

/-- The alphabet as the specification lists it. -/
def Alphabet.list (al : Alphabet) : List UInt8 := (List.range 64).map al.char

theorem urlSafe_list : b64UrlSafe = urlSafe.list := by decide +kernel
theorem standard_list : b64Standard = standard.list := by decide +kernel

theorem list_get (al : Alphabet) (v : Nat) : al.list[v]? = if v < 64 then some (al.char v) else none := by
  simp only [Alphabet.list, List.getElem?_map]
  by_cases h : v < 64
  · rw [if_pos h, List.getElem?_range h]; rfl
  · rw [if_neg h, List.getElem?_eq_none (by simp; omega)]; rfl

theorem mapM_val_iff (al : Alphabet) (hal : al = urlSafe ∨ al = standard) (s : Bytes) (ds : List Nat) :
    s.mapM al.val = some ds ↔ s.map some = ds.map (al.list[·]?) := by
  induction s generalizing ds with
  | nil => cases ds <;> simp
  | cons c s ih =>
    rw [List.mapM_cons]
    constructor
    · intro h
      cases hv : al.val c with
      | none => rw [hv] at h; cases h
      | some v =>
        cases hm : s.mapM al.val with
        | none => rw [hv, hm] at h; cases h
        | some t =>
          rw [hv, hm] at h
          cases h
          obtain ⟨h1, h2⟩ := char_val al hal c v hv
          rw [List.map_cons, List.map_cons, list_get, if_pos h1, h2, (ih t).1 hm]
    · intro h
      cases ds with
      | nil => cases h
      | cons d ds =>
        rw [List.map_cons, List.map_cons, list_get] at h
        injection h with h1 h2
        split at h1
        · rename_i hd
          injection h1 with h1
          rw [h1, val_char al hal d hd, (ih ds).2 h2]; rfl
        · cases h1

theorem digits_lt_of_map {al : Alphabet} {s : Bytes} {ds : List Nat} (h : s.map some = ds.map (al.list[·]?)) : ∀ d ∈ ds, d < 64 := by
  intro d hd
  have : al.list[d]? ∈ s.map some := by rw [h]; exact List.mem_map_of_mem hd
  rw [list_get] at this
  split at this
  · assumption
  · simp at this

theorem map_char_of_lt {al : Alphabet} (ds : List Nat) (h : ∀ d ∈ ds, d < 64) : (ds.map al.char).map some = ds.map (al.list[·]?) := by
  rw [List.map_map]
  apply List.map_congr_left
  intro d hd
  simp [list_get, h d hd]

theorem ofDigits_sext (b : Bytes) : ofDigits 64 (sext b) = beNat b * 2 ^ (6 * (sext b).length - 8 * b.length) := by
  fun_induction sext b with
  | case1 a b c r n ih =>
    have hl := sext_length r
    rw [beNat_cons, beNat_cons, beNat_cons]
    simp only [ofDigits, List.length_cons]
    rw [ih]
    have e : 6 * ((sext r).length + 1 + 1 + 1 + 1) - 8 * (r.length + 1 + 1 + 1) = 6 * (sext r).length - 8 * r.length := by omega
    rw [e]
    have hp : (64 : Nat) ^ (sext r).length = 256 ^ r.length * 2 ^ (6 * (sext r).length - 8 * r.length) := by
      have h1 : (64 : Nat) = 2 ^ 6 := rfl
      have h2 : (256 : Nat) = 2 ^ 8 := rfl
      rw [h1, h2, ← Nat.pow_mul, ← Nat.pow_mul, ← Nat.pow_add]
      congr 1; omega
    have e3 : (64 : Nat) ^ ((sext r).length + 1 + 1 + 1) = 262144 * 64 ^ (sext r).length := by
      simp only [Nat.pow_succ]; omega
    have e2 : (64 : Nat) ^ ((sext r).length + 1 + 1) = 4096 * 64 ^ (sext r).length := by
      simp only [Nat.pow_succ]; omega
    have e1 : (64 : Nat) ^ ((sext r).length + 1) = 64 * 64 ^ (sext r).length := by
      simp only [Nat.pow_succ]; omega
    have f2 : (256 : Nat) ^ (r.length + 1 + 1) = 65536 * 256 ^ r.length := by
      simp only [Nat.pow_succ]; omega
    have f1 : (256 : Nat) ^ (r.length + 1) = 256 * 256 ^ r.length := by
      simp only [Nat.pow_succ]; omega
    rw [e3, e2, e1, f2, f1, hp]
    generalize 2 ^ (6 * (sext r).length - 8 * r.length) = P
    generalize 256 ^ r.length = Q
    generalize beNat r = R
    have hn : n = n / 262144 * 262144 + n / 4096 % 64 * 4096 + n / 64 % 64 * 64 + n % 64 := by omega
    have hn' : n = a.toNat * 65536 + b.toNat * 256 + c.toNat := rfl
    have lhs : n / 262144 * (262144 * (Q * P)) + (n / 4096 % 64 * (4096 * (Q * P)) + (n / 64 % 64 * (64 * (Q * P)) + (n % 64 * (Q * P) + R * P)))
        = (n / 262144 * 262144 + n / 4096 % 64 * 4096 + n / 64 % 64 * 64 + n % 64) * (Q * P) + R * P := by
      simp only [Nat.add_mul, Nat.mul_assoc, Nat.add_assoc]
    have rhs : (a.toNat * (65536 * Q) + (b.toNat * (256 * Q) + (c.toNat * Q + R))) * P
        = (a.toNat * 65536 + b.toNat * 256 + c.toNat) * (Q * P) + R * P := by
      simp only [Nat.add_mul, Nat.mul_assoc, Nat.add_assoc]
    rw [lhs, rhs, ← hn, hn']
  | case2 a b n =>
    have : beNat [a, b] = a.toNat * 256 + b.toNat := by simp [beNat]
    rw [this]
    simp only [ofDigits, List.length_cons, List.length_nil]
    have ha := a.toNat_lt; have hb := b.toNat_lt
    omega
  | case3 a n =>
    have : beNat [a] = a.toNat := by simp [beNat]
    rw [this]
    simp only [ofDigits, List.length_cons, List.length_nil]
    have ha := a.toNat_lt
    omega
  | case4 => rfl

theorem base64_spec_enc (al : Alphabet) (b : Bytes) : Base64 al.list (b64Enc al b) b := by
  refine ⟨sext b, ?_, ?_, ?_, ?_⟩
  · rw [b64Enc_sext]; exact map_char_of_lt _ (sext_lt b)
  · rw [b64Enc_sext, List.length_map, sext_length]; omega
  · rw [b64Enc_sext, List.length_map, sext_length]; omega
  · rw [ofDigits_sext, b64Enc_sext, List.length_map]

theorem base64_spec_unique (al : Alphabet) {s b : Bytes} (h : Base64 al.list s b) : s = b64Enc al b := by
  obtain ⟨ds, h1, h2, h3, h4⟩ := h
  have hlt := digits_lt_of_map h1
  have hl : s.length = ds.length := by simpa using congrArg List.length h1
  have hsl := sext_length b
  have hds : ds.length = (sext b).length := by omega
  have := ofDigits_inj 64 ds (sext b) hds hlt (sext_lt b) (by rw [h4, ofDigits_sext, hl, hds])
  subst this
  rw [b64Enc_sext]
  have h5 := map_char_of_lt (al := al) _ hlt
  rw [← h1] at h5
  have : Function.Injective (List.map (some : UInt8 → Option UInt8)) := by
    intro a b hab
    induction a generalizing b with
    | nil => cases b with
      | nil => rfl
      | cons _ _ => cases hab
    | cons x a ih => cases b with
      | nil => cases hab
      | cons y b => injection hab with p q; injection p with p; rw [p, ih q]
  exact (this h5).symm

theorem decode_iff (al : Alphabet) (hal : al = urlSafe ∨ al = standard) (s b : Bytes) :
    (s.mapM al.val).bind b64Dec = some b ↔ s = b64Enc al b := by
  constructor
  · intro h
    cases hm : s.mapM al.val with
    | none => rw [hm] at h; cases h
    | some ds =>
      rw [hm] at h
      have h1 := (mapM_val_iff al hal s ds).1 hm
      have h2 := sext_of_dec ds b (digits_lt_of_map h1) h
      subst h2
      have h5 := map_char_of_lt (al := al) (sext b) (sext_lt b)
      rw [← h1] at h5
      rw [b64Enc_sext]
      have : Function.Injective (List.map (some : UInt8 → Option UInt8)) := by
        intro a b hab
        induction a generalizing b with
        | nil => cases b with
          | nil => rfl
          | cons _ _ => cases hab
        | cons x a ih => cases b with
          | nil => cases hab
          | cons y b => injection hab with p q; injection p with p; rw [p, ih q]
      exact (this h5).symm
  · rintro rfl
    have h1 : (b64Enc al b).mapM al.val = some (sext b) := by
      rw [mapM_val_iff al hal, b64Enc_sext]; exact map_char_of_lt _ (sext_lt b)
    rw [h1]; exact b64Dec_sext b

end Verif.Abe
