import Verif.Model.Bytes
/-!
Lemmas about byte strings: big-endian numbers and lexicographic order.
-/
namespace Verif

@[simp] theorem beBytes_length (k n : Nat) : (beBytes k n).length = k := by
  induction k generalizing n with
  | zero => rfl
  | succ k ih => simp [beBytes, ih]

theorem beNat_append (a : Bytes) (b : UInt8) : beNat (a ++ [b]) = beNat a * 256 + b.toNat := by
  simp [beNat]

theorem beNat_nil : beNat [] = 0 := rfl

theorem beNat_beBytes (k n : Nat) (h : n < 256 ^ k) : beNat (beBytes k n) = n := by
  induction k generalizing n with
  | zero => simp at h; subst h; rfl
  | succ k ih =>
    simp only [beBytes, beNat_append]
    rw [ih (n / 256) (by rw [Nat.pow_succ] at h; omega)]
    simp; omega

theorem beBytes_beNat (b : Bytes) : beBytes b.length (beNat b) = b := by
  induction hn : b.length generalizing b with
  | zero => cases b with
    | nil => rfl
    | cons => simp at hn
  | succ k ih =>
    have hne : b ≠ [] := by intro h; subst h; simp at hn
    have hb : b = b.dropLast ++ [b.getLast hne] := (List.dropLast_concat_getLast hne).symm
    have hl : b.dropLast.length = k := by simp; omega
    rw [hb, beNat_append]
    simp only [beBytes]
    have hlt : (b.getLast hne).toNat < 256 := (b.getLast hne).toNat_lt
    rw [show (beNat b.dropLast * 256 + (b.getLast hne).toNat) / 256 = beNat b.dropLast by omega,
      ih _ hl, show (beNat b.dropLast * 256 + (b.getLast hne).toNat) % 256 = (b.getLast hne).toNat by omega]
    simp

theorem beNat_lt (b : Bytes) : beNat b < 256 ^ b.length := by
  induction hn : b.length generalizing b with
  | zero => cases b with
    | nil => simp [beNat]
    | cons => simp at hn
  | succ k ih =>
    have hne : b ≠ [] := by intro h; subst h; simp at hn
    have hb : b = b.dropLast ++ [b.getLast hne] := (List.dropLast_concat_getLast hne).symm
    have hl : b.dropLast.length = k := by simp; omega
    rw [hb, beNat_append, Nat.pow_succ]
    have hlt : (b.getLast hne).toNat < 256 := (b.getLast hne).toNat_lt
    have := ih _ hl
    omega

theorem beNat_inj {a b : Bytes} (hl : a.length = b.length) (h : beNat a = beNat b) : a = b := by
  rw [← beBytes_beNat a, ← beBytes_beNat b, hl, h]

/-! ### lexicographic order -/

theorem bytesLt_irrefl (a : Bytes) : bytesLt a a = false := by
  induction a with
  | nil => rfl
  | cons x a ih => simp [bytesLt, ih]

theorem bytesLt_append_left (p a b : Bytes) : bytesLt (p ++ a) (p ++ b) = bytesLt a b := by
  induction p with
  | nil => rfl
  | cons x p ih => simp [bytesLt, ih]

/-- comparing after heads of equal length -/
theorem bytesLt_append (p q a b : Bytes) (h : p.length = q.length) :
    bytesLt (p ++ a) (q ++ b) = (bytesLt p q || (decide (p = q) && bytesLt a b)) := by
  induction p generalizing q with
  | nil =>
    cases q with
    | nil => simp [bytesLt]
    | cons => simp at h
  | cons x p ih =>
    cases q with
    | nil => simp at h
    | cons y q =>
      simp only [List.cons_append, bytesLt]
      by_cases h1 : x.toNat < y.toNat
      · simp [h1]
      · by_cases h2 : y.toNat < x.toNat
        · have : x ≠ y := by intro h; subst h; omega
          simp [h1, h2, this]
        · have : x = y := UInt8.toNat_inj.1 (by omega)
          subst this
          simp only [h1, if_false]
          rw [ih q (by simpa using h)]
          simp

theorem bytesLt_trans {a b c : Bytes} (h1 : bytesLt a b = true) (h2 : bytesLt b c = true) :
    bytesLt a c = true := by
  induction a generalizing b c with
  | nil =>
    cases b with
    | nil => simp [bytesLt] at h1
    | cons y b => cases c with
      | nil => simp [bytesLt] at h2
      | cons => rfl
  | cons x a ih =>
    cases b with
    | nil => simp [bytesLt] at h1
    | cons y b =>
      cases c with
      | nil => simp [bytesLt] at h2
      | cons z c =>
        simp only [bytesLt] at h1 h2 ⊢
        by_cases hxy : x.toNat < y.toNat
        · by_cases hyz : y.toNat < z.toNat
          · rw [if_pos (by omega)]
          · by_cases hzy : z.toNat < y.toNat
            · simp [hyz, hzy] at h2
            · rw [if_pos (by omega)]
        · by_cases hyx : y.toNat < x.toNat
          · simp [hxy, hyx] at h1
          · simp only [hxy, hyx, if_false] at h1
            by_cases hyz : y.toNat < z.toNat
            · rw [if_pos (by omega)]
            · by_cases hzy : z.toNat < y.toNat
              · simp [hyz, hzy] at h2
              · simp only [hyz, hzy, if_false] at h2
                rw [if_neg (by omega), if_neg (by omega)]
                exact ih h1 h2

theorem bytesLt_total (a b : Bytes) : bytesLt a b = true ∨ a = b ∨ bytesLt b a = true := by
  induction a generalizing b with
  | nil => cases b <;> simp [bytesLt]
  | cons x a ih =>
    cases b with
    | nil => simp [bytesLt]
    | cons y b =>
      simp only [bytesLt]
      by_cases h1 : x.toNat < y.toNat
      · simp [h1]
      · by_cases h2 : y.toNat < x.toNat
        · simp [h2]
        · have : x = y := UInt8.toNat_inj.1 (by omega)
          subst this
          simp only [h1, if_false]
          rcases ih b with h | h | h
          · exact .inl h
          · exact .inr (.inl (by rw [h]))
          · exact .inr (.inr h)

theorem bytesLt_asymm {a b : Bytes} (h : bytesLt a b = true) : bytesLt b a = false := by
  cases hb : bytesLt b a with
  | false => rfl
  | true => have := bytesLt_trans h hb; rw [bytesLt_irrefl] at this; cases this

theorem bytesLt_ne {a b : Bytes} (h : bytesLt a b = true) : a ≠ b := by
  rintro rfl; rw [bytesLt_irrefl] at h; cases h

theorem bytesLt_beNat {a b : Bytes} (hl : a.length = b.length) :
    bytesLt a b = true ↔ beNat a < beNat b := by
  induction hn : a.length generalizing a b with
  | zero =>
    have ha : a = [] := List.eq_nil_of_length_eq_zero hn
    have hb : b = [] := List.eq_nil_of_length_eq_zero (by omega)
    subst ha hb; simp [bytesLt]
  | succ k ih =>
    have hna : a ≠ [] := by intro h; subst h; simp at hn
    have hnb : b ≠ [] := by intro h; subst h; simp at hl; rw [hl] at hn; simp at hn
    have ha : a = a.dropLast ++ [a.getLast hna] := (List.dropLast_concat_getLast hna).symm
    have hb : b = b.dropLast ++ [b.getLast hnb] := (List.dropLast_concat_getLast hnb).symm
    have hla : a.dropLast.length = k := by simp; omega
    have hlb : b.dropLast.length = k := by simp; omega
    generalize a.getLast hna = x at ha
    generalize b.getLast hnb = y at hb
    rw [ha, hb, bytesLt_append _ _ _ _ (by omega), beNat_append, beNat_append]
    have hi := ih (a := a.dropLast) (b := b.dropLast) (by omega) hla
    have hx := x.toNat_lt
    have hy := y.toNat_lt
    have hxy : bytesLt [x] [y] = true ↔ x.toNat < y.toNat := by
      simp only [bytesLt]; split
      · simp [*]
      · split <;> simp [*]
    simp only [Bool.or_eq_true, Bool.and_eq_true, decide_eq_true_eq, hi, hxy]
    constructor
    · rintro (h | ⟨h1, h2⟩)
      · omega
      · rw [h1]; omega
    · intro h
      by_cases he : beNat a.dropLast < beNat b.dropLast
      · exact .inl he
      · right
        have he' : beNat a.dropLast = beNat b.dropLast := by omega
        exact ⟨beNat_inj (by omega) he', by omega⟩

theorem bytesLt_beBytes {k m n : Nat} (hm : m < 256 ^ k) (hn : n < 256 ^ k) :
    bytesLt (beBytes k m) (beBytes k n) = true ↔ m < n := by
  rw [bytesLt_beNat (by simp), beNat_beBytes k m hm, beNat_beBytes k n hn]

/-! ### slices -/

theorem take_drop_mid {α : Type} (x y z : List α) {a n : Nat} (hx : x.length = a) (hy : y.length = n) :
    ((x ++ y ++ z).drop a).take n = y := by
  subst hx hy; simp

end Verif
