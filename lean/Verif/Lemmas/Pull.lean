import Verif.Spec.Pull
import Verif.Model.Pull
import Verif.Props.Push
import Verif.Props.Printed
import Verif.Lemmas.Setup
/-!
# Pull requests: lemmas
-/
namespace Verif.Props
open Verif Verif.Pkt Verif.Pred Verif.Spec Verif.Conv Verif.QText Verif.Opt Verif.Query

/-- The bounds of a field after adding statements. -/
theorem bound_members {rs : List Stmt} {es : List Eff} {a : Abs} (he : effsOf rs = some es) (ha : Abs.default.effs es = some a)
    {f : VF} (hft : f ≠ .type) (hfd : f ≠ .depth) (m : BitVec f.width) :
    (a.set f).bound.Mem m ↔ ∀ r ∈ rs, r.kind = .field f → r.op = .equal ∨ r.op = .less ∨ r.op = .greater → ∃ v, ValueIs f r.val v ∧ Allows r.op m.toNat v := by
  have key : ∀ (b : Abs) (es : List Eff), b.effs es = some a → ((a.set f).bound.Mem m ↔ (b.set f).bound.Mem m ∧
      ∀ op v, Eff.add f op v ∈ es → op ≠ .mask0 → op ≠ .mask1 → Allows op m.toNat v.toNat) := by
    intro b es
    induction es generalizing b with
    | nil => intro h; cases h; simp
    | cons e es ih =>
      intro h
      simp only [Abs.effs] at h
      cases hb : b.eff e with
      | none => rw [hb] at h; cases h
      | some b' =>
        rw [hb] at h
        rw [ih b' h]
        by_cases ht : e.touches f
        · cases e with
          | add g op v =>
            have hg : g = f := ht
            subst hg
            cases hb
            rw [Abs.addSet_same]
            show ((b.set g).bound.add op v).Mem m ∧ _ ↔ _
            by_cases h0 : op = .mask0
            · subst h0
              simp only [List.mem_cons, Bound.add]
              constructor
              · rintro ⟨h1, h2⟩
                refine ⟨h1, fun op w hw k0 k1 => ?_⟩
                rcases hw with hw | hw
                · cases hw; exact absurd rfl k0
                · exact h2 op w hw k0 k1
              · rintro ⟨h1, h2⟩
                exact ⟨h1, fun op w hw => h2 op w (.inr hw)⟩
            · by_cases h1 : op = .mask1
              · subst h1
                simp only [List.mem_cons, Bound.add]
                constructor
                · rintro ⟨h1, h2⟩
                  refine ⟨h1, fun op w hw k0 k1 => ?_⟩
                  rcases hw with hw | hw
                  · cases hw; exact absurd rfl k1
                  · exact h2 op w hw k0 k1
                · rintro ⟨h1, h2⟩
                  exact ⟨h1, fun op w hw => h2 op w (.inr hw)⟩
              · rw [bound_add_mem (width_pos g) _ _ _ _ h0 h1]
                simp only [List.mem_cons]
                constructor
                · rintro ⟨⟨k1, k2⟩, k3⟩
                  refine ⟨k1, fun op' w hw j0 j1 => ?_⟩
                  rcases hw with hw | hw
                  · cases hw; exact k2
                  · exact k3 op' w hw j0 j1
                · rintro ⟨k1, k2⟩
                  exact ⟨⟨k1, k2 op v (.inl rfl) h0 h1⟩, fun op' w hw => k2 op' w (.inr hw)⟩
          | pre cs => exact absurd ht.1 hfd
          | st q op v => cases ht
          | rcv op v => cases ht
        · rw [(eff_untouched hb (fun hf => absurd hf hfd) ht).1]
          have : ∀ op v, e ≠ Eff.add f op v := fun op v h => ht (by rw [h]; rfl)
          simp only [List.mem_cons]
          constructor
          · rintro ⟨k1, k2⟩
            refine ⟨k1, fun op v hv => ?_⟩
            rcases hv with hv | hv
            · exact absurd hv.symm (this op v)
            · exact k2 op v hv
          · rintro ⟨k1, k2⟩
            exact ⟨k1, fun op v hv => k2 op v (.inr hv)⟩
  have hd : (Abs.default.set f).bound.Mem m := (default_mem f.width m).1
  rw [key _ es ha, and_iff_right hd]
  constructor
  · intro h r hr hk hop
    obtain ⟨fs, hfs⟩ := (effsOf_mem he).1 r hr
    obtain ⟨k, o, val⟩ := r
    cases hk
    have hmem := ((effsOf_mem he).2 (fun e => ∀ op v, e = Eff.add f op v → op ≠ .mask0 → op ≠ .mask1 → Allows op m.toNat v.toNat)).1
      (fun e hee op v hev => h op v (hev ▸ hee)) _ hr fs hfs
    simp only [Stmt.effs] at hfs
    split at hfs
    · rename_i b hb
      cases hfs
      have h3 := hmem (.add f o (BitVec.ofNat _ (beNat b))) (by simp) o _ rfl (by rintro rfl; rcases hop with h | h | h <;> cases h)
        (by rintro rfl; rcases hop with h | h | h <;> cases h)
      rw [ofNat_small _ (read_lt hb)] at h3
      exact ⟨beNat b, (Pred.read_iff f val _).1 ⟨b, hb, rfl⟩, h3⟩
    · cases hfs
  · intro h op v hv k0 k1
    have : ∃ r ∈ rs, ∃ fs, r.effs = some fs ∧ Eff.add f op v ∈ fs := by
      apply Classical.byContradiction
      intro h
      exact ((effsOf_mem he).2 (fun e' => e' ≠ Eff.add f op v)).2 (fun r hr' fs hfs e' he' hee => h ⟨r, hr', fs, hfs, hee ▸ he'⟩) _ hv rfl
    obtain ⟨r, hmr, fs, hfs, hef⟩ := this
    obtain ⟨k, o, val⟩ := r
    cases k with
    | field g =>
      simp only [Stmt.effs] at hfs
      split at hfs
      · rename_i b hb
        cases hfs
        rw [List.mem_append] at hef
        rcases hef with hef | hef
        · simp only [List.mem_cons, List.not_mem_nil, or_false] at hef
          rcases hef with hef | hef
          · cases hef; exact absurd rfl hft
          · cases hef
            by_cases ho : op = .nop
            · subst ho; trivial
            · obtain ⟨n, hn, hal⟩ := h _ hmr rfl (by cases op <;> simp_all)
              obtain ⟨x', hx', rfl⟩ := (Pred.read_iff f val n).2 hn
              rw [hb] at hx'; cases hx'
              rw [ofNat_small _ (read_lt hb)]; exact hal
        · split at hef
          · rw [List.mem_singleton] at hef; cases hef
          · cases hef
      · cases hfs
    | spacename =>
      simp only [Stmt.effs] at hfs
      split at hfs
      · rw [Option.map_eq_some_iff] at hfs
        obtain ⟨cs, hcs, rfl⟩ := hfs
        simp only [List.mem_cons, List.not_mem_nil, or_false] at hef
        rcases hef with hef | hef | hef
        · cases hef; exact absurd rfl hft
        · cases hef; exact absurd rfl hfd
        · cases hef
      · cases hfs
    | pre =>
      simp only [Stmt.effs] at hfs
      split at hfs
      · rw [Option.map_eq_some_iff] at hfs
        obtain ⟨cs, hcs, rfl⟩ := hfs
        rw [List.mem_singleton] at hef; cases hef
      · cases hfs
    | recv =>
      simp only [Stmt.effs] at hfs
      split at hfs
      · cases hfs; rw [List.mem_singleton] at hef; cases hef
      · cases hfs
    | limit q =>
      simp only [Stmt.effs] at hfs
      split at hfs
      · cases hfs; rw [List.mem_singleton] at hef; cases hef
      · cases hfs
    | todo b => cases hfs

/-- `as_eq` of a field of an accepted query. -/
theorem asEq_iff {rs : List Stmt} {s : Preds} (h : Preds.default.run true rs = .ok s) {f : VF} (hft : f ≠ .type) (hfd : f ≠ .depth)
    (v : BitVec f.width) : (s.set f).asEq = some v ↔ Pins rs f v.toNat := by
  obtain ⟨es, a, he, ha, hl, rfl⟩ := run_default.1 h
  have hb := bound_members he ha hft hfd
  obtain ⟨y, hy⟩ := hl.sets f
  have hy := hy.1
  show (a.set f).bound.asEq = some v ↔ _
  generalize (a.set f).bound = b at hb hy
  unfold Bound.asEq
  constructor
  · intro h
    split at h
    · rename_i heq
      cases h
      intro m hm
      have hm' : (BitVec.ofNat f.width m).toNat = m := ofNat_small f hm
      have := hb (BitVec.ofNat f.width m)
      rw [hm'] at this
      rw [← this]
      unfold Bound.Mem
      rw [hm', heq]
      omega
    · cases h
  · intro h
    have hlow := b.low.isLt
    have hhigh := b.high.isLt
    have h1 : b.low.toNat = v.toNat := by
      refine (h _ hlow).1 ((hb b.low).1 ?_)
      unfold Bound.Mem at *; omega
    have h2 : b.high.toNat = v.toNat := by
      refine (h _ hhigh).1 ((hb b.high).1 ?_)
      unfold Bound.Mem at *; omega
    rw [if_pos (BitVec.eq_of_toNat_eq (by omega)), BitVec.eq_of_toNat_eq h2]

end Verif.Props
