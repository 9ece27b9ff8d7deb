import Verif.Props.Keys
/-!
# C65 the command `keygen`
-/
namespace Verif.Props
open Verif Verif.Abe Verif.Num Verif.Pkt Verif.Tree Verif.Env Verif.Spec Verif.Query Verif.Lns Verif.Shake Verif.Ident

section
variable {A : Lib} {C : Crypto} {nh : Bytes} {utf8 : Bytes → Bool} {db db' : Db} {now now' : Nat} {iter iter' : List Tally → List Tally} {comps : List Bytes} {n : Name}
  {pw : Bytes} {io : Nat → Call} {gen : A.Key}
variable {o : KeyGen} {newPw : Bytes} {s pk : Bytes}

theorem costs_used (o : KeyGen) : UsedCosts o.costs := by
  unfold KeyGen.costs
  split
  · exact .inr (.inr rfl)
  · exact .inl rfl
  · exact .inr (.inl rfl)

theorem generate_encrypts {s : Bytes} (h : o.generate A gen pw = .ok s) : encryptWith A gen pw o.costs = .ok s := by
  unfold KeyGen.generate encrypt at h
  simp only [Option.getD_some] at h
  cases he : encryptWith A gen pw o.costs with
  | error e => rw [he] at h; cases h
  | ok s' => rw [he] at h; cases h; rfl

theorem setupKeyclaim_key {ow : Bool} {p : Option Bytes} {k : Bytes} (h : setupKeyclaim C nh db iter io now n s p ow = (db', .ok k)) : p = some k := by
  have hs : saveKeyclaim C nh db iter io now n s p = (db', .ok k) → p = some k := by
    intro h
    unfold saveKeyclaim at h
    cases p with
    | none => cases h
    | some pk =>
      simp only at h
      generalize hg : tryL (Claim.new C nh n (u64End - 1) [⟨List.replicate 9 0 ++ pubkeyTag, pk⟩] s) = o at h
      cases o with
      | error e => cases h
      | ok cl =>
        simp only at h
        generalize unwrapL (Space.toArray cl.name.space) = o2 at h
        cases o2 with
        | error e => cases h
        | ok cs =>
          simp only at h
          split at h
          · cases h
          · generalize savePrivate C nh db iter io now cl none [] true = o3 at h
            obtain ⟨d, r⟩ := o3
            cases r <;> cases h
            rfl
  unfold setupKeyclaim at h
  split at h
  · cases h
  · cases hl : lookupClaim C nh db iter now n with
    | error e =>
      rw [hl] at h
      cases e with
      | err => exact hs h
      | stop q => cases h
    | ok r =>
      rw [hl] at h
      cases r with
      | none => exact hs h
      | some cl =>
        simp only at h
        split at h
        · exact hs h
        · cases h

theorem setupNamed_key {ow : Bool} (h : setupNamed C nh db iter io now n s ow = (db', .ok pk)) : pubkeyOf s = .ok pk := by
  unfold setupNamed at h
  have := setupKeyclaim_key h
  cases hp : pubkeyOf s with
  | error e => rw [hp] at this; cases this
  | ok k => rw [hp] at this; cases this; rfl

theorem keygen_setup {ow : Bool} {r : Bytes × Bytes} (h : o.setup C nh db iter io now n s ow = (db', .ok r)) :
    r.1 = s ∧ pubkeyOf s = .ok r.2 ∧ (o.noLk = true → db' = db) ∧ (o.noLk = false → setupNamed C nh db iter io now n s ow = (db', .ok r.2)) := by
  unfold KeyGen.setup at h
  cases hl : o.noLk with
  | true =>
    rw [if_pos hl] at h
    cases hp : pubkeyOf s with
    | error e => rw [hp] at h; cases h
    | ok k => rw [hp] at h; cases h; exact ⟨rfl, rfl, fun _ => rfl, nofun⟩
  | false =>
    rw [if_neg (by rw [hl]; decide)] at h
    cases hs : setupNamed C nh db iter io now n s ow with
    | mk d r' =>
      rw [hs] at h
      cases r' with
      | error e => cases h
      | ok k => cases h; exact ⟨rfl, setupNamed_key hs, nofun, fun _ => rfl⟩

theorem checked_ok {u : Unit} (h : o.checked A s pw = .ok u) : o.noCheck = true ∨ ∃ k, decrypt A s pw = .ok k := by
  unfold KeyGen.checked tryDecrypt at h
  cases hn : o.noCheck with
  | true => exact .inl rfl
  | false =>
    rw [if_neg (by rw [hn]; decide)] at h
    cases hd : decrypt A s pw with
    | error e => rw [hd] at h; cases h
    | ok k => exact .inr ⟨k, rfl⟩

/-- How a call that prints something went: it printed a key that was there, or set up a new or a given one. -/
inductive KeygenRun (A : Lib) (C : Crypto) (nh : Bytes) (db : Db) (iter : List Tally → List Tally) (io : Nat → Call) (now : Nat) (n : Name) (o : KeyGen) (pw newPw : Bytes)
    (gen : A.Key) (found enckey : Option Bytes) : Db → Bytes × Bytes → Prop
  | shown {s pk : Bytes} : o.overwrite = false → (o.enckey = none ∨ o.noLk = true) → enckey = some s → o.checked A s (o.password pw newPw) = .ok () → pubkeyOf s = .ok pk →
      KeygenRun A C nh db iter io now n o pw newPw gen found enckey db (s, pk)
  | made {s : Bytes} {db' : Db} {r : Bytes × Bytes} : (o.overwrite = true ∧ o.enckey = none) ∨ (o.overwrite = false ∧ enckey = none) → o.generate A gen (o.password pw newPw) = .ok s →
      o.setup C nh db iter io now n s o.overwrite = (db', .ok r) → KeygenRun A C nh db iter io now n o pw newPw gen found enckey db' r
  | given {s : Bytes} {db' : Db} {r : Bytes × Bytes} : o.overwrite = true → o.enckey ≠ none → enckey = some s → o.checked A s (o.password pw newPw) = .ok () →
      o.setup C nh db iter io now n s true = (db', .ok r) → KeygenRun A C nh db iter io now n o pw newPw gen found enckey db' r

theorem keygen_run {r : Bytes × Bytes} (h : keygen A C nh utf8 db iter io now n o pw newPw gen = (db', .ok r)) :
    ∃ found enckey, o.found C nh utf8 db iter now n = .ok found ∧ o.repass A found pw newPw = .ok enckey ∧
      KeygenRun A C nh db iter io now n o pw newPw gen found enckey db' r := by
  unfold keygen at h
  cases hf : o.found C nh utf8 db iter now n with
  | error e => rw [hf] at h; cases h
  | ok found =>
    rw [hf] at h
    simp only at h
    cases hr : o.repass A found pw newPw with
    | error e => rw [hr] at h; cases h
    | ok enckey =>
      rw [hr] at h
      simp only at h
      refine ⟨found, enckey, rfl, hr, ?_⟩
      cases how : o.overwrite with
      | true =>
        rw [if_pos how] at h
        cases hk : o.enckey with
        | some k =>
          rw [hk] at h
          simp only at h
          cases enckey with
          | none => cases h
          | some s =>
            simp only at h
            cases hch : o.checked A s (o.password pw newPw) with
            | error e => rw [hch] at h; cases h
            | ok u => rw [hch] at h; exact .given how (by rw [hk]; nofun) rfl hch h
        | none =>
          rw [hk] at h
          simp only at h
          cases hg : o.generate A gen (o.password pw newPw) with
          | error e => rw [hg] at h; cases h
          | ok s => rw [hg] at h; exact .made (.inl ⟨how, hk⟩) hg (by rw [how]; exact h)
      | false =>
        rw [if_neg (by rw [how]; decide)] at h
        split at h
        · cases h
        · rename_i hcond
          cases enckey with
          | some s =>
            simp only at h
            cases hch : o.checked A s (o.password pw newPw) with
            | error e => rw [hch] at h; cases h
            | ok u =>
              rw [hch] at h
              simp only at h
              cases hp : pubkeyOf s with
              | error e => rw [hp] at h; cases h
              | ok pk =>
                rw [hp] at h
                cases h
                refine .shown how ?_ rfl hch hp
                cases hk : o.enckey with
                | none => exact .inl rfl
                | some k =>
                  right
                  cases hl : o.noLk with
                  | true => rfl
                  | false => rw [hk, hl] at hcond; exact absurd rfl hcond
          | none =>
            simp only at h
            cases hg : o.generate A gen (o.password pw newPw) with
            | error e => rw [hg] at h; cases h
            | ok s => rw [hg] at h; exact .made (.inr ⟨how, rfl⟩) hg (by rw [how]; exact h)

theorem repass_ok (L : Ident.Laws A) {found : Option Bytes} (hp : o.newPass = true) {r : Option Bytes} (h : o.repass A found pw newPw = .ok r) :
    ∃ s0 s k, found = some s0 ∧ r = some s ∧ decrypt A s0 pw = .ok k ∧ encryptWith A k newPw o.costs = .ok s ∧ decrypt A s newPw = .ok k := by
  unfold KeyGen.repass at h
  rw [if_pos hp] at h
  cases found with
  | none => cases h
  | some s0 =>
    simp only [tryDecrypt] at h
    cases hd : decrypt A s0 pw with
    | error e => rw [hd] at h; cases h
    | ok k =>
      rw [hd] at h
      simp only [encrypt, Option.getD_some] at h
      cases he : encryptWith A k newPw o.costs with
      | error e => rw [he] at h; cases h
      | ok s =>
        rw [he] at h
        cases h
        obtain ⟨-, -, -, hdec, -⟩ := encrypt_form L (used_ok (costs_used o)) he
        exact ⟨s0, s, k, rfl, rfl, hd, he, hdec⟩

/-- **C65**: the printed public key is the one of the printed encrypted key. -/
theorem keygen_printed {r : Bytes × Bytes} (h : keygen A C nh utf8 db iter io now n o pw newPw gen = (db', .ok r)) : pubkeyOf r.1 = .ok r.2 := by
  obtain ⟨f, e, -, -, hr⟩ := keygen_run h
  cases hr with
  | shown _ _ _ _ hp => exact hp
  | made _ _ hs => obtain ⟨h1, h2, -⟩ := keygen_setup hs; rw [h1]; exact h2
  | given _ _ _ _ hs => obtain ⟨h1, h2, -⟩ := keygen_setup hs; rw [h1]; exact h2

/-- **C65**: the printed encrypted key opens with the password that was given last, unless the check was skipped for a key that was not made now. -/
theorem keygen_opens (L : Ident.Laws A) {r : Bytes × Bytes} (h : keygen A C nh utf8 db iter io now n o pw newPw gen = (db', .ok r))
    (hcheck : o.noCheck = false ∨ o.newPass = true) : ∃ k, decrypt A r.1 (if o.newPass then newPw else pw) = .ok k ∧ A.pubkey k = r.2 := by
  have hp := keygen_printed h
  have key : ∃ k, decrypt A r.1 (if o.newPass then newPw else pw) = .ok k := by
    obtain ⟨f, e, hf, hrp, hr⟩ := keygen_run h
    have hch : ∀ s, e = some s → o.checked A s (o.password pw newPw) = .ok () → ∃ k, decrypt A s (o.password pw newPw) = .ok k := by
      rintro s rfl hs
      rcases hcheck with hc | hc
      · rcases checked_ok hs with h | h
        · rw [hc] at h; cases h
        · exact h
      · obtain ⟨s0, s', k, -, h2, -, -, h4⟩ := repass_ok L hc hrp
        cases h2
        refine ⟨k, ?_⟩
        unfold KeyGen.password
        rw [if_pos hc]
        exact h4
    cases hr with
    | shown _ _ he hc _ => exact hch _ he hc
    | made _ hg hs =>
      rw [(keygen_setup hs).1]
      obtain ⟨-, -, -, hd, -⟩ := encrypt_form L (used_ok (costs_used o)) (generate_encrypts hg)
      exact ⟨gen, hd⟩
    | given _ _ he hc hs => rw [(keygen_setup hs).1]; exact hch _ he hc
  obtain ⟨k, hk⟩ := key
  refine ⟨k, hk, ?_⟩
  have := decrypt_matches L _ _ k hk
  rw [hp] at this
  injection this with this
  exact this.symm

/-- **C65**: without `--overwrite` an existing key is not touched. -/
theorem keygen_keeps (how : o.overwrite = false) {x : Bytes × Bytes} (hx : lookupEnckey C nh utf8 db iter now n = .ok (some x)) :
    (keygen A C nh utf8 db iter io now n o pw newPw gen).1 = db := by
  unfold keygen
  cases hf : o.found C nh utf8 db iter now n with
  | error e => rfl
  | ok found =>
    simp only
    cases hr : o.repass A found pw newPw with
    | error e => rfl
    | ok enckey =>
      simp only
      rw [if_neg (by rw [how]; decide)]
      split
      · rfl
      · cases enckey with
        | some s =>
          simp only
          cases o.checked A s (o.password pw newPw) with
          | error e => rfl
          | ok u => cases pubkeyOf s <;> rfl
        | none =>
          simp only
          cases hg : o.generate A gen (o.password pw newPw) with
          | error e => rfl
          | ok s =>
            simp only
            unfold KeyGen.setup
            cases hl : o.noLk with
            | true => rw [if_pos rfl]; cases pubkeyOf s <;> rfl
            | false =>
              exfalso
              have hnone : found = none := by
                unfold KeyGen.repass at hr
                split at hr
                · cases found with
                  | none => cases hr
                  | some s0 =>
                    simp only at hr
                    cases hd : tryDecrypt A s0 pw with
                    | error e => rw [hd] at hr; cases hr
                    | ok k =>
                      rw [hd] at hr
                      simp only at hr
                      cases he : encrypt A k newPw (some o.costs) with
                      | error e => rw [he] at hr; cases hr
                      | ok s' => rw [he] at hr; cases hr
                · cases hr; rfl
              subst hnone
              unfold KeyGen.found at hf
              cases hk : o.enckey with
              | some k => rw [hk] at hf; cases hf
              | none =>
                rw [hk] at hf
                simp only at hf
                rw [if_neg (by rw [hl]; decide), hx] at hf
                simp only at hf
                split at hf <;> cases hf

/-- **C65**: a name that has a key is refused if it must not have one, and nothing is changed. -/
theorem keygen_some_refused (hk : o.enckey = none) (hl : o.noLk = false) (hs : o.errorSome = true) {x : Bytes × Bytes}
    (hx : lookupEnckey C nh utf8 db iter now n = .ok (some x)) : keygen A C nh utf8 db iter io now n o pw newPw gen = (db, .error .err) := by
  unfold keygen KeyGen.found
  simp [hk, hl, hx, hs]

/-- **C65**: a name that has no key is refused if it must have one, and nothing is changed. -/
theorem keygen_none_refused (hk : o.enckey = none) (hl : o.noLk = false) (hs : o.errorNone = true)
    (hx : lookupEnckey C nh utf8 db iter now n = .ok none) : keygen A C nh utf8 db iter io now n o pw newPw gen = (db, .error .err) := by
  unfold keygen KeyGen.found
  simp [hk, hl, hx, hs]

/-- **C65**: that a name must not have a key does not matter if it has none. -/
theorem keygen_some_allowed (b : Bool) (hx : lookupEnckey C nh utf8 db iter now n = .ok none) :
    keygen A C nh utf8 db iter io now n { o with errorSome := b } pw newPw gen = keygen A C nh utf8 db iter io now n o pw newPw gen := by
  have : ({ o with errorSome := b } : KeyGen).found C nh utf8 db iter now n = o.found C nh utf8 db iter now n := by
    unfold KeyGen.found
    simp only [hx]
  unfold keygen
  rw [this]
  rfl

/-- **C65**: that a name must have a key does not matter if it has one. -/
theorem keygen_none_allowed (b : Bool) {x : Bytes × Bytes} (hx : lookupEnckey C nh utf8 db iter now n = .ok (some x)) :
    keygen A C nh utf8 db iter io now n { o with errorNone := b } pw newPw gen = keygen A C nh utf8 db iter io now n o pw newPw gen := by
  have : ({ o with errorNone := b } : KeyGen).found C nh utf8 db iter now n = o.found C nh utf8 db iter now n := by
    unfold KeyGen.found
    simp only [hx]
  unfold keygen
  rw [this]
  rfl

/-- **C65**: a change of the password without `--overwrite` is printed and not saved. -/
theorem repass_unsaved (L : Ident.Laws A) (how : o.overwrite = false) (hp : o.newPass = true) :
    (keygen A C nh utf8 db iter io now n o pw newPw gen).1 = db ∧
      ∀ r, (keygen A C nh utf8 db iter io now n o pw newPw gen).2 = .ok r →
        ∃ s0 k, o.found C nh utf8 db iter now n = .ok (some s0) ∧ decrypt A s0 pw = .ok k ∧ decrypt A r.1 newPw = .ok k := by
  have hdb : (keygen A C nh utf8 db iter io now n o pw newPw gen).1 = db := by
    unfold keygen
    cases hf : o.found C nh utf8 db iter now n with
    | error e => rfl
    | ok found =>
      simp only
      cases hr : o.repass A found pw newPw with
      | error e => rfl
      | ok enckey =>
        obtain ⟨s0, s, k, rfl, rfl, h1, h2, h3⟩ := repass_ok L hp hr
        simp only
        rw [if_neg (by rw [how]; decide)]
        split
        · rfl
        · cases o.checked A s (o.password pw newPw) with
          | error e => rfl
          | ok u => cases pubkeyOf s <;> rfl
  refine ⟨hdb, fun r hr => ?_⟩
  obtain ⟨f, e, hf, hrp, hrun⟩ := keygen_run (Prod.ext hdb hr)
  obtain ⟨s0, s, k, rfl, rfl, h1, h2, h3⟩ := repass_ok L hp hrp
  refine ⟨s0, k, hf, h1, ?_⟩
  cases hrun with
  | shown _ _ he _ _ => cases he; exact h3
  | made hor _ _ =>
    rcases hor with ⟨h, -⟩ | ⟨-, h⟩
    · rw [how] at h; cases h
    · cases h
  | given h => rw [how] at h; cases h

/-- **C65**: with `--overwrite` and no given key, what is set up is the generated key, even if a new password was asked for the old one. -/
theorem overwrite_generates (L : Ident.Laws A) (how : o.overwrite = true) (hk : o.enckey = none) {r : Bytes × Bytes}
    (h : keygen A C nh utf8 db iter io now n o pw newPw gen = (db', .ok r)) :
    r.2 = A.pubkey gen ∧ decrypt A r.1 (if o.newPass then newPw else pw) = .ok gen := by
  obtain ⟨f, e, -, -, hrun⟩ := keygen_run h
  cases hrun with
  | shown h' => rw [how] at h'; cases h'
  | given _ h' => exact absurd hk h'
  | made _ hg hs =>
    obtain ⟨h1, h2, -⟩ := keygen_setup hs
    obtain ⟨-, -, -, hd, hpk⟩ := encrypt_form L (used_ok (costs_used o)) (generate_encrypts hg)
    rw [h1]
    refine ⟨?_, hd⟩
    rw [hpk] at h2
    injection h2 with h2
    exact h2.symm

/-- **C65**: a given key with a new password is set up as the same key under that password. -/
theorem overwrite_repass (L : Ident.Laws A) (how : o.overwrite = true) {s0 : Bytes} (hk : o.enckey = some s0) (hp : o.newPass = true) {r : Bytes × Bytes}
    (h : keygen A C nh utf8 db iter io now n o pw newPw gen = (db', .ok r)) :
    ∃ k, decrypt A s0 pw = .ok k ∧ decrypt A r.1 newPw = .ok k ∧ r.2 = A.pubkey k := by
  have hpr := keygen_printed h
  obtain ⟨f, e, hf, hrp, hrun⟩ := keygen_run h
  obtain ⟨s1, s, k, rfl, rfl, h1, h2, h3⟩ := repass_ok L hp hrp
  unfold KeyGen.found at hf
  rw [hk] at hf
  cases hf
  have hs : r.1 = s := by
    cases hrun with
    | shown h' => rw [how] at h'; cases h'
    | given _ _ he _ hs => cases he; exact (keygen_setup hs).1
    | made hor _ _ =>
      rcases hor with ⟨-, h⟩ | ⟨h, -⟩
      · rw [hk] at h; cases h
      · rw [how] at h; cases h
  rw [hs] at hpr ⊢
  refine ⟨k, h1, h3, ?_⟩
  have := decrypt_matches L _ _ k h3
  rw [hpr] at this
  injection this

/-- **C65**: a key made for a name that had none opens later with the password.  Partial: if no point is made at the place of the name in the meantime. -/
theorem keygen_created_partial (L : Ident.Laws A) (hC : C.Laws) (hnh : nh.length = 32) (hu : AsciiOkay utf8) (hn : Name.ofComps comps = .ok n)
    (h1 : 1 < now) (h2 : now' < 2 ^ 64) (hle : now ≤ now') (hc : Consistent db) (hw : AllShow db) (hff : NoOnesKey db)
    (hlk : o.noLk = false) (hk : o.enckey = none) (hnone : lookupClaim C nh db iter now n = .ok none) {r : Bytes × Bytes}
    (h : keygen A C nh utf8 db iter io now n o pw newPw gen = (db', .ok r))
    (hq : Calm db (List.replicate 32 0) (List.replicate 13 0 ++ ascii "lns") (claimsOf comps) now now')
    (hcol : ∀ s, encrypt A gen pw (some o.costs) = .ok s → ∀ e ∈ db.log, e.2.hash ≠ C.hash (keyClaim comps (A.pubkey gen) s).layout) :
    r.2 = A.pubkey gen ∧ identity A C nh utf8 db' iter' now' n none pw = .ok gen := by
  obtain ⟨f, e, hf, hrp, hrun⟩ := keygen_run h
  have hfn : f = none := by
    unfold KeyGen.found lookupEnckey at hf
    rw [hk, hnone] at hf
    simp only at hf
    rw [if_neg (by rw [hlk]; decide)] at hf
    split at hf <;> cases hf
    rfl
  subst hfn
  have hnp : o.newPass = false := by
    cases hp : o.newPass with
    | false => rfl
    | true => obtain ⟨_, _, _, h', -⟩ := repass_ok L hp hrp; cases h'
  have hen : e = none := by
    unfold KeyGen.repass at hrp
    rw [if_neg (by rw [hnp]; decide)] at hrp
    cases hrp; rfl
  subst hen
  have hpw : o.password pw newPw = pw := by unfold KeyGen.password; rw [if_neg (by rw [hnp]; decide)]
  cases hrun with
  | shown _ _ he => cases he
  | given _ h' => exact absurd hk h'
  | @made s _ _ _ hg hs =>
    rw [hpw] at hg
    obtain ⟨e1, e2, -, e3⟩ := keygen_setup hs
    have he := generate_encrypts hg
    obtain ⟨hr, hd, hp⟩ := encrypt_read L hu (costs_used o) he
    have hset := e3 hlk
    unfold setupNamed at hset
    simp only [hp] at hset
    obtain ⟨hl, -, hsave⟩ := setup_steps hn hset
    have hfr := (local_none_iff_partial C nh iter hn hl h1 (by omega) hc hw hff).1 hnone
    have hke := setup_enckey_partial (now' := now') (utf8 := utf8) hC hnh hn (L.pub_len gen) h1 (by omega) hc hw hff (fun e hm hh => absurd hh (hcol s he e hm)) hset (by omega) h2 iter' (by
      rintro f hf ⟨t, ht, t1, t2, t3, t4⟩ hcr
      rw [(tuple_point ht).2.2.2] at hcr
      rcases hq f hf t ht t1 t2 t3 with hlt | hge
      · exact absurd ⟨t, ht, t1, t2, t3, nofun, hlt⟩ (hfr f hf)
      · omega) hr
    refine ⟨(save_steps hn hl (L.pub_len gen) hsave).1, ?_⟩
    unfold identity
    rw [hke]
    simp only [tryDecrypt, hd]

end

/-! ### cases -/

/-- Bytes below 128 are a string. -/
def plain (b : Bytes) : Bool := b.all (fun x => decide (x.toNat < 128))
theorem plain_ok : AsciiOkay plain := fun _ h => List.all_eq_true.2 fun x hx => decide_eq_true (h x hx)

/-- Two keys of the toy library. -/
instance : DecidableEq toyLib.Key := inferInstanceAs (DecidableEq UInt8)
def keyFive : toyLib.Key := (5 : UInt8)
def keySix : toyLib.Key := (6 : UInt8)
theorem toy_keys : ∀ j k : toyLib.Key, toyLib.pubkey j = toyLib.pubkey k → j = k := by
  intro (j : UInt8) (k : UInt8) (h : List.replicate 31 (0 : UInt8) ++ [j] = List.replicate 31 0 ++ [k])
  exact List.singleton_inj.1 (List.append_cancel_left h)

/-- The key of `me:local` is created. -/
def openMe : Db × LRes toyLib.Key := lkKey toyLib mixCrypto header0 plain {} id (fun _ => .ok) 100 nameMe (ascii "secret") true keyFive

/-- `lk_key_creates_partial` on an empty database. -/
theorem openMe_ok : ∃ db', openMe = (db', .ok keyFive) :=
  lk_key_creates_partial toyLib_laws mixCrypto_laws nameMe_of (by unfold IsLocal; decide) (by decide) (by decide) (by decide) empty_good.1 empty_good.2.1 empty_good.2.2
    nofun nofun (fun _ => rfl) nofun (fun c h1 h2 => by rw [h2 (by decide)]; rfl)

/-- `reopen_partial`: at any later time, with any other generated key. -/
example (now' : Nat) (h : 100 ≤ now') (h' : now' < 2 ^ 64) (create : Bool) (g : toyLib.Key) :
    (lkKey toyLib mixCrypto header0 plain openMe.1 id (fun _ => .ok) now' nameMe (ascii "secret") create g).2 = .ok keyFive := by
  obtain ⟨db', he⟩ := openMe_ok
  have h1 : openMe.1 = db' := by rw [he]
  rw [h1, reopen_partial (io' := fun _ => .ok) (iter' := id) (create' := create) (gen' := g) toyLib_laws mixCrypto_laws (by decide) plain_ok nameMe_of (by unfold IsLocal; decide)
    (by decide) h' h empty_good.1 empty_good.2.1 empty_good.2.2 he nofun (fun _ _ => nofun)]

/-- `reopen_other_partial`, and with another password the key does not open. -/
example (now' : Nat) (h : 100 ≤ now') (h' : now' < 2 ^ 64) (pw' : Bytes) (j : toyLib.Key)
    (hj : (lkKey toyLib mixCrypto header0 plain openMe.1 id (fun _ => .ok) now' nameMe pw' true keySix).2 = .ok j) : j = keyFive := by
  obtain ⟨db', he⟩ := openMe_ok
  have h1 : openMe.1 = db' := by rw [he]
  rw [h1] at hj
  refine (reopen_other_partial toyLib_laws toy_keys mixCrypto_laws (by decide) plain_ok nameMe_of (by decide) h' h empty_good.1 empty_good.2.1 empty_good.2.2
    ?_ he nofun (fun _ _ => nofun) pw').2.2 j hj
  decide +kernel
example : (lkKey toyLib mixCrypto header0 plain openMe.1 id (fun _ => .ok) 200 nameMe (ascii "guess") true keySix).2.isOk = false := by decide +kernel
/-- A name that has no key is not given one unasked. -/
example : (lkKey toyLib mixCrypto header0 plain openMe.1 id (fun _ => .ok) 200 nameYou (ascii "secret") false keySix).2.isOk = false := by decide +kernel

/-- **C65**: `keygen --overwrite --new-pass` for an existing key: what is printed and saved is another key. -/
theorem repass_replaces :
    ∃ r, (keygen toyLib mixCrypto header0 plain openMe.1 id (fun _ => .ok) 300 nameMe { overwrite := true, newPass := true } (ascii "secret") (ascii "fresh") keySix).2 = .ok r ∧
      identity toyLib mixCrypto header0 plain openMe.1 id 250 nameMe none (ascii "secret") = .ok keyFive ∧
      decrypt toyLib r.1 (ascii "fresh") = .ok keySix := by
  refine ⟨(enckeyText ⟨131072, 4, 4⟩ (List.replicate 31 0 ++ [6]) (xor32 ((ascii "fresh" ++ List.replicate 32 7).take 32) (List.replicate 32 6)),
    List.replicate 31 0 ++ [6]), by decide +kernel, by decide +kernel, by decide +kernel⟩

/-- **C65**: `keygen --new-pass`: afterwards the old password still opens the key, and the new one does not. -/
theorem repass_forgotten :
    let k := keygen toyLib mixCrypto header0 plain openMe.1 id (fun _ => .ok) 300 nameMe { newPass := true } (ascii "secret") (ascii "fresh") keySix
    k.2.isOk = true ∧ identity toyLib mixCrypto header0 plain k.1 id 350 nameMe none (ascii "secret") = .ok keyFive ∧
      (identity toyLib mixCrypto header0 plain k.1 id 350 nameMe none (ascii "fresh")).isOk = false := by
  refine ⟨by decide +kernel, by decide +kernel, by decide +kernel⟩

/-- **C64**: nothing ties the key of a claim's text to the key of its `pubkey@` link. -/
theorem claim_keys_differ :
    let text := enckeyText ⟨8, 1, 1⟩ (List.replicate 31 0 ++ [5]) (xor32 (List.replicate 32 7) (List.replicate 32 5))
    let db := (setupKeyclaim mixCrypto header0 {} id (fun _ => .ok) 100 nameMe text (some key7) false).1
    lookupPubkey mixCrypto header0 db id 200 nameMe = .ok (some key7) ∧
      (lkKey toyLib mixCrypto header0 plain db id (fun _ => .ok) 200 nameMe [] false keySix).2 = .ok keyFive ∧ toyLib.pubkey keyFive ≠ key7 := by
  refine ⟨by decide +kernel, by decide +kernel, by decide +kernel⟩

/-- **C64**: a text with too long costs is accepted when it is set up, and then not found. -/
theorem long_costs_lost :
    let text := enckeyText ⟨4294967295, 4294967295, 1⟩ (List.replicate 31 0 ++ [5]) (xor32 (List.replicate 32 7) (List.replicate 32 5))
    let k := keygen toyLib mixCrypto header0 plain {} id (fun _ => .ok) 100 nameMe { overwrite := true, enckey := some text } [] [] keySix
    k.2 = .ok (text, List.replicate 31 0 ++ [5]) ∧ lookupEnckey mixCrypto header0 plain k.1 id 200 nameMe = .ok none := by
  refine ⟨by decide +kernel, by decide +kernel⟩

/-- `keygen_some_refused`, `keygen_none_refused`. -/
example : keygen toyLib mixCrypto header0 plain openMe.1 id (fun _ => .ok) 300 nameMe { errorSome := true } (ascii "secret") [] keySix = (openMe.1, .error .err) :=
  keygen_some_refused rfl rfl rfl (x := (List.replicate 31 0 ++ [5], enckeyText ⟨131072, 4, 4⟩ (List.replicate 31 0 ++ [5]) (xor32 ((ascii "secret" ++ List.replicate 32 7).take 32) (List.replicate 32 5)))) (by decide +kernel)
example : keygen toyLib mixCrypto header0 plain {} id (fun _ => .ok) 300 nameMe { errorNone := true } (ascii "secret") [] keySix = ({}, .error .err) :=
  keygen_none_refused rfl rfl rfl (by decide +kernel)

/-- A claim of `me:local` whose encrypted key is said to be in a packet with other data. -/
def elsewhere : NetParts :=
  ⟨List.replicate 32 0, List.replicate 32 2, (Content.link ⟨privateGroup, lnsDomain, 3,
    [⟨List.replicate 9 0 ++ ascii "pubkey@", key5⟩, ⟨List.replicate 10 0 ++ ascii "enckey", List.replicate 32 1⟩, ⟨List.replicate 15 0 ++ ascii "^", List.replicate 32 8⟩],
    rootedOf (ascii "claims" :: exMe.reverse), []⟩).parts⟩
def otherData : NetParts := ⟨List.replicate 32 0, List.replicate 32 1, (Content.data (ascii "no key")).parts⟩

deriving instance DecidableEq for Claim

/-- `bad_link_fails`. -/
example : lkKey toyLib mixCrypto header0 plain (saved [otherData, elsewhere]) id (fun _ => .ok) 200 nameMe [] true keyFive = (saved [otherData, elsewhere], .error .err) := by
  have none_good : ∀ d, readEnckey plain d = none → ¬ ∃ l, FirstLine d l ∧ plain l = true ∧ ∃ k, pubkeyOf l = .ok k := by
    rintro d h ⟨l, h1, h2, k, h3⟩
    rw [(read_enckey_iff _ _ k l).2 ⟨h1, h2, h3⟩] at h
    cases h
  refine bad_link_fails (cl := ⟨elsewhere, nameMe⟩) (by decide +kernel) (saved_consistent _) (none_good _ (by decide +kernel))
    (a := [⟨List.replicate 9 0 ++ ascii "pubkey@", key5⟩]) (b := [⟨List.replicate 15 0 ++ ascii "^", List.replicate 32 8⟩])
    (l := ⟨List.replicate 10 0 ++ ascii "enckey", List.replicate 32 1⟩) (by decide +kernel) (by decide) (by decide)
    (e := (100, otherData)) (by decide +kernel) (by decide) (none_good _ (by decide +kernel))

end Verif.Props
