import Verif.Lemmas.Spot
import Verif.Model.Votes
/-!
# The newest point at a place, asked for without a depth
-/
namespace Verif.Query
open Verif Verif.Pkt Verif.Tree Verif.Pred Verif.Env Verif.Spec Verif.Props

/-- One group, one domain, one key, and a prefix. -/
def dgskAbs (g d : Bytes) (pc : List Bytes) (k : Bytes) : Abs :=
  { ((Abs.default.addSet .domain .equal (num _ d)).addSet .group .equal (num _ g)).addSet .pubkey .equal (num _ k) with pc := pc }

theorem seek_hits {asc : Bool} {q : TreeKeys} (hq : q.Live) {lb kx : Bytes} {vx : List Bytes} (hx : Hit q kx)
    (hin : ∀ v ∈ vx, q.cstamp.contains (createOf v) = true) {n : Nat} {c : Cur} {vs : List Bytes}
    (hT : Tbl asc ((c.key, vs) :: c.after)) (hv : orient asc vs = c.val :: c.more) (hm : (kx, vx) ∈ (c.key, vs) :: c.after)
    (hno : ∀ e ∈ (c.key, vs) :: c.after, bytesLt e.1 kx = true → ¬ Hit q e.1 ∧ look q lb e.1 ≠ .ok .over ∧
      ∀ b, look q lb e.1 = .ok (.jump b) → bytesLt kx b = false)
    {S : Sought} (h : seek asc q lb n c = .ok S) : ∃ c', S = .found c' ∧ c'.key = kx ∧ orient asc vx = c'.val :: c'.more := by
  induction n generalizing c vs with
  | zero => cases h
  | succ n ih =>
    have hT' : Tbl asc c.after := hT.suffix (A := [(c.key, vs)])
    have gt : ∀ e ∈ c.after, bytesLt c.key e.1 = true := (List.pairwise_cons.1 hT.sorted).1
    unfold seek at h
    simp only at h
    rcases List.mem_cons.1 hm with he | he
    · cases he
      rcases look_cases hq lb c.key with ⟨hl, -⟩ | ⟨hh, -⟩
      · rw [hl] at h
        simp only at h
        have hi : q.cstamp.iterCmp (createOf c.val) = .inside := (inside_iff _ _).2 (hin _ (mem_orient.1 (by rw [hv]; exact List.mem_cons_self)))
        have : nextStamp q.cstamp c.key c.after c.val c.more = some c := by
          unfold nextStamp
          rw [hi]
        rw [this] at h
        cases h
        exact ⟨c, rfl, rfl, hv⟩
      · exact absurd hx hh
    · have hlt := gt _ he
      obtain ⟨n1, n2, n3⟩ := hno (c.key, vs) List.mem_cons_self hlt
      rcases look_cases hq lb c.key with ⟨-, hh⟩ | ⟨-, hl | ⟨b, hl⟩⟩
      · exact absurd hh n1
      · exact absurd hl n2
      · rw [hl] at h
        simp only at h
        have hb := n3 b hl
        split at h
        · have hd := List.takeWhile_append_dropWhile (p := fun e : Bytes × List Bytes => bytesLt e.1 b) (l := c.after)
          have htw := takeWhile_lt (b := b) (T := c.after)
          obtain ⟨A, hA⟩ : ∃ A, A = c.after.takeWhile (fun e => bytesLt e.1 b) := ⟨_, rfl⟩
          obtain ⟨D, hD⟩ : ∃ D, D = c.after.dropWhile (fun e => bytesLt e.1 b) := ⟨_, rfl⟩
          rw [← hA] at hd htw
          rw [← hD] at hd
          have hTD : Tbl asc D := by rw [← hd] at hT'; exact hT'.suffix
          have hmD : (kx, vx) ∈ D := by
            rw [← hd] at he
            rcases List.mem_append.1 he with h1 | h1
            · have := htw _ h1
              simp only at this
              rw [hb] at this; cases this
            · exact h1
          unfold setRange at h
          rw [← hD] at h
          cases hse : seat asc D with
          | none => rw [seat_none hTD hse] at hmD; cases hmD
          | some c1 =>
            rw [hse] at h
            simp only at h
            obtain ⟨vs1, h1, h2⟩ := seat_some hse
            refine ih (by rw [h1] at hTD; exact hTD) h2 (by rw [← h1]; exact hmD) ?_ h
            intro e he'
            refine hno e (List.mem_cons_of_mem _ ?_)
            rw [← hd, h1]
            exact List.mem_append_right _ he'
        · cases h

theorem tree_unique {T : Table} (hs : T.Pairwise (fun a b => bytesLt a.1 b.1 = true)) {k : Bytes} {a b : List Bytes}
    (ha : (k, a) ∈ T) (hb : (k, b) ∈ T) : a = b := by
  induction T with
  | nil => cases ha
  | cons e T ih =>
    obtain ⟨h1, h2⟩ := List.pairwise_cons.1 hs
    rcases List.mem_cons.1 ha with rfl | ha'
    · rcases List.mem_cons.1 hb with h | hb'
      · cases h; rfl
      · have := h1 _ hb'
        rw [bytesLt_irrefl] at this; cases this
    · rcases List.mem_cons.1 hb with rfl | hb'
      · have := h1 _ ha'
        rw [bytesLt_irrefl] at this; cases this
      · exact ih h2 ha' hb'

section
variable {g d : Bytes} {pc : List Bytes} {k : Bytes}

theorem dgsk_pubkey (v : BitVec 256) : ((dgskAbs g d pc k).set .pubkey).Mem v ↔ v = num 256 k := eq_mem (w := 256) (by decide) _ v
theorem dgsk_group (v : BitVec 256) : ((dgskAbs g d pc k).set .group).Mem v ↔ v = num 256 g := eq_mem (w := 256) (by decide) _ v
theorem dgsk_domain (v : BitVec 128) : ((dgskAbs g d pc k).set .domain).Mem v ↔ v = num 128 d := eq_mem (w := 128) (by decide) _ v
theorem dgsk_other {f : VF} (h1 : f ≠ .pubkey) (h2 : f ≠ .group) (h3 : f ≠ .domain) :
    (dgskAbs g d pc k).set f = TestSet.default f.width := by
  simp [dgskAbs, Abs.addSet, h1, h2, h3, Abs.default]

/-- Nothing is left to test in the packet. -/
theorem dgsk_rest : restTests (dgskAbs g d pc k).preds treeChecked = [] := by
  have hd : ∀ f, f ≠ .pubkey → f ≠ .group → f ≠ .domain → (dgskAbs g d pc k).preds.fieldTest f = [] := by
    intro f h1 h2 h3
    unfold Preds.fieldTest
    have : (dgskAbs g d pc k).preds.set f = TestSet.default f.width := dgsk_other (pc := pc) h1 h2 h3
    rw [this]
    have : compileTest (TestSet.default f.width) = none := by
      unfold compileTest
      rw [if_pos rfl]
    rw [this]
  unfold restTests
  have : VF.order.filter (fun f => !treeChecked f) = [.type, .netflags, .hop, .stamp, .ubits 0, .ubits 1, .ubits 2, .ubits 3, .size] := by decide
  rw [this]
  simp only [List.flatMap_cons, List.flatMap_nil]
  simp only [hd _ (by decide : VF.type ≠ _) (by decide) (by decide), hd _ (by decide : VF.netflags ≠ _) (by decide) (by decide),
    hd _ (by decide : VF.hop ≠ _) (by decide) (by decide), hd _ (by decide : VF.stamp ≠ _) (by decide) (by decide),
    hd _ (by decide : VF.ubits 0 ≠ _) (by decide) (by decide), hd _ (by decide : VF.ubits 1 ≠ _) (by decide) (by decide),
    hd _ (by decide : VF.ubits 2 ≠ _) (by decide) (by decide), hd _ (by decide : VF.ubits 3 ≠ _) (by decide) (by decide),
    hd _ (by decide : VF.size ≠ _) (by decide) (by decide), List.append_nil]

theorem dgsk_live : (dgskAbs g d pc k).Live := by
  refine ⟨fun f => ?_, ⟨0, (default_mem 64 0).1⟩, ?_⟩
  · by_cases h1 : f = .pubkey
    · subst h1; exact ⟨_, (dgsk_pubkey _).2 rfl⟩
    by_cases h2 : f = .group
    · subst h2; exact ⟨_, (dgsk_group _).2 rfl⟩
    by_cases h3 : f = .domain
    · subst h3; exact ⟨_, (dgsk_domain _).2 rfl⟩
    rw [dgsk_other h1 h2 h3]
    exact ⟨0, default_mem _ _⟩
  · rw [isValid_iff]; exact ⟨⟨0, default_mem _ _⟩, .inl ⟨0, default_mem _ _⟩⟩

theorem dgsk_inSet (s : QScope) (i : Nat) : InSet ((dgskAbs g d pc k).state s) i := default_mem 32 _

theorem dgsk_preds (g d : Bytes) (cs : List Bytes) (k : Bytes) : Lns.dgsk d g (rootedOf cs) k = (dgskAbs g d cs k).preds := by
  have h : (Lns.dgsk d g (rootedOf cs) k).set = (dgskAbs g d cs k).set := by
    funext f
    cases f <;> rfl
  show Preds.mk (Lns.dgsk d g (rootedOf cs) k).set _ _ _ = Preds.mk (dgskAbs g d cs k).set _ _ _
  rw [h]
  rfl

/-- The search through the tree ends. -/
theorem dgsk_total (hsp : IsSpace (encodeSpace pc) pc) {db : Db} (hc : Consistent db) (hw : AllProper db)
    (hff : k = List.replicate 32 255 ∨ ∀ i p t, (i, p) ∈ db.log → HasTuple p t → t.pubkey ≠ List.replicate 32 255) (asc : Bool) :
    ∃ q g0 d0 n0 k0 es, treeKeys (dgskAbs g d pc k).preds asc = .ok q ∧ q.Live ∧ q.domain = (dgskAbs g d pc k).set .domain ∧
      q.group = (dgskAbs g d pc k).set .group ∧ q.pubkey = (dgskAbs g d pc k).set .pubkey ∧ spaceOf q.rspace = encodeSpace pc ∧
      q.cstamp = stampRange ((dgskAbs g d pc k).set .create).bound asc ∧ (∀ i, BitSet.has q.depth i = true ↔ i ≤ 8) ∧ Least q g0 d0 n0 k0 ∧
      q.lowerBound = .ok (be g0 ++ be d0 ++ [UInt8.ofNat n0] ++ (spaceOf q.rspace ++ be k0)) ∧
      Moves q (be g0 ++ be d0 ++ [UInt8.ofNat n0] ++ (spaceOf q.rspace ++ be k0))
        (From db.tree (be g0 ++ be d0 ++ [UInt8.ofNat n0] ++ (spaceOf q.rspace ++ be k0))) ∧
      treeEntries db.tree asc (dgskAbs g d pc k).preds = .ok es := by
  obtain ⟨q, hq, hql, e1, e2, e3, e4, e5, e6⟩ := treeKeys_spec (dgskAbs g d pc k) dgsk_live asc
  have mn : ∀ i, BitSet.has q.depth i = true ↔ i ≤ 8 := by
    intro i
    rw [e6, dgsk_other (by decide) (by decide) (by decide)]
    exact and_iff_left (default_mem 8 _)
  obtain ⟨g0, d0, n0, k0, hle, hlb⟩ := lowerBound_spec hql ⟨0, (mn 0).2 (by omega)⟩
  have hT := tbl_of hc hw asc
  have hmv : Moves q (be g0 ++ be d0 ++ [UInt8.ofNat n0] ++ (spaceOf q.rspace ++ be k0))
      (From db.tree (be g0 ++ be d0 ++ [UInt8.ofNat n0] ++ (spaceOf q.rspace ++ be k0))) := by
    refine moves_of hql hsp e4 (by rintro x ⟨⟨vs, hv⟩, -⟩; exact hT.keys _ hv) (hff.imp (fun h1 => ?_) (fun h1 => ?_))
    · rw [e3]; exact (dgsk_pubkey _).2 (by rw [h1])
    · rintro x t ⟨⟨vs, hv⟩, -⟩ hxt
      obtain ⟨h2, -⟩ := hc.dupSorted x vs hv
      obtain ⟨v, hv'⟩ := List.exists_mem_of_ne_nil _ h2
      obtain ⟨i, p, hp, hpe⟩ := (hc.treeLog x v).1 ⟨vs, hv, hv'⟩
      obtain ⟨u, hu⟩ := proper_entry (hw i p hp) hpe
      have hk' : KeyOf x u := keyOf_pkt hu hpe
      have := h1 i p u hp hu
      rwa [← hk'.keyPubkey, hxt.keyPubkey] at this
  obtain ⟨es, hes⟩ := treeEntries_total (dgskAbs g d pc k) dgsk_live (dgsk_inSet _ _) hT hq hlb hmv
  exact ⟨q, g0, d0, n0, k0, es, hq, hql, e1, e2, e3, e4, e5, mn, hle, hlb, hmv, hes⟩

/-- Nothing before the place sends the search beyond it, if no space of the same depth comes before that of the place. -/
theorem dgsk_look {q : TreeKeys} (hq : q.Live) (hg : g.length = 32) (hd : d.length = 16) (hk : k.length = 32) (hsp : IsSpace (encodeSpace pc) pc) (h8 : pc.length ≤ 8)
    (mg : ∀ v, q.group.Mem v ↔ v = num 256 g) (md : ∀ v, q.domain.Mem v ↔ v = num 128 d) (mk : ∀ v, q.pubkey.Mem v ↔ v = num 256 k)
    (e4 : spaceOf q.rspace = encodeSpace pc) (mn : ∀ i, BitSet.has q.depth i = true ↔ i ≤ 8)
    {kx x : Bytes} {tx t : TreeTuple} (hkx : KeyOf kx tx) (x1 : tx.group = g) (x2 : tx.domain = d) (x3 : tx.space = pc) (x4 : tx.pubkey = k)
    (hx : KeyOf x t) (hlt : bytesLt x kx = true) (hge : bytesLt x (g ++ d ++ [UInt8.ofNat 0] ++ (spaceOf q.rspace ++ k)) = false)
    (hal : t.group = g → t.domain = d → t.space.length = pc.length → bytesLt (encodeSpace t.space) (encodeSpace pc) = false) :
    ¬ Hit q x ∧ look q (g ++ d ++ [UInt8.ofNat 0] ++ (spaceOf q.rspace ++ k)) x ≠ .ok .over ∧
      ∀ b, look q (g ++ d ++ [UInt8.ofNat 0] ++ (spaceOf q.rspace ++ k)) x = .ok (.jump b) → bytesLt kx b = false := by
  have lbe : ∀ v : BitVec 256, (be v).length = 32 := fun v => be_length v
  have lbd : ∀ v : BitVec 128, (be v).length = 16 := fun v => be_length v
  have ng : (num 256 g).toNat = beNat g := num_toNat (by rw [hg]; decide)
  have nd : (num 128 d).toNat = beNat d := num_toNat (by rw [hd]; decide)
  have nk : (num 256 k).toNat = beNat k := num_toNat (by rw [hk]; decide)
  have nt : (num 256 t.pubkey).toNat = beNat t.pubkey := num_toNat (by rw [hx.pubkey]; decide)
  have t8 := hx.depth
  have hnn : (UInt8.ofNat t.space.length).toNat = t.space.length := by simp; omega
  have hge' : ¬ bytesLt x (g ++ d ++ [UInt8.ofNat 0] ++ (spaceOf q.rspace ++ k)) = true := by rw [hge]; nofun
  rw [jump_lt hx hg hd] at hge'
  have hc := (key_cmp hx hkx).1 hlt
  rw [x1, x2, x3, x4] at hc
  have sg : t.group = g := by
    rcases hc with h | ⟨h, -⟩
    · exact absurd (.inl h) hge'
    · exact h
  have sd : t.domain = d := by
    rcases hc with h | ⟨-, h | ⟨h, -⟩⟩
    · exact absurd (.inl h) hge'
    · exact absurd (.inr ⟨sg, .inl h⟩) hge'
    · exact h
  have hc' : t.space.length < pc.length ∨ (t.space = pc ∧ beNat t.pubkey < beNat k) := by
    rcases hc with h | ⟨-, h | ⟨-, h | ⟨h, h'⟩⟩⟩
    · rw [sg] at h; omega
    · rw [sd] at h; omega
    · exact .inl h
    · rw [bytesLt_enc _ _ hx.space.comps hsp.comps h, hal sg sd h, Bool.false_or, Bool.and_eq_true, decide_eq_true_iff,
        bytesLt_beNat (hx.pubkey.trans hk.symm)] at h'
      exact .inr h'
  have hlook := look_jump (lb := g ++ d ++ [UInt8.ofNat 0] ++ (spaceOf q.rspace ++ k)) (D0 := d)
    (R := spaceOf q.rspace ++ k) (x0 := UInt8.ofNat 0) hq hsp e4
    (by
      simp only [List.append_assoc]
      rw [List.drop_append_of_le_length (by rw [hg]; omega), List.drop_of_length_le (by rw [hg]; omega), List.nil_append])
    (by
      have : (g ++ d ++ [UInt8.ofNat 0] ++ (spaceOf q.rspace ++ k)) = (g ++ d) ++ ([UInt8.ofNat 0] ++ (spaceOf q.rspace ++ k)) := by simp
      rw [this, List.drop_append_of_le_length (by simp [hg, hd]), List.drop_of_length_le (by simp [hg, hd]), List.nil_append])
    (by rw [List.drop_append_of_le_length (by simp [hg, hd]), List.drop_of_length_le (by simp [hg, hd]), List.nil_append])
    (by rw [e4]; simp [hg, hd, hk]; omega) hx
  have hgm := (mg _).2 rfl
  have hdm := (md _).2 rfl
  have hkm := (mk _).2 rfl
  refine ⟨fun hh => ?_, fun ho => ?_, fun b hb => ?_⟩
  · obtain ⟨-, -, h3, -, h5⟩ := (hit_iff hsp e4 hx).1 hh
    rcases hc' with h | ⟨h, h'⟩
    · have := h5.length_le; omega
    · have := (mk _).1 h3
      rw [this] at nt; omega
  · have := hlook.1 ho _ hgm
    rw [sg] at this; omega
  · rw [Bool.eq_false_iff]
    intro hcon
    rcases hlook.2 b hb with ⟨gv, a1, a2, a3⟩ | ⟨a2, a3⟩ | ⟨dv, a1, a2, a3⟩ | ⟨-, -, a2, y, a4, a3, a5⟩ | ⟨a0, ⟨kv, a1, a2, a3⟩ | ⟨a2, a3⟩⟩
    · have := a2 _ hgm (by rw [sg]; omega)
      rw [sg] at a1; omega
    · have := a2 _ hdm
      rw [sd] at this; omega
    · have := a2 _ hdm (by rw [sd]; omega)
      rw [sd] at a1; omega
    · rcases hc' with h | ⟨h, h'⟩
      · have := a5 ((mn _).2 t8) pc.length h ((mn _).2 h8)
        rw [a3, jump_lt hkx hx.group hx.domain, x1, x2, x3, x4, sg, sd, e4, bytesLt_irrefl] at hcon
        rcases hcon with l | ⟨-, l | ⟨-, l | ⟨-, l⟩⟩⟩
        · omega
        · omega
        · omega
        · cases l
      · rcases a2 with a2 | a2
        · rw [(mn _).2 t8] at a2; cases a2
        · exact a2 (by rw [h]; exact List.prefix_refl _)
    · rw [a3, jump_lt hkx hx.group hx.domain, x1, x2, x3, x4, sg, sd, hnn] at hcon
      rcases hc' with h | ⟨h, h'⟩
      · rcases hcon with l | ⟨-, l | ⟨-, l | ⟨l, -⟩⟩⟩ <;> omega
      · have := a2 _ hkm (by omega)
        rw [h, bytesLt_append_left, bytesLt_be (by decide) kv hk] at hcon
        rcases hcon with l | ⟨-, l | ⟨-, l | ⟨-, l⟩⟩⟩ <;> omega
    · rw [a3, jump_lt hkx hx.group hx.domain, x1, x2, x3, x4, sg, sd, hnn] at hcon
      rcases hc' with h | ⟨h, h'⟩
      · rcases hcon with l | ⟨-, l | ⟨-, l | ⟨l, -⟩⟩⟩ <;> omega
      · have := a2 _ hkm
        omega

/-- Whatever is found is a point of that group, domain and key, in the space or below it. -/
theorem dgsk_within (hg : g.length = 32) (hd : d.length = 16) (hk : k.length = 32) (hsp : IsSpace (encodeSpace pc) pc)
    {db : Db} (hc : Consistent db) (hw : AllProper db)
    (hff : k = List.replicate 32 255 ∨ ∀ i p t, (i, p) ∈ db.log → HasTuple p t → t.pubkey ≠ List.replicate 32 255) (asc : Bool) :
    ∃ r, queryFirst db asc (dgskAbs g d pc k).preds = .ok r ∧
      ∀ e, r = some e → e ∈ db.log ∧ ∃ t, HasTuple e.2 t ∧ t.group = g ∧ t.domain = d ∧ t.pubkey = k ∧ pc <+: t.space := by
  obtain ⟨q, g0, d0, n0, k0, es, hq, hql, e1, e2, e3, e4, e5, mn, hle, hlb, hmv, hes⟩ := dgsk_total (g := g) (d := d) hsp hc hw hff asc
  have hT := tbl_of hc hw asc
  obtain ⟨q', hq', hf⟩ := treeEntries_spec (dgskAbs g d pc k) dgsk_live (dgsk_inSet _ _) hT hes (strict := False) (fun _ _ _ _ h => h.elim)
  rw [hq] at hq'; cases hq'
  unfold queryFirst
  rw [tree_first hes]
  cases es with
  | nil => exact ⟨none, rfl, nofun⟩
  | cons e es =>
    simp only [List.head?_cons]
    obtain ⟨m1, -, m3⟩ := hf.mem (e := e) List.mem_cons_self
    obtain ⟨p, t, hp, ht, hpe⟩ := entry_pkt hc hw m3
    rw [(logGet_iff _ hc.logSorted _ _).2 hp]
    refine ⟨_, rfl, ?_⟩
    rintro x hx
    cases hx
    refine ⟨hp, t, ht, ?_⟩
    have hkt := keyOf_pkt ht hpe
    obtain ⟨h1, h2, h3, -, h5⟩ := (hit_iff hsp e4 hkt).1 m1
    rw [e2] at h1
    rw [e1] at h2
    rw [e3] at h3
    replace h1 := (dgsk_group _).1 h1
    replace h2 := (dgsk_domain _).1 h2
    replace h3 := (dgsk_pubkey _).1 h3
    exact ⟨num_inj (hkt.group.trans hg.symm) (by rw [hkt.group]; decide) h1, num_inj (hkt.domain.trans hd.symm) (by rw [hkt.domain]; decide) h2,
      num_inj (hkt.pubkey.trans hk.symm) (by rw [hkt.pubkey]; decide) h3, h5⟩

/-- The newest, or oldest, point at a place that has one, if no space of the same depth comes before that of the place. -/
theorem dgsk_first (hg : g.length = 32) (hd : d.length = 16) (hk : k.length = 32) (hsp : IsSpace (encodeSpace pc) pc) (h8 : pc.length ≤ 8)
    {db : Db} (hc : Consistent db) (hw : AllProper db)
    (hff : k = List.replicate 32 255 ∨ ∀ i p t, (i, p) ∈ db.log → HasTuple p t → t.pubkey ≠ List.replicate 32 255)
    (hal : ∀ i p t, (i, p) ∈ db.log → HasTuple p t → t.group = g → t.domain = d → t.space.length = pc.length →
      bytesLt (encodeSpace t.space) (encodeSpace pc) = false)
    (hex : ∃ e ∈ db.log, AtPlace g d pc k e.2) (asc : Bool) :
    ∃ e, queryFirst db asc (dgskAbs g d pc k).preds = .ok (some e) ∧
      FirstOf db (fun e => AtPlace g d pc k e.2) (fun e f => TreeBefore asc e.2 f.2) (some e) := by
  obtain ⟨q, g0, d0, n0, k0, es, hq, hql, e1, e2, e3, e4, e5, mn, hle, hlb, hmv, -⟩ := dgsk_total (g := g) (d := d) hsp hc hw hff asc
  have hT := tbl_of hc hw asc
  have mg : ∀ v, q.group.Mem v ↔ v = num 256 g := by intro v; rw [e2]; exact dgsk_group v
  have md : ∀ v, q.domain.Mem v ↔ v = num 128 d := by intro v; rw [e1]; exact dgsk_domain v
  have mk : ∀ v, q.pubkey.Mem v ↔ v = num 256 k := by intro v; rw [e3]; exact dgsk_pubkey v
  have hn0 : n0 = 0 := Nat.le_zero.1 (hle.depth.2 0 ((mn 0).2 (by omega)))
  have hg0 : be g0 = g := by rw [(mg _).1 hle.group.1]; exact be_num (by decide) hg
  have hd0 : be d0 = d := by rw [(md _).1 hle.domain.1]; exact be_num (by decide) hd
  have hk0 : be k0 = k := by rw [(mk _).1 hle.pubkey.1]; exact be_num (by decide) hk
  rw [hg0, hd0, hk0, hn0] at hlb hmv
  obtain ⟨⟨i0, p0⟩, hp0, t0, ht0, x1, x2, x3, x4⟩ := hex
  obtain ⟨x, hx, -⟩ := tree_entry_fields ht0 i0 (hc.stamps _ _ hp0)
  obtain ⟨vx, hvx, hxv⟩ := (hc.treeLog x.key x.val).2 ⟨i0, p0, hp0, hx⟩
  have hkx : KeyOf x.key t0 := keyOf_pkt ht0 hx
  have hit : Hit q x.key := by
    refine (hit_iff hsp e4 hkx).2 ⟨(mg _).2 (by rw [x1]), (md _).2 (by rw [x2]), (mk _).2 (by rw [x4]), (mn _).2 hkx.depth, ?_⟩
    rw [x3]; exact List.prefix_refl _
  have hge : bytesLt x.key (g ++ d ++ [UInt8.ofNat 0] ++ (spaceOf q.rspace ++ k)) = false := by
    rw [Bool.eq_false_iff]
    intro h
    rw [jump_lt hkx hg hd, x1, x2, x3, x4, e4, bytesLt_irrefl] at h
    have : (UInt8.ofNat 0).toNat = 0 := rfl
    rw [this] at h
    rcases h with l | ⟨-, l | ⟨-, l | ⟨-, l⟩⟩⟩
    · omega
    · omega
    · omega
    · cases l
  obtain ⟨D, hD⟩ : ∃ D, D = db.tree.dropWhile (fun e => bytesLt e.1 (g ++ d ++ [UInt8.ofNat 0] ++ (spaceOf q.rspace ++ k))) := ⟨_, rfl⟩
  have hdd := List.takeWhile_append_dropWhile (p := fun e : Bytes × List Bytes => bytesLt e.1 (g ++ d ++ [UInt8.ofNat 0] ++ (spaceOf q.rspace ++ k)))
    (l := db.tree)
  have hfr := dropWhile_from (lb := g ++ d ++ [UInt8.ofNat 0] ++ (spaceOf q.rspace ++ k)) hc.treeSorted
  have htw := takeWhile_lt (b := g ++ d ++ [UInt8.ofNat 0] ++ (spaceOf q.rspace ++ k)) (T := db.tree)
  rw [← hD] at hdd hfr
  have hTD : Tbl asc D := by rw [← hdd] at hT; exact hT.suffix
  have hsub : ∀ e ∈ D, e ∈ db.tree := by
    intro e he
    rw [← hdd]
    exact List.mem_append_right _ he
  have hmD : (x.key, vx) ∈ D := by
    rw [← hdd] at hvx
    rcases List.mem_append.1 hvx with h | h
    · have := htw _ h
      simp only at this
      rw [hge] at this; cases this
    · exact h
  cases hse : seat asc D with
  | none => rw [seat_none hTD hse] at hmD; cases hmD
  | some c =>
    obtain ⟨vs, h1, h2⟩ := seat_some hse
    rw [h1] at hTD hmD hfr hsub
    obtain ⟨S, hS⟩ := seek_total hql hmv (n := c.after.length + 1) hTD (fun e he => ⟨⟨e.2, hsub e he⟩, hfr e he⟩) (by omega)
    have hno : ∀ e ∈ (c.key, vs) :: c.after, bytesLt e.1 x.key = true → ¬ Hit q e.1 ∧
        look q (g ++ d ++ [UInt8.ofNat 0] ++ (spaceOf q.rspace ++ k)) e.1 ≠ .ok .over ∧
        ∀ b, look q (g ++ d ++ [UInt8.ofNat 0] ++ (spaceOf q.rspace ++ k)) e.1 = .ok (.jump b) → bytesLt x.key b = false := by
      intro e he hlt
      obtain ⟨h3, -⟩ := hc.dupSorted e.1 e.2 (hsub e he)
      obtain ⟨v, hv'⟩ := List.exists_mem_of_ne_nil _ h3
      obtain ⟨i, p, hp, hpe⟩ := (hc.treeLog e.1 v).1 ⟨e.2, hsub e he, hv'⟩
      obtain ⟨u, hu⟩ := proper_entry (hw i p hp) hpe
      exact dgsk_look hql hg hd hk hsp h8 mg md mk e4 mn hkx x1 x2 x3 x4 (keyOf_pkt hu hpe) hlt (hfr e he) (hal i p u hp hu)
    have hall : ∀ v, eok (dgskAbs g d pc k).preds v = true := by
      intro v
      refine (entry_spec (dgskAbs g d pc k) dgsk_live v).2.2 ⟨?_, (default_mem 64 _).1, ?_, ?_, ?_⟩ <;>
      · rw [dgsk_other (by decide) (by decide) (by decide)]; exact default_mem _ _
    obtain ⟨c', rfl, ck, co⟩ := seek_hits hql hit (by
      intro v _
      rw [e5]
      exact eok_contains (dgskAbs g d pc k) dgsk_live asc v (hall v)) hTD h2 hmD hno hS
    have hbf : ∃ ex, branchFirst (dgskAbs g d pc k).preds q.cstamp 0#32 c'.val c'.more = .ok (some c'.val, ex) := by
      unfold branchFirst
      rw [(entry_spec (dgskAbs g d pc k) dgsk_live c'.val).1, hall]
      simp only
      rcases memberNext_cases ((dgskAbs g d pc k).state .branch) (mask_hasAny_of_test (default_mem 32 0).2) 0#32 with ⟨-, hn⟩ | ⟨b, n', hn, hb, -⟩
      · exact absurd (dgsk_inSet .branch 0) (hn 0 (Nat.le_refl _))
      · have : b = true := hb.2 (default_mem 32 _)
        subst this
        have hn' : ((dgskAbs g d pc k).preds.state .branch).memberNext true 0#32 = .ok (some (true, n')) := hn
        rw [hn']
        exact ⟨_, rfl⟩
    obtain ⟨ex, hbf⟩ := hbf
    have htf : treeFirst db.tree asc (dgskAbs g d pc k).preds = .ok (some ⟨x.key, c'.val⟩) := by
      unfold treeFirst
      have : spentAt ((dgskAbs g d pc k).preds.state .branch) 0#32 = .ok false := spentAt_false _ (dgsk_inSet (g := g) (d := d) (pc := pc) (k := k) .branch _) _
      rw [this, hq]
      simp only
      rw [hlb]
      simp only
      unfold setRange
      rw [← hD, hse]
      simp only
      rw [hS]
      simp only
      unfold scanFirst
      rw [hbf, ck]
    have hcv : c'.val ∈ vx := mem_orient.1 (by rw [co]; exact List.mem_cons_self)
    obtain ⟨p, t, hp, ht, hpe⟩ := entry_pkt hc hw (e := ⟨x.key, c'.val⟩) ⟨vx, hvx, hcv⟩
    have hkt : KeyOf x.key t := keyOf_pkt (e := ⟨x.key, c'.val⟩) ht hpe
    have hspace : t.space = t0.space := by
      have := hkt.keySpace
      rw [hkx.keySpace] at this
      exact (Space.encode_inj hkx.space.comps hkt.space.comps this).symm
    refine ⟨((TreeValue.ofBytes c'.val).logptr, p), ?_, hp, ⟨t, ht, ?_, ?_, hspace.trans x3, ?_⟩, ?_⟩
    · unfold queryFirst
      rw [htf]
      simp only
      rw [(logGet_iff _ hc.logSorted _ _).2 hp]
    · rw [← hkt.keyGroup, hkx.keyGroup, x1]
    · rw [← hkt.keyDomain, hkx.keyDomain, x2]
    · rw [← hkt.keyPubkey, hkx.keyPubkey, x4]
    · rintro ⟨j, f⟩ hf ⟨u, hu, y1, y2, y3, y4⟩
      obtain ⟨y, hy, -⟩ := tree_entry_fields hu j (hc.stamps _ _ hf)
      have hku : KeyOf y.key u := keyOf_pkt hu hy
      have hkey : y.key = x.key := by
        rw [hku.form, hkx.form, y1, y2, y3, y4, x1, x2, x3, x4]
      obtain ⟨vy, hvy, hyv⟩ := (hc.treeLog y.key y.val).2 ⟨j, f, hf, hy⟩
      have hvv : vy = vx := by
        rw [hkey] at hvy
        exact tree_unique hc.treeSorted hvy hvx
      rw [hvv] at hyv
      have hyv' := (mem_orient (asc := asc)).2 hyv
      rw [co] at hyv'
      rcases List.mem_cons.1 hyv' with h | h
      · left
        have : y = ⟨x.key, c'.val⟩ := by cases y; simp only at hkey h; rw [hkey, h]
        rw [this] at hy
        obtain ⟨z, hz, -, -, -, -, -, -, -, z8, -⟩ := tree_entry_fields hu j (hc.stamps _ _ hf)
        rw [hy] at hz
        cases hz
        simp only at z8
        rw [← z8] at hf ⊢
        rw [log_at hc hf hp]
      · right
        refine entry_before hc hp ht hpe hf hu hy (.inr ⟨hkey.symm, ?_⟩)
        have hs := (hc.dupSorted x.key vx hvx).2
        cases asc with
        | true =>
          unfold orient at co
          simp only [if_true] at co ⊢
          rw [co] at hs
          exact (List.pairwise_cons.1 hs).1 _ h
        | false =>
          unfold orient at co
          simp only [Bool.false_eq_true, if_false] at co ⊢
          have hs' := List.pairwise_reverse.2 hs
          rw [co] at hs'
          exact (List.pairwise_cons.1 hs').1 _ h

end
end Verif.Query
