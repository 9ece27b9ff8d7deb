import Verif.Lemmas.Tree9
import Verif.Props.Query
/-!
# C27, C28: tree queries
-/
namespace Verif.Props
open Verif Verif.Pkt Verif.Tree Verif.Pred Verif.Env Verif.Spec Verif.Query

/-! ## C27: only matching packets, in order, once -/

theorem treeBefore_irrefl {asc : Bool} {p : NetParts} : ¬ TreeBefore asc p p := by
  rintro ⟨a, b, ha, hb, h⟩
  obtain ⟨e, f, he, hf, h1, h2⟩ := tree_key_order ha hb 0 0
  rw [he] at hf; cases hf
  rcases h with h | ⟨-, h⟩
  · have := h1.2 h
    rw [bytesBefore_iff, bytesLt_irrefl] at this; cases this
  · obtain ⟨_, _, _, _, _, _, _, _, a1, a2, _⟩ := fromPkt_of_tuple ha 0
    obtain ⟨_, _, _, _, _, _, _, _, b1, b2, _⟩ := fromPkt_of_tuple hb 0
    have key : ∀ x y : TreeTuple, x.create = y.create → x.hash = y.hash → ¬ x.ValLt y := by
      intro x y e1 e2 h
      rcases h with h | ⟨-, h | ⟨-, h⟩⟩
      · rw [e1] at h; exact Nat.lt_irrefl _ h
      · rw [e2, bytesBefore_iff, bytesLt_irrefl] at h; cases h
      · exact h
    have e1 : a.create = b.create := a2.symm.trans b2
    have e2 : a.hash = b.hash := a1.trans b1.symm
    cases asc
    · exact key b a e1.symm e2.symm h
    · exact key a b e1 e2 h

/-- A tree query that answers, answers stored points that meet the statements, each once, by key and inside a key by
stamp and hash. The hypothesis on `i_branch`, which no limit on the entries of a key meets, is missing from C27; see
`branch_limit_strays`. -/
theorem tree_query_sound_partial {rs : List Stmt} {s : Preds} (h : Preds.default.run true rs = .ok s) (hr : ∀ r ∈ rs, Plain r)
    (hb : ∀ r ∈ rs, CountOk .branch r (2 ^ 32 - 1)) (hi : SomePosition .index rs)
    {db : Db} (hc : Consistent db) (hw : AllShow db) {asc : Bool} {nth n : BitVec 32} {out : List (Nat × NetParts)}
    (hq : query db ⟨.tree, asc⟩ s nth = .ok (out, n)) :
    (∃ sel, Counted rs nth.toNat sel out ∧ sel.Pairwise (fun e f => TreeBefore asc e.2 f.2) ∧
      ∀ e ∈ sel, e ∈ db.log ∧ Meets rs e.1 e.2 ∧ ∃ t, HasTuple e.2 t) ∧
    out.Nodup ∧ out.Pairwise (fun e f => TreeBefore asc e.2 f.2) ∧ ∀ e ∈ out, e ∈ db.log ∧ Meets rs e.1 e.2 := by
  obtain ⟨a, hl, hg, rfl⟩ := run_live h
  have hmax : InSet (a.state .branch) (2 ^ 32 - 1) := (run_inSet h .branch _).2 hb
  have hes : ∃ es, treeEntries db.tree asc a.preds = .ok es := by
    cases hes : treeEntries db.tree asc a.preds with
    | ok es => exact ⟨es, rfl⟩
    | error e =>
      unfold query candidates queryTree at hq
      simp only [hes] at hq
      cases hq
  obtain ⟨es, hes⟩ := hes
  obtain ⟨sel, out', n', h1, h2, h3, h4, -⟩ := tree_results h hl hg hr hc (allProper_allShow.2 hw) hmax hi hes nth
    (strict := False) (fun _ _ _ _ hf => hf.elim)
  rw [hq] at h1; cases h1
  have hsub : out.Sublist sel := by
    obtain ⟨mid, p1, p2⟩ := h2
    exact (picks_sublist p2).trans (picks_sublist p1)
  have hpw := h3.sublist hsub
  refine ⟨⟨sel, h2, h3, h4⟩, hpw.imp (fun hab he => ?_), hpw, fun e he => ?_⟩
  · subst he; exact treeBefore_irrefl hab
  · have := h4 e (hsub.subset he)
    exact ⟨this.1, this.2.1⟩

/-! ## C28: every matching packet

The full statement, for any statements: `sel` is exactly the stored link and key points that meet the statements. It is
false; the theorems give the statements for which it is known, and the counterexamples follow. -/

/-- What the three theorems answer. -/
def TreeAnswer (db : Db) (rs : List Stmt) (asc : Bool) (s : Preds) (nth : BitVec 32) : Prop :=
  ∃ sel out n, query db ⟨.tree, asc⟩ s nth = .ok (out, n) ∧ Counted rs nth.toNat sel out ∧
    sel.Pairwise (fun e f => TreeBefore asc e.2 f.2) ∧ ∀ e, e ∈ sel ↔ e ∈ db.log ∧ Meets rs e.1 e.2 ∧ ∃ t, HasTuple e.2 t

/-- What the three theorems ask of the statements: no limit inside a key, some position in the result, some depth, and,
backwards, more than one creation stamp. -/
structure TreeAsk (rs : List Stmt) (asc : Bool) : Prop where
  plain : ∀ r ∈ rs, Plain r
  branch : ∀ n, n < 2 ^ 32 → ∀ r ∈ rs, CountOk .branch r n
  index : SomePosition .index rs
  stamps : asc = true ∨ ∃ m n, m < n ∧ n < 2 ^ 64 ∧ Allowed rs .create m ∧ Allowed rs .create n
  depth : ∃ d, d ≤ 8 ∧ Allowed rs .depth d

/-- A point signed with the key of all ones is only a problem when it is not asked for. -/
def NoLastKey (db : Db) (rs : List Stmt) : Prop :=
  Allowed rs .pubkey (2 ^ 256 - 1) ∨ ∀ i p t, (i, p) ∈ db.log → HasTuple p t → t.pubkey ≠ List.replicate 32 255

/-- Statements that are not about the space and that allow every depth below one they allow. -/
theorem tree_query_any_depth_partial {rs : List Stmt} {s : Preds} (h : Preds.default.run true rs = .ok s) {asc : Bool} (ha : TreeAsk rs asc)
    (hs : NoSpace rs) (hd : ∀ m n, m ≤ n → n ≤ 8 → Allowed rs .depth n → Allowed rs .depth m)
    {db : Db} (hc : Consistent db) (hw : AllShow db) (hk : NoLastKey db rs) (nth : BitVec 32) : TreeAnswer db rs asc s nth := by
  obtain ⟨a, hl, hg, rfl⟩ := run_live h
  have hpc := run_nospace h hg hs
  refine tree_complete h hl hg ha.plain hc (allProper_allShow.2 hw) nth ha.branch ha.index ha.stamps ha.depth hk ?_
  intro q g0 d0 n0 k0 hq mg md mk mn hsp hle K hK
  have hn0 : n0 = 0 := by
    have h1 := (mn n0).1 hle.depth.1
    have h2 := hle.depth.2 0 ((mn 0).2 ⟨by omega, hd 0 n0 (by omega) h1.1 h1.2⟩)
    omega
  refine ⟨.inl (by rw [hpc, hn0]; rfl), ?_, ?_⟩
  · intro k t kk hkt _ _ hno d hyes
    apply Classical.byContradiction
    intro hge
    obtain ⟨h1, h2⟩ := (mn d).1 hyes
    have := (mn t.space.length).2 ⟨hkt.depth, hd _ d (by omega) h1 h2⟩
    rw [hno] at this; cases this
  · intro k k' t t' _ _ _ _ _ _ _ _ _ _ hp
    rw [hpc] at hp
    exact absurd List.nil_prefix hp

/-- One group and one domain, no statement about the space, and depths without gaps. If the space may not be empty, some
key in the lower part of the range must be allowed. -/
theorem tree_query_depths_partial {rs : List Stmt} {s : Preds} (h : Preds.default.run true rs = .ok s) {asc : Bool} (ha : TreeAsk rs asc)
    (hg1 : One rs .group) (hd1 : One rs .domain) (hs : NoSpace rs)
    (hd : ∀ l m n, l ≤ m → m ≤ n → n ≤ 8 → Allowed rs .depth l → Allowed rs .depth n → Allowed rs .depth m)
    (hkey : Allowed rs .depth 0 ∨ ∃ n, n < 2 ^ 248 ∧ Allowed rs .pubkey n)
    {db : Db} (hc : Consistent db) (hw : AllShow db) (hk : NoLastKey db rs) (nth : BitVec 32) : TreeAnswer db rs asc s nth := by
  obtain ⟨a, hl, hg, rfl⟩ := run_live h
  have hpc := run_nospace h hg hs
  refine tree_complete h hl hg ha.plain hc (allProper_allShow.2 hw) nth ha.branch ha.index ha.stamps ha.depth hk ?_
  intro q g0 d0 n0 k0 hq mg md mk mn hsp hle K hK
  have og : ∀ v, q.group.Mem v → v = g0 := fun v hv =>
    BitVec.eq_of_toNat_eq (hg1 _ _ v.isLt g0.isLt ((mg v).1 hv) ((mg g0).1 hle.group.1))
  have od : ∀ v, q.domain.Mem v → v = d0 := fun v hv =>
    BitVec.eq_of_toNat_eq (hd1 _ _ v.isLt d0.isLt ((md v).1 hv) ((md d0).1 hle.domain.1))
  obtain ⟨n1, n2⟩ := (mn n0).1 hle.depth.1
  refine ⟨?_, ?_, ?_⟩
  · rcases hkey with h0 | ⟨n, hn, h0⟩
    · left
      have := hle.depth.2 0 ((mn 0).2 ⟨by omega, h0⟩)
      rw [hpc]; simp; omega
    · right
      have e : (BitVec.ofNat 256 n).toNat = n := by rw [BitVec.toNat_ofNat]; omega
      have := hle.pubkey.2 (BitVec.ofNat 256 n) ((mk _).2 (by rw [e]; exact h0))
      omega
  · intro k t kk hkt x1 x2 hno d hyes
    apply Classical.byContradiction
    intro hge
    obtain ⟨h1, h2⟩ := (mn d).1 hyes
    obtain ⟨y1, -⟩ := from_low hle og od hkt x1 x2 (hK k kk)
    have := (mn t.space.length).2 ⟨hkt.depth, hd n0 _ d y1 (by omega) h1 n2 h2⟩
    rw [hno] at this; cases this
  · intro k k' t t' _ _ _ _ _ _ _ _ _ _ hp
    rw [hpc] at hp
    exact absurd List.nil_prefix hp

/-- One group, one domain and one depth, with any prefix. If the depth is more than that of the prefix, some key in the
lower part of the range must be allowed. -/
theorem tree_query_one_depth_partial {rs : List Stmt} {s : Preds} (h : Preds.default.run true rs = .ok s) {asc : Bool} (ha : TreeAsk rs asc)
    (hg1 : One rs .group) (hd1 : One rs .domain) (hn1 : ∀ m n, m ≤ 8 → n ≤ 8 → Allowed rs .depth m → Allowed rs .depth n → m = n)
    (hkey : (∃ r ∈ rs, r.kind = .spacename) ∨ ∃ n, n < 2 ^ 248 ∧ Allowed rs .pubkey n)
    {db : Db} (hc : Consistent db) (hw : AllShow db) (hk : NoLastKey db rs) (nth : BitVec 32) : TreeAnswer db rs asc s nth := by
  obtain ⟨a, hl, hg, rfl⟩ := run_live h
  refine tree_complete h hl hg ha.plain hc (allProper_allShow.2 hw) nth ha.branch ha.index ha.stamps ha.depth hk ?_
  intro q g0 d0 n0 k0 hq mg md mk mn hsp hle K hK
  have og : ∀ v, q.group.Mem v → v = g0 := fun v hv =>
    BitVec.eq_of_toNat_eq (hg1 _ _ v.isLt g0.isLt ((mg v).1 hv) ((mg g0).1 hle.group.1))
  have od : ∀ v, q.domain.Mem v → v = d0 := fun v hv =>
    BitVec.eq_of_toNat_eq (hd1 _ _ v.isLt d0.isLt ((md v).1 hv) ((md d0).1 hle.domain.1))
  obtain ⟨n1, n2⟩ := (mn n0).1 hle.depth.1
  have on : ∀ d, BitSet.has q.depth d = true → d = n0 := by
    intro d hd
    obtain ⟨h1, h2⟩ := (mn d).1 hd
    exact hn1 _ _ h1 n1 h2 n2
  refine ⟨?_, ?_, ?_⟩
  · rcases hkey with ⟨r, hr, hrk⟩ | ⟨n, hn, h0⟩
    · left
      exact (run_spacename h hl hg ha.plain hr hrk n0 n2).symm
    · right
      have e : (BitVec.ofNat 256 n).toNat = n := by rw [BitVec.toNat_ofNat]; omega
      have := hle.pubkey.2 (BitVec.ofNat 256 n) ((mk _).2 (by rw [e]; exact h0))
      omega
  · intro k t kk hkt x1 x2 hno d hyes
    obtain ⟨y1, -⟩ := from_low hle og od hkt x1 x2 (hK k kk)
    have := on d hyes
    rcases Nat.lt_or_ge n0 t.space.length with h1 | h1
    · omega
    · have : t.space.length = d := by omega
      rw [← this, hno] at hyes; cases hyes
  · intro k k' t t' kk kk' hkt hkt' x1 x2 hlt sg sd x4 hp
    exact one_depth hg.space hsp hle og od on hkt hkt' x1 x2 (hK k kk) hlt sg sd x4 hp

/-! ## Cases -/

/-- A signed point. -/
def exKeyPkt (k : UInt8) (space : List Bytes) (stamp : Nat) (h : UInt8) : NetParts :=
  ⟨List.replicate 32 0, List.replicate 32 h, (Content.key (exLink space stamp) (List.replicate 32 k) (List.replicate 64 9)).parts⟩

theorem exKeyPkt_has (k : UInt8) (space : List Bytes) (stamp : Nat) (h : UInt8) (hs : IsSpace (encodeSpace space) space)
    (h8 : space.length ≤ 8) (hst : stamp < 2 ^ 64) (hr : Rooted.checkComponents (rootedOf space) = .ok ())
    (hz : (Content.key (exLink space stamp) (List.replicate 32 k) (List.replicate 64 9)).size ≤ 65024) :
    ∃ t, HasTuple (exKeyPkt k space stamp h) t :=
  ⟨⟨List.replicate 32 5, List.replicate 16 6, space, List.replicate 32 k, stamp, List.replicate 32 h⟩, exLink space stamp,
    ⟨hs, h8, .inl rfl⟩, rfl, rfl, rfl, rfl, .inr ⟨List.replicate 64 9, rfl,
      ⟨hz, ⟨List.length_replicate, List.length_replicate, hst, (by intro l hl; cases hl), hr⟩, List.length_replicate, List.length_replicate⟩,
      List.length_replicate, List.length_replicate⟩⟩

/-- A database with these packets, received from stamp 100 on. -/
def saved (ps : List NetParts) : Db := runSaves {} [⟨fun _ => .ok, 100, ps.map (fun p => (p, .pending))⟩]
theorem saved_consistent (ps : List NetParts) : Consistent (saved ps) := saves_consistent _

def fieldStmt (f : VF) (op : TestOp) (n : Nat) : Stmt := ⟨.field f, op, [(none, beBytes f.bytes n)]⟩
def groupIs : Stmt := ⟨.field .group, .equal, [(none, List.replicate 32 5)]⟩
def domainIs : Stmt := ⟨.field .domain, .equal, [(none, List.replicate 16 6)]⟩
def prefixIs (cs : List Bytes) : Stmt := ⟨.pre, .equal, cs.map (fun c => (some .fslash, c))⟩
def spaceIs (cs : List Bytes) : Stmt := ⟨.spacename, .equal, cs.map (fun c => (some .fslash, c))⟩

/-- What a query answers in the order of the hashes, which by `hash_query_partial` is everything that meets the
statements, and in the two orders of the tree. -/
def three (db : Db) (rs : List Stmt) : List (Option (List Nat)) :=
  [ask db ⟨.hash, true⟩ rs, ask db ⟨.tree, true⟩ rs, ask db ⟨.tree, false⟩ rs]

/-- `/b`, `/a/z`, `/b/c`. -/
def exSpaces : Db := saved [exPkt [[98]] 7 1, exPkt [[97], [122]] 7 2, exPkt [[98], [99]] 7 3]
/-- `/a` twice, at different times. -/
def exTwice : Db := saved [exPkt [[97]] 7 1, exPkt [[97]] 8 2]
/-- `/a` and `/b`, signed. -/
def exSigned : Db := saved [exKeyPkt 200 [[97]] 7 1, exKeyPkt 200 [[98]] 7 2]
/-- `/a` signed by two keys, one of them of all ones. -/
def exLastKey : Db := saved [exKeyPkt 255 [[97]] 7 1, exKeyPkt 3 [[97]] 8 2]

/-- C28 does not hold: a prefix query misses the deeper points when another space of that depth comes before. -/
theorem prefix_misses : three exSpaces [groupIs, domainIs, prefixIs [[98]]] = [some [100, 102], some [100], some [100]] := by decide +kernel
/-- C28 does not hold: at a fixed depth without a full name, a key whose first byte is more than the length of a component
puts the lower bound behind the points asked for. -/
theorem pubkey_misses : three exSigned [groupIs, domainIs, fieldStmt .depth .equal 1, fieldStmt .pubkey .equal (beNat (List.replicate 32 200))] =
    [some [100, 101], some [], some []] := by decide +kernel
/-- C28 does not hold: without group and domain, a shallow point makes the search jump over the next depth. -/
theorem depth_misses : three (saved [exPkt [[97]] 7 1, exPkt [[97], [98]] 7 2, exPkt [[97], [98], [99]] 7 3])
      [fieldStmt .depth .greater 1, fieldStmt .depth .less 4] = [some [101, 102], some [102], some [102]] ∧
    three (saved [exPkt [[97]] 7 1, exPkt [[97], [98]] 7 2, exPkt [[97], [98], [99]] 7 3]) [groupIs, domainIs, fieldStmt .depth .mask1 1] =
      [some [100, 102], some [100], some [100]] := by decide +kernel
/-- C28 does not hold: backwards, one creation stamp is only found when it is the last. -/
theorem stamp_misses : three exTwice [createStmt .equal 7] = [some [100], some [100], some []] := by decide +kernel
/-- With a limit inside a key, the search ends with a cursor that is not in place. -/
theorem branch_limit_strays : (match Preds.default.run true [limitStmt .branch .less 1] with
    | .ok s => (query exTwice ⟨.tree, true⟩ s 0#32 matches .error .stray)
    | .error _ => false) = true := by decide +kernel
/-- With a limit inside a key the answer can even hold packets of another group: once the key is used up and nothing of the
query comes after it, the search goes on from where the cursor stopped, without comparing the key again. The packets stored at
102 and 103 are of group 9, the query asks for group 5. -/
def exGroupPkt (g : UInt8) (stamp : Nat) (h : UInt8) : NetParts :=
  ⟨List.replicate 32 0, List.replicate 32 h, (Spec.Content.link { exLink [[97]] stamp with group := List.replicate 32 g }).parts⟩
theorem branch_limit_wrong_group : three (saved [exGroupPkt 5 7 1, exGroupPkt 5 8 2, exGroupPkt 9 9 3, exGroupPkt 9 10 4])
    [groupIs, limitStmt .branch .less 1] = [some [100, 101], some [100, 103], some [101, 102]] := by decide +kernel
/-- Depths that no point has are accepted, and the query panics. -/
theorem depth_panics : (match Preds.default.run true [fieldStmt .depth .greater 8] with
    | .ok s => (query exTwice ⟨.tree, true⟩ s 0#32 matches .error .panic)
    | .error _ => false) = true := by decide +kernel
/-- A stored point signed with the key of all ones makes a query for another key loop for ever. -/
theorem last_key_hangs : (match Preds.default.run true [fieldStmt .pubkey .equal (beNat (List.replicate 32 3))] with
    | .ok s => (query exLastKey ⟨.tree, true⟩ s 0#32 matches .error .hang)
    | .error _ => false) = true := by decide +kernel

/-- The three theorems have answers to give. -/
theorem ask_tree : three exSpaces [createStmt .less 9] = [some [100, 101, 102], some [100, 101, 102], some [100, 101, 102]] ∧
    three exTwice [createStmt .greater 3] = [some [100, 101], some [100, 101], some [101, 100]] ∧
    three exSpaces [groupIs, domainIs, fieldStmt .depth .greater 1] = [some [101, 102], some [101, 102], some [101, 102]] ∧
    three exSpaces [groupIs, domainIs, fieldStmt .depth .equal 2, prefixIs [[98]]] = [some [102], some [102], some [102]] ∧
    three exSigned [groupIs, domainIs, spaceIs [[98]], fieldStmt .pubkey .equal (beNat (List.replicate 32 200))] =
      [some [101], some [101], some [101]] := by decide +kernel

theorem allowed_cons {r : Stmt} {rs : List Stmt} {f : VF} {n : Nat} : Allowed (r :: rs) f n ↔ FieldOk f r n ∧ Allowed rs f n := by
  simp [Allowed]
theorem allowed_nil {f : VF} {n : Nat} : Allowed [] f n := nofun
theorem field_other {r : Stmt} {f g : VF} (hr : r.kind = .field g) (hf : f ≠ g) (n : Nat) : FieldOk f r n :=
  ⟨fun h => by rw [hr] at h; cases h; exact absurd rfl hf, fun _ h => (by rw [hr] at h; cases h), fun _ h => (by rw [hr] at h; cases h)⟩
theorem field_pre {r : Stmt} {f : VF} (hr : r.kind = .pre ∨ r.kind = .spacename) (hf : f ≠ .depth) (n : Nat) : FieldOk f r n :=
  ⟨fun h => (by rcases hr with hr | hr <;> rw [hr] at h <;> cases h), fun h => absurd h hf, fun h => absurd h hf⟩
theorem group_one {n : Nat} : FieldOk .group groupIs n → n = beNat (List.replicate 32 5) := by
  rintro ⟨h, -⟩
  obtain ⟨m, ⟨b, hb, x, hx, hm, hbx⟩, hn⟩ := h rfl
  have hb : List.replicate 32 5 = b := by
    rcases hb with hb | ⟨hb, _⟩
    · cases hb; rfl
    · cases hb
  subst hb
  have hn : n = m := hn
  rcases hbx with rfl | ⟨ds, _, _, hl, _⟩
  · rw [hn, hm]
  · rw [List.length_replicate] at hl; omega
theorem domain_one {n : Nat} : FieldOk .domain domainIs n → n = beNat (List.replicate 16 6) := by
  rintro ⟨h, -⟩
  obtain ⟨m, ⟨b, hb, _, hm⟩, hn⟩ := h rfl
  have hb : List.replicate 16 6 = b := by
    rcases hb with hb | ⟨hb, _⟩
    · cases hb; rfl
    · cases hb
  subst hb
  have hn : n = m := hn
  rw [hn, hm]
theorem depth_field {op : TestOp} {m : Nat} (hm : m < 256) {n : Nat} : FieldOk .depth (fieldStmt .depth op m) n ↔ Allows op n m := by
  have hb : beNat (beBytes 1 m) = m := beNat_beBytes 1 m (by omega)
  constructor
  · rintro ⟨h, -⟩
    obtain ⟨v, ⟨b, hb', _, hv⟩, hn⟩ := h rfl
    have : beBytes 1 m = b := by
      rcases hb' with hb' | ⟨hb', _⟩
      · cases hb'; rfl
      · cases hb'
    rw [← this, hb] at hv
    rwa [← hv]
  · intro h
    exact ⟨fun _ => ⟨m, ⟨beBytes 1 m, .inl rfl, by simp [VF.bytes, VF.width], hb.symm⟩, h⟩, nofun, nofun⟩
theorem field_plain {r : Stmt} {f : VF} (hr : r.kind = .field f) : Plain r :=
  ⟨fun h => (by rcases h with h | h <;> rw [hr] at h <;> cases h), fun h => (by rcases h with h | h <;> rw [hr] at h <;> cases h),
    fun h => (by rw [hr] at h; cases h)⟩

/-- `tree_query_one_depth_partial` on `/b`, `/a/z`, `/b/c`. -/
def exPointQuery : List Stmt := [groupIs, domainIs, fieldStmt .depth .equal 2, prefixIs [[98]]]

theorem exSpaces_shows : AllShow exSpaces := by
  apply allProper_allShow.1
  intro i p hp
  have hlog : exSpaces.log = [(100, exPkt [[98]] 7 1), (101, exPkt [[97], [122]] 7 2), (102, exPkt [[98], [99]] 7 3)] := by decide +kernel
  rw [hlog] at hp
  simp only [List.mem_cons, Prod.mk.injEq, List.not_mem_nil, or_false] at hp
  rcases hp with ⟨_, rfl⟩ | ⟨_, rfl⟩ | ⟨_, rfl⟩ <;>
    exact .inl ⟨_, exTuple_has _ _ _ ⟨by simp [ValidComps], rfl, by decide⟩ (by decide) (by decide) (by decide)⟩

theorem prefix_b : SpaceIs (prefixIs [[98]]).val [[98]] :=
  ⟨⟨by simp [ValidComps], rfl, by decide⟩, _, .inl rfl, .inr ⟨[[98]], rfl, rfl, by decide⟩⟩

theorem exPointQuery_meets : TreeAsk exPointQuery false ∧ One exPointQuery .group ∧ One exPointQuery .domain ∧
    (∀ m n, m ≤ 8 → n ≤ 8 → Allowed exPointQuery .depth m → Allowed exPointQuery .depth n → m = n) ∧
    (∃ n, n < 2 ^ 248 ∧ Allowed exPointQuery .pubkey n) ∧ NoLastKey exSpaces exPointQuery ∧ ∃ s, Preds.default.run true exPointQuery = .ok s := by
  have hall : ∀ P : Stmt → Prop, P groupIs → P domainIs → P (fieldStmt .depth .equal 2) → P (prefixIs [[98]]) → ∀ r ∈ exPointQuery, P r := by
    intro P h1 h2 h3 h4 r hr
    simp only [exPointQuery, List.mem_cons, List.not_mem_nil, or_false] at hr
    rcases hr with rfl | rfl | rfl | rfl
    · exact h1
    · exact h2
    · exact h3
    · exact h4
  have hany : ∀ f n, f ≠ .group → f ≠ .domain → f ≠ .depth → Allowed exPointQuery f n := by
    intro f n h1 h2 h3
    exact hall _ (field_other rfl h1 n) (field_other rfl h2 n) (field_other rfl h3 n) (field_pre (.inl rfl) h3 n)
  have hlim : ∀ q n, q ≠ .query → ∀ r ∈ exPointQuery, CountOk q r n := fun q n hq => countOk_absent hq (hall _ nofun nofun nofun nofun) n
  refine ⟨⟨hall _ (field_plain rfl) (field_plain rfl) (field_plain rfl) ⟨fun _ cs hcs => ?_, fun _ => rfl, nofun⟩,
      fun n _ => hlim .branch n nofun, ⟨0, by decide, hlim .index 0 nofun⟩,
      .inr ⟨0, 1, by omega, by decide, hany _ _ nofun nofun nofun, hany _ _ nofun nofun nofun⟩, 2, by omega, ?_⟩, ?_, ?_, ?_,
    ⟨0, Nat.two_pow_pos 248, hany _ _ nofun nofun nofun⟩, .inl (hany _ _ nofun nofun nofun), ?_⟩
  · obtain ⟨_, l, hl, hl'⟩ := hcs
    have hlen : l.length ≤ 1 := by
      rcases hl with hl | ⟨c, hc, hl⟩
      · rw [← hl]; decide
      · have := congrArg List.length hl
        simp only [prefixIs, List.length_map, List.length_cons, List.length_nil] at this
        omega
    rcases hl' with rfl | ⟨bs, rfl, rfl, h8⟩
    · rcases hl with hl | ⟨c, hc, hl⟩
      · cases hl
      · cases hl
    · exact h8
  · refine hall _ (field_other (f := .depth) (g := .group) rfl (by decide) _) (field_other (f := .depth) (g := .domain) rfl (by decide) _) ((depth_field (by omega)).2 rfl) ?_
    exact ⟨nofun, nofun, fun _ _ => ⟨[[98]], prefix_b, by decide⟩⟩
  · intro m n _ _ hm hn
    rw [group_one (hm _ (by simp [exPointQuery])), group_one (hn _ (by simp [exPointQuery]))]
  · intro m n _ _ hm hn
    rw [domain_one (hm _ (by simp [exPointQuery])), domain_one (hn _ (by simp [exPointQuery]))]
  · intro m n _ _ hm hn
    have h1 := (depth_field (by omega)).1 (hm (fieldStmt .depth .equal 2) (by simp [exPointQuery]))
    have h2 := (depth_field (by omega)).1 (hn (fieldStmt .depth .equal 2) (by simp [exPointQuery]))
    exact Eq.trans (b := 2) h1 (Eq.symm h2)
  · have h3 : (match Preds.default.run true exPointQuery with
      | .ok _ => true
      | .error _ => false) = true := by decide +kernel
    split at h3
    · rename_i s hs; exact ⟨s, hs⟩
    · cases h3

/-- `tree_query_depths_partial`. -/
def exDepthQuery : List Stmt := [groupIs, domainIs, fieldStmt .depth .greater 1]
theorem exDepthQuery_meets : TreeAsk exDepthQuery false ∧ One exDepthQuery .group ∧ One exDepthQuery .domain ∧ NoSpace exDepthQuery ∧
    (∀ l m n, l ≤ m → m ≤ n → n ≤ 8 → Allowed exDepthQuery .depth l → Allowed exDepthQuery .depth n → Allowed exDepthQuery .depth m) ∧
    (∃ n, n < 2 ^ 248 ∧ Allowed exDepthQuery .pubkey n) ∧ NoLastKey exSpaces exDepthQuery ∧ ∃ s, Preds.default.run true exDepthQuery = .ok s := by
  have hall : ∀ P : Stmt → Prop, P groupIs → P domainIs → P (fieldStmt .depth .greater 1) → ∀ r ∈ exDepthQuery, P r := by
    intro P h1 h2 h3 r hr
    simp only [exDepthQuery, List.mem_cons, List.not_mem_nil, or_false] at hr
    rcases hr with rfl | rfl | rfl
    · exact h1
    · exact h2
    · exact h3
  have hany : ∀ f n, f ≠ .group → f ≠ .domain → f ≠ .depth → Allowed exDepthQuery f n := by
    intro f n h1 h2 h3
    exact hall _ (field_other rfl h1 n) (field_other rfl h2 n) (field_other rfl h3 n)
  have hlim : ∀ q n, q ≠ .query → ∀ r ∈ exDepthQuery, CountOk q r n := fun q n hq => countOk_absent hq (hall _ nofun nofun nofun) n
  have hdep : ∀ n, Allowed exDepthQuery .depth n ↔ 1 < n := fun n =>
    ⟨fun h => (depth_field (by omega)).1 (h (fieldStmt .depth .greater 1) (by simp [exDepthQuery])),
      fun h => hall _ (field_other (f := .depth) (g := .group) rfl (by decide) _) (field_other (f := .depth) (g := .domain) rfl (by decide) _) ((depth_field (by omega)).2 h)⟩
  refine ⟨⟨hall _ (field_plain rfl) (field_plain rfl) (field_plain rfl),
      fun n _ => hlim .branch n nofun, ⟨0, by decide, hlim .index 0 nofun⟩,
      .inr ⟨0, 1, by omega, by decide, hany _ _ nofun nofun nofun, hany _ _ nofun nofun nofun⟩, 2, by omega, (hdep 2).2 (by omega)⟩, ?_, ?_,
    hall _ ⟨nofun, nofun⟩ ⟨nofun, nofun⟩ ⟨nofun, nofun⟩, ?_,
    ⟨0, Nat.two_pow_pos 248, hany _ _ nofun nofun nofun⟩, .inl (hany _ _ nofun nofun nofun), ?_⟩
  · intro m n _ _ hm hn
    rw [group_one (hm _ (by simp [exDepthQuery])), group_one (hn _ (by simp [exDepthQuery]))]
  · intro m n _ _ hm hn
    rw [domain_one (hm _ (by simp [exDepthQuery])), domain_one (hn _ (by simp [exDepthQuery]))]
  · intro l m n h1 h2 _ h3 h4
    rw [hdep] at h3 ⊢
    omega
  · have h3 : (match Preds.default.run true exDepthQuery with
      | .ok _ => true
      | .error _ => false) = true := by decide +kernel
    split at h3
    · rename_i s hs; exact ⟨s, hs⟩
    · cases h3

/-- `tree_query_any_depth_partial`. -/
def exGroupQuery : List Stmt := [groupIs, createStmt .less 9]
theorem exGroupQuery_meets : TreeAsk exGroupQuery true ∧ NoSpace exGroupQuery ∧
    (∀ m n, m ≤ n → n ≤ 8 → Allowed exGroupQuery .depth n → Allowed exGroupQuery .depth m) ∧
    NoLastKey exSpaces exGroupQuery ∧ (∃ s, Preds.default.run true exGroupQuery = .ok s) ∧
    three exSpaces exGroupQuery = [some [100, 101, 102], some [100, 101, 102], some [100, 101, 102]] := by
  have hall : ∀ P : Stmt → Prop, P groupIs → P (createStmt .less 9) → ∀ r ∈ exGroupQuery, P r := by
    intro P h1 h2 r hr
    simp only [exGroupQuery, List.mem_cons, List.not_mem_nil, or_false] at hr
    rcases hr with rfl | rfl
    · exact h1
    · exact h2
  have hany : ∀ f n, f ≠ .group → f ≠ .create → Allowed exGroupQuery f n := by
    intro f n h1 h2
    exact hall _ (field_other rfl h1 n) (field_other rfl h2 n)
  have hlim : ∀ q n, q ≠ .query → ∀ r ∈ exGroupQuery, CountOk q r n := fun q n hq => countOk_absent hq (hall _ nofun nofun) n
  refine ⟨⟨hall _ (field_plain rfl) (field_plain (f := .create) rfl), fun n _ => hlim .branch n nofun, ⟨0, by decide, hlim .index 0 nofun⟩,
      .inl rfl, 0, by omega, hany _ _ nofun nofun⟩, hall _ ⟨nofun, nofun⟩ ⟨nofun, nofun⟩, fun m _ _ _ _ => hany _ m nofun nofun,
    .inl (hany _ _ nofun nofun), ?_, by decide +kernel⟩
  have h3 : (match Preds.default.run true exGroupQuery with
    | .ok _ => true
    | .error _ => false) = true := by decide +kernel
  split at h3
  · rename_i s hs; exact ⟨s, hs⟩
  · cases h3

end Verif.Props
