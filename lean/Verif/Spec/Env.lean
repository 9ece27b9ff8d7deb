import Verif.Model.Env
import Verif.Spec.TreeKey
/-!
# Specification of the store

To its user the store is the sequence of received packets with their receive stamps, oldest first.
-/
namespace Verif.Spec
open Verif Verif.Pkt Verif.Env

/-- The packets of a batch that are new to a store: their hash is not known, nor is it that of an earlier packet of the batch. -/
def IsNew (known : List Bytes) (batch : List NetParts) (j : Nat) : Prop :=
  ∃ p, batch[j]? = some p ∧ p.hash ∉ known ∧ ∀ i q, i < j → batch[i]? = some q → q.hash ≠ p.hash

/-- The new packets of a batch, in the order of the batch. -/
def news (known : List Bytes) : List NetParts → List NetParts
  | [] => []
  | p :: r => if p.hash ∈ known then news known r else p :: news (p.hash :: known) r

/-- Consecutive stamps. -/
def stamped (start : Nat) : List NetParts → List (Nat × NetParts)
  | [] => []
  | p :: r => (start, p) :: stamped (start + 1) r

/-- The hashes of a store. -/
def hashesOf (log : List (Nat × NetParts)) : List Bytes := log.map (fun e => e.2.hash)

/-- The three tables say the same: the log is in order and without repeats, the hash index holds exactly the hashes
    of the log, each at its stamp, and the tree holds exactly the entries of the logged points, keys and values in order. -/
structure Consistent (db : Db) : Prop where
  logSorted : db.log.Pairwise (fun a b => a.1 < b.1)
  stamps : ∀ i p, (i, p) ∈ db.log → i < 2 ^ 64
  hashSorted : db.hash.Pairwise (fun a b => bytesLt a.1 b.1 = true)
  treeSorted : db.tree.Pairwise (fun a b => bytesLt a.1 b.1 = true)
  dupSorted : ∀ k vs, (k, vs) ∈ db.tree → vs ≠ [] ∧ vs.Pairwise (fun a b => bytesLt a b = true)
  hashLog : ∀ h i, (h, i) ∈ db.hash ↔ ∃ p, (i, p) ∈ db.log ∧ p.hash = h
  treeLog : ∀ k v, (∃ vs, (k, vs) ∈ db.tree ∧ v ∈ vs) ↔ ∃ i p, (i, p) ∈ db.log ∧ Tree.TreeEntry.fromPkt i p = some ⟨k, v⟩

/-- A packet as building and reading produce it: a data or error point, or a link or key point with its tuple
    (the depth byte of its space being right, see C12). -/
def Proper (p : NetParts) : Prop :=
  (∃ t, HasTuple p t) ∨ ∃ c, IsPacket p c ∧ c.group? = none
def AllProper (db : Db) : Prop := ∀ i p, (i, p) ∈ db.log → Proper p

/-- An entry of the tree. -/
def TreeHas (db : Db) (k v : Bytes) : Prop := ∃ vs, (k, vs) ∈ db.tree ∧ v ∈ vs

/-- The batch as `save` looks at it: the packets whose state is `pending`. -/
def pendings (pkts : List (NetParts × SaveState)) : List NetParts :=
  pkts.filterMap (fun e => if e.2 = .pending then some e.1 else none)

end Verif.Spec
