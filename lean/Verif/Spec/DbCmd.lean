import Verif.Model.DbCmd
import Verif.Spec.Env
import Verif.Spec.Reads
/-!
# Specification of checking a database and of importing a file
-/
namespace Verif.Spec
open Verif Verif.Pkt Verif.Env Verif.Cmd

/-- Three tables as LMDB holds them: each key once and in order, stamps of 64 bits and hashes of 32 bytes.  Nothing is said about what they hold. -/
structure Tables (db : Db) : Prop where
  log : db.log.Pairwise (fun a b => a.1 < b.1)
  stamps : ∀ i p, (i, p) ∈ db.log → i < 2 ^ 64
  hash : db.hash.Pairwise (fun a b => bytesLt a.1 b.1 = true)
  wide : ∀ h i, (h, i) ∈ db.hash → h.length = 32

/-- The hash index leads to each packet of the log, and to nothing else. -/
def HashAgrees (db : Db) : Prop := ∀ h i, (h, i) ∈ db.hash ↔ ∃ p, (i, p) ∈ db.log ∧ p.hash = h

/-- An entry of the tree leads to a packet of the log. -/
def PointsAt (db : Db) (v : Bytes) : Prop := ∃ p, ((Tree.TreeValue.ofBytes v).logptr, p) ∈ db.log

/-- The packets of a file that may be imported: genuine unless that is not to be checked. -/
def Importable (C : Crypto) (skip : Bool) (ss : List Sent) : Prop := ∀ s ∈ ss, skip = true ∨ s.Genuine C

/-- What an import prints of a packet. -/
def LineOf (known : List Bytes) (batch : List NetParts) (j : Nat) (l : Bytes × SaveState) : Prop :=
  ∃ p, batch[j]? = some p ∧ l.1 = p.hash ∧ (l.2 = .written ∧ IsNew known batch j ∨ l.2 = .exists ∧ ¬ IsNew known batch j)

end Verif.Spec
