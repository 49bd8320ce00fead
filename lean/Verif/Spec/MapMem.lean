import Verif.Model.MapMem
import Verif.Spec.Data
import Verif.Spec.InstHash
/-!
# What accesses by key should do

The value of a map is the list of its entries, each a pair of key and value. `H` is a hash function on the values of
keys. A map is in order when the hashes of its keys increase strictly.
-/

namespace Verif.Inst

/-- `H` is the function `hash()` computes for data of type `k`. -/
def HashOf (env : HashEnv) (k : Ty) (H : Val → BitVec 64) : Prop :=
  ∀ cs u, decode k cs = some u → instHash env k cs 0 = .ok (H u)

/-- The key of an entry. -/
def keyOf : Val → Val
  | .list (x :: _) => x
  | e => e

/-- The hashes of the keys increase strictly. -/
def Ordered (H : Val → BitVec 64) (es : List Val) : Prop := es.Pairwise fun e f => H (keyOf e) < H (keyOf f)

instance (H : Val → BitVec 64) (es : List Val) : Decidable (Ordered H es) := by unfold Ordered; infer_instance

/-- The entries with one more: after those with smaller hashes, before all others. -/
def addEntry (H : Val → BitVec 64) (e : Val) (es : List Val) : List Val :=
  es.takeWhile (fun f => decide (H (keyOf f) < H (keyOf e))) ++ e ::
    es.dropWhile fun f => decide (H (keyOf f) < H (keyOf e))

/-- The position of the entry whose key has the hash of `u`. -/
def entryAt (H : Val → BitVec 64) (u : Val) (es : List Val) : Option Nat :=
  es.findIdx? fun f => decide (H (keyOf f) = H u)

/-- The value of an entry. -/
def valueOf : Val → Val
  | .list [_, z] => z
  | e => e

/-- The value the entries give to the key `u`. -/
def lookup (H : Val → BitVec 64) (u : Val) (es : List Val) : Option Val :=
  (es.find? fun f => decide (H (keyOf f) = H u)).map valueOf

/-- Types a map can have for its keys and values so that its operations are defined: what `Hashable` (`Verif.Spec.InstHash`),
`Copyable` and `Movable` (`Verif.Spec.Inst`, `Verif.Spec.Ref`) say. -/
structure MapOk (k v : Ty) : Prop where
  hash : Hashable k
  wfk : k.WF
  wfv : v.WF
  copyk : k.Copyable
  copyv : v.Copyable
  movek : k.Movable
  movev : v.Movable

end Verif.Inst

namespace Verif

mutual
/-- Types whose instances own no heap memory: no strings, sequences and maps in them. -/
def Ty.Flat : Ty → Prop
  | .prim _ => True
  | .enum _ _ _ => True
  | .str _ _ => False
  | .seq _ _ => False
  | .arr _ c _ => c.Flat
  | .map _ _ _ => False
  | .pair x y => x.Flat ∧ y.Flat
  | .alias _ t => t.Flat
  | .struct _ ms => ms.Flat
  | .union _ _ ms _ => ms.Flat
/-- All members. -/
def Mems.Flat : Mems → Prop
  | .nil => True
  | .cons _ t r => t.Flat ∧ r.Flat
end

end Verif
