import Verif.Spec.MapMem
import Verif.Spec.HashVal
import Verif.Spec.Data
/-!
# Dictionaries

What a map from numbers should be: a function that tells for every key which value it has, if any.
-/

namespace Verif.Inst

/-- A number of the type `k`. -/
def IsNumber (k : PK) (u : Val) : Prop := ∃ bs : List Byte, bs.length = k.size ∧ u = .bytes bs

/-- The map of `d` at the end of the path `p` has `n` entries, and they are those of `f`: `f u = some z` if `z` is the value of the
key `u`. The entries lie in the order of the hashes of their keys. -/
structure Dict (d : Data) (p : List Step) (f : Val → Option Val) (n : Nat) : Prop where
  live : ∃ v, d.Holds v
  entries : ∃ es, d.Reads p (.coll es) ∧ es.length = n ∧ (∀ u z, f u = some z ↔ .list [u, z] ∈ es) ∧
    Ordered (fun u => memHash u.rawBytes) es

/-- `g` is `f` with the value `z` for the key `u`. -/
def Sets (f : Val → Option Val) (u z : Val) (g : Val → Option Val) : Prop := g u = some z ∧ ∀ x, x ≠ u → g x = f x

open Classical in
/-- The value that the assignments `l` (pairs of a key and a value, the first one first) gave to the key `u` last. -/
noncomputable def lastAssigned (l : List (Val × Val)) (u : Val) : Option Val := (l.reverse.find? (fun x => decide (x.1 = u))).map (·.2)

/-- The assignments `m[key] = value` to the map of `d` at `p`, one after the other. -/
def assignAll (env : HashEnv) (p : List Step) : List (List Cell × List Cell) → Data → M Data
  | [], d => .ok d
  | s :: l, d => (d.writeKey env p s.1 [] (.assign s.2)).bind fun r => assignAll env p l r.1

end Verif.Inst
