import Verif.Spec.InstHash
/-!
# What the hash of a value should be

The hash of something that has parts is made of the hashes of the parts, from the first one to the last.
-/

namespace Verif.Inst

/-- The hashes of the parts of something together, 0 if there are none. -/
def partsHash : List (BitVec 64) → BitVec 64
  | [] => 0
  | h :: r => r.foldl hashCombine h

/-- The bytes of a number. -/
def Val.rawBytes : Val → List Byte
  | .bytes bs => bs
  | _ => []

/-- The elements of an array or a map, the members of a structure. -/
def Val.parts : Val → List Val
  | .list us => us
  | .coll us => us
  | _ => []

/-- The units of a string. -/
def Val.units : Val → List Nat
  | .str us => us
  | _ => []

mutual
/-- The hash of a value of a type. `σ` are the hashes of strings.
Numbers and arrays of numbers: that of their bytes. An (unbounded) sequence has none of its own, and a union has that of its
discriminator. -/
def hashVal (σ : SK → List Nat → BitVec 64) : Ty → Val → BitVec 64
  | .prim _, u => memHash u.rawBytes
  | .enum _ _ _, u => memHash u.rawBytes
  | .str k _, u => σ k u.units
  | .seq _ _, _ => 0
  | .arr _ c _, u =>
    if c.isConstructed = false ∧ u.parts ≠ [] then memHash (u.parts.flatMap Val.rawBytes)
    else partsHash (u.parts.map (hashVal σ c))
  | .map k w _, u => partsHash (u.parts.map fun e => match e with
    | .list [x, y] => partsHash [hashVal σ k x, hashVal σ w y]
    | _ => 0)
  | .pair x y, u => match u with
    | .list [a, b] => partsHash [hashVal σ x a, hashVal σ y b]
    | _ => 0
  | .alias _ t, u => hashVal σ t u
  | .struct _ ms, u => partsHash (hashVals σ ms u.parts)
  | .union _ _ _ _, u => match u with
    | .un d _ _ => memHash d.rawBytes
    | .unNone d => memHash d.rawBytes
    | _ => 0
/-- The hashes of the members. -/
def hashVals (σ : SK → List Nat → BitVec 64) : Mems → List Val → List (BitVec 64)
  | .cons _ t r, u :: us => hashVal σ t u :: hashVals σ r us
  | _, _ => []
end

end Verif.Inst
