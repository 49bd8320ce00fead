import Verif.Model.Data
/-!
# Hashes of instances

`hash(instance)` of the types, on the memory of `Verif.Model.Inst`.

Not determined by the model, and therefore parameters (`HashEnv`): `std::hash` of the string classes, and the
bytes of a `SequenceInstance` or `std::string` object itself (pointers, counters), which
`SequenceType::hash` reads.
-/

namespace Verif.Inst

/-- What the hash depends on besides the values.
(the addresses stored in SequenceInstance.hpp 211-215, hashed by Instanceable.hpp 139-144) -/
structure HashEnv where
  /-- `std::hash` of the string classes -/
  str : SK → List Nat → BitVec 64
  /-- the byte at an address of a block that belongs to an object -/
  rep : List Cell → Nat → Byte

/-- Read `n` bytes, whatever they belong to. (Instanceable.hpp 146-182 reads them) -/
def HashEnv.bytes (env : HashEnv) (cs : List Cell) (a n : Nat) : M (List Byte) :=
  (peek cs a n).map fun (xs : List Cell) => (List.range n).map fun i =>
    match xs[i]? with
    | some (Cell.raw b) => b
    | _ => env.rep cs (a + i)

/-- `Instanceable::hash` (Instanceable.hpp 139-144) for a type of `n` bytes. -/
def HashEnv.raw (env : HashEnv) (cs : List Cell) (a n : Nat) : M (BitVec 64) := (env.bytes cs a n).map memHash

/-- `for (i = first; i < first + n; i++) hash_combine(h, f(i))`
(e.g. ArrayType.hpp 297-318, MapInstance.hpp 195-207) -/
def combineFrom (f : Nat → M (BitVec 64)) : Nat → Nat → BitVec 64 → M (BitVec 64)
  | _, 0, h => .ok h
  | i, n + 1, h => (f i).bind fun x => combineFrom f (i + 1) n (hashCombine h x)

/-- The two parts of a pair (PairType.hpp 216-222), the first one of `s` bytes. -/
def hashPair (f g : List Cell → Nat → M (BitVec 64)) (s : Nat) (cs : List Cell) (a : Nat) : M (BitVec 64) :=
  (f cs a).bind fun h => (g cs (a + s)).map (hashCombine h)

mutual
/-- `hash(instance)`: Instanceable.hpp 139-144 (primitives, enumerations), StringType.hpp 180-185, SequenceType.hpp
234-255, ArrayType.hpp 297-318, MapType.hpp 244-249 with MapInstance.hpp 195-207, PairType.hpp 216-222, AliasType.hpp
172-176, StructType.hpp 267-281, UnionType.hpp 450-460. Note that a sequence hashes its own object as if it were the first
element, and the union takes the hash of the discriminator as a label. -/
def instHash (env : HashEnv) : Ty → List Cell → Nat → M (BitVec 64)
  | .prim k, cs, a => env.raw cs a k.size
  | .enum _ w _, cs, a => env.raw cs a w.size
  | .str k _, cs, a => (peekStr k cs a).map (env.str k)
  | .seq c b, cs, a =>
    if b > 0 then
      if c.isConstructed then
        (instHash env c cs a).bind fun h =>
          combineFrom (fun i => (peekColl false cs a).bind fun o =>
            if i < o.size then instHash env c o.block (i * c.memSize) else .error .refused) 1 (b - 1) h
      else env.raw cs a seqSize
    else .ok 0
  | .arr _ c d, cs, a =>
    if d > 0 then
      if c.isConstructed then
        (instHash env c cs a).bind fun h => combineFrom (fun i => instHash env c cs (a + i * c.memSize)) 1 (d - 1) h
      else env.raw cs a (d * c.memSize)
    else .ok 0
  | .map k v _, cs, a =>
    (peekColl true cs a).bind fun o =>
      if o.content = .pair k v then
        if o.size > 0 then
          (hashPair (instHash env k) (instHash env v) k.memSize o.block 0).bind fun h =>
            combineFrom (fun i => hashPair (instHash env k) (instHash env v) k.memSize o.block (i * (k.memSize + v.memSize))) 1 (o.size - 1) h
        else .ok 0
      else .error .outside
  | .pair x y, cs, a => hashPair (instHash env x) (instHash env y) x.memSize cs a
  | .alias _ t, cs, a => instHash env t cs a
  | .struct _ ms, cs, a => instHashAll env ms cs a
  | .union _ d ms i, cs, a =>
    (instHash env d cs a).bind fun h =>
      match omGet i.labels h.toInt with
      | some n => (instHashCase env ms n cs (a + d.memSize)).map (hashCombine h)
      | none => .ok h
/-- The members of a structure, 0 if there is none (StructType.hpp 267-281). -/
def instHashAll (env : HashEnv) : Mems → List Cell → Nat → M (BitVec 64)
  | .nil, _, _ => .ok 0
  | .cons _ t r, cs, a => (instHash env t cs a).bind fun h => instHashRest env r cs (a + t.memSize) h
/-- The members after the first one. (StructType.hpp 273-277) -/
def instHashRest (env : HashEnv) : Mems → List Cell → Nat → BitVec 64 → M (BitVec 64)
  | .nil, _, _, h => .ok h
  | .cons _ t r, cs, a, h => (instHash env t cs a).bind fun x => instHashRest env r cs (a + t.memSize) (hashCombine h x)
/-- The member with the given name. (UnionType.hpp 450-460) -/
def instHashCase (env : HashEnv) : Mems → String → List Cell → Nat → M (BitVec 64)
  | .nil, _, _, _ => .error .refused
  | .cons z t r, n, cs, a => if z = n then instHash env t cs a else instHashCase env r n cs a
end

/-- `hash()` of a datum (DynamicData.hpp 305-308). -/
def Data.hash (env : HashEnv) (d : Data) : M (BitVec 64) := instHash env d.ty d.cells 0

end Verif.Inst
