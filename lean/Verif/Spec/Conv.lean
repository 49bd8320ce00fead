import Verif.Spec.Inst
import Verif.Model.Compat
/-!
# What a conversion should give

`conv T S v` is the value a datum of type `S` with value `v` should have after conversion to the type `T`:
structure members by position, elements one by one up to the bound or dimension of `T`, strings cut to the
bound, integers modulo the width of the target. `Convertible T S` tells for which pairs of types the library
achieves this (the negative results show what goes wrong for others).
-/

namespace Verif

open Inst

/-- The number an integral C++ type reads in these bytes (little endian, two's complement; `char` and `wchar_t` have a
sign on the platform of the model). -/
def number (k : PK) (bs : List Byte) : Int :=
  match k with
  | .i8 | .c8 => (BitVec.ofNat 8 (leNat bs)).toInt
  | .i16 => (BitVec.ofNat 16 (leNat bs)).toInt
  | .i32 | .wc => (BitVec.ofNat 32 (leNat bs)).toInt
  | .i64 => (BitVec.ofNat 64 (leNat bs)).toInt
  | _ => leNat bs

/-- The numbers an integral type can represent. -/
def Fits : PK → Int → Prop
  | .bool, z => z = 0 ∨ z = 1
  | .i8, z | .c8, z => -2 ^ 7 ≤ z ∧ z < 2 ^ 7
  | .i16, z => -2 ^ 15 ≤ z ∧ z < 2 ^ 15
  | .i32, z | .wc, z => -2 ^ 31 ≤ z ∧ z < 2 ^ 31
  | .i64, z => -2 ^ 63 ≤ z ∧ z < 2 ^ 63
  | .u8, z => 0 ≤ z ∧ z < 2 ^ 8
  | .u16, z | .c16, z => 0 ≤ z ∧ z < 2 ^ 16
  | .u32, z => 0 ≤ z ∧ z < 2 ^ 32
  | .u64, z => 0 ≤ z ∧ z < 2 ^ 64
  | .f32, _ | .f64, _ | .f128, _ => False

mutual
/-- Contents of all collections are `Light`: copying them loses nothing. -/
def Ty.Tight : Ty → Prop
  | .prim _ => True
  | .enum _ _ _ => True
  | .str _ _ => True
  | .seq c _ => c.Light ∧ c.Tight
  | .arr _ c _ => c.Tight
  | .map k v _ => (k.Light ∧ v.Light) ∧ k.Tight ∧ v.Tight
  | .pair x y => x.Tight ∧ y.Tight
  | .alias _ t => t.Tight
  | .struct _ ms => ms.Tight
  | .union _ _ ms _ => ms.Tight
/-- All members. -/
def Mems.Tight : Mems → Prop
  | .nil => True
  | .cons _ t r => t.Tight ∧ r.Tight
end

/-- The scalar a type holds, looking through aliases and structures of one member; an enumeration counts only
when it is stored in 32 bits. -/
def scalarKind (S : Ty) : Option PK :=
  match unwrap S with
  | .prim l => some l
  | .enum _ .w4 _ => some .u32
  | _ => none

mutual
/-- The value behind aliases and structures of one member. -/
def unwrapVal : Ty → Val → Val
  | .alias _ t, v => unwrapVal t v
  | .struct _ ms, v => unwrapVals ms v
  | _, v => v
/-- See `unwrapVal`. -/
def unwrapVals : Mems → Val → Val
  | .cons _ t .nil, .list [v] => unwrapVal t v
  | _, v => v
end

/-- Two scalar kinds with the same bytes for every value. -/
def sameRep (l k : PK) : Prop :=
  l = k ∨ (l.isFloat = false ∧ k.isFloat = false ∧ l.size = k.size ∧ k ≠ .bool)

/-- Elements that are copied as a block of bytes have the same representation. -/
def blockOk (c oc : Ty) : Prop :=
  match c with
  | .prim k => c.memSize = oc.memSize → ∀ l, scalarKind oc = some l → sameRep l k
  | _ => True

mutual
/-- The library converts instances of the second type to the first. -/
def Convertible : Ty → Ty → Prop
  | .prim _, S => (scalarKind S).isSome
  | .enum _ _ _, S => (scalarKind S).isSome
  | .str k _, S => ∃ b, unwrap S = .str k b
  | .seq c _, S => ∃ oc b, unwrap S = .seq oc b ∧ Convertible c oc ∧ blockOk c oc
  | .arr _ c d, S => ∃ n oc od, unwrap S = .arr n oc od ∧ d ≤ od ∧ Convertible c oc ∧ blockOk c oc
  | .map k v _, S => ∃ b, unwrap S = .map k v b ∧ Convertible k k ∧ Convertible v v
  | .pair x y, S => ∃ ox oy, unwrap S = .pair ox oy ∧ ox.memSize = x.memSize ∧ Convertible x ox ∧ Convertible y oy
  | .alias _ t, S => Convertible t S
  | .struct _ ms, S =>
    match S.rget with
    | .struct _ os => ConvertibleAll ms os
    | S' => ConvertibleOnly ms S'
  | .union _ d ms i, S => ∃ n oms oi, S = .union n d oms oi ∧
      (∀ l x, UInfo.case i l = some x → ∃ y, UInfo.case oi l = some y ∧ oms.find? y = ms.find? x) ∧ ConvertibleSelf ms
/-- Member by member; one more member than the source has is possible. -/
def ConvertibleAll : Mems → Mems → Prop
  | .nil, _ => True
  | .cons _ t r, .cons _ u s => Convertible t u ∧ ConvertibleAll r s
  | .cons _ _ .nil, .nil => True
  | .cons _ _ (.cons _ _ _), .nil => False
/-- A structure of one member from something that is not a structure. -/
def ConvertibleOnly : Mems → Ty → Prop
  | .cons _ t .nil, S => Convertible t S
  | _, _ => False
/-- Every member from its own type. -/
def ConvertibleSelf : Mems → Prop
  | .nil => True
  | .cons _ t r => Convertible t t ∧ ConvertibleSelf r
end

/-- At most `b` elements when there is a bound. -/
def clipV (b : Nat) (vs : List Val) : List Val := if b > 0 then vs.take b else vs

mutual
/-- The converted value. -/
def conv : Ty → Ty → Val → Val
  | .prim k, S, v => match scalarKind S, unwrapVal S v with
    | some l, .bytes bs => .bytes (convert l k bs)
    | _, v => v
  | .enum _ w _, S, v => match scalarKind S, unwrapVal S v with
    | some l, .bytes bs => .bytes (convert l (EW.kind w) bs)
    | _, v => v
  | .str _ b, S, v => match unwrapVal S v with
    | .str us => .str (clip b us)
    | v => v
  | .seq c b, S, v => match unwrap S, unwrapVal S v with
    | .seq oc _, .coll vs => .coll ((clipV b vs).map (conv c oc))
    | _, v => v
  | .arr _ c d, S, v => match unwrap S, unwrapVal S v with
    | .arr _ oc _, .list vs => .list ((vs.take d).map (conv c oc))
    | _, v => v
  | .map _ _ b, S, v => match unwrapVal S v with
    | .coll vs => .coll (clipV b vs)
    | v => v
  | .pair x y, S, v => match unwrap S, unwrapVal S v with
    | .pair ox oy, .list [u, w] => .list [conv x ox u, conv y oy w]
    | _, v => v
  | .alias _ t, S, v => conv t S v
  | .struct _ ms, S, v =>
    match S.rget, v with
    | .struct _ os, .list vs => .list (convAll ms os vs)
    | S', v => .list (convOnly ms S' v)
  | .union _ d _ i, _, v =>
    match v with
    | .un (.bytes bs) _ w => match UInfo.case i (labelOf d.memSize bs) with
      | some n => .un (.bytes bs) n w
      | none => .unNone (.bytes bs)
    | v => v
/-- Members by position; a member the source does not have gets its default. -/
def convAll : Mems → Mems → List Val → List Val
  | .cons _ t r, .cons _ u s, v :: vs => conv t u v :: convAll r s vs
  | .cons _ t .nil, .nil, _ => [defVal t]
  | _, _, _ => []
/-- A structure of one member from something that is not a structure. -/
def convOnly : Mems → Ty → Val → List Val
  | .cons _ t .nil, S, v => [conv t S v]
  | _, _, _ => []
end

end Verif

namespace Verif
open Inst

/-- Is it a union type? -/
def Ty.isUnion : Ty → Bool
  | .union _ _ _ _ => true
  | _ => false

mutual
/-- Types the library can convert to themselves: no enumeration of 8 or 16 bits, no alias of a union. -/
def Ty.Plain : Ty → Prop
  | .prim _ => True
  | .enum _ w _ => w = .w4
  | .str _ _ => True
  | .seq c _ => c.Plain
  | .arr _ c _ => c.Plain
  | .map k v _ => k.Plain ∧ v.Plain
  | .pair x y => x.Plain ∧ y.Plain
  | .alias _ t => t.rget.isUnion = false ∧ t.Plain
  | .struct _ ms => ms.Plain
  | .union _ _ ms _ => ms.Plain
/-- All members. -/
def Mems.Plain : Mems → Prop
  | .nil => True
  | .cons _ t r => t.Plain ∧ r.Plain
end

mutual
/-- Types whose instances can be copied: contents of sequences and maps are `Plain`. -/
def Ty.Copyable : Ty → Prop
  | .prim _ => True
  | .enum _ _ _ => True
  | .str _ _ => True
  | .seq c _ => c.Plain
  | .arr _ c _ => c.Copyable
  | .map k v _ => k.Plain ∧ v.Plain
  | .pair x y => x.Copyable ∧ y.Copyable
  | .alias _ t => t.Copyable
  | .struct _ ms => ms.Copyable
  | .union _ _ ms _ => ms.Copyable
/-- All members. -/
def Mems.Copyable : Mems → Prop
  | .nil => True
  | .cons _ t r => t.Copyable ∧ r.Copyable
end

namespace Inst

mutual
/-- Every union outside sequences and maps has a selected member. -/
def Val.Selected : Val → Prop
  | .bytes _ => True
  | .str _ => True
  | .list vs => Val.SelectedAll vs
  | .coll _ => True
  | .un _ _ v => v.Selected
  | .unNone _ => False
/-- All of them. -/
def Val.SelectedAll : List Val → Prop
  | [] => True
  | v :: vs => v.Selected ∧ Val.SelectedAll vs
end

end Inst
end Verif

namespace Verif

mutual
/-- No sequence or map outside other sequences and maps. -/
def Ty.NoColl : Ty → Prop
  | .prim _ => True
  | .enum _ _ _ => True
  | .str _ _ => True
  | .seq _ _ => False
  | .arr _ c _ => c.NoColl
  | .map _ _ _ => False
  | .pair x y => x.NoColl ∧ y.NoColl
  | .alias _ t => t.NoColl
  | .struct _ ms => ms.NoColl
  | .union _ _ ms _ => ms.NoColl
/-- All members. -/
def Mems.NoColl : Mems → Prop
  | .nil => True
  | .cons _ t r => t.NoColl ∧ r.NoColl
end

mutual
/-- Types whose instances can be moved over other instances: no sequence or map directly inside a union. -/
def Ty.Movable : Ty → Prop
  | .prim _ => True
  | .enum _ _ _ => True
  | .str _ _ => True
  | .seq _ _ => True
  | .arr _ c _ => c.Movable
  | .map _ _ _ => True
  | .pair x y => x.Movable ∧ y.Movable
  | .alias _ t => t.Movable
  | .struct _ ms => ms.Movable
  | .union _ _ ms _ => ms.NoColl
/-- All members. -/
def Mems.Movable : Mems → Prop
  | .nil => True
  | .cons _ t r => t.Movable ∧ r.Movable
end

end Verif
