import Verif.Model.Inst
/-!
# What an instance means

`decode T cs` reads the cells `cs` as one instance of the type `T` and returns its value: it is `some`
exactly when the cells hold a well-formed instance (every object in place, sizes within bounds, every
slot of every block alive). `tidy T cs` says in addition that there is no owning object in the cells
besides those of the instance, and none in the unused slots of a collection whose content needs none. `defVal T` is the value of a default-constructed instance.
-/

namespace Verif.Inst

/-- The value of an instance. -/
inductive Val where
  /-- bytes of a primitive or enumeration -/
  | bytes (bs : List Byte)
  /-- units of a string -/
  | str (us : List Nat)
  /-- elements of an array, members of a structure, parts of a pair -/
  | list (vs : List Val)
  /-- elements of a sequence or a map -/
  | coll (vs : List Val)
  /-- a union with a selected member: discriminator, name and value of the member -/
  | un (disc : Val) (name : String) (v : Val)
  /-- a union without a selected member -/
  | unNone (disc : Val)

/-- The bytes of cells, if all are determinate. -/
def bytesOf : List Cell → Option (List Byte)
  | [] => some []
  | .raw b :: r => (bytesOf r).map (b :: ·)
  | _ :: _ => none

/-- A scalar of `n` bytes. -/
def decBytes (n : Nat) (cs : List Cell) : Option Val :=
  if cs.length = n then (bytesOf cs).map .bytes else none

/-- A string within its bound. -/
def decStr (k : SK) (bound : Nat) : List Cell → Option Val
  | .str k' us _ :: t =>
    if k' = k ∧ t.length + 1 = strSize ∧ t.all Cell.isTail ∧ (bound > 0 → us.length ≤ bound) then some (.str us)
    else none
  | _ => none

/-- `n` consecutive instances of `s` cells each. -/
def decN (dec : List Cell → Option Val) (s : Nat) : Nat → List Cell → Option (List Val)
  | 0, _ => some []
  | n + 1, cs => (dec (cs.take s)).bind fun v => (decN dec s n (cs.drop s)).map (v :: ·)

/-- A sequence or map object: content type `c` of `s` bytes, within its bound, its block holding `cap` live
instances, the first `size` of which are the elements. -/
def decColl (isMap : Bool) (c : Ty) (s bound : Nat) (dec : List Cell → Option Val) : List Cell → Option Val
  | .coll im c' size cap blk :: t =>
    if im = isMap ∧ c' = c ∧ t.length + 1 = seqSize ∧ t.all Cell.isTail ∧ size ≤ cap ∧ (bound > 0 → cap ≤ bound) ∧
        blk.length = cap * s then
      (decN dec s cap blk).map fun vs => .coll (vs.take size)
    else none
  | _ => none

/-- Two parts, one after the other. -/
def decPair (d1 d2 : List Cell → Option Val) (s1 : Nat) (cs : List Cell) : Option Val :=
  (d1 (cs.take s1)).bind fun u => (d2 (cs.drop s1)).map fun v => .list [u, v]

/-- The label the bytes of a discriminator of `size` bytes stand for: a 64-bit one is signed, any other
counts from 0. -/
def labelOf (size : Nat) (bs : List Byte) : Int :=
  if size = 8 ∧ 2 ^ 63 ≤ leNat bs then (leNat bs : Int) - 2 ^ 64 else leNat bs

/-- The name of the member a label of a union selects. -/
def UInfo.case (i : UInfo) (l : Int) : Option String := omGet i.labels l

end Verif.Inst

namespace Verif
open Inst

mutual
/-- A default-constructed instance owns no heap memory. -/
def Ty.Light : Ty → Prop
  | .prim _ => True
  | .enum _ _ _ => True
  | .str k b => b ≤ SK.sso k
  | .seq _ b => b = 0
  | .arr _ c _ => c.Light
  | .map _ _ b => b = 0
  | .pair x y => x.Light ∧ y.Light
  | .alias _ t => t.Light
  | .struct _ ms => ms.Light
  | .union _ _ ms i => i.default = i.invalidValue ∨ (∀ n, UInfo.case i i.default = some n → ms.LightCase n)
/-- All members. -/
def Mems.Light : Mems → Prop
  | .nil => True
  | .cons _ t r => t.Light ∧ r.Light
/-- The member with the given name. -/
def Mems.LightCase : Mems → String → Prop
  | .nil, _ => True
  | .cons x t r, n => if x = n then t.Light else r.LightCase n
end

end Verif

namespace Verif.Inst

mutual
/-- The value of the instance of a type in the given cells. -/
def decode : Ty → List Cell → Option Val
  | .prim k, cs => decBytes k.size cs
  | .enum _ w _, cs => decBytes w.size cs
  | .str k b, cs => decStr k b cs
  | .seq c b, cs => decColl false c c.memSize b (decode c) cs
  | .arr _ c d, cs =>
    if cs.length = d * c.memSize then (decN (decode c) c.memSize d cs).map .list else none
  | .map k v b, cs =>
    decColl true (.pair k v) (k.memSize + v.memSize) b (decPair (decode k) (decode v) k.memSize) cs
  | .pair x y, cs => decPair (decode x) (decode y) x.memSize cs
  | .alias _ t, cs => decode t cs
  | .struct _ ms, cs => (decodeAll ms cs).map .list
  | .union _ d ms i, cs =>
    if cs.length = d.memSize + ms.maxSize then
      match decode d (cs.take d.memSize) with
      | some (.bytes bs) =>
        match UInfo.case i (labelOf d.memSize bs) with
        | some n => (decodeCase ms n (cs.drop d.memSize)).map (.un (.bytes bs) n)
        | none => some (.unNone (.bytes bs))
      | _ => none
    else none
/-- Members one after the other. -/
def decodeAll : Mems → List Cell → Option (List Val)
  | .nil, cs => if cs = [] then some [] else none
  | .cons _ t r, cs => (decode t (cs.take t.memSize)).bind fun v => (decodeAll r (cs.drop t.memSize)).map (v :: ·)
/-- The member with the given name, at the start of the cells. -/
def decodeCase : Mems → String → List Cell → Option Val
  | .nil, _, _ => none
  | .cons x t r, n, cs => if x = n then decode t (cs.take t.memSize) else decodeCase r n cs
end

/-- Every one of `n` consecutive instances satisfies `p`. -/
def allN (p : List Cell → Prop) (s : Nat) : Nat → List Cell → Prop
  | 0, _ => True
  | n + 1, cs => p (cs.take s) ∧ allN p s n (cs.drop s)

/-- `p` of every slot of the block of a collection, and, if the content is `light`, nothing owning in the slots
beyond its size. -/
def tidyColl (light : Prop) (p : List Cell → Prop) (s : Nat) : List Cell → Prop
  | .coll _ _ size cap blk :: _ => allN p s cap blk ∧ (light → owned (blk.drop (size * s)) = 0)
  | _ => True

mutual
/-- Outside the selected member of every union there is no owning object. -/
def tidy : Ty → List Cell → Prop
  | .prim _, _ => True
  | .enum _ _ _, _ => True
  | .str _ _, _ => True
  | .seq c _, cs => tidyColl c.Light (tidy c) c.memSize cs
  | .arr _ c d, cs => allN (tidy c) c.memSize d cs
  | .map k v _, cs =>
    tidyColl (k.Light ∧ v.Light) (fun s => tidy k (s.take k.memSize) ∧ tidy v (s.drop k.memSize)) (k.memSize + v.memSize) cs
  | .pair x y, cs => tidy x (cs.take x.memSize) ∧ tidy y (cs.drop x.memSize)
  | .alias _ t, cs => tidy t cs
  | .struct _ ms, cs => tidyAll ms cs
  | .union _ d ms i, cs =>
    match decode d (cs.take d.memSize) with
    | some (.bytes bs) =>
      match UInfo.case i (labelOf d.memSize bs) with
      | some n => tidyCase ms n (cs.drop d.memSize)
      | none => owned (cs.drop d.memSize) = 0
    | _ => False
/-- Members one after the other. -/
def tidyAll : Mems → List Cell → Prop
  | .nil, _ => True
  | .cons _ t r, cs => tidy t (cs.take t.memSize) ∧ tidyAll r (cs.drop t.memSize)
/-- The member with the given name; nothing owning after it. -/
def tidyCase : Mems → String → List Cell → Prop
  | .nil, _, _ => False
  | .cons x t r, n, cs =>
    if x = n then tidy t (cs.take t.memSize) ∧ owned (cs.drop t.memSize) = 0 else tidyCase r n cs
end

/-- The bytes of a discriminator of `size` bytes with the given label. -/
def discBytes (size : Nat) (l : Int) : Val := .bytes (leBytes size (l % 2 ^ (8 * size)).toNat)

mutual
/-- The default value: zero, empty, element-wise and member-wise default; a union has its default member
selected, with its label, or none when it has no default. -/
def defVal : Ty → Val
  | .prim k => .bytes (List.replicate k.size 0)
  | .enum _ w _ => .bytes (List.replicate w.size 0)
  | .str _ _ => .str []
  | .seq _ _ => .coll []
  | .arr _ c d => .list (List.replicate d (defVal c))
  | .map _ _ _ => .coll []
  | .pair x y => .list [defVal x, defVal y]
  | .alias _ t => defVal t
  | .struct _ ms => .list (defVals ms)
  | .union _ d ms i =>
    if i.default = i.invalidValue then .unNone (discBytes d.memSize i.invalidValue)
    else match UInfo.case i i.default with
      | some n => .un (discBytes d.memSize i.default) n (defCase ms n)
      | none => .unNone (discBytes d.memSize i.default)
/-- Default values of the members. -/
def defVals : Mems → List Val
  | .nil => []
  | .cons _ t r => defVal t :: defVals r
/-- Default value of the member with the given name. -/
def defCase : Mems → String → Val
  | .nil, _ => .list []
  | .cons x t r, n => if x = n then defVal t else defCase r n
end

/-- Discriminator types the library can handle in memory: integral primitives and 32-bit enumerations. -/
def discOk (d : Ty) : Prop :=
  match d.rget with
  | .prim k => k.isFloat = false
  | .enum _ w _ => w = .w4
  | _ => False

/-- The case information of a union fits together: the labels are distinct values of the discriminator and name
members, the default is a label, the value standing for "none" is a value of the discriminator and no
label. -/
structure UInfo.Ok (i : UInfo) (size : Nat) (ms : Mems) : Prop where
  distinct : (i.labels.map (·.1)).Nodup
  label : ∀ l n, UInfo.case i l = some n → shrinkLabel l size = l ∧ (ms.find? n).isSome
  default : i.default = i.invalidValue ∨ (UInfo.case i i.default).isSome
  invalid : UInfo.case i i.invalidValue = none
  range : shrinkLabel i.invalidValue size = i.invalidValue

end Verif.Inst

namespace Verif
open Inst

mutual
/-- Types whose unions are in order. -/
def Ty.WF : Ty → Prop
  | .prim _ => True
  | .enum _ _ _ => True
  | .str _ _ => True
  | .seq c _ => Ty.WF c
  | .arr _ c _ => Ty.WF c
  | .map k v _ => Ty.WF k ∧ Ty.WF v
  | .pair x y => Ty.WF x ∧ Ty.WF y
  | .alias _ t => Ty.WF t
  | .struct _ ms => Mems.WF ms
  | .union _ d ms i => discOk d ∧ Inst.UInfo.Ok i d.memSize ms ∧ Mems.WF ms
/-- See `Ty.WF`. -/
def Mems.WF : Mems → Prop
  | .nil => True
  | .cons _ t r => Ty.WF t ∧ Mems.WF r
end

end Verif
