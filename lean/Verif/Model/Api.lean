import Verif.Model.Walk
import Verif.Model.Text
/-!
# Readable references: size, iteration, casts, printing

`ReadableDynamicDataRef` beyond paths (`Verif.Model.Ref`): `size`, `begin`/`end`, `items`, `as_vector`, `cast` and
`to_string`.

Simplifications: a reference is a snapshot (the operations here do not write); a pointer is a block and an address in it,
and two iterators are compared by address and index only, the block being the same; sizes are not limited to 32 bits
(`Verif.Model.Seq` has the counters).
-/

namespace Verif.Inst

/-- A reference: `type_` and `instance_` (DynamicData.hpp 646-648), the latter as a block and an address in it. -/
structure RRef where
  ty : Ty
  cells : List Cell
  addr : Nat

/-- `ReadableDynamicDataRef(type, source)` (DynamicData.hpp 623-644): a reference sees through an alias. -/
def RRef.mk' (t : Ty) (cs : List Cell) (a : Nat) : RRef := ⟨t.rget, cs, a⟩

/-- `cref()` (DynamicData.hpp 859-862). -/
def Data.ref (d : Data) : RRef := ⟨d.ty, d.cells, 0⟩

/-- `is_collection_type()` (DynamicType.hpp 67-70, TypeKind.hpp 59-64). -/
def isColl : Ty → Bool
  | .arr _ _ _ | .seq _ _ | .str _ _ | .map _ _ _ => true
  | _ => false

/-- `is_aggregation_type()` (DynamicType.hpp 75-78, TypeKind.hpp 66-67): a pair is none. -/
def isAggr : Ty → Bool
  | .struct _ _ | .union _ _ _ _ => true
  | _ => false

/-- `content_type()` of a collection (CollectionType.hpp 38-41, MapType.hpp 32-60, StringType.hpp 41-50). Of other types
it is not called. -/
def contentTy : Ty → Ty
  | .arr _ c _ => c
  | .seq c _ => c
  | .map k v _ => .pair k v
  | .str k _ => .prim (SK.char k)
  | t => t

/-- `size()` (DynamicData.hpp 264-284) with `get_instance_size` (ArrayType.hpp 291-295, SequenceType.hpp 140-144,
MapType.hpp 153-157, StringType.hpp 174-178); the discriminator is a member of a union (UnionType.hpp 475-482). -/
def RRef.size (r : RRef) : M Nat :=
  match r.ty with
  | .arr _ _ d => .ok d
  | .seq _ _ => (peekColl false r.cells r.addr).map (·.size)
  | .map _ _ _ => (peekColl true r.cells r.addr).map (·.size)
  | .str k _ => (peekStr k r.cells r.addr).map (·.length)
  | .struct _ ms => .ok ms.length
  | .union _ _ ms _ => .ok (ms.length + 1)
  | .pair _ _ => .ok 2
  | _ => .error .refused

/-- The characters of a string with the terminating zero, in memory. (the buffer behind StringType.hpp 170) -/
def charCells (k : SK) (us : List Nat) : List Cell := (us ++ [0]).flatMap fun u => rawCells (leBytes (SK.char k).size u)

/-- `ReadableDynamicDataRef(content_type(), get_instance_at(instance_, index))` (DynamicData.hpp 191, 461): ArrayType.hpp
284-289 and MapType.hpp 139-144, MapInstance.hpp 169-173 without a check, SequenceType.hpp 133-138, SequenceInstance.hpp
192-198 with one; `&str[index]` (StringType.hpp 166-172) is undefined beyond the terminating zero. -/
def RRef.instAt (r : RRef) (i : Nat) : M RRef :=
  match r.ty with
  | .arr _ c _ => .ok (.mk' c r.cells (r.addr + i * c.memSize))
  | .seq c _ => (peekColl false r.cells r.addr).bind fun o =>
      if i < o.size then .ok (.mk' c o.block (i * c.memSize)) else .error .refused
  | .map k v _ => (peekColl true r.cells r.addr).map fun o => .mk' (.pair k v) o.block (i * (k.memSize + v.memSize))
  | .str k _ => (peekStr k r.cells r.addr).bind fun us =>
      if i ≤ us.length then .ok (.mk' (.prim (SK.char k)) (charCells k us) (i * (SK.char k).size)) else .error .ub
  | _ => .error .outside

/-- `operator [] (index)` (DynamicData.hpp 176-217). -/
def RRef.index (r : RRef) (i : Nat) : M RRef :=
  match r.ty with
  | .arr _ _ _ | .seq _ _ | .str _ _ => r.size.bind fun n => if i < n then r.instAt i else .error .refused
  | .pair x y =>
    match i with
    | 0 => .ok (.mk' x r.cells r.addr)
    | 1 => .ok (.mk' y r.cells (r.addr + x.memSize))
    | _ => .error .refused
  | .struct _ ms =>
    match Mems.locateAt ms i with
    | some (off, t) => .ok (.mk' t r.cells (r.addr + off))
    | none => .error .refused
  | _ => .error .refused

/-! ## Iterators over collections -/

/-- `Iterator` (DynamicData.hpp 427-511). -/
structure It where
  ref : RRef
  index : Nat

/-- `begin()` (DynamicData.hpp 516-521). -/
def RRef.begin (r : RRef) : M It := if isColl r.ty then .ok ⟨r, 0⟩ else .error .refused

/-- `end()` (DynamicData.hpp 526-531). -/
def RRef.end (r : RRef) : M It := if isColl r.ty then r.size.map (⟨r, ·⟩) else .error .refused

/-- `operator ==` (DynamicData.hpp 447-451). -/
def It.same (x y : It) : Bool := x.ref.addr == y.ref.addr && x.index == y.index

/-- `operator *` (DynamicData.hpp 459-463). -/
def It.deref (x : It) : M RRef := x.ref.instAt x.index

/-- `operator ++` (DynamicData.hpp 465-477). -/
def It.next (x : It) : It := { x with index := x.index + 1 }

/-- `x = y` (DynamicData.hpp 439-445): instance and index are taken over, the type is not. -/
def It.assign (x y : It) : It := ⟨⟨x.ref.ty, y.ref.cells, y.ref.addr⟩, y.index⟩

/-- `for (x = b; x != e; ++x) ... deref x ...`: the loop ends after the given references, in this order, were handed to its
body. (the client of DynamicData.hpp 447-477) -/
inductive Loop {ρ : Type} (deref : It → M ρ) (e : It) : It → List ρ → Prop where
  | stop {b : It} : b.same e = true → Loop deref e b []
  | go {b : It} {x : ρ} {l : List ρ} : b.same e = false → deref b = .ok x → Loop deref e b.next l → Loop deref e b (x :: l)

/-- `for (x : r)` ends after the given references were handed to its body. (the client of DynamicData.hpp 516-531) -/
def RRef.Visits (r : RRef) (l : List RRef) : Prop :=
  ∃ b e, r.begin = .ok b ∧ r.end = .ok e ∧ Loop It.deref e b l

/-! ## Members of aggregations -/

/-- A `MemberPair` (DynamicData.hpp 533-563): name of the member and reference to it. -/
abbrev Item := String × RRef

/-- `MemberIterator::operator *` (DynamicData.hpp 577-583): `member(index)` (AggregationType.hpp 50-55) and its `offset()`;
member 0 of a union is the discriminator, the others share the offset after it (UnionType.hpp 475-482, 534-536, 556-558).
Of other types it is not called. -/
def RRef.itemAt (r : RRef) (i : Nat) : M Item :=
  match r.ty with
  | .struct _ ms =>
    match ms.get? i, Mems.locateAt ms i with
    | some (n, _), some (off, t) => .ok (n, .mk' t r.cells (r.addr + off))
    | _, _ => .error .ub
  | .union _ d ms _ =>
    match i with
    | 0 => .ok (discName, .mk' d r.cells r.addr)
    | j + 1 =>
      match ms.get? j with
      | some (n, t) => .ok (n, .mk' t r.cells (r.addr + d.memSize))
      | none => .error .ub
  | _ => .error .outside

/-- The dereferencing of a member iterator. (DynamicData.hpp 577-583) -/
def It.item (x : It) : M Item := x.ref.itemAt x.index

/-- `for (x : r.items())` ends after the given members were handed to its body. `begin()` and `end()` of the iterator
(DynamicData.hpp 600-613) start over from the reference. (DynamicData.hpp 565-620) -/
def RRef.Items (r : RRef) (l : List Item) : Prop :=
  isAggr r.ty = true ∧ ∃ n, r.size = .ok n ∧ Loop It.item ⟨r, n⟩ ⟨r, 0⟩ l

/-! ## Vectors -/

/-- The C++ types of `PrimitiveOrString` (DynamicData.hpp 48-58). -/
inductive HK where
  | num (k : PK)
  | str (k : SK)
  deriving DecidableEq, Repr

/-- The kind of the content of a collection is that of the C++ type (DynamicData.hpp 317-323); aliases are not resolved
and enumerations are not accepted. -/
def HK.isKind : HK → Ty → Bool
  | .num k, .prim l => decide (k = l)
  | .str k, .str l _ => decide (k = l)
  | _, _ => false

/-- `*location` for a pointer to the C++ type. (DynamicData.hpp 325-326) -/
def HK.load (h : HK) (cs : List Cell) (a : Nat) : M Host :=
  match h with
  | .num k => (peekRaw cs a k.size).map (.num k)
  | .str k => (peekStr k cs a).map (.str k)

/-- `sizeof(T)`. (DynamicData.hpp 326) -/
def HK.size : HK → Nat
  | .num k => k.size
  | .str _ => strSize

/-- `std::vector<T>(location, location + n)`. (DynamicData.hpp 326) -/
def HK.loads (h : HK) (cs : List Cell) : Nat → Nat → M (List Host)
  | _, 0 => .ok []
  | a, n + 1 => (h.load cs a).bind fun x => (loads h cs (a + h.size) n).map (x :: ·)

/-- `as_vector<T>()` (DynamicData.hpp 311-327). -/
def RRef.asVector (r : RRef) (h : HK) : M (List Host) :=
  if isColl r.ty && h.isKind (contentTy r.ty) then
    (r.instAt 0).bind fun x => r.size.bind fun n => h.loads x.cells x.addr n
  else .error .refused

/-! ## Casts -/

/-- `cast<T>()` for an arithmetic type (DynamicData.hpp 329-333, 695-801): the bytes of the result. -/
def RRef.cast (r : RRef) (l : PK) : M (List Byte) :=
  match r.ty with
  | .prim k => (peekRaw r.cells r.addr k.size).map (convert k l)
  | .enum _ w _ => (peekRaw r.cells r.addr w.size).map (convert (EW.kind w) l)
  | _ => .error .refused

/-- How the standard library prints floating point numbers is left unspecified. -/
opaque floatText (k : PK) (bs : List Byte) : Text.Bytes := []

/-- `std::to_string` of an integer. (DynamicDataImpl.hpp 229-233, 251-264) -/
def intText (z : Int) : Text.Bytes := if z < 0 then 45 :: Text.dec z.natAbs else Text.dec z.natAbs

/-- `cast<std::string>()` (DynamicDataImpl.hpp 229-292). The two other strings run into the last default of the
switches (DynamicDataImpl.hpp 40-43). -/
def RRef.castString (r : RRef) : M Text.Bytes :=
  match r.ty with
  | .prim k => (peekRaw r.cells r.addr k.size).map fun bs =>
      if k.isFloat then floatText k bs else intText (intVal k bs)
  | .enum _ w _ => (peekRaw r.cells r.addr w.size).map fun bs => intText (intVal (EW.kind w) bs)
  | .str .s8 _ => peekStr .s8 r.cells r.addr
  | _ => .error .refused

/-! ## Printing -/

/-- What the standard library contributes to `to_string`: `code_conversion_tool<XTYPES_CHAR>` (`none`: it throws or does
not return, see `Verif.Model.Codec`) and floating point numbers with `<<`. (DynamicDataImpl.hpp 147, 172-180, 190-191,
197-198) -/
structure Printer where
  conv : List Nat → Option Text.Bytes
  float : PK → List Byte → Text.Bytes

/-- The result of a conversion that may fail. (DynamicDataImpl.hpp 147, 190, 197) -/
def orThrow : Option Text.Bytes → M Text.Bytes
  | some t => .ok t
  | none => .error .refused

/-- `ss << value` of a primitive (DynamicDataImpl.hpp 135-180): the 8-bit integers are characters for `<<`; a `wchar_t`
is read as `char16_t`, which `value` (DynamicData.hpp 127-135) refuses. -/
def Printer.prim (P : Printer) (k : PK) (bs : List Byte) : M Text.Bytes :=
  match k with
  | .bool => .ok (if leNat bs = 0 then [48] else [49])
  | .c8 | .i8 | .u8 => .ok [leNat bs]
  | .c16 => orThrow (P.conv [leNat bs])
  | .wc => .error .refused
  | .i16 | .u16 | .i32 | .u32 | .i64 | .u64 => .ok (intText (intVal k bs))
  | .f32 | .f64 | .f128 => .ok (P.float k bs)

/-- `ss << value` of a string (DynamicDataImpl.hpp 181-200); a `wchar_t` becomes a `char16_t`. -/
def Printer.str (P : Printer) (k : SK) (us : List Nat) : M Text.Bytes :=
  match k with
  | .s8 => .ok us
  | .ws => orThrow (P.conv (us.map (· % 2 ^ 16)))
  | .s16 => orThrow (P.conv us)

/-- `"<" << type_name << ">  "` (DynamicDataImpl.hpp 136) -/
def tagged (t : Ty) : Text.Bytes := Text.bytes "<" ++ Text.bytes t.name ++ Text.bytes ">  "

/-- The part of the line after the label (DynamicDataImpl.hpp 133-219). -/
def Printer.body (P : Printer) (r : RRef) : M Text.Bytes :=
  match r.ty with
  | .prim k => (peekRaw r.cells r.addr k.size).bind fun bs => (P.prim k bs).map (tagged r.ty ++ ·)
  | .str k _ => (peekStr k r.cells r.addr).bind fun us => (P.str k us).map (tagged r.ty ++ ·)
  | .arr _ _ _ => .ok (Text.bytes "<" ++ Text.bytes r.ty.name ++ Text.bytes ">")
  | .seq _ _ | .map _ _ _ => r.size.map fun n =>
      Text.bytes "<" ++ Text.bytes r.ty.name ++ Text.bytes "[" ++ Text.dec n ++ Text.bytes "]>"
  | .struct _ _ => .ok (Text.bytes "Structure: <" ++ Text.bytes r.ty.name ++ Text.bytes ">")
  | .enum _ _ _ => .ok (Text.bytes "Enumeration: <" ++ Text.bytes r.ty.name ++ Text.bytes ">")
  | _ => .ok (Text.bytes "Unsupported type: " ++ Text.bytes r.ty.name)

/-- The label of a node that has a parent (DynamicDataImpl.hpp 125-132). -/
def nodeLabel (n : Node) : M Text.Bytes :=
  match n.up with
  | [] => .ok []
  | p :: _ =>
    if isAggr p.ty then
      match n.self.member with
      | some m => .ok (Text.bytes "[" ++ Text.bytes m ++ Text.bytes "] ")
      | none => .error .ub
    else .ok (Text.bytes "[" ++ Text.dec n.self.index ++ Text.bytes "] ")

/-- What the visitor writes for a node (DynamicDataImpl.hpp 121-222). -/
def Printer.line (P : Printer) (n : Node) : M Text.Bytes :=
  (nodeLabel n).bind fun l => (P.body (.mk' n.self.ty n.self.cells n.self.addr)).map fun b =>
    List.replicate (n.self.deep * 4) 32 ++ l ++ b ++ [10]

/-- The visitor of `to_string` (DynamicDataImpl.hpp 121-222): the stream, and how it failed if it did. -/
def Printer.visitor (P : Printer) : Visitor (M Text.Bytes) := fun n s =>
  match s, P.line n with
  | .ok t, .ok l => (.ok (t ++ l), none)
  | .ok _, .error e => (.error e, some .other)
  | .error e, _ => (.error e, some .other)

/-- `to_string()` (DynamicDataImpl.hpp 118-227). -/
def RRef.toString (P : Printer) (r : RRef) : M Text.Bytes :=
  (walk P.visitor r.ty r.cells r.addr (.root r.ty r.cells r.addr) (.ok [])).bind (·.1)

end Verif.Inst
