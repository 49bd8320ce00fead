import Verif.Model.Consistency
/-!
# Types

The tree of `DynamicType`s. A `Ty` is the immutable value a `DynamicType` denotes: types own deep
copies of their parts (`DynamicType::Ptr`, DynamicType.hpp 232-340), so a tree is an exact picture.

Sizes are those of the platform the project is built for (LP64, libstdc++): see `PK.size`,
`strSize`, `seqSize`, `mapSize`.
-/

namespace Verif

/-- The primitive kinds (TypeKind.hpp 38-52). -/
inductive PK where
  | bool | i8 | u8 | i16 | u16 | i32 | u32 | i64 | u64 | f32 | f64 | f128 | c8 | c16 | wc
  deriving DecidableEq, Repr

/-- `sizeof(T)` for `PrimitiveType<T>::memory_size` (PrimitiveType.hpp 112-115), LP64 values:
`long double` is 16 bytes, `wchar_t` 4. -/
def PK.size : PK → Nat
  | .bool | .i8 | .u8 | .c8 => 1
  | .i16 | .u16 | .c16 => 2
  | .i32 | .u32 | .f32 | .wc => 4
  | .i64 | .u64 | .f64 => 8
  | .f128 => 16

/-- Whether the kind carries the `UNSIGNED_TYPE` bit (TypeKind.hpp 36, 38-52). Note that `bool`,
the characters and the floats do not. -/
def PK.unsignedBit : PK → Bool
  | .u8 | .u16 | .u32 | .u64 => true
  | _ => false

/-- Floating point kinds. (TypeKind.hpp 47-49) -/
def PK.isFloat : PK → Bool
  | .f32 | .f64 | .f128 => true
  | _ => false

/-- `#TYPE` in `DDS_CORE_XTYPES_PRIMITIVE` (PrimitiveType.hpp 37-59). -/
def PK.name : PK → String
  | .bool => "bool" | .i8 => "int8_t" | .u8 => "uint8_t" | .i16 => "int16_t" | .u16 => "uint16_t"
  | .i32 => "int32_t" | .u32 => "uint32_t" | .i64 => "int64_t" | .u64 => "uint64_t"
  | .f32 => "float" | .f64 => "double" | .f128 => "long double"
  | .c8 => "char" | .c16 => "char16_t" | .wc => "wchar_t"

/-- The three string kinds (TypeKind.hpp 61-63). -/
inductive SK where
  | s8 | ws | s16
  deriving DecidableEq, Repr

/-- `TYPE_NAME` (StringType.hpp 196-206). -/
def SK.name : SK → String
  | .s8 => "std::string" | .ws => "std::wstring" | .s16 => "std::u16string"

/-- Underlying type of an `EnumerationType<T>`: `uint8_t`, `uint16_t` or `uint32_t`
(EnumerationType.hpp 66-72). -/
inductive EW where
  | w1 | w2 | w4
  deriving DecidableEq, Repr

/-- `sizeof(T)` of the underlying type of an enumeration. (EnumerationType.hpp 64-74) -/
def EW.size : EW → Nat
  | .w1 => 1 | .w2 => 2 | .w4 => 4

/-- `sizeof(std::basic_string<CHAR_T>)` (StringType.hpp 51-54), 32 in libstdc++. -/
def strSize : Nat := 32
/-- `sizeof(SequenceInstance)` (SequenceType.hpp 70-73): vtable, `shared_ptr`, three `uint32_t`, one
pointer: 48 bytes on LP64. -/
def seqSize : Nat := 48
/-- `sizeof(MapInstance)` (MapType.hpp 74-77), same members as `SequenceInstance`. -/
def mapSize : Nat := 48

/-- Case information of a union (UnionType.hpp 1133-1140): `labels_` (an ordered `std::map<int64_t,
std::string>`, here the list of its entries in increasing key order), `default_value_`,
`invalid_value_` and `default_`. -/
structure UInfo where
  labels : List (Int × String)
  defaultValue : Int
  invalidValue : Int
  default : Int
  deriving DecidableEq, Repr

mutual
/-- A `DynamicType`. (DynamicType.hpp 42-341) -/
inductive Ty where
  /-- `PrimitiveType<T>` (PrimitiveType.hpp 80) -/
  | prim (k : PK)
  /-- `EnumerationType<T>` (EnumerationType.hpp 29): the entries of `values_`, an ordered
  `std::map<std::string, T>`. -/
  | enum (name : String) (w : EW) (vals : List (String × Nat))
  /-- `TStringType` (StringType.hpp 34); bound 0 means unbounded. -/
  | str (k : SK) (bounds : Nat)
  /-- `SequenceType` (SequenceType.hpp 32) -/
  | seq (content : Ty) (bounds : Nat)
  /-- `ArrayType` (ArrayType.hpp 33); the name is stored because the two constructors of the class
  compute it differently (see `Ty.array`, `Ty.arrayMulti`). -/
  | arr (name : String) (content : Ty) (dim : Nat)
  /-- `MapType` (MapType.hpp 32); its content type is `PairType(key, val)`. -/
  | map (key val : Ty) (bounds : Nat)
  /-- `PairType` (PairType.hpp 30) -/
  | pair (first second : Ty)
  /-- `AliasType` (AliasType.hpp 25) -/
  | alias (name : String) (t : Ty)
  /-- `StructType` (StructType.hpp 32) with its members in order (inherited ones first). -/
  | struct (name : String) (ms : Mems)
  /-- `UnionType` (UnionType.hpp 58): discriminator type (member 0), case members in order. -/
  | union (name : String) (disc : Ty) (ms : Mems) (info : UInfo)
/-- A list of named members (`std::vector<Member>`, AggregationType.hpp 132). -/
inductive Mems where
  | nil
  | cons (name : String) (t : Ty) (rest : Mems)
end

deriving instance DecidableEq for Ty, Mems
deriving instance Repr for Ty, Mems

namespace Mems

/-- `members().size()` (AggregationType.hpp 44) -/
def length : Mems → Nat
  | .nil => 0
  | .cons _ _ r => r.length + 1

/-- Members as a plain list. (a view of AggregationType.hpp 44) -/
def toList : Mems → List (String × Ty)
  | .nil => []
  | .cons n t r => (n, t) :: r.toList

/-- Members from a plain list. (a view of AggregationType.hpp 44) -/
def ofList : List (String × Ty) → Mems
  | [] => .nil
  | (n, t) :: r => .cons n t (ofList r)

/-- Member names in order. (a view of AggregationType.hpp 44) -/
def names : Mems → List String
  | .nil => []
  | .cons n _ r => n :: r.names

/-- Append. (a view of AggregationType.hpp 44) -/
def append : Mems → Mems → Mems
  | .nil, o => o
  | .cons n t r, o => .cons n t (r.append o)

/-- `member(index)` (AggregationType.hpp 50-55). -/
def get? : Mems → Nat → Option (String × Ty)
  | .nil, _ => none
  | .cons n t _, 0 => some (n, t)
  | .cons _ _ r, i + 1 => r.get? i

/-- `member(name)` (AggregationType.hpp 61-66): `members_[indexes_.at(name)]`; `indexes_.emplace`
keeps the first position of a name. -/
def find? : Mems → String → Option Ty
  | .nil, _ => none
  | .cons n t r, s => if n = s then some t else r.find? s

end Mems

/-- `AliasType::rget` (AliasType.hpp 152-159): strip all aliases. -/
def Ty.rget : Ty → Ty
  | .alias _ t => t.rget
  | t => t

mutual
/-- `memory_size()`: PrimitiveType.hpp 112-115, StringType.hpp 51-54, SequenceType.hpp 70-73,
ArrayType.hpp 102-105, MapType.hpp 74-77, PairType.hpp 85-88, AliasType.hpp 58-61,
StructType.hpp 89-92 (the accumulated `memory_size_`, see `Verif.Model.Builder` for the stored
counter), UnionType.hpp 248-251 (discriminator plus the largest member). Simplification: sizes are
unbounded naturals instead of `size_t`. -/
def Ty.memSize : Ty → Nat
  | .prim k => k.size
  | .enum _ w _ => w.size
  | .str _ _ => strSize
  | .seq _ _ => seqSize
  | .arr _ c d => d * c.memSize
  | .map _ _ _ => mapSize
  | .pair a b => a.memSize + b.memSize
  | .alias _ t => t.memSize
  | .struct _ ms => ms.sumSize
  | .union _ d ms _ => d.memSize + ms.maxSize
/-- Sum of the sizes of the members. (the running sum of StructType.hpp 60) -/
def Mems.sumSize : Mems → Nat
  | .nil => 0
  | .cons _ t r => t.memSize + r.sumSize
/-- Size of the largest member (UnionType.hpp 116-121, `maximum_case_member_memory_`). -/
def Mems.maxSize : Mems → Nat
  | .nil => 0
  | .cons _ t r => max t.memSize r.maxSize
end

/-- Name suffix for bounds: `std::to_string(bounds) + "_"` when bounded. (SequenceType.hpp 44, MapType.hpp 46) -/
def boundsPrefix (b : Nat) : String := if b > 0 then toString b ++ "_" else ""

/-- `name()`: the constructors in PrimitiveType.hpp 89-92, StringType.hpp 41-49,
SequenceType.hpp 44, MapType.hpp 46, PairType.hpp 38; user types carry theirs. -/
def Ty.name : Ty → String
  | .prim k => k.name
  | .enum n _ _ => n
  | .str k b => k.name ++ (if b > 0 then "_" ++ toString b else "")
  | .seq c b => "sequence_" ++ boundsPrefix b ++ c.name
  | .arr n _ _ => n
  | .map k v b => "map_" ++ boundsPrefix b ++ ("pair_" ++ k.name ++ "_" ++ v.name)
  | .pair a b => "pair_" ++ a.name ++ "_" ++ b.name
  | .alias n _ => n
  | .struct n _ => n
  | .union n _ _ _ => n

/-- `ArrayType(content, dimension)` (ArrayType.hpp 40-49). -/
def Ty.array (content : Ty) (dim : Nat) : Ty :=
  .arr ("array_" ++ toString dim ++ "_" ++ content.name) content dim

/-- `ArrayType(content, dimensions)` (ArrayType.hpp 75-93) for a non-empty dimension list
`d :: ds` (an empty one is rejected by the assertion of line 79). The name uses the first dimension
and the name of the innermost content only. -/
def Ty.arrayMulti (content : Ty) : Nat → List Nat → Ty
  | d, [] => .arr ("array_" ++ toString d ++ "_" ++ content.name) content d
  | d, e :: es => .arr ("array_" ++ toString d ++ "_" ++ content.name) (content.arrayMulti e es) d

/-- `is_primitive_type()` (DynamicType.hpp 60-63): enumerations have kind
`CONSTRUCTED | ENUMERATED | 1` (TypeKind.hpp 54), so they are not primitive. -/
def Ty.isPrimitive : Ty → Bool
  | .prim _ => true
  | _ => false

/-- `is_enumerated_type()` (DynamicType.hpp 92-95). -/
def Ty.isEnumerated : Ty → Bool
  | .enum _ _ _ => true
  | _ => false

/-- `is_constructed_type()` (DynamicType.hpp 84-87): every kind but the primitives has the bit. -/
def Ty.isConstructed : Ty → Bool
  | .prim _ => false
  | _ => true

/-- `kind() == STRUCTURE_TYPE` (DynamicType.hpp 52-55) -/
def Ty.isStruct : Ty → Bool
  | .struct _ _ => true
  | _ => false

/-- `kind() == ALIAS_TYPE` (DynamicType.hpp 52-55) -/
def Ty.isAlias : Ty → Bool
  | .alias _ _ => true
  | _ => false

mutual
/-- Number of nodes of the type tree: the measure for recursion on pairs of types (not code). -/
def Ty.sz : Ty → Nat
  | .prim _ => 1
  | .enum _ _ _ => 1
  | .str _ _ => 1
  | .seq c _ => c.sz + 1
  | .arr _ c _ => c.sz + 1
  | .map k v _ => k.sz + v.sz + 2
  | .pair a b => a.sz + b.sz + 1
  | .alias _ t => t.sz + 1
  | .struct _ ms => ms.sz + 1
  | .union _ d ms _ => d.sz + ms.sz + 2
/-- See `Ty.sz`. -/
def Mems.sz : Mems → Nat
  | .nil => 0
  | .cons _ t r => t.sz + r.sz + 1
end

end Verif
