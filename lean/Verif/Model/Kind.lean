import Verif.Model.Api
/-!
# The kinds of types as numbers with bits (include/xtypes/TypeKind.hpp)

The rest of the model asks types for their constructor (`Ty.isPrimitive`, …); here are the bits that the code looks at.
-/

namespace Verif

/-- `NO_TYPE` (TypeKind.hpp 29) -/
def kindNo : Nat := 0
/-- `PRIMITIVE_TYPE` (TypeKind.hpp 30) -/
def kindPrimitive : Nat := 0x4000
/-- `CONSTRUCTED_TYPE` (TypeKind.hpp 31) -/
def kindConstructed : Nat := 0x8000
/-- `COLLECTION_TYPE` (TypeKind.hpp 32) -/
def kindCollection : Nat := 0x0200
/-- `AGGREGATION_TYPE` (TypeKind.hpp 33) -/
def kindAggregation : Nat := 0x0100
/-- `ENUMERATED_TYPE` (TypeKind.hpp 34) -/
def kindEnumerated : Nat := 0x0400
/-- `UNSIGNED_TYPE` (TypeKind.hpp 36) -/
def kindUnsigned : Nat := 0x80

/-- `PrimitiveTypeKindTrait<T>::kind` (TypeKind.hpp 38-52, PrimitiveType.hpp 45-59) -/
def PK.kind : PK → Nat
  | .bool => kindPrimitive ||| 0x1
  | .i8 => kindPrimitive ||| 0x2
  | .u8 => kindPrimitive ||| 0x3 ||| kindUnsigned
  | .i16 => kindPrimitive ||| 0x4
  | .u16 => kindPrimitive ||| 0x5 ||| kindUnsigned
  | .i32 => kindPrimitive ||| 0x6
  | .u32 => kindPrimitive ||| 0x7 ||| kindUnsigned
  | .i64 => kindPrimitive ||| 0x8
  | .u64 => kindPrimitive ||| 0x9 ||| kindUnsigned
  | .f32 => kindPrimitive ||| 0xA
  | .f64 => kindPrimitive ||| 0xB
  | .f128 => kindPrimitive ||| 0xC
  | .c8 => kindPrimitive ||| 0xD
  | .c16 => kindPrimitive ||| 0xE
  | .wc => kindPrimitive ||| 0xF

/-- The kind of a string type (TypeKind.hpp 61-63, StringType.hpp 198-206). -/
def SK.kind : SK → Nat
  | .s8 => kindConstructed ||| kindCollection ||| 0x6
  | .ws => kindConstructed ||| kindCollection ||| 0x7
  | .s16 => kindConstructed ||| kindCollection ||| 0x9

/-- `kind()` (DynamicType.hpp 52-55), as the constructors set it: EnumerationType.hpp 66, SequenceType.hpp 43, ArrayType.hpp 44,
MapType.hpp 45, PairType.hpp 38, AliasType.hpp 32, StructType.hpp 41, UnionType.hpp 67; the numbers: TypeKind.hpp 54-74. -/
def Ty.kind : Ty → Nat
  | .prim k => k.kind
  | .enum _ _ _ => kindConstructed ||| kindEnumerated ||| 0x1
  | .str k _ => k.kind
  | .seq _ _ => kindConstructed ||| kindCollection ||| 0x5
  | .arr _ _ _ => kindConstructed ||| kindCollection ||| 0x4
  | .map _ _ _ => kindConstructed ||| kindCollection ||| 0x8
  | .pair _ _ => kindConstructed ||| 0xF
  | .alias _ _ => kindConstructed ||| 0x3
  | .struct _ _ => kindConstructed ||| kindAggregation ||| 0xA
  | .union _ _ _ _ => kindConstructed ||| kindAggregation ||| 0x9

/-- `(kind & BIT) != TypeKind::NO_TYPE` (TypeKind.hpp 89-93, e.g. DynamicType.hpp 62) -/
def kindHas (kind bit : Nat) : Bool := kind &&& bit != kindNo

/-- `is_primitive_type()` (DynamicType.hpp 60-63) -/
def Ty.saysPrimitive (T : Ty) : Bool := kindHas T.kind kindPrimitive
/-- `is_collection_type()` (DynamicType.hpp 68-71) -/
def Ty.saysCollection (T : Ty) : Bool := kindHas T.kind kindCollection
/-- `is_aggregation_type()` (DynamicType.hpp 76-79) -/
def Ty.saysAggregation (T : Ty) : Bool := kindHas T.kind kindAggregation
/-- `is_constructed_type()` (DynamicType.hpp 84-87) -/
def Ty.saysConstructed (T : Ty) : Bool := kindHas T.kind kindConstructed
/-- `is_enumerated_type()` (DynamicType.hpp 92-95) -/
def Ty.saysEnumerated (T : Ty) : Bool := kindHas T.kind kindEnumerated

/-- The comparison of the `UNSIGNED_TYPE` bits of two types (PrimitiveType.hpp 257). -/
def sameSign (T U : Ty) : Bool := T.kind &&& kindUnsigned == U.kind &&& kindUnsigned

end Verif
