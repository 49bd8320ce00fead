import Verif.Model.Text
/-!
# Arrays in IDL: printing (include/xtypes/idl/generator.hpp) and parsing (include/xtypes/idl/parser.hpp)
-/

namespace Verif.Text

/-- `array_dimensions(array)` (idl/generator.hpp 76-89) -/
def arrayDimensions : Ty → List Nat
  | .arr _ c d => d :: arrayDimensions c
  | _ => []

/-- The text of the dimensions after the name of a member or alias (idl/generator.hpp 99-103, 381-388). -/
def printDims (ds : List Nat) : Bytes := ds.flatMap fun d => 91 :: dec d ++ [93]

/-- The name `type_name` prints for a primitive (idl/generator.hpp 137-154). -/
def primText : PK → String
  | .bool => "boolean" | .c8 => "char" | .c16 => "wchar" | .wc => "wchar" | .i8 => "int8" | .u8 => "uint8"
  | .i16 => "int16" | .u16 => "uint16" | .i32 => "int32" | .u32 => "uint32" | .i64 => "int64" | .u64 => "uint64"
  | .f32 => "float" | .f64 => "double" | .f128 => "long double"

/-- `type_name(node, type)` for `node == nullptr` (idl/generator.hpp 132-216), with `sequence_type_name` (44-58) and
`map_type_name` (60-74). A pair has no text of its own. -/
def typeName : Ty → Bytes
  | .prim k => bytes (primText k)
  | .arr _ c _ => typeName c
  | .seq c b => bytes "sequence<" ++ typeName c ++ (if b = 0 then [] else bytes ", " ++ dec b) ++ bytes ">"
  | .map k v b =>
    bytes "map<" ++ typeName k ++ bytes ", " ++ typeName v ++ (if b = 0 then [] else bytes ", " ++ dec b) ++ bytes ">"
  | .str k b => bytes (if k = .s8 then "string" else "wstring") ++ (if b = 0 then [] else bytes "<" ++ dec b ++ bytes ">")
  | .pair x y => bytes ("pair_" ++ x.name ++ "_" ++ y.name)
  | .alias n _ => bytes n
  | .enum n _ _ => bytes n
  | .struct n _ => bytes n
  | .union n _ _ _ => bytes n

/-- The declarator is one of a `typedef` or one of a member: they read dimensions differently. (idl/parser.hpp 981-990,
2203-2217) -/
inductive Declarator where
  | typedef | member
  deriving DecidableEq

/-- The number at the front of the rest of the source: `std::atoi(token.data())` (idl/parser.hpp 987) or
`std::stoul(token.data())` (2214), as `uint32_t` (ArrayType.hpp 42-44). `none`: an exception or undefined. -/
def readDim (w : Declarator) (s : Bytes) : Option Nat :=
  match w with
  | .typedef => (atoi s).map fun v => (v % 2 ^ 32).toNat
  | .member => (stoul s).map fun v => v % 2 ^ 32

/-- The dimensions of a declarator whose sizes are literals: `FIXED_ARRAY_SIZE+` (idl/grammar.hpp 156-157, 192-193,
`DEC_LITERAL`), each read by `readDim`. The first argument bounds the number of dimensions. -/
def readDims (w : Declarator) : Nat → Bytes → Option (List Nat)
  | _, [] => some []
  | 0, _ => none
  | f + 1, c :: r =>
    if c = 91 then
      match r.dropWhile (fun c => digit c < 10) with
      | 93 :: t => (readDim w r).bind fun d => (readDims w f t).map (d :: ·)
      | _ => none
    else none

/-- `get_array_type(dimensions, type)` (idl/parser.hpp 2091-2110); an empty list has no last element. -/
def getArrayType (ds : List Nat) (t : Ty) : Option Ty :=
  match ds.reverse with
  | [] => none
  | b :: r => some (r.foldl (fun a d => Ty.array a d) (Ty.array t b))

end Verif.Text
