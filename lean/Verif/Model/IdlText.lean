import Verif.Model.ArrayText
import Verif.Model.UnionText
import Verif.Model.Deps
import Verif.Model.IdlBuild
/-!
# The text of a declaration (include/xtypes/idl/generator.hpp)

The functions that print a structure, a union, an enumeration, an alias and a constant: first for `node` a null pointer (or in the root
module), where a type is printed with its full name; then for a `node` of a module, where the scope of a type of this module is
left out. Simplification: `type_scope` (idl/generator.hpp 107-130) prints nothing. It does print something for a type without
`::` in its name, used in a module that does not declare the name but more than one module around it does.
-/

namespace Verif.Idl.Gen

open Text

/-- `std::string(tabs * 4, ' ')` (idl/generator.hpp 295, 300, 305, 324, 401) -/
def indent (tabs : Nat) : Bytes := List.replicate (tabs * 4) 32

/-- A member: `array_member` (idl/generator.hpp 91-108) or the plain form (320). -/
def memberText (name : String) (t : Ty) : Bytes :=
  typeName t ++ bytes " " ++ bytes name ++ printDims (arrayDimensions t) ++ bytes ";"

/-- The lines of the members of a structure. (idl/generator.hpp 302-323) -/
def memberLines (tabs : Nat) : List (String × Ty) → Bytes
  | [] => []
  | (n, t) :: r => indent (tabs + 1) ++ memberText n t ++ bytes "\n" ++ memberLines tabs r

/-- `structure(name, type, …)` (idl/generator.hpp 282-326) with `inherit_members` (271-279): the members of the parent come
first and are not printed. `parent` is the name of the parent and the number of its members. Simplification: the map
`struct_idl` is not kept. -/
def structText (name : String) (parent : Option (String × Nat)) (ms : List (String × Ty)) (tabs : Nat) : Bytes :=
  indent tabs ++ bytes "struct " ++ bytes name ++
  (match parent with | some p => bytes " : " ++ bytes p.1 | none => []) ++
  bytes "\n" ++ indent tabs ++ bytes "{" ++ bytes "\n" ++
  memberLines tabs (ms.drop ((parent.map (·.2)).getD 0)) ++
  indent tabs ++ bytes "};" ++ bytes "\n"

/-- Insertion by value, after equal values. (idl/generator.hpp 407-411) -/
def byValue (e : String × Nat) : List (String × Nat) → List (String × Nat)
  | [] => [e]
  | x :: r => if e.2 < x.2 then e :: x :: r else x :: byValue e r

/-- `std::sort` by value (idl/generator.hpp 406-411). Simplification: equal values, which `std::sort` may leave in any order,
stay in the order of the names. -/
def sortByValue (l : List (String × Nat)) : List (String × Nat) := l.foldl (fun a e => byValue e a) []

/-- The lines of the enumerators. (idl/generator.hpp 413-422) -/
def enumLines (tabs : Nat) : List String → Bytes
  | [] => []
  | [x] => indent (tabs + 1) ++ bytes x ++ bytes "\n"
  | x :: r => indent (tabs + 1) ++ bytes x ++ bytes "," ++ bytes "\n" ++ enumLines tabs r

/-- `enumeration32(name, enumeration, tabs)` (idl/generator.hpp 393-425): the values are not printed. -/
def enumText (name : String) (vals : List (String × Nat)) (tabs : Nat) : Bytes :=
  indent tabs ++ bytes "enum " ++ bytes name ++ bytes "\n" ++ indent tabs ++ bytes "{" ++ bytes "\n" ++
  enumLines tabs ((sortByValue vals).map (·.1)) ++ indent tabs ++ bytes "};" ++ bytes "\n"

/-- `aliase(name, type, node)` (idl/generator.hpp 372-391). -/
def aliasText (name : String) (t : Ty) : Bytes :=
  bytes "typedef " ++ typeName t ++ bytes " " ++ bytes name ++ printDims (arrayDimensions t) ++ bytes ";" ++ bytes "\n"

/-- The text of a label: `label_value` (idl/generator.hpp 218-270); nothing where it throws. -/
def labelText (u : UnionB) (v : Int) : Bytes := (labelValue v u.disc).getD []

/-- The lines of the labels of a case. (idl/generator.hpp 344-349) -/
def labelLines (u : UnionB) (tabs : Nat) : List Int → Bytes
  | [] => []
  | v :: r => indent (tabs + 1) ++ bytes "case " ++ labelText u v ++ bytes ":" ++ bytes "\n" ++ labelLines u tabs r

/-- The lines of the cases. (idl/generator.hpp 341-366) -/
def caseLines (u : UnionB) (tabs : Nat) : List (String × Ty) → Bytes
  | [] => []
  | (n, t) :: r =>
    labelLines u tabs (u.getLabels n) ++
    (if u.isDefault n then indent (tabs + 1) ++ bytes "default:" ++ bytes "\n" else []) ++
    indent (tabs + 2) ++ memberText n t ++ bytes "\n" ++ caseLines u tabs r

/-- The case members of a union. (idl/generator.hpp 341, 356) -/
def caseMembers (u : UnionB) : List (String × Ty) := u.agg.members.tail.map fun m => (m.name, m.ty)

/-- `generate_union(name, type, …)` (idl/generator.hpp 328-370) -/
def unionText (name : String) (u : UnionB) (tabs : Nat) : Bytes :=
  indent tabs ++ bytes "union " ++ bytes name ++ bytes " switch (" ++ typeName u.disc ++ bytes ")" ++ bytes "\n" ++
  indent tabs ++ bytes "{" ++ bytes "\n" ++ caseLines u tabs (caseMembers u) ++ indent tabs ++ bytes "};" ++ bytes "\n"

/-- `get_const_value(data)` (idl/generator.hpp 427-465) with `cast<std::string>()` (DynamicDataImpl.hpp 230-292): the value of a
character and of a Boolean is printed as a number. -/
def constText : Syn.Item → Bytes
  | .const .c8 v => bytes "'" ++ Syn.number v ++ bytes "'"
  | .const .c16 v => bytes "L'" ++ Syn.number v ++ bytes "'"
  | .const .wc v => bytes "L'" ++ Syn.number v ++ bytes "'"
  | .const _ v => Syn.number v
  | .text _ s => bytes "\"" ++ s ++ bytes "\""
  | .ty _ => []

/-- A constant (idl/generator_deptree.hpp 305-316). -/
def constLine (name : String) (i : Syn.Item) : Bytes :=
  bytes "const " ++ typeName i.type ++ bytes " " ++ bytes name ++ bytes " = " ++ constText i ++ bytes ";" ++ bytes "\n"

/-- A declaration of a module: the kinds of `DependencyNode` (idl/generator_deptree.hpp 80-91). -/
inductive Decl where
  | struct (name : String) (parent : Option (String × Nat)) (ms : List (String × Ty))
  | union (name : String) (u : UnionB)
  | enum (name : String) (vals : List (String × Nat))
  | alias (name : String) (t : Ty)
  | const (name : String) (i : Syn.Item)

/-- `generate_idl_sentence(tabs)` (idl/generator_deptree.hpp 286-345). -/
def declText (tabs : Nat) : Decl → Bytes
  | .struct n p ms => structText n p ms tabs
  | .union n u => unionText n u tabs
  | .enum n vs => enumText n vs tabs
  | .alias n t => indent tabs ++ aliasText n t
  | .const n i => indent tabs ++ constLine n i

/-! ## In a module -/

/-- The name of a structure, union or enumeration as printed in the module at a place: without its scope if that is the scope
of the module, unless the full name is asked for (`scoped` in the code). (idl/generator.hpp 191-211) -/
def shown (p : Loc) (full : Bool) (n : String) : String :=
  match Dep.rcut n.toList with
  | some (sc, x) => if sc = scope p ∧ full = false then String.ofList x else n
  | none => n

/-- `type_name(node, type, scoped)` for a node of the module at a place (idl/generator.hpp 132-216), with
`sequence_type_name` (44-58) and `map_type_name` (60-74): what is inside of an array, a sequence or a map is printed with
`scoped == false`; an alias always has its full name (187-190). -/
def typeNameAt (p : Loc) : Bool → Ty → Bytes
  | _, .prim k => bytes (primText k)
  | _, .arr _ c _ => typeNameAt p false c
  | _, .seq c b => bytes "sequence<" ++ typeNameAt p false c ++ (if b = 0 then [] else bytes ", " ++ dec b) ++ bytes ">"
  | _, .map k v b =>
    bytes "map<" ++ typeNameAt p false k ++ bytes ", " ++ typeNameAt p false v ++ (if b = 0 then [] else bytes ", " ++ dec b) ++
    bytes ">"
  | _, .str k b => bytes (if k = .s8 then "string" else "wstring") ++ (if b = 0 then [] else bytes "<" ++ dec b ++ bytes ">")
  | _, .pair x y => bytes ("pair_" ++ x.name ++ "_" ++ y.name)
  | _, .alias n _ => bytes n
  | s, .enum n _ _ => bytes (shown p s n)
  | s, .struct n _ => bytes (shown p s n)
  | s, .union n _ _ _ => bytes (shown p s n)

/-- A member: `array_member` (idl/generator.hpp 91-108) or the plain form, with the full name in a structure (320) and without
in a union (363). -/
def memberTextAt (p : Loc) (full : Bool) (name : String) (t : Ty) : Bytes :=
  typeNameAt p full t ++ bytes " " ++ bytes name ++ printDims (arrayDimensions t) ++ bytes ";"

/-- The lines of the members of a structure. (idl/generator.hpp 302-323) -/
def memberLinesAt (p : Loc) (tabs : Nat) : List (String × Ty) → Bytes
  | [] => []
  | (n, t) :: r => indent (tabs + 1) ++ memberTextAt p true n t ++ bytes "\n" ++ memberLinesAt p tabs r

/-- `structure(name, type, node, …)` (idl/generator.hpp 282-326): the parent is printed with its full name. -/
def structTextAt (p : Loc) (name : String) (parent : Option (String × Nat)) (ms : List (String × Ty)) (tabs : Nat) : Bytes :=
  indent tabs ++ bytes "struct " ++ bytes name ++
  (match parent with | some q => bytes " : " ++ bytes q.1 | none => []) ++
  bytes "\n" ++ indent tabs ++ bytes "{" ++ bytes "\n" ++
  memberLinesAt p tabs (ms.drop ((parent.map (·.2)).getD 0)) ++
  indent tabs ++ bytes "};" ++ bytes "\n"

/-- `aliase(name, type, node)` (idl/generator.hpp 372-391). -/
def aliasTextAt (p : Loc) (name : String) (t : Ty) : Bytes :=
  bytes "typedef " ++ typeNameAt p false t ++ bytes " " ++ bytes name ++ printDims (arrayDimensions t) ++ bytes ";" ++ bytes "\n"

/-- The lines of the cases of a union. (idl/generator.hpp 341-366) -/
def caseLinesAt (p : Loc) (u : UnionB) (tabs : Nat) : List (String × Ty) → Bytes
  | [] => []
  | (n, t) :: r =>
    labelLines u tabs (u.getLabels n) ++
    (if u.isDefault n then indent (tabs + 1) ++ bytes "default:" ++ bytes "\n" else []) ++
    indent (tabs + 2) ++ memberTextAt p false n t ++ bytes "\n" ++ caseLinesAt p u tabs r

/-- `generate_union(name, type, node, …)` (idl/generator.hpp 328-370) -/
def unionTextAt (p : Loc) (name : String) (u : UnionB) (tabs : Nat) : Bytes :=
  indent tabs ++ bytes "union " ++ bytes name ++ bytes " switch (" ++ typeNameAt p false u.disc ++ bytes ")" ++ bytes "\n" ++
  indent tabs ++ bytes "{" ++ bytes "\n" ++ caseLinesAt p u tabs (caseMembers u) ++ indent tabs ++ bytes "};" ++ bytes "\n"

/-- `generate_idl_sentence(tabs)` of a node of the module at a place (idl/generator_deptree.hpp 286-345). -/
def declTextAt (p : Loc) (tabs : Nat) : Decl → Bytes
  | .struct n q ms => structTextAt p n q ms tabs
  | .union n u => unionTextAt p n u tabs
  | .enum n vs => enumText n vs tabs
  | .alias n t => indent tabs ++ aliasTextAt p n t
  | .const n i => indent tabs ++ constLine n i

/-- A part of the text of a module: a declaration, or a module with its parts; `gap` is the white space before it and `last`
the white space before the end of the module. (idl/generator_deptree.hpp 1023-1063, 1130-1277) -/
inductive Doc where
  | decl (gap : Bytes) (tabs : Nat) (d : Decl)
  | module (gap : Bytes) (tabs : Nat) (name : String) (ds : List Doc) (last : Bytes)

mutual
/-- The text of a part. (idl/generator_deptree.hpp 1165-1168, 1243-1245) -/
def docText (p : Loc) : Doc → Bytes
  | .decl g t d => g ++ declTextAt p t d
  | .module g t n ds e =>
    g ++ indent t ++ bytes "module " ++ bytes n ++ bytes "\n" ++ indent t ++ bytes "{" ++ bytes "\n" ++
    docsText (n.toList :: p) ds ++ e ++ indent t ++ bytes "};" ++ bytes "\n"
/-- The text of the parts. (idl/generator_deptree.hpp 1023-1063, 1130-1277) -/
def docsText (p : Loc) : List Doc → Bytes
  | [] => []
  | d :: ds => docText p d ++ docsText p ds
end

end Verif.Idl.Gen
