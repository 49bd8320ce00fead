import Verif.Spec.Walk
import Verif.Model.Api
/-!
# What readable references should give

On values: the elements of a collection, the members of a structure, numbers and numerals, and the text of a tree.
-/

namespace Verif.Inst

/-- What the reference refers to has this value. -/
def RRef.Sees (r : RRef) (v : Val) : Prop :=
  ∃ pre x post : List Cell, r.cells = pre ++ x ++ post ∧ pre.length = r.addr ∧ decode r.ty x = some v

/-- The type of the elements of an array, a sequence, a string or a map. -/
def elemTy : Ty → Option Ty
  | .arr _ c _ => some c
  | .seq c _ => some c
  | .str k _ => some (.prim (charOf k))
  | .map k v _ => some (.pair k v)
  | _ => none

/-- The elements of a collection; those of a map are the pairs of key and value. -/
def elems : Ty → Val → List Val
  | .str k _, .str us => us.map fun u => .bytes (leBytes (charOf k).size u)
  | _, .list vs => vs
  | _, .coll vs => vs
  | _, _ => []

/-- The parts of a structure or a pair with their types. -/
def parts : Ty → Val → List (Ty × Val)
  | .struct _ ms, .list vs => (ms.toList.map (·.2)).zip vs
  | .pair x y, .list [a, b] => [(x, a), (y, b)]
  | _, _ => []

/-- The C++ type a scalar is read as: an enumeration is an unsigned number. -/
def scalarOf : Ty → Option PK
  | .prim k => some k
  | .enum _ .w1 _ => some .u8
  | .enum _ .w2 _ => some .u16
  | .enum _ .w4 _ => some .u32
  | _ => none

/-- The value of an element as a value of the host language. -/
def IsHost : HK → Val → Host → Prop
  | .num k, v, h => ∃ bs, v = .bytes bs ∧ h = .num k bs
  | .str k, v, h => ∃ us, v = .str us ∧ h = .str k us

/-- The type is exactly the C++ type (no alias, no enumeration). -/
def HK.Matches : HK → Ty → Prop
  | .num k, t => t = .prim k
  | .str k, t => ∃ b, t = .str k b

/-- Text as bytes. -/
def ascii (s : String) : List Nat := s.toList.map Char.toNat

/-! ## The text of a tree -/

/-- The text of a value: numbers of more than 8 bits as decimal numerals, truth values as 0 and 1, numbers of 8 bits
and characters as characters, other characters and strings in UTF-8 (by `P`). Nothing is said about `wchar_t`. -/
def valueText (P : Printer) : Ty → Val → Option (List Nat)
  | .prim k, .bytes bs =>
    match k with
    | .bool => some (ascii (if leNat bs = 0 then "0" else "1"))
    | .c8 | .i8 | .u8 => some [leNat bs]
    | .c16 => P.conv [leNat bs]
    | .wc => none
    | .f32 | .f64 | .f128 => some (P.float k bs)
    | _ => some (ascii (toString (number k bs)))
  | .str .s8 _, .str us => some us
  | .str .s16 _, .str us => P.conv us
  | .str .ws _, .str us => P.conv (us.map (· % 2 ^ 16))
  | _, _ => none

/-- A node on its line: its type, and for scalars and strings its value, for sequences and maps their size. -/
def nodeText (P : Printer) (T : Ty) (v : Val) : Option (List Nat) :=
  match T, v with
  | .struct n _, _ => some (ascii ("Structure: <" ++ n ++ ">"))
  | .enum n _ _, _ => some (ascii ("Enumeration: <" ++ n ++ ">"))
  | .arr n _ _, _ => some (ascii ("<" ++ n ++ ">"))
  | .seq _ _, .coll vs => some (ascii ("<" ++ T.name ++ "[" ++ toString vs.length ++ "]>"))
  | .map _ _ _, .coll vs => some (ascii ("<" ++ T.name ++ "[" ++ toString vs.length ++ "]>"))
  | .pair _ _, _ => some (ascii ("Unsupported type: " ++ T.name))
  | .union n _ _ _, _ => some (ascii ("Unsupported type: " ++ n))
  | T, v => (valueText P T v).map fun t => ascii ("<" ++ T.name ++ ">  ") ++ t

/-- How a node is labelled: by the member if its parent is a structure or a union, else by the index; the root is
not. -/
def labelText : List Info → Option (List Nat)
  | i :: p :: _ =>
    match p.ty with
    | .struct _ _ => i.member.map fun m => ascii ("[" ++ m ++ "] ")
    | .union _ _ _ _ => i.member.map fun m => ascii ("[" ++ m ++ "] ")
    | _ => some (ascii ("[" ++ toString i.index ++ "] "))
  | _ => some []

/-- The line of a node: four spaces per level, label, text, end of line. -/
def lineText (P : Printer) : List Info → Option (List Nat)
  | [] => none
  | i :: up => (labelText (i :: up)).bind fun l => (nodeText P i.ty i.val).map fun t =>
      List.replicate (4 * up.length) 32 ++ l ++ t ++ [10]

/-- The lines one after the other, if all of them exist. -/
def textOf (P : Printer) : List (List Info) → Option (List Nat)
  | [] => some []
  | c :: cs => (lineText P c).bind fun t => (textOf P cs).map (t ++ ·)

end Verif.Inst
