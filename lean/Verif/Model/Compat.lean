import Verif.Model.Ty
/-!
# `is_compatible`

`compat a b` is `a.is_compatible(b)`; the virtual dispatch is a match on `a`.
-/

namespace Verif

theorem Ty.rget_sz_le : (t : Ty) → t.rget.sz ≤ t.sz
  | .alias _ t => by simp only [Ty.rget, Ty.sz]; have := Ty.rget_sz_le t; omega
  | .prim _ | .enum _ _ _ | .str _ _ | .seq _ _ | .arr _ _ _ | .map _ _ _ | .pair _ _
  | .struct _ _ | .union _ _ _ _ => by simp [Ty.rget]

/-- Second component of the termination measure of `compat`: types whose `is_compatible` swaps
its arguments when given a structure come before structures.
(for the mutual calls of the `is_compatible` functions cited at `compat`; not code) -/
def Ty.rank : Ty → Nat
  | .struct _ _ => 0
  | _ => 1

/-- Name of the discriminator member (UnionType.hpp 40). -/
def discName : String := "discriminator"

/-- Flags of a primitive pair of different kinds (PrimitiveType.hpp 246-261). -/
def primFlags (k l : PK) : Cons :=
  Cons.or (Cons.or Cons.equals (if k.size ≠ l.size then Cons.width else Cons.equals))
    (if k.unsignedBit ≠ l.unsignedBit then Cons.sign else Cons.equals)

/-- Flags of an enumeration against a primitive (EnumeratedType.hpp 111-121). -/
def enumPrimFlags (w : EW) (l : PK) : Cons :=
  Cons.or (Cons.or Cons.equals (if w.size ≠ l.size then Cons.width else Cons.equals))
    (if l.unsignedBit = false then Cons.sign else Cons.equals)

mutual
/-- `a.is_compatible(b)`:
PrimitiveType.hpp 227-262, EnumeratedType.hpp 82-122, StringType.hpp 123-150,
SequenceType.hpp 154-183, ArrayType.hpp 231-260, MapType.hpp 167-196, PairType.hpp 157-174,
AliasType.hpp 113-128, StructType.hpp 188-239, UnionType.hpp 366-417. -/
def compat (a b : Ty) : Cons :=
  match a with
  | .alias _ t => -- AliasType 113-128
    match b with
    | .alias _ u => Cons.or Cons.equals (compat t.rget u.rget)
    | b => compat t.rget b
  | .prim k => -- PrimitiveType 227-262
    match b with
    | .alias _ u => compat u.rget (.prim k) -- 230-233: note the swapped arguments
    | .struct n os => compat (.struct n os) (.prim k) -- 236-239
    | .prim l => if k = l then Cons.equals else primFlags k l
    | _ => Cons.none
  | .enum n w vs => -- EnumeratedType 82-122
    match b with
    | .alias _ u => compat (.enum n w vs) u.rget
    | .struct m os => compat (.struct m os) (.enum n w vs)
    | .enum _ x _ => if w.size = x.size then Cons.equals else Cons.width
    | .prim l => enumPrimFlags w l
    | _ => Cons.none
  | .str k c => -- StringType 123-150
    match b with
    | .alias _ u => compat (.str k c) u.rget
    | .struct m os => compat (.struct m os) (.str k c)
    | .str l d => if k ≠ l then Cons.none else if c = d then Cons.equals else Cons.stringBounds
    | _ => Cons.none
  | .seq t c => -- SequenceType 149-177
    match b with
    | .alias _ u => compat (.seq t c) u.rget
    | .struct m os => compat (.struct m os) (.seq t c)
    | .seq u d =>
      if c = d then Cons.or Cons.equals (compat t u) else Cons.or Cons.seqBounds (compat t u)
    | _ => Cons.none
  | .arr n t d => -- ArrayType 231-260
    match b with
    | .alias _ u => compat (.arr n t d) u.rget
    | .struct m os => compat (.struct m os) (.arr n t d)
    | .arr _ u e =>
      if d = e then Cons.or Cons.equals (compat t u) else Cons.or Cons.arrayBounds (compat t u)
    | _ => Cons.none
  | .map k v c => -- MapType 167-196; the content types are the pairs of key and value
    match b with
    | .alias _ u => compat (.map k v c) u.rget
    | .struct m os => compat (.struct m os) (.map k v c)
    | .map l w d =>
      if c = d then Cons.or Cons.equals (compat (.pair k v) (.pair l w))
      else Cons.or Cons.mapBounds (compat (.pair k v) (.pair l w))
    | _ => Cons.none
  | .pair a1 a2 => -- PairType 157-174 (no structure rule)
    match b with
    | .alias _ u => compat (.pair a1 a2) u.rget
    | .pair b1 b2 => Cons.or (compat a1 b1) (compat a2 b2)
    | _ => Cons.none
  | .struct n ms => -- StructType 190-239
    match b with
    | .alias _ u => compat (.struct n ms) u.rget
    | b =>
      match ms with
      | .cons _ t .nil => compat b t -- 199-202: a one-member structure is its member
      | ms =>
        match b with
        | .struct _ os => compatMems Cons.equals ms os
        | _ => Cons.none
  | .union n d ms i => -- UnionType 366-416: the discriminator is member 0
    match b with
    | .alias _ u => compat (.union n d ms i) u.rget
    | .struct m os => compat (.struct m os) (.union n d ms i)
    | .union _ e os _ => compatMems Cons.equals (.cons discName d ms) (.cons discName e os)
    | _ => Cons.none
termination_by (a.sz + b.sz, a.rank)
decreasing_by
  all_goals simp only [Ty.sz, Mems.sz, Ty.rank, Prod.lex_def]
  all_goals first
    | omega
    | (have h1 := Ty.rget_sz_le t; have h2 := Ty.rget_sz_le u; omega)
    | (have h1 := Ty.rget_sz_le t; omega)
    | (have h1 := Ty.rget_sz_le u; omega)
/-- The member loop shared by structures and unions (StructType.hpp 209-238,
UnionType.hpp 387-416), with the accumulated `consistency`. -/
def compatMems (acc : Cons) (ms os : Mems) : Cons :=
  match ms, os with
  | .nil, .nil => acc
  | .nil, .cons _ _ _ => Cons.or acc Cons.members
  | .cons _ _ _, .nil => Cons.or acc Cons.members
  | .cons n t r, .cons m u s =>
    if compat t u = Cons.none then Cons.none
    else compatMems (Cons.or (if n ≠ m then Cons.or acc Cons.memberNames else acc) (compat t u)) r s
termination_by (ms.sz + os.sz, 2)
decreasing_by
  all_goals simp only [Mems.sz, Prod.lex_def]
  all_goals omega
end

end Verif
