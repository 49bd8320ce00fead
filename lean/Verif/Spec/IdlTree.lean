import Verif.Spec.IdlDoc
import Verif.Spec.DeclOrder
import Verif.Model.IdlModule
/-!
# Trees of modules and the texts generated from them

What a tree of modules has to look like for the text generated from it to be read back, and what it means that two trees are the
same. A place is the list of the names of the modules around it, innermost first.
-/

namespace Verif.Idl

open Syn Gen Text
open Dep (Node Kind)

/-- The kind of a declaration. -/
def declKind : Decl → Kind
  | .struct _ _ _ => .struct
  | .union _ _ => .union
  | .enum _ _ => .enum
  | .alias _ _ => .alias
  | .const _ _ => .const

/-- What stands in the table of the module at the place `p` for a declaration: its type, or its value. -/
def itemOf (p : Loc) : Decl → Item
  | .struct n _ ms => .ty (.struct (scopedStr p n) (Mems.ofList ms))
  | .union _ u => .ty u.toTy
  | .enum n vs => .ty (.enum (scopedStr p n) .w4 vs)
  | .alias n t => .ty (.alias (scopedStr p n) t)
  | .const _ i => i

/-- The tree with the types and values of its declarations. -/
def items (root : Mod Decl) : Mod Item := root.mapAt itemOf []

/-- The same modules at the same places, with the same tables; and the same constants are said to stand for enumerators. -/
def SameTree (a b : Mod Item) : Prop :=
  ∀ p, match a.at p, b.at p with
    | none, none => True
    | some x, some y => (∀ k, x.content.get k = y.content.get k) ∧ x.inner.map (·.1) = y.inner.map (·.1) ∧
        ∀ z, z ∈ x.content.fromEnum ↔ z ∈ y.content.fromEnum
    | _, _ => False

/-- A tree as it is after declarations have been entered: the tables are ordered, an entry has the name and the kind under which it
is found, and the constants that are said to stand for enumerators are those of the enumerators of the module, with their values. -/
structure Sound (root : Mod Decl) : Prop where
  full : root.full = true
  tables : ∀ p m, root.at p = some m → (∀ k, (m.content.get k).Pairwise fun a b => a.1 < b.1) ∧ m.inner.Pairwise fun a b => a.1 < b.1
  entries : ∀ n d, element root n = some d → declKind d = n.kind ∧ (declName d).toList = n.name
  marks : ∀ p m x, root.at p = some m → (x ∈ m.content.fromEnum ↔
    ∃ n vs, element root ⟨p, .enum, n.toList⟩ = some (.enum n vs) ∧ x ∈ vs.map (·.1.toList))
  values : ∀ p n vs e, element root ⟨p, .enum, n.toList⟩ = some (.enum n vs) → e ∈ vs →
    element root ⟨p, .const, e.1.toList⟩ = some (.const e.1 (.const .u32 e.2))

/-- No two things have the same name: not two in one module, be they elements or submodules; not one in a module and another in a
module around it; not an enumerator of one enumeration and one of another in the module. -/
structure Distinct (root : Mod Decl) : Prop where
  kinds : ∀ n m, (element root n).isSome → (element root m).isSome → n.loc = m.loc → n.name = m.name → n = m
  modules : ∀ n, (element root n).isSome → root.at (n.name :: n.loc) = none
  around : ∀ x p q, Declares root x p → Declares root x q → q <:+ p → q = p
  enumerators : ∀ p a b vs ws x, element root ⟨p, .enum, a.toList⟩ = some (.enum a vs) →
    element root ⟨p, .enum, b.toList⟩ = some (.enum b ws) → x ∈ vs.map (·.1) → x ∈ ws.map (·.1) → a = b

/-- The tree declares the type, under this full name. -/
def Known (root : Mod Decl) (name : String) (T : Ty) : Prop :=
  ∃ n d, element root n = some d ∧ declTy n.loc d = some T ∧ name = scopedStr n.loc (declName d)

/-- The type of a member (or of an alias) whose declaration stands for it, if all types of the tree are known. (Compare
`WritableMember`.) -/
def Expressible (r : Reading) (lim : Nat) (root : Mod Decl) (T : Ty) : Prop :=
  Stepwise T ∧ DimsBelow lim T ∧ Writable r (Known root) (innermost T)

/-- The name can be used for a member: no module at the place `p` or around it declares something under that name. -/
def MemberName (root : Mod Decl) (p : Loc) (x : String) : Prop := Usable x ∧ Unseen root p x.toList

/-- A label whose text stands for it. (Compare `ReadableLabel`.) -/
def ExpressibleLabel (root : Mod Decl) (p : Loc) (disc : Ty) (v : Int) : Prop :=
  Survives disc v ∧
  match disc.rget with
  | .prim .bool => Unseen root p "TRUE".toList ∧ Unseen root p "FALSE".toList
  | .prim .c8 | .prim .c16 | .prim .wc => 32 ≤ v ∧ v < 127 ∧ v ≠ 34 ∧ v ≠ 39 ∧ v ≠ 92
  | .enum _ _ vals => ∀ e ∈ vals, (e.2 : Int) = v →
      Identifier e.1 ∧ (∀ r, e.1.toList ≠ "TRUE".toList ++ r) ∧ (∀ r, e.1.toList ≠ "FALSE".toList ++ r) ∧
      ∀ q d, q <:+ p → element root ⟨q, .const, e.1.toList⟩ = some d → ∃ k, itemOf q d = .const k v
  | _ => True

/-- A declaration of the tree, in the module at the place `p`, whose text stands for it. (Compare `Declarable`.) -/
def ExpressibleDecl (r : Reading) (root : Mod Decl) (p : Loc) : Decl → Prop
  | .struct y q ms =>
    (ms.map (·.1)).Nodup ∧
    (∀ x, q = some x → TypeName x.1 ∧ x.1 ≠ scopedStr p y ∧ x.2 ≤ ms.length ∧
      ∃ l n q', element root ⟨l, .struct, n.toList⟩ = some (.struct n q' (ms.take x.2)) ∧ x.1 = scopedStr l n) ∧
    ∀ e ∈ ms.drop ((q.map (·.2)).getD 0), MemberName root p e.1 ∧ Expressible r (2 ^ 32) root e.2
  | .union n u =>
    u.name = scopedStr p n ∧ u.Built ∧ Writable r (Known root) u.disc ∧ 2 ≤ (caseMembers u).length ∧
    (∀ e ∈ caseMembers u, MemberName root p e.1 ∧ Expressible r (2 ^ 32) root e.2 ∧ Restorable u e.1 ∧
      (∀ v ∈ u.getLabels e.1, ExpressibleLabel root p u.disc v))
  | .enum _ vs => vs ≠ [] ∧ vs.length ≤ 2 ^ 32 ∧ vs.Pairwise (fun a b => a.1 < b.1) ∧ (vs.map (·.2)).Perm (List.range vs.length)
  | .alias _ t => Expressible r (2 ^ 31) root t
  | .const _ i => WritableConst i

/-- The module at the place has an element that is printed or a submodule. -/
def Inhabited (root : Mod Decl) (p : Loc) : Prop :=
  ∃ m, root.at p = some m ∧ (m.inner ≠ [] ∨ (∃ k, k ≠ .const ∧ m.content.get k ≠ []) ∨ ∃ e ∈ m.content.consts, e.1 ∉ m.content.fromEnum)

/-- A tree that can be read back from the text of its declarations. -/
structure ExpressibleTree (r : Reading) (root : Mod Decl) : Prop where
  sound : Sound root
  distinct : Distinct root
  names : ∀ x p, Declares root x p → Usable (String.ofList x)
  inhabited : ∀ p, (root.at p).isSome → Inhabited root p
  decls : ∀ n d, element root n = some d → ¬ Dep.EnumeratorConst (deps root) n → ExpressibleDecl r root n.loc d

end Verif.Idl
