import Verif.Spec.Idl
import Verif.Spec.ArrayText
import Verif.Spec.Labels
import Verif.Model.IdlText
import Verif.Model.IdlBuild
import Verif.Spec.Module
/-!
# Declarations of a module

When a declaration can be added to a module, and what the module is afterwards. A place is the list of the names of the modules
around it, innermost first.
-/

namespace Verif.Idl

open Syn Gen Text

/-- Seen from the module at the place `p`, the name is the name of the type. -/
def Means (root : Mod Item) (p : Loc) (x : String) (T : Ty) : Prop :=
  ∃ q y, Lookup root p x.toList (.found q y) ∧ typeOf root false (.found q y) = some (some (.ty T))

/-- Seen from the module at the place `p`, the name is the name of a structure with these members. -/
def MeansStruct (root : Mod Item) (p : Loc) (x : String) (ms : List (String × Ty)) : Prop :=
  ∃ q y n ps, Lookup root p x.toList (.found q y) ∧ fetch root .struct (.found q y) = some (.ty (.struct n ps)) ∧ ps.toList = ms

/-- Seen from the module at the place `p`, the name is the name of this constant. -/
def Constant (root : Mod Item) (p : Loc) (x : Name) (i : Item) : Prop :=
  ∃ q y, Lookup root p x (.found q y) ∧ fetch root .const (.found q y) = some i

/-- The name can be used and has no meaning in the module at the place `p` and those around it. -/
def Free (root : Mod Item) (p : Loc) (x : String) : Prop := Usable x ∧ Unseen root p x.toList

/-- The full name of something declared in the module at the place `p`. -/
def scopedStr (p : Loc) (x : String) : String := String.ofList (scopedName p x.toList)

/-- What is printed for a named type in the module at the place `p` is, seen from there, the name of the type. -/
def Stands (root : Mod Item) (p : Loc) (full : Bool) (n : String) (T : Ty) : Prop :=
  match T with
  | .alias _ _ => Means root p n T
  | _ => Means root p (shown p full n) T

/-- A structure, a union or an enumeration. -/
def isNamed : Ty → Bool
  | .enum _ _ _ => true
  | .struct _ _ => true
  | .union _ _ _ _ => true
  | _ => false

/-- The type of a member (or of an alias) whose declaration stands for it: an array built dimension by dimension, with
dimensions below `lim`, of a writable type; or just a writable type. `full`: if the type itself has a name, the full name is
printed (in a structure). -/
def WritableMember (r : Reading) (lim : Nat) (root : Mod Item) (p : Loc) (full : Bool) (T : Ty) : Prop :=
  Stepwise T ∧ DimsBelow lim T ∧ Writable r (Stands root p (full && isNamed T)) (innermost T)

/-- A label whose text stands for it in the module: it comes back when it is printed and parsed (C48); characters are printable
and need no escape; an enumerator is an identifier that does not begin like a Boolean literal, and a constant of that name has
the value of the label. -/
def ReadableLabel (root : Mod Item) (p : Loc) (disc : Ty) (v : Int) : Prop :=
  Survives disc v ∧
  match disc.rget with
  | .prim .bool => (∀ i, ¬ Constant root p "TRUE".toList i) ∧ ∀ i, ¬ Constant root p "FALSE".toList i
  | .prim .c8 | .prim .c16 | .prim .wc => 32 ≤ v ∧ v < 127 ∧ v ≠ 34 ∧ v ≠ 39 ∧ v ≠ 92
  | .enum _ _ vals => ∀ e ∈ vals, (e.2 : Int) = v →
      Identifier e.1 ∧ (∀ r, e.1.toList ≠ "TRUE".toList ++ r) ∧ (∀ r, e.1.toList ≠ "FALSE".toList ++ r) ∧
      ∀ i, Constant root p e.1.toList i → ∃ k, i = .const k v
  | _ => True

/-- A case that adding it to a union with its labels and as default restores: it has a label or is the default, and if it is
the default its first label is the one the union remembers for it. -/
def Restorable (u : UnionB) (n : String) : Prop :=
  (u.isDefault n = true ∨ u.getLabels n ≠ []) ∧
  (u.isDefault n = true → u.getLabels n = [] ∨ (u.getLabels n).head? = some u.default)

/-- A constant whose text stands for it: an integer of its type, but not the least one of `int32` and `int64`; `FALSE`; or a
string within its bound without quotes and backslashes. -/
def WritableConst : Item → Prop
  | .const .bool v => v = 0
  | .const .i8 v => -2 ^ 7 ≤ v ∧ v < 2 ^ 7
  | .const .u8 v => 0 ≤ v ∧ v < 2 ^ 8
  | .const .i16 v => -2 ^ 15 ≤ v ∧ v < 2 ^ 15
  | .const .u16 v => 0 ≤ v ∧ v < 2 ^ 16
  | .const .i32 v => -2 ^ 31 < v ∧ v < 2 ^ 31
  | .const .u32 v => 0 ≤ v ∧ v < 2 ^ 32
  | .const .i64 v => -2 ^ 63 < v ∧ v < 2 ^ 63
  | .const .u64 v => 0 ≤ v ∧ v < 2 ^ 64
  | .const _ _ => False
  | .text b s => b < 2 ^ 31 ∧ (b = 0 ∨ s.length ≤ b) ∧ ∀ c ∈ s, c ≠ 34 ∧ c ≠ 92
  | .ty _ => False

/-- A declaration that can be added to the module at the place `p`: all its names are free there, and the types it mentions are
those that are seen from there under their names. Enumerators must have the values 0, 1, 2, … A union must have at least two
cases. -/
def Declarable (r : Reading) (root : Mod Item) (p : Loc) : Decl → Prop
  | .struct n q ms =>
    Free root p n ∧ (ms.map (·.1)).Nodup ∧
    (∀ x, q = some x → TypeName x.1 ∧ x.2 ≤ ms.length ∧ MeansStruct root p x.1 (ms.take x.2)) ∧
    ∀ e ∈ ms.drop ((q.map (·.2)).getD 0), Free root p e.1 ∧ e.1 ≠ n ∧ WritableMember r (2 ^ 32) root p true e.2
  | .union n u =>
    Free root p n ∧ u.name = scopedStr p n ∧ u.Built ∧ Writable r (Stands root p false) u.disc ∧ 2 ≤ (caseMembers u).length ∧
    (∀ e ∈ caseMembers u, Free root p e.1 ∧ e.1 ≠ n ∧ WritableMember r (2 ^ 32) root p false e.2 ∧ Restorable u e.1 ∧
      (∀ v ∈ u.getLabels e.1, ReadableLabel root p u.disc v) ∧
      (u.isDefault e.1 = true → ∀ i, ¬ Constant root p "default".toList i))
  | .enum n vs =>
    Free root p n ∧ vs ≠ [] ∧ vs.length ≤ 2 ^ 32 ∧ vs.Pairwise (fun a b => a.1 < b.1) ∧
    (vs.map (·.2)).Perm (List.range vs.length) ∧ ∀ e ∈ vs, Free root p e.1 ∧ e.1 ≠ n
  | .alias n t => Free root p n ∧ WritableMember r (2 ^ 31) root p false t
  | .const n i => Free root p n ∧ WritableConst i

/-- The name a declaration introduces. -/
def declName : Decl → String
  | .struct n _ _ => n
  | .union n _ => n
  | .enum n _ => n
  | .alias n _ => n
  | .const n _ => n

/-- The type a declaration introduces in the module at the place `p`, if any. -/
def declTy (p : Loc) : Decl → Option Ty
  | .struct n _ ms => some (.struct (scopedStr p n) (Mems.ofList ms))
  | .union _ u => some u.toTy
  | .enum n vs => some (.enum (scopedStr p n) .w4 vs)
  | .alias n t => some (.alias (scopedStr p n) t)
  | .const _ _ => none

/-- The constants a declaration introduces: a constant, or the enumerators with their values. -/
def declConsts : Decl → List (String × Item)
  | .enum _ vs => vs.map fun e => (e.1, .const .u32 e.2)
  | .const n i => [(n, i)]
  | _ => []

/-- The names of enumerators in the order of their values. -/
def inOrder (vs : List (String × Nat)) : List (String × Nat) :=
  (List.range vs.length).filterMap fun i => vs.find? fun e => e.2 = i

/-- The module, at the place `p`, with a declaration added: its type or its value, and for an enumeration also the constants it
declares. -/
def addDecl (p : Loc) (d : Decl) : Mod Item → Mod Item
  | .mk c inner =>
    match d with
    | .struct n _ ms => .mk { c with structs := omIns n.toList (.ty (.struct (scopedStr p n) (Mems.ofList ms))) c.structs } inner
    | .union n u => .mk { c with unions := omIns n.toList (.ty u.toTy) c.unions } inner
    | .enum n vs => .mk { c with
        enums := omIns n.toList (.ty (.enum (scopedStr p n) .w4 vs)) c.enums
        consts := (inOrder vs).foldl (fun t e => omIns e.1.toList (.const .u32 e.2) t) c.consts
        fromEnum := c.fromEnum ++ (inOrder vs).map (·.1.toList) } inner
    | .alias n t => .mk { c with aliases := omIns n.toList (.ty (.alias (scopedStr p n) t)) c.aliases } inner
    | .const n i => .mk { c with consts := omIns n.toList i c.consts } inner

/-- The tree of modules with a declaration added to the module at the place `p`. -/
def enter (p : Loc) (d : Decl) (root : Mod Item) : Mod Item := root.modify p (addDecl p d)

/-! ## Modules in modules -/

/-- The tree with a module of this name in the module at the place `p`: the one that is there, or a new one. -/
def openModule (p : Loc) (n : Name) (root : Mod Item) : Mod Item :=
  if (root.at (n :: p)).isSome then root
  else root.modify p fun m => .mk m.content (omIns n (some .empty) m.inner)

mutual
/-- The tree with what a part of a text declares added to the module at the place `p`. -/
def enterDoc (p : Loc) (root : Mod Item) : Doc → Mod Item
  | .decl _ _ d => enter p d root
  | .module _ _ n ds _ => enterDocs (n.toList :: p) (openModule p n.toList root) ds
/-- The same for several parts, one after the other. -/
def enterDocs (p : Loc) (root : Mod Item) : List Doc → Mod Item
  | [] => root
  | d :: ds => enterDocs p (enterDoc p root d) ds
end

mutual
/-- A part of a text that can be added to the module at the place `p`: a declaration that can be added; or a module that has
parts which can be added one after the other, and whose name is that of a module that is there already or is free. -/
def DocDeclarable (r : Reading) (p : Loc) (root : Mod Item) : Doc → Prop
  | .decl g _ d => Layout g ∧ Declarable r root p d
  | .module g _ n ds e =>
    Layout g ∧ Layout e ∧ Usable n ∧ ds ≠ [] ∧ ((root.at (n.toList :: p)).isSome ∨ Unseen root p n.toList) ∧
    DocsDeclarable r (n.toList :: p) (openModule p n.toList root) ds
/-- Parts of which each can be added after those before it. -/
def DocsDeclarable (r : Reading) (p : Loc) (root : Mod Item) : List Doc → Prop
  | [] => True
  | d :: ds => DocDeclarable r p root d ∧ DocsDeclarable r p (enterDoc p root d) ds
end

mutual
/-- The declarations in a part of a text, with their places. -/
def docDecls (p : Loc) : Doc → List (Loc × Decl)
  | .decl _ _ d => [(p, d)]
  | .module _ _ n ds _ => docsDecls (n.toList :: p) ds
/-- The declarations in several parts. -/
def docsDecls (p : Loc) : List Doc → List (Loc × Decl)
  | [] => []
  | d :: ds => docDecls p d ++ docsDecls p ds
end

/-! ## Reading -/

/-- Parsing the text, with a module as it is before, ends with this outcome, however many steps a lookup may take. -/
def Reads (c : Ctx) (root : Mod Item) (text : Bytes) (o : Out) : Prop := ∃ n, ∀ f, n ≤ f → parse c f root text = .built o

/-- The text does not match the grammar: `parse` returns `false` and does nothing. -/
def Rejects (text : Bytes) : Prop := ∀ c f root, parse c f root text = .rejected

/-- Every name in every module is an identifier, and no module has two submodules of one name (as in every `std::map`). -/
def Proper (root : Mod Item) : Prop :=
  ∀ q m, root.at q = some m → (m.inner.map (·.1)).Nodup ∧ ∀ x, m.hasSymbol x = true → Identifier (String.ofList x)

end Verif.Idl
