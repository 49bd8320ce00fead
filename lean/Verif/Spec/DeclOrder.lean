import Verif.Spec.Deps
/-!
# What a declaration of the generated IDL uses
-/

namespace Verif.Idl.Dep

/-- The names of other elements in the text of a type: those printed by `type_name`, `sequence_type_name` and
`map_type_name` (idl/generator.hpp 44-73, 132-216). -/
def typeNames : Ty → List Name
  | .prim _ => []
  | .str _ _ => []
  | .enum n _ _ => [n.toList]
  | .alias n _ => [n.toList]
  | .struct n _ => [n.toList]
  | .union n _ _ _ => [n.toList]
  | .seq c _ => typeNames c
  | .arr _ c _ => typeNames c
  | .map k v _ => typeNames k ++ typeNames v
  | .pair x y => typeNames x ++ typeNames y

/-- Those of the members. (idl/generator.hpp 294-370) -/
def memNames : Mems → List Name
  | .nil => []
  | .cons _ t r => typeNames t ++ memNames r

/-- The names of other elements in the text of a declaration: the type a `typedef` stands for (idl/generator.hpp 372-391),
the type of a constant, the parent and the members of a structure (294-345; inherited members are included here), the
discriminator and the members of a union (346-370). -/
def printedNames : Kind → Decl → List Name
  | .alias, d => match d.ty with
    | .alias _ t => typeNames t
    | _ => []
  | .const, d => typeNames d.ty
  | .enum, _ => []
  | .struct, d => d.parent.toList ++ match d.ty with
    | .struct _ ms => memNames ms
    | _ => []
  | .union, d => match d.ty with
    | .union _ disc ms _ => typeNames disc ++ memNames ms
    | _ => []

/-- The declaration of `n` uses the type declared by `m`: its text contains the qualified name of `m`. -/
def Uses (root : Mod Decl) (n m : Node) : Prop :=
  n ≠ m ∧ m.kind ≠ .const ∧ (declOf root m).isSome ∧ ¬ EnumeratorConst root n ∧
    ∃ d, declOf root n = some d ∧ scopedName m.loc m.name ∈ printedNames n.kind d

/-- The declaration of `m` stands before that of `n`. -/
def Before (text : List Event) (m n : Node) : Prop := ∃ a b, declared text = a ++ n :: b ∧ m ∈ a

/-- A tree built through the API with legal names: modules and elements have names without colons, a module has no two
elements with one name, the type of an alias, enumeration, structure or union carries the qualified name of the element.
(idl/Module.hpp 215-345, 440-527, 563-594) -/
structure Clean (root : Mod Decl) : Prop where
  mods : ∀ p, (root.at p).isSome → ∀ x ∈ p, x ≠ [] ∧ ':' ∉ x
  names : ∀ n, (declOf root n).isSome → n.name ≠ [] ∧ ':' ∉ n.name
  kinds : ∀ n m, (declOf root n).isSome → (declOf root m).isSome → n.loc = m.loc → n.name = m.name → n.kind = m.kind
  types : ∀ n d, declOf root n = some d → n.kind ≠ .const → d.ty.name.toList = scopedName n.loc n.name

/-- The type in the declaration is not an anonymous collection: only then does the generator record the dependency of a
`typedef` or constant. -/
def Plain (root : Mod Decl) (n : Node) : Prop :=
  ∀ d, declOf root n = some d → match n.kind with
    | .alias => ∃ s t, d.ty = .alias s t ∧ opts t = true
    | .const => opts d.ty = true
    | _ => True

/-- `n` is needed by an element of a submodule of its own module. -/
def Early (root : Mod Decl) (n : Node) : Prop :=
  ∃ d z, n.loc <:+ d.loc ∧ n.loc ≠ d.loc ∧ Names root d z ∧ search root z = some n

/-- `n` is named by an element of the same kind in the same module. -/
def Wanted (root : Mod Decl) (n : Node) : Prop :=
  ∃ d z, d.loc = n.loc ∧ d.kind = n.kind ∧ d.name ≠ z ∧ Names root d z ∧ unscoped z = n.name

/-- The order in which the kinds of elements of a module are printed. -/
def Kind.rank : Kind → Nat
  | .alias => 0
  | .const => 1
  | .enum => 2
  | .struct => 3
  | .union => 4

/-- The uses of `m` by `n` for which the generator keeps the order. -/
inductive Covered (root : Mod Decl) (n m : Node) : Prop
  /-- `m` is in another branch of the module tree. -/
  | branch : Plain root n → ¬ n.loc <:+ m.loc → ¬ m.loc <:+ n.loc → Covered root n m
  /-- `m` is in a module around that of `n`; if it is the root, the module of `n` has no symbol of that name. -/
  | outer : Plain root n → m.loc <:+ n.loc → m.loc ≠ n.loc →
      (m.loc = [] → ((root.at n.loc).map fun x => x.hasSymbol m.name) = some false) → Covered root n m
  /-- `m` is in a module inside that of `n`, and `n` itself is not needed by a submodule. -/
  | inner : Plain root n → n.loc <:+ m.loc → n.loc ≠ m.loc → ¬ Early root n → Covered root n m
  /-- In one module: `m` is of a kind printed earlier, and `n` is not needed by a submodule. -/
  | kind : n.loc = m.loc → m.kind.rank < n.kind.rank → ¬ Early root n → Covered root n m
  /-- In one module: `m` is of the same kind as `n`, and `n` is neither needed by a submodule nor by a third element of
  the kind. -/
  | same : Plain root n → n.loc = m.loc → n.kind = m.kind → ¬ Early root n → ¬ Wanted root n → Covered root n m

end Verif.Idl.Dep
