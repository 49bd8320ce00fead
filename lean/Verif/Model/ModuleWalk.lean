import Verif.Model.Module
/-!
# Walking the tree of modules, and searching it for a type (include/xtypes/idl/Module.hpp)

Simplifications: a visitor receives a `const Module&` and is taken to leave the tree alone, so that the calls it receives are
a list of places; `has_structure(x)`, `has_union(x)` and `has_alias(x)` on the module that has the symbol (Module.hpp 624-639)
look it up in that module.
-/

namespace Verif.Idl

variable {τ : Type}

mutual
/-- `for_each_submodule(visitor, module, recursive)` for the module at `p` (Module.hpp 81-94): the places of the modules the
visitor is called with, in order, and whether the walk ends; it does not when a null submodule is dereferenced. -/
def visitsBelow (recursive : Bool) (p : Loc) : Mod τ → List Loc × Bool
  | .mk _ inner => visitsInner recursive p inner
/-- The loop over `inner_` (Module.hpp 86-93). -/
def visitsInner (recursive : Bool) (p : Loc) : List (Name × Option (Mod τ)) → List Loc × Bool
  | [] => ([], true)
  | (_, none) :: _ => ([], false)
  | (n, some m) :: rest =>
    let below := if recursive then visitsBelow true (n :: p) m else ([], true)
    if below.2 then
      let r := visitsInner recursive p rest
      ((n :: p) :: (below.1 ++ r.1), r.2)
    else ((n :: p) :: below.1, false)
end

/-- `for_each(visitor)` (Module.hpp 103-108). -/
def visits (p : Loc) (m : Mod τ) : List Loc × Bool :=
  let below := visitsBelow true p m
  (p :: below.1, below.2)

/-- What `type(name, recursive)` returns: nothing, or a copy of a type (the assignment of a `Ptr` clones, DynamicType.hpp
272-282) with the name it was given if that is not the name of the original; `ub` if a null pointer is dereferenced.
(Module.hpp 596-653) -/
inductive Got (τ : Type) where
  | ok (o : Option (τ × Option Name))
  | ub
  deriving DecidableEq

/-- The type a module holds under a name: the later assignments win. (Module.hpp 618-639) -/
def Mod.typeNamed (m : Mod τ) (x : Name) : Option τ :=
  match omGet m.content.aliases x with
  | some t => some t
  | none => match omGet m.content.unions x with
    | some t => some t
    | none => match omGet m.content.structs x with
      | some t => some t
      | none => omGet m.content.enums x

/-- `name.find("::") == 0` (Module.hpp 641) -/
def isRooted (name : Name) : Bool :=
  match cut name with
  | some ([], _) => true
  | _ => false

/-- `type` after the loop over the submodules, which left `prev` in `ret_type` (Module.hpp 610-653). -/
def typeHere (root : Mod τ) (name : Name) (prev : Option (τ × Option Name)) : Res → Got τ
  | .ub => .ub
  | .fail => .ok prev
  | .found q x =>
    match (match (root.at q).bind (·.typeNamed x) with
      | some t => some (t, none)
      | none => prev) with
    | some (t, nm) => .ok (some (t, if isRooted name then some name else nm))
    | none => if isRooted name then .ub else .ok none

/-- What follows the loop, given what it left; `none`: a scope is not resolved within `fuel` calls. (Module.hpp 610-653) -/
def typeAfter (root : Mod τ) (fuel : Nat) (name : Name) (p : Loc) : Option (Got τ) → Option (Got τ)
  | none => none
  | some .ub => some .ub
  | some (.ok prev) => (resolve root fuel p name name true).map (typeHere root name prev)

mutual
/-- `type(name, recursive)` on the module at `p`; `none`: a scope is not resolved within `fuel` calls. (Module.hpp 596-653) -/
def search (root : Mod τ) (fuel : Nat) (recursive : Bool) (name : Name) (p : Loc) : Mod τ → Option (Got τ)
  | .mk _ inner =>
    typeAfter root fuel name p (if recursive then searchInner root fuel name p inner none else some (.ok none))
/-- The loop over `inner_` (Module.hpp 602-608): every result replaces the one before. -/
def searchInner (root : Mod τ) (fuel : Nat) (name : Name) (p : Loc) :
    List (Name × Option (Mod τ)) → Option (τ × Option Name) → Option (Got τ)
  | [], prev => some (.ok prev)
  | (_, none) :: _, _ => some .ub
  | (n, some m) :: rest, _ =>
    match search root fuel true name (n :: p) m with
    | none => none
    | some .ub => some .ub
    | some (.ok o) => searchInner root fuel name p rest o
end

/-- A call of `type(name, recursive)` on the module at `p` returns `r`. (Module.hpp 596-653) -/
def TypeIs (root : Mod τ) (p : Loc) (name : Name) (recursive : Bool) (r : Got τ) : Prop :=
  ∃ m fuel, root.at p = some m ∧ search root fuel recursive name p m = some r

/-! ## Histories -/

/-- The calls that change a tree of modules. (Module.hpp 60-72, 219-345, 436-470, 504-527) -/
inductive MCall (τ : Type) where
  /-- `create_submodule(n)` on the module at `p` -/
  | create (p : Loc) (n : Name)
  /-- `submodule(n)`, or `operator[]`, on the module at `p` -/
  | ask (p : Loc) (n : Name)
  /-- registering `v` -/
  | define (p : Loc) (c : Cat) (x : Name) (v : τ) (replace : Bool)

/-- One call; `none`: there is no module at the place, or a null pointer is dereferenced.
(Module.hpp 60-72, 219-345, 436-470, 504-527) -/
def Mod.call (root : Mod τ) : MCall τ → Option (Mod τ)
  | .create p n => (root.at p).bind fun m => (createSubCore n m).map fun m' => root.modify p fun _ => m'
  | .ask p n => (root.at p).map fun m => root.modify p fun _ => (submoduleCore n m).1
  | .define p c x v rep => (root.at p).map fun _ => (register root p c x v rep).1

/-- A history of calls on a new module. (Module.hpp 50-54) -/
def Mod.after : List (MCall τ) → Option (Mod τ)
  | [] => some .empty
  | c :: older => (Mod.after older).bind (·.call c)

end Verif.Idl
