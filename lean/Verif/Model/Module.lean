import Verif.Model.OMap
/-!
# `idl::Module` (include/xtypes/idl/Module.hpp)

Names are lists of characters, so the searches for `"::"` are modelled on the text itself.
A module is its tables of symbols and its table of submodules. A submodule entry may be a null
`shared_ptr` (`none`): `submodule(name)` and the non-const `operator[]` insert such entries.

A place in the tree is the chain of module names read along the `outer_` pointers, innermost first
(`[]` is the root). The model identifies `name_` with the key in the outer module's table, which is
how `create_submodule` builds every submodule (Module.hpp:60-66).

Simplifications: the payload `τ` of a table entry (type or constant) is opaque;
`constants_types_` is not kept separately from `constants_` (create_constant fills both under the
same key); the effect of `type("::X")` of renaming the type it found (Module.hpp:641-645) is not
modelled.
-/

namespace Verif.Idl

/-- (the `std::string`s of idl/Module.hpp) -/
abbrev Name := List Char

/-- `s.find("::")`: the text before the first `"::"` and the text after it
(the two `substr` calls, Module.hpp:712, 721, 728, 740). -/
def cut : Name → Option (Name × Name)
  | [] => none
  | ':' :: ':' :: r => some ([], r)
  | c :: r => (cut r).map (fun p => (c :: p.1, p.2))

/-- The symbol tables of one module (Module.hpp:660-668), `inner_` excepted. -/
structure Content (τ : Type) where
  structs : List (Name × τ) := []
  unions : List (Name × τ) := []
  aliases : List (Name × τ) := []
  enums : List (Name × τ) := []
  consts : List (Name × τ) := []
  fromEnum : List Name := []

/-- `Module` (Module.hpp:41-54, 655-679): symbol tables and `inner_`. -/
inductive Mod (τ : Type) where
  | mk (c : Content τ) (inner : List (Name × Option (Mod τ)))

variable {τ : Type}

/-- (idl/Module.hpp 660-668) -/
def Mod.content : Mod τ → Content τ
  | .mk c _ => c

/-- (idl/Module.hpp 670) -/
def Mod.inner : Mod τ → List (Name × Option (Mod τ))
  | .mk _ i => i

/-- `Module()` (Module.hpp:50-54) -/
def Mod.empty : Mod τ := .mk {} []

/-- A place: module names along `outer_`, innermost first. (idl/Module.hpp 669-679) -/
abbrev Loc := List Name

/-- The module object at a place, `none` if there is none (or a null entry).
(following `inner_`, idl/Module.hpp 670) -/
def Mod.at (root : Mod τ) : Loc → Option (Mod τ)
  | [] => some root
  | n :: r => (root.at r).bind (fun m => (omGet m.inner n).join)

/-- `std::map` entry replaced in place, used to model writing through the pointer stored in it.
(idl/Module.hpp 670) -/
def setInner (i : List (Name × Option (Mod τ))) (n : Name) (m : Mod τ) :
    List (Name × Option (Mod τ)) :=
  i.map (fun e => if e.1 = n then (e.1, some m) else e)

/-- Running a modifying member function `f` on the module object at a place.
(a call through a pointer of idl/Module.hpp 670) -/
def Mod.modify (root : Mod τ) : Loc → (Mod τ → Mod τ) → Mod τ
  | [], f => f root
  | n :: r, f => root.modify r (fun m =>
      match (omGet m.inner n).join with
      | some m' => .mk m.content (setInner m.inner n (f m'))
      | none => m)

/-- `scope()` (Module.hpp:133-140) -/
def scope : Loc → Name
  | [] => []
  | n :: r => if scope r = [] then n else scope r ++ [':', ':'] ++ n

/-- `name_space + (name_space.empty() ? "" : "::") + name` (Module.hpp:228-229, 362-366) -/
def scopedName (p : Loc) (x : Name) : Name :=
  if scope p = [] then x else scope p ++ [':', ':'] ++ x

/-- `has_symbol(ident, false)` (Module.hpp:142-152) -/
def Mod.hasSymbol (m : Mod τ) (x : Name) : Bool :=
  omHas m.content.structs x || omHas m.content.unions x || omHas m.content.aliases x ||
  omHas m.content.consts x || omHas m.content.enums x || omHas m.inner x

/-- `has_symbol(ident, true)` (Module.hpp:142-162) and `symbol_count` (164-178), seen from a place. -/
def symbolCount (root : Mod τ) : Loc → Name → Nat
  | [], x => if root.hasSymbol x then 1 else 0
  | n :: r, x =>
    (if ((root.at (n :: r)).map (·.hasSymbol x)).getD false then 1 else 0) + symbolCount root r x

/-- What `resolve_scope` returns: a module and a symbol, or a null module; `ub` if a null module
pointer is dereferenced on the way. (idl/Module.hpp 684-772) -/
inductive Res where
  | found (p : Loc) (x : Name)
  | fail
  | ub
  deriving DecidableEq, Repr

/-- `resolve_scope(symbol_name, original_name, first)` run on the module at `p`
(Module.hpp:690-772). `none`: the recursion has not ended within `fuel` calls. -/
def resolve (root : Mod τ) : Nat → Loc → Name → Name → Bool → Option Res
  | 0, _, _, _, _ => none
  | fuel + 1, p, sym, orig, first =>
    -- 695-702
    if first = false ∧ sym = orig then some .fail else
    match root.at p with
    | none => some .ub
    | some m =>
      match cut sym with
      | some (hd, tl) =>
        if hd = [] then
          -- 708-718
          if p = [] then resolve root fuel [] tl orig false
          else resolve root fuel p.tail orig orig true
        else
          -- 722-736: "Maybe the current scope its me?"
          match (if p.head? = some hd ∧ omHas m.inner hd = true then
              resolve root fuel (hd :: p) tl orig false else some .fail) with
          | none => none
          | some (.found q x) => some (.found q x)
          | some .ub => some .ub
          | some .fail =>
            -- 737-743
            if omHas m.inner hd then resolve root fuel (hd :: p) tl orig false
            else
              -- 744-753
              if p ≠ [] ∧ first = true then resolve root fuel p.tail orig orig true
              else some .fail
      | none =>
        -- 757-771
        if m.hasSymbol sym then some (.found p sym)
        else if p = [] then some .fail
        else resolve root fuel p.tail sym orig true

/-- `resolve_scope(symbol_name)` on the module at `p` ends with result `r` (Module.hpp:684-688). -/
def Lookup (root : Mod τ) (p : Loc) (name : Name) (r : Res) : Prop :=
  ∃ fuel, resolve root fuel p name name true = some r

/-- The five tables a symbol may be registered in. (idl/Module.hpp 661-667) -/
inductive Cat where
  | struct | union | alias | enum | const
  deriving DecidableEq, Repr

/-- (idl/Module.hpp 661-667) -/
def Content.get (c : Content τ) : Cat → List (Name × τ)
  | .struct => c.structs
  | .union => c.unions
  | .alias => c.aliases
  | .enum => c.enums
  | .const => c.consts

/-- (idl/Module.hpp 661-667) -/
def Content.set (c : Content τ) : Cat → List (Name × τ) → Content τ
  | .struct, t => { c with structs := t }
  | .union, t => { c with unions := t }
  | .alias, t => { c with aliases := t }
  | .enum, t => { c with enums := t }
  | .const, t => { c with consts := t }

/-- `structure(name)`, `union_switch(name)`, `enum_32(name)`, `alias(name)`, `constant(name)`
after a successful or failed `resolve_scope` (Module.hpp:192-217, 275-301, 472-502, 529-547,
392-409): `none` is the assertion / exception / default value of "not found". -/
def fetch (root : Mod τ) (c : Cat) : Res → Option τ
  | .found q x => (root.at q).bind (fun m => omGet (m.content.get c) x)
  | _ => none

/-- `has_enum_32(name)` (Module.hpp:485-489): no scope resolution here. -/
def hasEnum (root : Mod τ) (p : Loc) (x : Name) : Bool :=
  ((root.at p).map (fun m => omHas m.content.enums x)).getD false

/-- `type(name)` without `recursive` once the scope is resolved (Module.hpp:596-653): the last
category that has the symbol wins. Outer `none`: a null type is dereferenced (a rooted name that
resolves to a constant or a module, 641-645). Simplification: the nested `has_structure` etc. look
`x` up again from the module that has it; by `hasSymbol` they stop in that same module. -/
def typeOf (root : Mod τ) (rooted : Bool) : Res → Option (Option τ)
  | .found q x =>
    let r := match root.at q with
      | none => none
      | some m =>
        match omGet m.content.aliases x with
        | some t => some t
        | none => match omGet m.content.unions x with
          | some t => some t
          | none => match omGet m.content.structs x with
            | some t => some t
            | none => omGet m.content.enums x
    if rooted ∧ r.isNone then none else some r
  | _ => some none

/-- `map.erase(find(k))` (Module.hpp:245-252) -/
def omErase (m : List (Name × τ)) (k : Name) : List (Name × τ) := m.filter (fun e => e.1 ≠ k)

/-- Registration of a symbol in the module at a place, common body of
`structure(StructType&&, replace)` (Module.hpp:236-261), `union_switch` (320-345),
`enum_32` (504-527), `create_constant` (436-470); with `replace = false` also of the overloads that
take a reference (219-234, 303-318). -/
def registerCore (c : Cat) (x : Name) (v : τ) (replace : Bool) (m : Mod τ) : Mod τ × Bool :=
  if (cut x).isSome then (m, false) else
  let tbl := if replace then omErase (m.content.get c) x else m.content.get c
  let r := omEmplace tbl x v
  (.mk (m.content.set c r.1) m.inner, r.2)

/-- `from_enum_.push_back(name)` (Module.hpp:463-466) -/
def noteFromEnum (x : Name) (m : Mod τ) : Mod τ :=
  .mk { m.content with fromEnum := m.content.fromEnum ++ [x] } m.inner

/-- `add_alias` (Module.hpp:577-593): no check of the name. -/
def addAliasCore (x : Name) (v : τ) (m : Mod τ) : Mod τ × Bool :=
  let r := omEmplace m.content.aliases x v
  (.mk { m.content with aliases := r.1 } m.inner, r.2)

/-- The name a type object carries after it was passed by reference to `structure(StructType&)` or
`union_switch(UnionType&)` in the module at `p` (Module.hpp:222-229, 306-313): it is set before the
emplacement is attempted. -/
def argName (p : Loc) (x : Name) : Name :=
  if (cut x).isSome then x else scopedName p x

/-- Registering at a place of the tree.
(a call of the functions cited at `registerCore`, idl/Module.hpp 236-345) -/
def register (root : Mod τ) (p : Loc) (c : Cat) (x : Name) (v : τ) (replace : Bool := false) :
    Mod τ × Bool :=
  match root.at p with
  | none => (root, false)
  | some m => (root.modify p (fun m => (registerCore c x v replace m).1),
      (registerCore c x v replace m).2)

/-- `has_alias(name)` in the module at `p` (Module.hpp:549-561), given what the scope resolution
returned. -/
def hasAlias (root : Mod τ) (r : Res) : Bool := (fetch root .alias r).isSome

/-- `create_alias` (Module.hpp:563-575): `r` is what `resolve_scope(name)` returned inside
`has_alias`. -/
def createAlias (root : Mod τ) (p : Loc) (x : Name) (v : τ) (r : Res) : Mod τ × Bool :=
  if (cut x).isSome || hasAlias root r then (root, false)
  else register root p .alias x v

/-- `create_submodule(name)` (Module.hpp:60-66). `none`: the entry that was already there is a null
pointer, and it is dereferenced. -/
def createSubCore (n : Name) (m : Mod τ) : Option (Mod τ) :=
  match omGet m.inner n with
  | some none => none
  | some (some _) => some m
  | none => some (.mk m.content (omEmplace m.inner n (some Mod.empty)).1)

/-- `submodule(name)` (Module.hpp:68-72) and the lookup inside the non-const `operator[]`
(Module.hpp:116-120): `std::map::operator[]` inserts a null pointer when the key is absent. -/
def submoduleCore (n : Name) (m : Mod τ) : Mod τ × Option (Mod τ) :=
  match omGet m.inner n with
  | some e => (m, e)
  | none => (.mk m.content (omEmplace m.inner n none).1, none)

/-- `has_submodule` (Module.hpp:110-114) -/
def Mod.hasSub (m : Mod τ) (n : Name) : Bool := omHas m.inner n

/-- The four loops of `fill_all_types` (Module.hpp:368-383). -/
def fillLoop (pre : Name) (tbl : List (Name × τ)) (acc : List (Name × τ)) : List (Name × τ) :=
  tbl.foldl (fun a e => (omEmplace a (pre ++ e.1) e.2).1) acc

mutual
/-- `fill_all_types` (Module.hpp:358-390). `none`: a null submodule is dereferenced. -/
def fillAll (addScope : Bool) (p : Loc) : Mod τ → List (Name × τ) → Option (List (Name × τ))
  | .mk c inner, acc =>
    let sc := if addScope then scope p else []
    let pre := if sc = [] then [] else sc ++ [':', ':']
    let acc := fillLoop pre c.enums (fillLoop pre c.aliases (fillLoop pre c.unions
      (fillLoop pre c.structs acc)))
    fillInner addScope p inner acc

/-- The loop over `inner_` (Module.hpp:386-389). -/
def fillInner (addScope : Bool) (p : Loc) :
    List (Name × Option (Mod τ)) → List (Name × τ) → Option (List (Name × τ))
  | [], acc => some acc
  | (_, none) :: _, _ => none
  | (n, some m) :: rest, acc =>
    match fillAll addScope (n :: p) m acc with
    | none => none
    | some acc => fillInner addScope p rest acc
end

/-- `get_all_types` of the module `m` found at place `p` (Module.hpp:350-356). -/
def getAllTypes (addScope : Bool) (p : Loc) (m : Mod τ) : Option (List (Name × τ)) :=
  fillAll addScope p m []

mutual
/-- No null submodule in the tree. (idl/Module.hpp 670; `for_each_submodule`, 80-92, dereferences every entry) -/
def Mod.full : Mod τ → Bool
  | .mk _ inner => innerFull inner
/-- The same for the entries of `inner_`. (idl/Module.hpp 670) -/
def innerFull : List (Name × Option (Mod τ)) → Bool
  | [] => true
  | (_, none) :: _ => false
  | (_, some m) :: rest => m.full && innerFull rest
end

mutual
/-- Every table of the tree has unique keys, as every `std::map` does. (idl/Module.hpp 660-670) -/
def Mod.uniq : Mod τ → Prop
  | .mk c inner => (∀ k, (((c.get k).map (·.1)).Nodup)) ∧ (inner.map (·.1)).Nodup ∧ innerUniq inner
/-- The same for the entries of `inner_`. (idl/Module.hpp 670) -/
def innerUniq : List (Name × Option (Mod τ)) → Prop
  | [] => True
  | (_, none) :: rest => innerUniq rest
  | (_, some m) :: rest => m.uniq ∧ innerUniq rest
end

end Verif.Idl
