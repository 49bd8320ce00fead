import Verif.Model.Module
import Verif.Model.Walk
/-!
# The dependency tree of a module and the order of the generated IDL (include/xtypes/idl/generator_deptree.hpp)

`ModuleDependencyTree(root)` builds one `DependencyNode` for every element of every module, records dependencies between
them (`solve`) and generates the IDL (`gen`). The text of the IDL is abstracted to its skeleton: the opening and closing
of module scopes and the declarations in between, in the order in which they are printed. White space and the optional
map `module_idl` are not modelled, nor is the text of a declaration.

The root module has an empty name (`Module()`), and a module is identified by its place.

Not modelled: `DependencyNode::operator ==` (348-354) compares the addresses of the types instead of the nodes; the two
agree as long as no two elements of the same kind share one type object. The only shared type objects are those of
primitive types, used by constants, and constants are never set as ancestors of each other's dependents by it.
-/

namespace Verif.Idl.Dep

/-- `ModuleElementKind` (generator_deptree.hpp 81-90), in the order in which the node set is filled. -/
inductive Kind where
  | alias | const | enum | struct | union
  deriving DecidableEq, Repr

/-- The table of a kind of element. (generator_deptree.hpp 650-657) -/
def Kind.cat : Kind → Cat
  | .alias => .alias
  | .const => .const
  | .enum => .enum
  | .struct => .struct
  | .union => .union

/-- What the dependency tree reads of an element: its type (for a constant, the type of its value) and, for a
structure, the name of the parent structure. (idl/Module.hpp 660-668; StructType.hpp 102-112) -/
structure Decl where
  ty : Ty
  parent : Option Name := none

/-- `DependencyNode`: the module it comes from, its kind and its name (generator_deptree.hpp 97-117). -/
structure Node where
  loc : Loc
  kind : Kind
  name : Name
  deriving DecidableEq, Repr

/-- `create_dependency_set` (generator_deptree.hpp 641-657) -/
def nodesIn (p : Loc) (c : Content Decl) : List Node :=
  [Kind.alias, .const, .enum, .struct, .union].flatMap fun k => (c.get k.cat).map fun e => ⟨p, k, e.1⟩

/-- `node_set_` of the module at a place. (generator_deptree.hpp 1027) -/
def nodesAt (root : Mod Decl) (p : Loc) : List Node :=
  match root.at p with
  | some m => nodesIn p m.content
  | none => []

/-- `d_inner_` of the module at a place (generator_deptree.hpp 1098-1111, Module.hpp 80-104). -/
def innersAt (root : Mod Decl) (p : Loc) : List Loc :=
  match root.at p with
  | some m => m.inner.map fun e => e.1 :: p
  | none => []

mutual
/-- All modules, each before its inner ones: the order in which `search_module_with_node` looks through them (716-776)
and in which dependencies are solved (1116-1124). (generator_deptree.hpp) -/
def mods (p : Loc) : Mod Decl → List Loc
  | .mk _ inner => p :: modsInner p inner
/-- The inner modules. (generator_deptree.hpp 765-774, 1120-1123) -/
def modsInner (p : Loc) : List (Name × Option (Mod Decl)) → List Loc
  | [] => []
  | (_, none) :: rest => modsInner p rest
  | (n, some m) :: rest => mods (n :: p) m ++ modsInner p rest
end

/-! ## Names -/

/-- `rfind("::")`: the text before the last `"::"` and the text after it (generator_deptree.hpp 724-728, 798-802). -/
def rcut : Name → Option (Name × Name)
  | [] => none
  | c :: r =>
    match rcut r with
    | some (a, b) => some (c :: a, b)
    | none =>
      match c, r with
      | ':', ':' :: t => some ([], t)
      | _, _ => none

/-- The name without its scope (generator_deptree.hpp 727, 735-738, 801, 810-813). -/
def unscoped (x : Name) : Name :=
  match rcut x with
  | some (_, b) => b
  | none => x

/-- Whether the scope of a name is that of the module at a place; a name without scope passes everywhere.
(generator_deptree.hpp 721-738, 795-813) -/
def scopeMatch (p : Loc) (x : Name) : Bool :=
  match rcut x with
  | some (sc, _) => sc = (if [':', ':'].isPrefixOf sc then [':', ':'] ++ scope p else scope p)
  | none => true

/-! ## Module tree -/

/-- `has_inner(module)`: the inner module of `p` that is or contains `m` (generator_deptree.hpp 572-605). -/
def innerToward (p m : Loc) : Option Loc :=
  if p.isSuffixOf m ∧ p ≠ m then some (m.drop (m.length - p.length - 1)) else none

/-- `has_outer(outer)` (generator_deptree.hpp 488-501) -/
def hasOuter (p outer : Loc) : Bool := outer.isSuffixOf p ∧ outer ≠ p

/-- `find_outer_siblings`; `none` is the failed assertion (generator_deptree.hpp 523-538). -/
def siblings : Loc → Loc → Option (Loc × Loc)
  | [], _ => none
  | x :: r, q =>
    match innerToward r q with
    | some s => some (x :: r, s)
    | none => siblings r q

/-- `search_module_with_node`: the first node with the name, in the first module where the scope matches that has one;
`none` is the failed assertion (generator_deptree.hpp 706-779). -/
def search (root : Mod Decl) (x : Name) : Option Node :=
  (mods [] root).findSome? fun p =>
    if scopeMatch p x then (nodesAt root p).find? fun n => n.name = unscoped x else none

/-! ## Dependencies -/

/-- The dependencies recorded in the tree: `ancestors_` of modules, `ancestors_`, `parent_modules_` and
`child_modules_` of nodes (generator_deptree.hpp 368-374, 1020-1028), as lists of pairs in the order of insertion. -/
structure Tables where
  modAnc : List (Loc × Loc) := []
  nodeAnc : List (Node × Node) := []
  nodePar : List (Node × Loc) := []
  nodeChild : List (Node × Loc) := []

/-- Insertion unless it is there: `set_ancestor` (180-190, 612-625), `set_child_module` (228-239), `set_parent_module`
(266-278). (generator_deptree.hpp) -/
def addPair {α : Type} [DecidableEq α] (l : List α) (x : α) : List α := if x ∈ l then l else l ++ [x]

/-- `set_hierarchical_ancestor` of the module at `p` (generator_deptree.hpp 631-639). -/
def setHier (t : Tables) (p q : Loc) : Option Tables :=
  if hasOuter p q then some t
  else (siblings p q).map fun s => { t with modAnc := addPair t.modAnc s }

/-- `set_dependency` of the node `d` with the kind of `d`; `none` is a failed assertion
(generator_deptree.hpp 786-846). -/
def setDependency (root : Mod Decl) (d : Node) (master : Name) (t : Tables) : Option Tables :=
  if d.name = master then some t
  else if scopeMatch d.loc master ∧ ((root.at d.loc).map fun m => m.hasSymbol (unscoped master)) = some true then
    match (nodesAt root d.loc).find? fun n => n.kind = d.kind ∧ n.name = unscoped master with
    | some a => some { t with nodeAnc := addPair t.nodeAnc (d, a) }
    | none => some t
  else
    match search root master with
    | none => none
    | some n =>
      let t := { t with nodeChild := addPair t.nodeChild (n, (innerToward n.loc d.loc).getD d.loc) }
      match innerToward d.loc n.loc with
      | some q => some { t with nodePar := addPair t.nodePar (d, q) }
      | none => setHier t d.loc n.loc

/-- `opts_for_dependency_setting` (generator_deptree.hpp 851-865; `is_constructed_type`, TypeKind.hpp 72-84) -/
def opts : Ty → Bool
  | .alias _ _ => true
  | .enum _ _ _ => true
  | .struct _ _ => true
  | .union _ _ _ _ => true
  | _ => false

mutual
/-- The types of the nodes `for_each` of a type visits, in order; the second argument is the type the node shows (an
alias shows itself and goes on with the type it stands for). `seen_typeForEach` relates this to the model of
`for_each`. (DynamicType.hpp 185-195 and the `for_each_type` of every type, see Model/Walk.lean) -/
def seen : Ty → Ty → List Ty
  | .prim _, s => [s]
  | .enum _ _ _, s => [s]
  | .str _ _, s => [s]
  | .seq c _, s => s :: seen c c
  | .arr _ c _, s => s :: seen c c
  | .map k v _, s => s :: .pair k v :: (seen k k ++ seen v v)
  | .pair x y, s => s :: (seen x x ++ seen y y)
  | .alias _ t, s => seen t s
  | .struct _ ms, s => s :: seenAll ms
  | .union _ d ms _, s => s :: (seen d d ++ seenAll ms)
/-- The members. (StructType.hpp 259-264) -/
def seenAll : Mems → List Ty
  | .nil => []
  | .cons _ t r => seen t t ++ seenAll r
end

/-- The names passed to `set_dependency` for a structure or union: those of all types visited other than itself.
(generator_deptree.hpp 921-928, 936-943) -/
def walkNames (T : Ty) : List Name :=
  ((seen T T).filter fun t => t.name ≠ T.name ∧ opts t).map fun t => t.name.toList

/-- The names `set_node_dependencies` passes to `set_dependency`, in order (generator_deptree.hpp 886-954). -/
def depNames : Kind → Decl → List Name
  | .alias, d =>
    match d.ty with
    | .alias _ t => if opts t then [t.name.toList] else []
    | _ => []
  | .const, d => if opts d.ty then [d.ty.name.toList] else []
  | .enum, d => if opts d.ty then [d.ty.name.toList] else []
  | .struct, d => d.parent.toList ++ walkNames d.ty
  | .union, d => walkNames d.ty

/-- The element a node refers to. (generator_deptree.hpp 137-150) -/
def declOf (root : Mod Decl) (n : Node) : Option Decl :=
  (root.at n.loc).bind fun m => omGet (m.content.get n.kind.cat) n.name

/-- `set_node_dependencies` (generator_deptree.hpp 886-954) -/
def setNode (root : Mod Decl) (t : Tables) (n : Node) : Option Tables :=
  match declOf root n with
  | some d => (depNames n.kind d).foldlM (fun t x => setDependency root n x t) t
  | none => some t

/-- `solve_dependency_tree` (generator_deptree.hpp 957-963, 1115-1124) -/
def solve (root : Mod Decl) : Option Tables :=
  ((mods [] root).flatMap (nodesAt root)).foldlM (setNode root) {}

/-! ## Generation -/

/-- The skeleton of the generated text: `module x {`, a declaration, `};`. (generator_deptree.hpp 1167-1170, 288-341,
1245) -/
inductive Event where
  | open (p : Loc)
  | decl (n : Node)
  | close (p : Loc)
  deriving DecidableEq, Repr

/-- What `generate_idl` reads: the tree and the recorded dependencies. `fake n`: `n` is a constant that stands for an
enumerator (`is_const_from_enum`), which prints nothing (generator_deptree.hpp 305-316). -/
structure Gr where
  nodes : Loc → List Node
  inners : Loc → List Loc
  fake : Node → Bool
  tab : Tables

/-- (generator_deptree.hpp 170-173) -/
def Gr.ancOf (g : Gr) (n : Node) : List Node := (g.tab.nodeAnc.filter fun e => e.1 = n).map (·.2)
/-- (generator_deptree.hpp 252-262) -/
def Gr.parOf (g : Gr) (n : Node) : List Loc := (g.tab.nodePar.filter fun e => e.1 = n).map (·.2)
/-- (generator_deptree.hpp 605-610) -/
def Gr.modAncOf (g : Gr) (p : Loc) : List Loc := (g.tab.modAnc.filter fun e => e.1 = p).map (·.2)
/-- `has_child_module` (generator_deptree.hpp 203-216) -/
def Gr.hasChild (g : Gr) (n : Node) (p : Loc) : Bool := (n, p) ∈ g.tab.nodeChild

/-- The `iterated_` flags (generator_deptree.hpp 369, 1023) and the text so far. -/
structure St where
  done : List Node := []
  iter : List Loc := []
  out : List Event := []

/-- `generate_idl_sentence` of a node (generator_deptree.hpp 283-341). The variant of the module (1000-1016) only adds a
test that always holds here. -/
def emit (g : Gr) (s : St) (n : Node) : St :=
  if n ∈ s.done then s
  else { s with done := n :: s.done, out := if g.fake n then s.out else s.out ++ [.decl n] }

/-- `generate_idl_module` (generator_deptree.hpp 1023-1063) -/
def emitModule (g : Gr) (p : Loc) (s : St) : St :=
  (g.nodes p).foldl (fun s n => emit g ((g.ancOf n).foldl (emit g) s) n) s

/-- The nodes of the outer module this module needs (generator_deptree.hpp 1148-1163). -/
def emitOuter (g : Gr) (p : Loc) (s : St) : St :=
  match p with
  | [] => s
  | _ :: r => ((g.nodes r).filter fun n => g.hasChild n p).foldl (emit g) s

/-- `module x {`, not printed for a module without a name (generator_deptree.hpp 1139, 1165-1168). -/
def openMod (p : Loc) (s : St) : St := if p.headD [] = [] then s else { s with out := s.out ++ [.open p] }

/-- `};` and `set_iterated(true)` (generator_deptree.hpp 1243-1266). -/
def closeMod (p : Loc) (s : St) : St :=
  { s with out := if p.headD [] = [] then s.out else s.out ++ [.close p], iter := p :: s.iter }

/-- `generate_idl(dep_mod)` (generator_deptree.hpp 1130-1277). `none`: the recursion has not ended within `fuel`
calls. -/
def gen (g : Gr) : Nat → Loc → St → Option St
  | 0, _, _ => none
  | fuel + 1, p, s =>
    if p ∈ s.iter then some s
    else do
      let s ← (g.modAncOf p).foldlM (fun s a => gen g fuel a s) s
      let s := openMod p (emitOuter g p s)
      let s ← ((g.nodes p).flatMap g.parOf).foldlM (fun s q => gen g fuel q s) s
      let s := emitModule g p s
      let s ← (g.inners p).foldlM (fun s q => gen g fuel q s) s
      some (closeMod p s)

/-- `is_const_from_enum` (Module.hpp 430-434), for constants (generator_deptree.hpp 305-316). -/
def isFake (root : Mod Decl) (n : Node) : Bool :=
  n.kind = .const && (match root.at n.loc with | some m => decide (n.name ∈ m.content.fromEnum) | none => false)

/-- The tree of `ModuleDependencyTree(root)` (generator_deptree.hpp 1085-1124). -/
def graph (root : Mod Decl) (t : Tables) : Gr := ⟨nodesAt root, innersAt root, isFake root, t⟩

/-- `ModuleDependencyTree(root).generate_idl()` (generator_deptree.hpp 1085-1092, 1283-1287) ends with this text.
A null submodule is dereferenced when the tree is built (1103), so there is no text then. -/
def Generates (root : Mod Decl) (text : List Event) : Prop :=
  root.full = true ∧ ∃ t fuel s, solve root = some t ∧ gen (graph root t) fuel [] {} = some s ∧ s.out = text

end Verif.Idl.Dep
