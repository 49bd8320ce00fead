import Verif.Model.IdlText
/-!
# The text of a whole module (include/xtypes/idl/generator_deptree.hpp)

`idl_from_module(module)`, which is what `idl::generate(module)` calls, builds a `ModuleDependencyTree` and generates its text. Model/Deps.lean keeps only the skeleton of the
text; here the text is kept to the byte: the declarations, the lines around a module, the indentation and the empty lines. The
elements of the tree are the declarations of Model/IdlText.lean. Not modelled: the optional map `module_idl`.
-/

namespace Verif.Idl

/-- The tables with every element replaced. (a helper, for the elements of idl/Module.hpp 660-668) -/
def Content.mapAll {α β : Type} (f : α → β) (c : Content α) : Content β where
  structs := c.structs.map fun e => (e.1, f e.2)
  unions := c.unions.map fun e => (e.1, f e.2)
  aliases := c.aliases.map fun e => (e.1, f e.2)
  enums := c.enums.map fun e => (e.1, f e.2)
  consts := c.consts.map fun e => (e.1, f e.2)
  fromEnum := c.fromEnum

mutual
/-- A tree of modules with every element replaced. (a helper, for the elements of idl/Module.hpp 660-670) -/
def Mod.mapAt {α β : Type} (f : Loc → α → β) (p : Loc) : Mod α → Mod β
  | .mk c inner => .mk (c.mapAll (f p)) (mapInner f p inner)
/-- The same for the submodules. (a helper, for idl/Module.hpp 670) -/
def mapInner {α β : Type} (f : Loc → α → β) (p : Loc) : List (Name × Option (Mod α)) → List (Name × Option (Mod β))
  | [] => []
  | (n, none) :: r => (n, none) :: mapInner f p r
  | (n, some m) :: r => (n, some (m.mapAt f (n :: p))) :: mapInner f p r
end

end Verif.Idl

namespace Verif.Idl.Gen
open Text Dep

/-- What the dependency tree reads of an element of the module at a place: the type, whose name has the scope of the module
(idl/Module.hpp 228-229, 313, 512-516, 567-571), or the type of the value; and the name of the parent.
(generator_deptree.hpp 137-150, 886-954) -/
def depDecl (p : Loc) : Decl → Dep.Decl
  | .struct n q ms => ⟨.struct (String.ofList (scopedName p n.toList)) (Mems.ofList ms), q.map (·.1.toList)⟩
  | .union _ u => ⟨u.toTy, none⟩
  | .enum n vs => ⟨.enum (String.ofList (scopedName p n.toList)) .w4 vs, none⟩
  | .alias n t => ⟨.alias (String.ofList (scopedName p n.toList)) t, none⟩
  | .const _ i => ⟨i.type, none⟩

/-- The tree as the dependency tree reads it. (generator_deptree.hpp 1085-1092) -/
def deps (root : Mod Decl) : Mod Dep.Decl := root.mapAt depDecl []

/-- The element of a node. (generator_deptree.hpp 137-150) -/
def element (root : Mod Decl) (n : Node) : Option Decl :=
  (root.at n.loc).bind fun m => omGet (m.content.get n.kind.cat) n.name

/-! ## Parts of the text -/

/-- What is written to the stream: an empty line, the lines that open a module, a declaration, the line that closes a module;
with the number of tabulators. (generator_deptree.hpp 288-341, 1045, 1056, 1151, 1167, 1175-1176, 1203, 1218, 1244) -/
inductive Piece where
  | gap
  | open (tabs : Nat) (p : Loc)
  | decl (tabs : Nat) (n : Node)
  | close (tabs : Nat) (p : Loc)
  deriving DecidableEq, Repr

/-- Its text; the text of a declaration is that of the element. (generator_deptree.hpp 288-341, 1175-1176, 1244) -/
def pieceText (root : Mod Decl) : Piece → Bytes
  | .gap => bytes "\n"
  | .open t p => indent t ++ bytes "module " ++ bytes (String.ofList (p.headD [])) ++ bytes "\n" ++ indent t ++ bytes "{" ++ bytes "\n"
  | .decl t n => match element root n with
    | some d => declTextAt n.loc t d
    | none => []
  | .close t _ => indent t ++ bytes "};" ++ bytes "\n"

/-- The `iterated_` flags (generator_deptree.hpp 369, 1073) and the text so far. -/
structure PSt where
  done : List Node := []
  iter : List Loc := []
  out : List Piece := []

/-- Writing an empty line if a condition holds. (generator_deptree.hpp 1045, 1056, 1151, 1167, 1203, 1218) -/
def gapIf (b : Bool) (s : PSt) : PSt := if b then { s with out := s.out ++ [.gap] } else s

/-- Whether the sentence of a node is not empty: it has not been printed and is no constant of an enumerator, which is not
printed (generator_deptree.hpp 288-291, 305-316). -/
def fresh (g : Gr) (s : PSt) (n : Node) : Bool := decide (n ∉ s.done) && !g.fake n

/-- `generate_idl_sentence(tabs)` of a node (generator_deptree.hpp 283-341) -/
def sentence (g : Gr) (tabs : Nat) (s : PSt) (n : Node) : PSt :=
  if n ∈ s.done then s
  else { s with done := n :: s.done, out := if g.fake n then s.out else s.out ++ [.decl tabs n] }

/-- `all_nodes_iterated` (generator_deptree.hpp 436-450) -/
def allNodes (g : Gr) (p : Loc) (s : PSt) : Bool := (g.nodes p).all fun n => decide (n ∈ s.done)

/-- `all_inner_iterated` (generator_deptree.hpp 452-465) -/
def allInner (g : Gr) (p : Loc) (s : PSt) : Bool := (g.inners p).all fun q => decide (q ∈ s.iter)

/-- A node of `generate_idl_module`: its ancestors, each followed by an empty line, and the node, followed by an empty line
unless it is the last (generator_deptree.hpp 1034-1059). -/
def elementText (g : Gr) (tabs : Nat) (p : Loc) (s : PSt) (n : Node) : PSt :=
  let s := (g.ancOf n).foldl (fun s a => gapIf (fresh g s a) (sentence g tabs s a)) s
  let s' := sentence g tabs s n
  gapIf (fresh g s n && (!allNodes g p s' || (!(g.inners p).isEmpty && !allInner g p s'))) s'

/-- `generate_idl_module(tabs)` (generator_deptree.hpp 1028-1068) -/
def moduleText (g : Gr) (tabs : Nat) (p : Loc) (s : PSt) : PSt := (g.nodes p).foldl (elementText g tabs p) s

/-- The nodes of the outer module this module needs (generator_deptree.hpp 1156-1171). -/
def outerText (g : Gr) (tabs : Nat) (p : Loc) (s : PSt) : PSt :=
  match p with
  | [] => s
  | _ :: r => ((g.nodes r).filter fun n => g.hasChild n p).foldl
      (fun s n => gapIf (!allNodes g r (sentence g tabs s n)) (sentence g tabs s n)) s

/-- A module that must come before, and an empty line, unless it is there; `generate_idl` returns at once for a module that is
there. (generator_deptree.hpp 1144-1154, 1194-1207; 1134-1138) -/
def before (gen : Loc → PSt → Option PSt) (s : PSt) (q : Loc) : Option PSt := (gen q s).map (gapIf (decide (q ∉ s.iter)))

/-- `module x {`, not printed for a module without a name (generator_deptree.hpp 1140, 1173-1176). -/
def openText (tabs : Nat) (p : Loc) (s : PSt) : PSt :=
  if p.headD [] = [] then s else { s with out := s.out ++ [.open tabs p] }

/-- `};` and `set_iterated(true)` (generator_deptree.hpp 1242-1265). -/
def closeText (tabs : Nat) (p : Loc) (s : PSt) : PSt :=
  { s with out := if p.headD [] = [] then s.out else s.out ++ [.close tabs p], iter := p :: s.iter }

/-- `generate_idl(dep_mod, tabs)` (generator_deptree.hpp 1130-1277). `none`: the recursion has not ended within `fuel`
calls. -/
def genText (g : Gr) : Nat → Nat → Loc → PSt → Option PSt
  | 0, _, _, _ => none
  | fuel + 1, tabs, p, s =>
    if p ∈ s.iter then some s
    else do
      let same := if p.headD [] = [] then 0 else tabs
      let inside := if p.headD [] = [] then 0 else tabs + 1
      let s ← (g.modAncOf p).foldlM (before (genText g fuel same)) s
      let s := openText tabs p (outerText g tabs p s)
      let s ← ((g.nodes p).flatMap g.parOf).foldlM (before (genText g fuel inside)) s
      let s := moduleText g inside p s
      let s ← (g.inners p).foldlM (fun s q => (genText g fuel inside q s).map fun s => gapIf (!allInner g p s) s) s
      some (closeText tabs p s)

/-- `idl_from_module(module)` ends with this text (generator_deptree.hpp 1085-1093, 1281-1285, 1295-1300). A null
submodule is dereferenced when the tree is built (1103), so there is no text then. -/
def GeneratesText (root : Mod Decl) (text : Bytes) : Prop :=
  root.full = true ∧ ∃ t fuel s, solve (deps root) = some t ∧ genText (graph (deps root) t) fuel 0 [] {} = some s ∧
    text = (s.out.map (pieceText root)).flatten

end Verif.Idl.Gen
