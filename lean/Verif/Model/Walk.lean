import Verif.Model.Data
/-!
# Traversal: `for_each` of data and types

The visitor is any function that gets the node and changes a state of its own; it may throw. Simplification: it does not
change the data it visits (for writable nodes it could).
-/

namespace Verif.Inst

/-- What a visitor throws: a `bool`, or something else. (the `catch` of DynamicData.hpp 420-423) -/
inductive Throw where
  | bool (b : Bool)
  | other
  deriving DecidableEq, Repr

/-- Part of a traversal: from the state of the visitor to the new one, and what was thrown.
(a call of `for_each_instance`, Instanceable.hpp 135-137) -/
abbrev Walk (σ : Type) := σ → M (σ × Option Throw)

/-- One after the other, unless something is thrown. (sequencing and exceptions, DynamicData.hpp 412-423) -/
def Walk.andThen {σ : Type} (f g : Walk σ) : Walk σ := fun s =>
  (f s).bind fun r =>
    match r.2 with
    | none => g r.1
    | some t => .ok (r.1, some t)

/-- Nothing to do. (not code) -/
def Walk.done {σ : Type} : Walk σ := fun s => .ok (s, none)

/-- `for (i = first; i < first + n; i++) f(i)` (e.g. ArrayType.hpp 262-273) -/
def Walk.times {σ : Type} (f : Nat → Walk σ) : Nat → Nat → Walk σ
  | _, 0 => .done
  | i, n + 1 => (f i).andThen (times f (i + 1) n)

/-! ## Data -/

/-- `InstanceNode` without the parent (Instanceable.hpp 90-137): `type`, `instance` (a block and an address in it),
`deep`, `from_index`, `from_member` (its name). -/
structure Frame where
  ty : Ty
  cells : List Cell
  addr : Nat
  deep : Nat
  index : Nat
  member : Option String

/-- `InstanceNode`: the node itself and, from its parent upwards, its ancestors. (Instanceable.hpp 90-127) -/
structure Node where
  self : Frame
  up : List Frame

/-- `InstanceNode(type, instance)` (Instanceable.hpp 100-110). -/
def Node.root (T : Ty) (cs : List Cell) (a : Nat) : Node := ⟨⟨T, cs, a, 0, 0, none⟩, []⟩

/-- `InstanceNode(parent, type, instance, from_index, from_member)` (Instanceable.hpp 112-125). -/
def Node.child (n : Node) (t : Ty) (cs : List Cell) (a index : Nat) (member : Option String) : Node :=
  ⟨⟨t, cs, a, n.self.deep + 1, index, member⟩, n.self :: n.up⟩

/-- The member the parts of a pair are said to come from: that of the pair or of its parent (PairType.hpp 201-209). -/
def Node.pairMember (n : Node) : Option String :=
  match n.self.member with
  | some m => some m
  | none =>
    match n.up with
    | p :: _ => p.member
    | [] => none

/-- A visitor of data. (Instanceable.hpp 129) -/
abbrev Visitor (σ : Type) := Node → σ → σ × Option Throw

/-- Call the visitor. (e.g. PrimitiveType.hpp 268) -/
def call {σ : Type} (visit : Visitor σ) (n : Node) : Walk σ := fun s => .ok (visit n s)

/-- The two parts of a pair after the pair itself (PairType.hpp 196-214). -/
def walkPair {σ : Type} (visit : Visitor σ) (f g : List Cell → Nat → Node → Walk σ) (x y : Ty) (cs : List Cell) (a : Nat) (n : Node) :
    Walk σ :=
  (call visit n).andThen ((f cs a (n.child x cs a 0 n.pairMember)).andThen
    (g cs (a + x.memSize) (n.child y cs (a + x.memSize) 1 n.pairMember)))

mutual
/-- `for_each_instance(node, visitor)` of the type, the instance of the node being at address `a` of `cs`:
PrimitiveType.hpp 264-269 (enumerations too), StringType.hpp 152-157, SequenceType.hpp 185-196, ArrayType.hpp 262-273,
MapType.hpp 198-209, PairType.hpp 196-214, AliasType.hpp 105-111 (which uses the parent of the node), StructType.hpp
241-252, UnionType.hpp 419-435 (`from_index` is the label). -/
def walk {σ : Type} (visit : Visitor σ) : Ty → List Cell → Nat → Node → Walk σ
  | .prim _, _, _, n => call visit n
  | .enum _ _ _, _, _, n => call visit n
  | .str _ _, _, _, n => call visit n
  | .seq c _, cs, a, n => fun s =>
    (peekColl false cs a).bind fun o =>
      if o.content = c then
        (call visit n).andThen (Walk.times (fun i => walk visit c o.block (i * c.memSize)
          (n.child c o.block (i * c.memSize) i none)) 0 o.size) s
      else .error .outside
  | .arr _ c d, cs, a, n =>
    (call visit n).andThen (Walk.times (fun i => walk visit c cs (a + i * c.memSize)
      (n.child c cs (a + i * c.memSize) i none)) 0 d)
  | .map k v _, cs, a, n => fun s =>
    (peekColl true cs a).bind fun o =>
      if o.content = .pair k v then
        (call visit n).andThen (Walk.times (fun i => walkPair visit (walk visit k) (walk visit v) k v o.block
          (i * (k.memSize + v.memSize)) (n.child (.pair k v) o.block (i * (k.memSize + v.memSize)) i none)) 0 o.size) s
      else .error .outside
  | .pair x y, cs, a, n => walkPair visit (walk visit x) (walk visit y) x y cs a n
  | .alias _ t, cs, a, n =>
    match n.up with
    | p :: r => walk visit t cs a ((Node.mk p r).child t cs a n.self.index n.self.member)
    | [] => fun _ => .error .ub
  | .struct _ ms, cs, a, n => (call visit n).andThen (walkAll visit ms cs a 0 n)
  | .union _ d ms i, cs, a, n => fun s =>
    (readLabel d cs a).bind fun l =>
      match omGet i.labels l with
      | some m => (call visit n).andThen (walkCase visit ms m cs (a + d.memSize) (l % 2 ^ 64).toNat n) s
      | none => .error .refused
/-- The members of a structure, from number `i` on. (StructType.hpp 246-251) -/
def walkAll {σ : Type} (visit : Visitor σ) : Mems → List Cell → Nat → Nat → Node → Walk σ
  | .nil, _, _, _, _ => .done
  | .cons x t r, cs, a, i, n =>
    (walk visit t cs a (n.child t cs a i (some x))).andThen (walkAll visit r cs (a + t.memSize) (i + 1) n)
/-- The member of a union with the given name. (UnionType.hpp 419-435) -/
def walkCase {σ : Type} (visit : Visitor σ) : Mems → String → List Cell → Nat → Nat → Node → Walk σ
  | .nil, _, _, _, _, _ => fun _ => .error .refused
  | .cons x t r, m, cs, a, i, n =>
    if x = m then walk visit t cs a (n.child t cs a i (some x)) else walkCase visit r m cs a i n
end

/-- What `for_each` returns: a value, or it passes the exception on. (DynamicData.hpp 418-423) -/
def returned : Option Throw → Option Bool
  | none => some true
  | some (.bool b) => some b
  | some .other => none

/-- `for_each(visitor)` (DynamicData.hpp 408-424, 1118-1135). -/
def Data.forEach {σ : Type} (d : Data) (visit : Visitor σ) (s : σ) : M (σ × Option Bool) :=
  (walk visit d.ty d.cells 0 (.root d.ty d.cells 0) s).map fun r => (r.1, returned r.2)

/-! ## Types -/

/-- `TypeNode` without the parent (DynamicType.hpp 106-170). -/
structure TFrame where
  ty : Ty
  deep : Nat
  index : Nat
  member : Option String

/-- `TypeNode`. (DynamicType.hpp 106-170) -/
structure TNode where
  self : TFrame
  up : List TFrame

/-- `TypeNode(type)` (DynamicType.hpp 147-155). -/
def TNode.root (T : Ty) : TNode := ⟨⟨T, 0, 0, none⟩, []⟩

/-- `TypeNode(parent, type, from_index, from_member)` (DynamicType.hpp 157-168). -/
def TNode.child (n : TNode) (t : Ty) (index : Nat) (member : Option String) : TNode :=
  ⟨⟨t, n.self.deep + 1, index, member⟩, n.self :: n.up⟩

/-- PairType.hpp 181-189. -/
def TNode.pairMember (n : TNode) : Option String :=
  match n.self.member with
  | some m => some m
  | none =>
    match n.up with
    | p :: _ => p.member
    | [] => none

/-- A visitor of types. (DynamicType.hpp 172) -/
abbrev TVisitor (σ : Type) := TNode → σ → σ × Option Throw

/-- Call the visitor. (e.g. PrimitiveType.hpp 275) -/
def tcall {σ : Type} (visit : TVisitor σ) (n : TNode) : Walk σ := fun s => .ok (visit n s)

/-- The two types of a pair after the pair itself (PairType.hpp 176-194). -/
def twalkPair {σ : Type} (visit : TVisitor σ) (f g : TNode → Walk σ) (x y : Ty) (n : TNode) : Walk σ :=
  (tcall visit n).andThen ((f (n.child x 0 n.pairMember)).andThen (g (n.child y 1 n.pairMember)))

mutual
/-- `for_each_type(node, visitor)`: PrimitiveType.hpp 271-276, StringType.hpp 159-164, SequenceType.hpp 198-205,
ArrayType.hpp 275-282, MapType.hpp 211-218, PairType.hpp 176-194, AliasType.hpp 130-135, StructType.hpp 254-265,
UnionType.hpp 437-448 (the discriminator is member 0 of a union, UnionType.hpp 475-482). The node of an alias keeps the
alias as its type. -/
def twalk {σ : Type} (visit : TVisitor σ) : Ty → TNode → Walk σ
  | .prim _, n => tcall visit n
  | .enum _ _ _, n => tcall visit n
  | .str _ _, n => tcall visit n
  | .seq c _, n => (tcall visit n).andThen (twalk visit c (n.child c 0 none))
  | .arr _ c _, n => (tcall visit n).andThen (twalk visit c (n.child c 0 none))
  | .map k v _, n =>
    (tcall visit n).andThen (twalkPair visit (twalk visit k) (twalk visit v) k v (n.child (.pair k v) 0 none))
  | .pair x y, n => twalkPair visit (twalk visit x) (twalk visit y) x y n
  | .alias _ t, n => twalk visit t n
  | .struct _ ms, n => (tcall visit n).andThen (twalkAll visit ms 0 n)
  | .union _ d ms _, n =>
    (tcall visit n).andThen ((twalk visit d (n.child d 0 (some discName))).andThen (twalkAll visit ms 1 n))
/-- The members, from number `i` on. (StructType.hpp 259-264) -/
def twalkAll {σ : Type} (visit : TVisitor σ) : Mems → Nat → TNode → Walk σ
  | .nil, _, _ => .done
  | .cons x t r, i, n => (twalk visit t (n.child t i (some x))).andThen (twalkAll visit r (i + 1) n)
end

/-- `for_each(visitor)` of a type (DynamicType.hpp 185-195). -/
def typeForEach {σ : Type} (T : Ty) (visit : TVisitor σ) (s : σ) : M (σ × Option Bool) :=
  (twalk visit T (.root T) s).map fun r => (r.1, returned r.2)

end Verif.Inst
