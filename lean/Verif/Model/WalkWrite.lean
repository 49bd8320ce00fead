import Verif.Model.Walk
import Verif.Model.Ref
/-!
# `for_each` with a visitor that writes

`WritableDynamicDataRef::for_each` hands out nodes through which the visitor can assign. A visitor is given the node and
the memory of its instance, and answers with what it does through `data()`: operations at the end of paths from the node,
one after the other; it may change a state of its own, and throw afterwards.

Simplifications: the visitor writes through the node it is given only, neither through its `parent()` nor through other
references to the datum; so the collection around a node keeps its size, which is asked for once, after the visitor was
called on the collection, and not on every round of the loop.
-/

namespace Verif.Inst

/-- A visitor: node and memory of the instance, its state; what it does, its new state, what it throws.
(DynamicData.hpp 1099-1116) -/
abbrev WVisitor (σ : Type) := TNode → List Cell → σ → List (List Step × RefOp) × σ × Option Throw

/-- Operations through one reference to a part of type `T` at the address `a`. (a client of DynamicData.hpp 819-1087) -/
def writes (T : Ty) (a : Nat) : List (List Step × RefOp) → Mem → M Mem
  | [], m => .ok m
  | x :: r, m => (withRef false x.1 T x.2.run a m).bind (writes T a r)

/-- Part of a traversal: it changes the memory and the state of the visitor, and may throw.
(a call of `for_each_instance`, Instanceable.hpp 135-137) -/
abbrev WWalk (σ : Type) := Mem → σ → M (Mem × σ × Option Throw)

/-- One after the other, unless something is thrown. (sequencing and exceptions, DynamicData.hpp 1118-1135) -/
def WWalk.andThen {σ : Type} (f g : WWalk σ) : WWalk σ := fun m s =>
  (f m s).bind fun r =>
    match r.2.2 with
    | none => g r.1 r.2.1
    | some t => .ok (r.1, r.2.1, some t)

/-- Nothing to do. (not code) -/
def WWalk.done {σ : Type} : WWalk σ := fun m s => .ok (m, s, none)

/-- `for (i = first; i < first + n; i++) f(i)` (e.g. ArrayType.hpp 262-273) -/
def WWalk.times {σ : Type} (f : Nat → WWalk σ) : Nat → Nat → WWalk σ
  | _, 0 => .done
  | i, n + 1 => (f i).andThen (times f (i + 1) n)

/-- Call the visitor with a node at the address `a`, and do what it says. (DynamicData.hpp 1118-1128) -/
def callW {σ : Type} (visit : WVisitor σ) (n : TNode) (a : Nat) : WWalk σ := fun m s =>
  let r := visit n ((m.cells.drop a).take n.self.ty.memSize) s
  (writes n.self.ty a r.1 m).map fun m => (m, r.2)

/-- Walk in the block of the sequence or map at `a`. (access through `memory_`, SequenceInstance.hpp 211-215) -/
def inBlockW {σ : Type} (isMap : Bool) (c : Ty) (g : Coll → WWalk σ) (a : Nat) : WWalk σ := fun m s =>
  (peekColl isMap m.cells a).bind fun o =>
    if o.content = c then
      (g o ⟨o.block, 0⟩ s).bind fun r =>
        (setColl isMap { o with block := r.1.cells } a m).map fun m => ({ m with leaked := m.leaked + r.1.leaked }, r.2)
    else .error .outside

/-- The element number `i` of a collection (the check of SequenceInstance.hpp 192-198; for maps, the condition of the loop,
MapType.hpp 204). -/
def elemW {σ : Type} (f : Nat → WWalk σ) (size i : Nat) : Coll → WWalk σ := fun o =>
  if i < o.size then f (i * size) else fun _ _ => .error .refused

/-- The two parts of a pair after the pair itself (PairType.hpp 196-214). -/
def walkPairW {σ : Type} (visit : WVisitor σ) (f g : Nat → TNode → WWalk σ) (x y : Ty) (a : Nat) (n : TNode) : WWalk σ :=
  (callW visit n a).andThen ((f a (n.child x 0 n.pairMember)).andThen (g (a + x.memSize) (n.child y 1 n.pairMember)))

mutual
/-- `for_each_instance(node, visitor)` of the type with the instance of the node at the address `a`:
PrimitiveType.hpp 264-269 (enumerations too), StringType.hpp 152-157, SequenceType.hpp 185-196, ArrayType.hpp 262-273,
MapType.hpp 198-209, PairType.hpp 196-214, AliasType.hpp 105-111 (which uses the parent of the node), StructType.hpp
241-252, UnionType.hpp 419-435: the label, and with it the member that is walked, is read before the visitor is called. -/
def walkW {σ : Type} (visit : WVisitor σ) : Ty → Nat → TNode → WWalk σ
  | .prim _, a, n => callW visit n a
  | .enum _ _ _, a, n => callW visit n a
  | .str _ _, a, n => callW visit n a
  | .seq c _, a, n => (callW visit n a).andThen fun m s =>
    (peekColl false m.cells a).bind fun o =>
      WWalk.times (fun i => inBlockW false c (elemW (fun b => walkW visit c b (n.child c i none)) c.memSize i) a) 0 o.size m s
  | .arr _ c d, a, n => (callW visit n a).andThen
    (WWalk.times (fun i => walkW visit c (a + i * c.memSize) (n.child c i none)) 0 d)
  | .map k v _, a, n => (callW visit n a).andThen fun m s =>
    (peekColl true m.cells a).bind fun o =>
      WWalk.times (fun i => inBlockW true (.pair k v) (elemW (fun b => walkPairW visit (walkW visit k) (walkW visit v) k v b
        (n.child (.pair k v) i none)) (k.memSize + v.memSize) i) a) 0 o.size m s
  | .pair x y, a, n => walkPairW visit (walkW visit x) (walkW visit y) x y a n
  | .alias _ t, a, n =>
    match n.up with
    | p :: r => walkW visit t a ((TNode.mk p r).child t n.self.index n.self.member)
    | [] => fun _ _ => .error .ub
  | .struct _ ms, a, n => (callW visit n a).andThen (walkAllW visit ms a 0 n)
  | .union _ d ms i, a, n => fun m s =>
    (readLabel d m.cells a).bind fun l =>
      match omGet i.labels l with
      | some x => (callW visit n a).andThen (walkCaseW visit ms x (a + d.memSize) (l % 2 ^ 64).toNat n) m s
      | none => .error .refused
/-- The members of a structure, from number `i` on. (StructType.hpp 246-251) -/
def walkAllW {σ : Type} (visit : WVisitor σ) : Mems → Nat → Nat → TNode → WWalk σ
  | .nil, _, _, _ => .done
  | .cons x t r, a, i, n => (walkW visit t a (n.child t i (some x))).andThen (walkAllW visit r (a + t.memSize) (i + 1) n)
/-- The member of a union with the given name. (UnionType.hpp 419-435) -/
def walkCaseW {σ : Type} (visit : WVisitor σ) : Mems → String → Nat → Nat → TNode → WWalk σ
  | .nil, _, _, _, _ => fun _ _ => .error .refused
  | .cons x t r, m, a, i, n => if x = m then walkW visit t a (n.child t i (some x)) else walkCaseW visit r m a i n
end

/-- `for_each(visitor)` with a visitor that writes: the datum, the number of owning objects lost, the state of the visitor
and what is returned. (DynamicData.hpp 1118-1135) -/
def Data.forEachW {σ : Type} (d : Data) (visit : WVisitor σ) (s : σ) : M (Data × Nat × σ × Option Bool) :=
  (walkW visit d.ty 0 (.root d.ty) ⟨d.cells, 0⟩ s).map fun r =>
    ({ d with cells := r.1.cells }, r.1.leaked, r.2.1, returned r.2.2)

end Verif.Inst
