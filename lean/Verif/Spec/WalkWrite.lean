import Verif.Spec.Walk
import Verif.Spec.Ref
import Verif.Model.WalkWrite
/-!
# What a traversal with a visitor that writes should do

On values. The visitor is called on a node, first, and does something to the value there; then the parts of the *new* value
are walked one after the other, each part being replaced by what the walk makes of it.
-/

namespace Verif.Inst

/-- A visitor in terms of values. -/
abbrev VVisitor (σ : Type) := TNode → Val → σ → List (List Step × RefOp) × σ × Option Throw

/-- What the visitor does depends on the memory of the instance only as far as it is the value there. -/
def WVisitor.Follows {σ : Type} (visit : WVisitor σ) (vis : VVisitor σ) : Prop :=
  ∀ n cs v s, decode n.self.ty cs = some v → visit n cs s = vis n v s

/-- The operations of the visitor can be done at the node (see `RefOp.Ok`). -/
def VVisitor.Able {σ : Type} (vis : VVisitor σ) : Prop :=
  ∀ n v s, ∀ x ∈ (vis n v s).1, ∀ t, typeAt x.1 n.self.ty = some t → x.2.Ok t

/-- Operations one after the other. -/
def editAll (T : Ty) : List (List Step × RefOp) → Val → Out
  | [], v => .ok v
  | x :: r, v =>
    match editAt false x.2.spec x.1 T v with
    | .ok w => editAll T r w
    | .refused => .refused
    | .undef => .undef

/-- A part of a value: its position, its type, and the index and the member its node has. -/
structure WPart where
  pos : Nat
  ty : Ty
  index : Nat
  member : Option String

/-- The elements of a collection. -/
def elemParts (t : Ty) (n : Nat) : List WPart := (List.range n).map fun i => ⟨i, t, i, none⟩

/-- The members of a structure. -/
def memberParts (i : Nat) : Mems → List WPart
  | .nil => []
  | .cons x t r => ⟨i, t, i, some x⟩ :: memberParts (i + 1) r

/-- The parts of the value of the node; of a map, its pairs; of a union, the selected member. -/
def wparts (n : TNode) : Val → List WPart
  | .list vs =>
    match n.self.ty with
    | .struct _ ms => memberParts 0 ms
    | .arr _ c _ => elemParts c vs.length
    | .pair x y =>
      match vs with
      | [_, _] => [⟨0, x, 0, n.pairMember⟩, ⟨1, y, 1, n.pairMember⟩]
      | _ => []
    | _ => []
  | .coll vs =>
    match n.self.ty with
    | .seq c _ => elemParts c vs.length
    | .map k w _ => elemParts (.pair k w) vs.length
    | _ => []
  | .un (.bytes bs) x _ =>
    match n.self.ty with
    | .union _ d ms _ =>
      match ms.find? x with
      | some t => [⟨0, t, (labelOf d.memSize bs % 2 ^ 64).toNat, some x⟩]
      | none => []
    | _ => []
  | _ => []

/-- The value of the part at a position. -/
def Val.part : Val → Nat → Option Val
  | .list vs, i => vs[i]?
  | .coll vs, i => vs[i]?
  | .un _ _ w, 0 => some w
  | _, _ => none

/-- The value with the part at a position replaced. -/
def Val.setPart : Val → Nat → Val → Val
  | .list vs, i, w => .list (vs.set i w)
  | .coll vs, i, w => .coll (vs.set i w)
  | .un b x _, 0, w => .un b x w
  | v, _, _ => v

/-- A union has a selected member, and keeps it and its label. -/
def Val.SameCase : Val → Val → Prop
  | .un b x _, w => ∃ u, w = .un b x u
  | .unNone _, _ => False
  | _, _ => True

/-- Calling the visitor on the node with value `v`: the new value, the new state, what is thrown. -/
def Visited {σ : Type} (vis : VVisitor σ) (n : TNode) (v : Val) (s : σ) (w : Val) (s' : σ) (t : Option Throw) : Prop :=
  editAll n.self.ty (vis n v s).1 v = .ok w ∧ (vis n v s).2 = (s', t) ∧ v.SameCase w

/-- A description without the value. -/
def Info.bare (i : Info) : TInfo := ⟨i.ty, i.index, i.member⟩

/-- The node has this description, and so have its ancestors. -/
def TNode.Looks (n : TNode) (c : List Info) : Prop := n.Is (c.map Info.bare)

/-- The state of the visitor records the nodes it is called on. -/
def VVisitor.Logs {σ : Type} (vis : VVisitor σ) (log : σ → List TNode) : Prop :=
  ∀ n v s, log (vis n v s).2.1 = log s ++ [n]

/-- A value an instance of the type can have, where every union has a selected member. -/
def Good (T : Ty) (v : Val) : Prop := (∃ cs, decode T cs = some v) ∧ v.Full

/-- The visitor can be called on every value: nothing it does is refused, no union changes its member or its label, and all
unions keep a selected member. -/
def VVisitor.Polite {σ : Type} (vis : VVisitor σ) : Prop :=
  ∀ n v s, Good n.self.ty v → ∃ w s' t, Visited vis n v s w s' t ∧ w.Full

/-- Both parts of a pair changed. -/
def Val.onPair (g h : Val → Val) : Val → Val
  | .list [a, b] => .list [g a, h b]
  | p => p

mutual
/-- A value of the type with the bytes of every number replaced; characters and booleans are numbers, enumerators and
labels of unions are not. -/
def Val.mapNums (f : PK → List Byte → List Byte) : Ty → Val → Val
  | .prim k, .bytes bs => .bytes (f k bs)
  | .seq c _, .coll vs => .coll (vs.map (Val.mapNums f c))
  | .arr _ c _, .list vs => .list (vs.map (Val.mapNums f c))
  | .map k w _, .coll vs => .coll (vs.map (Val.onPair (Val.mapNums f k) (Val.mapNums f w)))
  | .pair x y, .list [a, b] => .list [Val.mapNums f x a, Val.mapNums f y b]
  | .alias _ t, v => Val.mapNums f t v
  | .struct _ ms, .list vs => .list (Val.mapMems f ms vs)
  | .union _ _ ms _, .un b x w => .un b x (Val.mapCase f ms x w)
  | _, v => v
/-- The members of a structure. -/
def Val.mapMems (f : PK → List Byte → List Byte) : Mems → List Val → List Val
  | .cons _ t r, v :: vs => Val.mapNums f t v :: Val.mapMems f r vs
  | _, vs => vs
/-- The selected member of a union. -/
def Val.mapCase (f : PK → List Byte → List Byte) : Mems → String → Val → Val
  | .cons x t r, n, w => if x = n then Val.mapNums f t w else Val.mapCase f r n w
  | .nil, _, w => w
end

/-- `[&](node) { if (primitive) node.data() = f(node.data()); }` -/
def mapper (f : PK → List Byte → List Byte) : WVisitor Unit := fun n cs _ =>
  match n.self.ty, decode n.self.ty cs with
  | .prim k, some (.bytes bs) => ([([], .value (.num k (f k bs)))], (), none)
  | _, _ => ([], (), none)

mutual
/-- Walking the node with value `v`: the new value, the new state, what was thrown if something was. -/
inductive Edited {σ : Type} (vis : VVisitor σ) : TNode → Val → σ → Val → σ → Option Throw → Prop
  | throws {n v s w s' t} : Visited vis n v s w s' (some t) → Edited vis n v s w s' (some t)
  | goes {n v s w s' x s'' t} : Visited vis n v s w s' none → EditedParts vis n (wparts n w) w s' x s'' t →
      Edited vis n v s x s'' t
/-- Walking some parts of it one after the other. -/
inductive EditedParts {σ : Type} (vis : VVisitor σ) : TNode → List WPart → Val → σ → Val → σ → Option Throw → Prop
  | nil {n v s} : EditedParts vis n [] v s v s none
  | next {n p r v s u w s' x s'' t} : v.part p.pos = some u →
      Edited vis (n.child p.ty.rget p.index p.member) u s w s' none →
      EditedParts vis n r (v.setPart p.pos w) s' x s'' t → EditedParts vis n (p :: r) v s x s'' t
  | stop {n p r v s u w s' t} : v.part p.pos = some u →
      Edited vis (n.child p.ty.rget p.index p.member) u s w s' (some t) →
      EditedParts vis n (p :: r) v s (v.setPart p.pos w) s' (some t)
end

end Verif.Inst
