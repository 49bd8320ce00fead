import Verif.Spec.Data
import Verif.Model.Walk
/-!
# The tree of a datum and its preorder

A node is described by what can be asked of it and of its ancestors: `Info` of itself, of its parent, and so on up to the
root. `Preorder kids c l`: `l` lists the node `c` and everything below it, each node before its children, the
children in order.
-/

namespace Verif.Inst

section
variable {α : Type} (kids : List α → List α)

mutual
/-- See above; `kids c` are the children of the node `c`. -/
inductive Preorder : List α → List (List α) → Prop where
  | node {c : List α} {l : List (List α)} : PreorderAll c (kids c) l → Preorder c (c :: l)
/-- Some children of the node `c` and everything below them. -/
inductive PreorderAll : List α → List α → List (List α) → Prop where
  | nil {c : List α} : PreorderAll c [] []
  | cons {c : List α} {x : α} {r : List α} {l l' : List (List α)} :
      Preorder (x :: c) l → PreorderAll c r l' → PreorderAll c (x :: r) (l ++ l')
end

/-- `n` is the node `c` or somewhere below it. -/
inductive Below (c : List α) : List α → Prop where
  | self : Below c c
  | kid {n : List α} {x : α} : Below c n → x ∈ kids n → Below c (x :: n)
end

/-- What can be asked of a node: its type, its data, and by which index and member it was reached. -/
structure Info where
  ty : Ty
  val : Val
  index : Nat
  member : Option String

/-- Elements of a collection. -/
def elemInfos (t : Ty) (i : Nat) : List Val → List Info
  | [] => []
  | v :: vs => ⟨t, v, i, none⟩ :: elemInfos t (i + 1) vs

/-- Members of a structure. -/
def memberInfos (i : Nat) : Mems → List Val → List Info
  | .cons x t r, v :: vs => ⟨t.rget, v, i, some x⟩ :: memberInfos (i + 1) r vs
  | _, _ => []

/-- The member by which the node was reached, or else its parent. -/
def viaMember {α : Type} (f : α → Option String) : List α → Option String
  | i :: up => (f i).or ((up.head?).bind f)
  | [] => none

/-- The children of a node of a datum. -/
def kids : List Info → List Info
  | [] => []
  | i :: up =>
    match i.ty, i.val with
    | .struct _ ms, .list vs => memberInfos 0 ms vs
    | .arr _ c _, .list vs => elemInfos c.rget 0 vs
    | .seq c _, .coll vs => elemInfos c.rget 0 vs
    | .map k w _, .coll vs => elemInfos (.pair k w) 0 vs
    | .pair s t, .list [a, b] =>
      [⟨s.rget, a, 0, viaMember Info.member (i :: up)⟩, ⟨t.rget, b, 1, viaMember Info.member (i :: up)⟩]
    | .union _ d ms _, .un (.bytes bs) n w =>
      match ms.find? n with
      | some t => [⟨t.rget, w, (labelOf d.memSize bs % 2 ^ 64).toNat, some n⟩]
      | none => []
    | _, _ => []

mutual
/-- Every union has a selected member. -/
def Val.Full : Val → Prop
  | .bytes _ => True
  | .str _ => True
  | .list vs => Val.FullAll vs
  | .coll vs => Val.FullAll vs
  | .un _ _ v => v.Full
  | .unNone _ => False
/-- All of them. -/
def Val.FullAll : List Val → Prop
  | [] => True
  | v :: vs => v.Full ∧ Val.FullAll vs
end

/-- A node as the visitor sees it has this description: type, data, depth, index, member. -/
def Frame.Is (f : Frame) (deep : Nat) (i : Info) : Prop :=
  f.ty = i.ty ∧ decode f.ty ((f.cells.drop f.addr).take f.ty.memSize) = some i.val ∧ f.deep = deep ∧ f.index = i.index ∧
    f.member = i.member

/-- The same for a chain of ancestors. -/
def framesAre : List Frame → List Info → Prop
  | [], [] => True
  | f :: fs, i :: is => f.Is is.length i ∧ framesAre fs is
  | _, _ => False

/-- The same for a node. -/
def Node.Is (n : Node) (c : List Info) : Prop := framesAre (n.self :: n.up) c

/-- Call the visitor on all nodes of a list, until it throws. -/
def visitList {ν σ : Type} (visit : ν → σ → σ × Option Throw) : List ν → σ → σ × Option Throw
  | [], s => (s, none)
  | n :: ns, s =>
    match visit n s with
    | (s', none) => visitList visit ns s'
    | (s', some t) => (s', some t)

/-- What `for_each` answers: `true` if every visitor call returned, the thrown value if a visitor threw a `bool`; any
other exception goes through to the caller (`none`). -/
def Answers : Option Throw → Option Bool → Prop
  | none, r => r = some true
  | some (.bool true), r => r = some true
  | some (.bool false), r => r = some false
  | some .other, r => r = none

/-! ## Types -/

/-- What can be asked of a node of a type. -/
structure TInfo where
  ty : Ty
  index : Nat
  member : Option String

/-- Members. -/
def memberTInfos (i : Nat) : Mems → List TInfo
  | .nil => []
  | .cons x t r => ⟨t, i, some x⟩ :: memberTInfos (i + 1) r

/-- The children of a node of a type; an alias has those of the type it stands for. -/
def tkids : List TInfo → List TInfo
  | [] => []
  | i :: up =>
    match i.ty.rget with
    | .struct _ ms => memberTInfos 0 ms
    | .union _ d ms _ => memberTInfos 0 (.cons discName d ms)
    | .arr _ c _ => [⟨c, 0, none⟩]
    | .seq c _ => [⟨c, 0, none⟩]
    | .map k w _ => [⟨.pair k w, 0, none⟩]
    | .pair s t => [⟨s, 0, viaMember TInfo.member (i :: up)⟩, ⟨t, 1, viaMember TInfo.member (i :: up)⟩]
    | _ => []

/-- As for data. -/
def tframesAre : List TFrame → List TInfo → Prop
  | [], [] => True
  | f :: fs, i :: is => (f.ty = i.ty ∧ f.deep = is.length ∧ f.index = i.index ∧ f.member = i.member) ∧ tframesAre fs is
  | _, _ => False

/-- As for data. -/
def TNode.Is (n : TNode) (c : List TInfo) : Prop := tframesAre (n.self :: n.up) c

end Verif.Inst
