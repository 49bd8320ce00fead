import Verif.Model.Ref
import Verif.Spec.Conv
/-!
# What accesses should do

On values: `valAt T p v` is the value at the end of the path `p` in a datum of type `T` with value `v`, and
`editAt T p g v` the value of the whole after the part at `p` was changed by `g`.
-/

namespace Verif.Inst

/-- Position and type of a member by name. -/
def Mems.posOf : Mems → String → Option (Nat × Ty)
  | .nil, _ => none
  | .cons x t r, n => if x = n then some (0, t) else (posOf r n).map fun p => (p.1 + 1, p.2)

/-- Type of a member by position. -/
def Mems.tyAt : Mems → Nat → Option Ty
  | .nil, _ => none
  | .cons _ t _, 0 => some t
  | .cons _ _ r, i + 1 => tyAt r i

/-- The characters of the three sorts of strings: `char`, `wchar_t`, `char16_t`. -/
def charOf : SK → PK
  | .s8 => .c8 | .ws => .wc | .s16 => .c16

/-- The child of a structure, array, pair, sequence, string or map a step leads to: its position and type. -/
def child : Ty → Step → Option (Nat × Ty)
  | .struct _ ms, .member n => Mems.posOf ms n
  | .struct _ ms, .index i => (Mems.tyAt ms i).map fun t => (i, t)
  | .arr _ c d, .index i => if i < d then some (i, c) else none
  | .pair x _, .index 0 => some (0, x)
  | .pair _ y, .index 1 => some (1, y)
  | .seq c _, .index i => some (i, c)
  | .str k _, .index i => some (i, .prim (charOf k))
  | .map _ v _, .key i => some (i, v)
  | _, _ => none

/-- What the member `n` of a union holds when it gets selected: its content if it was selected already, else the
default value. -/
def caseVal (t : Ty) (n : String) : Val → Val
  | .un _ x w => if x = n then w else defVal t
  | _ => defVal t

/-- The part of a value at a position; of a map entry, the value. -/
def elem : Ty → Val → Nat → Option Val
  | .map _ _ _, .coll vs, i => match vs[i]? with
    | some (.list [_, w]) => some w
    | _ => none
  | .str k _, .str us, i => (us[i]?).map fun u => .bytes (leBytes (charOf k).size u)
  | .str _ _, _, _ => none
  | _, .list vs, i => vs[i]?
  | _, .coll vs, i => vs[i]?
  | _, _, _ => none

/-- The value with that part replaced. -/
def putElem : Ty → Val → Nat → Val → Val
  | .map _ _ _, .coll vs, i, w => match vs[i]? with
    | some (.list [u, _]) => .coll (vs.set i (.list [u, w]))
    | _ => .coll vs
  | .str _ _, .str us, i, .bytes bs => .str (us.set i (leNat bs))
  | .str _ _, v, _, _ => v
  | _, .list vs, i, w => .list (vs.set i w)
  | _, .coll vs, i, w => .coll (vs.set i w)
  | _, v, _, _ => v

/-- The value at the end of a path, if the path leads anywhere. -/
def valAt : List Step → Ty → Val → Option Val
  | [], _, v => some v
  | s :: p, T, v =>
    match T.rget, s with
    | .union _ _ ms _, .member n =>
      match v with
      | .un _ x w => if x = n then (ms.find? n).bind fun t => valAt p t w else none
      | _ => none
    | S, s => (child S s).bind fun (i, t) => (elem S v i).bind (valAt p t)

/-- What an operation should do: leave a new value, be refused, or nothing is said about it. -/
inductive Out where
  | undef
  | refused
  | ok (v : Val)

/-- Apply a function to the new value. -/
def Out.map (f : Val → Val) : Out → Out
  | .undef => .undef
  | .refused => .refused
  | .ok v => .ok (f v)

/-- Is the member `n` of the union selected? -/
def Val.isCase (n : String) : Val → Bool
  | .un _ x _ => decide (x = n)
  | _ => false

/-- Change the part at the end of a path. Union members on the way get selected, with their first label; with a
read-only access (`ro`) they must have been selected before. -/
def editAt (ro : Bool) (g : Ty → Val → Out) : List Step → Ty → Val → Out
  | [], T, v => g T.rget v
  | s :: p, T, v =>
    match T.rget, s with
    | .union _ d ms i, .member n =>
      match ms.find? n with
      | none => .refused
      | some t =>
        match firstLabel i n with
        | none => .undef
        | some l =>
          if ro && !v.isCase n then .refused
          else (editAt ro g p t (caseVal t n v)).map fun w => .un (discBytes d.memSize l) n w
    | S, s =>
      match child S s with
      | none => .refused
      | some (i, t) =>
        match elem S v i with
        | none => .refused
        | some u => (editAt ro g p t u).map (putElem S v i)

/-- The type at the end of a path. -/
def typeAt : List Step → Ty → Option Ty
  | [], T => some T.rget
  | s :: p, T =>
    match T.rget, s with
    | .union _ _ ms _, .member n => (ms.find? n).bind (typeAt p)
    | S, s => (child S s).bind fun x => typeAt p x.2

/-- Two paths that lead to different parts of a datum: somewhere they take children at different positions. -/
def Apart : List Step → List Step → Ty → Prop
  | s :: p, r :: q, T =>
    match T.rget with
    | .union _ _ ms _ => ∃ n t, s = .member n ∧ r = .member n ∧ ms.find? n = some t ∧ Apart p q t
    | S => ∃ i t j u, child S s = some (i, t) ∧ child S r = some (j, u) ∧ (i ≠ j ∨ Apart p q t)
  | _, _, _ => False

/-- Writing the discriminator of a union: a label of the selected member is stored; a value that is no label is
ignored when there is no default; anything else is refused. Nothing is said about a union without selected
member. -/
def discSpec (d : Ty) (i : UInfo) (l : Int) : Val → Out
  | .un db x w =>
    if UInfo.case i l = some x then .ok (.un (discBytes d.memSize l) x w)
    else if UInfo.case i l = none ∧ i.default = i.invalidValue then .ok (.un db x w)
    else .refused
  | v => if UInfo.case i l = none ∧ i.default = i.invalidValue then .ok v else .undef

/-- A number occupies as many bytes as its type has. -/
def Host.WF : Host → Prop
  | .num k bs => bs.length = k.size
  | .str _ _ => True

/-- What the operations at the end of a path should do. `assign` and `push` take the memory of a datum of the right
type. -/
def RefOp.spec : RefOp → Ty → Val → Out
  | .touch, _, v => .ok v
  | .value h, T, v =>
    if h.fits T then match h, T, v with
      | .num _ bs, _, _ => .ok (.bytes bs)
      | .str _ us, .str _ b, _ => .ok (.str (clip b us))
      | _, _, _ => .undef
    else .refused
  | .assign src, T, _ => match decode T src with
    | some w => .ok w
    | none => .undef
  | .push src, .seq c b, .coll vs => if b = 0 ∨ vs.length < b then match decode c src with
      | some w => .ok (.coll (vs ++ [w]))
      | none => .undef
    else .refused
  | .push _, .seq _ _, _ => .undef
  | .push _, _, _ => .refused
  | .pushHost h, .seq c b, .coll vs =>
    if h.fits c ∧ c.isEnumerated = false then
      if b = 0 ∨ vs.length < b then match h, c with
        | .num _ bs, _ => .ok (.coll (vs ++ [.bytes bs]))
        | .str _ us, .str _ b' => .ok (.coll (vs ++ [.str (clip b' us)]))
        | _, _ => .undef
      else .refused
    else .refused
  | .pushHost _, .seq _ _, _ => .undef
  | .pushHost _, _, _ => .refused
  | .resize n, .seq c b, .coll vs =>
    if b = 0 ∨ n ≤ b then .ok (.coll (vs ++ List.replicate (n - vs.length) (defVal c))) else .refused
  | .resize _, .seq _ _, _ => .undef
  | .resize _, _, _ => .refused
  | .disc l, .union _ d _ i, v => discSpec d i l v
  | .disc _, _, _ => .refused
  | .discRef S src, .union _ d _ i, v => match decode S src with
    | some (.bytes bs) => discSpec d i (labelOf S.memSize bs) v
    | _ => .undef
  | .discRef _ _, _, _ => .refused

/-- What an operation needs: the values of host variables have the width of their type, contents can be moved and
copied, sources have no unselected union. -/
def RefOp.Ok : RefOp → Ty → Prop
  | .touch, _ => True
  | .value h, _ => h.WF
  | .assign src, T => T.Copyable ∧ ∀ w, decode T src = some w → w.Selected
  | .push src, .seq c _ => c.Copyable ∧ c.Movable ∧ ∀ w, decode c src = some w → w.Selected
  | .pushHost h, _ => h.WF
  | .resize _, .seq c _ => c.Copyable ∧ c.Movable
  | .discRef S _, _ => discOk S
  | _, _ => True

end Verif.Inst
