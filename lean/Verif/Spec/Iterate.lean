import Verif.Spec.WalkWrite
import Verif.Spec.Api
import Verif.Model.Iterate
/-!
# What a loop that writes should do

On values: round number `i` gives the body the part number `i` of the value *as it is then*, replaces it by what the body makes of
it, and then does to the whole what the body does to the whole. The number of rounds is the number of parts at the beginning.
-/

namespace Verif.Inst

/-- A body in terms of values. -/
structure VBody (σ : Type) where
  elem : Option String → Ty → Val → σ → List (List Step × RefOp) × σ
  rest : Val → σ → List (List Step × RefOp) × σ × Option Throw

/-- What the body of a loop over a `T` does depends on the memory it is shown only as far as it is the value there. -/
def Body.Follows {σ : Type} (b : Body σ) (vb : VBody σ) (T : Ty) : Prop :=
  (∀ n t cs v s, decode t cs = some v → b.elem n t cs s = vb.elem n t v s) ∧
  ∀ cs v s, decode T cs = some v → b.rest cs s = vb.rest v s

/-- The name, if there is one, and the type of the part number `i` of a collection or a structure. -/
def partTy : Ty → Nat → Option (Option String × Ty)
  | .struct _ ms, i => (ms.toList[i]?).map fun m => (some m.1, m.2.rget)
  | T, _ => (elemTy T).map fun c => (none, c.rget)

/-- The operations of the body can be done (see `RefOp.Ok`) at the parts of the type and at the whole. -/
def VBody.Able {σ : Type} (vb : VBody σ) (T : Ty) : Prop :=
  (∀ i n t, partTy T i = some (n, t) → ∀ v s, ∀ x ∈ (vb.elem n t v s).1, ∀ u, typeAt x.1 t = some u → x.2.Ok u) ∧
  ∀ v s, ∀ x ∈ (vb.rest v s).1, ∀ u, typeAt x.1 T = some u → x.2.Ok u

/-- The value with its part number `i` replaced; the parts are `elems`. -/
def setElem : Ty → Val → Nat → Val → Val
  | .str _ _, .str us, i, .bytes bs => .str (us.set i (leNat bs))
  | _, .list vs, i, w => .list (vs.set i w)
  | _, .coll vs, i, w => .coll (vs.set i w)
  | _, v, _, _ => v

/-- A round: the value afterwards, the variables of the body, and whether it leaves the loop. Nothing is said if there is no part
number `i` (any more), or if something that the body does is refused. -/
def roundV {σ : Type} (vb : VBody σ) (T : Ty) (i : Nat) (v : Val) (s : σ) : Option (Val × σ × Option Throw) :=
  match partTy T i, (elems T v)[i]? with
  | some (n, t), some e =>
    match editAll t (vb.elem n t e s).1 e with
    | .ok e' =>
      match editAll T (vb.rest (setElem T v i e') (vb.elem n t e s).2).1 (setElem T v i e') with
      | .ok w => some (w, (vb.rest (setElem T v i e') (vb.elem n t e s).2).2)
      | _ => none
    | _ => none
  | _, _ => none

/-- `k` rounds, from number `i` on, unless the body leaves. -/
def roundsV {σ : Type} (vb : VBody σ) (T : Ty) : Nat → Nat → Val → σ → Option (Val × σ × Option Throw)
  | _, 0, v, s => some (v, s, none)
  | i, k + 1, v, s =>
    match roundV vb T i v s with
    | some (w, s', none) => roundsV vb T (i + 1) k w s'
    | some (w, s', some t) => some (w, s', some t)
    | none => none

/-- The loop. -/
def loopV {σ : Type} (vb : VBody σ) (T : Ty) (v : Val) (s : σ) : Option (Val × σ × Option Throw) :=
  roundsV vb T 0 (elems T v).length v s

/-- A function on every part. -/
def mapElems (T : Ty) (g : Val → Val) : Val → Val
  | .str us =>
    match T with
    | .str k _ => .str (us.map fun u =>
        match g (.bytes (leBytes (charOf k).size u)) with
        | .bytes bs => leNat bs
        | _ => u)
    | _ => .str us
  | .list vs => .list (vs.map g)
  | .coll vs => .coll (vs.map g)
  | v => v

/-- The body changes every part as the function says, and nothing else, and has no variables. -/
def VBody.Maps (vb : VBody Unit) (T : Ty) (g : Val → Val) (es : List Val) : Prop :=
  (∀ i n t, partTy T i = some (n, t) → ∀ e, es[i]? = some e → editAll t (vb.elem n t e ()).1 e = .ok (g e)) ∧ ∀ v s, vb.rest v s = ([], (), none)

/-- The body changes nothing, and goes on. -/
def VBody.Looks {σ : Type} (vb : VBody σ) (f : Val → σ → σ) : Prop :=
  (∀ n t v s, vb.elem n t v s = ([], f v s)) ∧ ∀ v s, vb.rest v s = ([], s, none)

end Verif.Inst
