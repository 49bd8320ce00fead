import Verif.Model.WalkWrite
import Verif.Model.Api
/-!
# Loops that write

`for (auto e : d) …` over a collection and `for (auto m : d.items()) …` over an aggregation, with a body that writes through the
references it is given and through `d` itself.

Simplifications: in one round the body first does what it does through the reference of that round, and then what it does through
`d`; references of earlier rounds are not used again (they may dangle after a `push`). `d` is a reference to what it refers to, not
an alias of it (`d.ty.rget = d.ty`, as for every reference).
-/

namespace Verif.Inst

/-- The body of a loop. It is shown the name of the member, if there is one, and the type and the memory of what it is given, and its
own variables; it answers with what it does there and with its variables. Then it is shown the memory of `d`, and answers with what
it does to `d`; and it may leave the loop. (a client of DynamicData.hpp 1138-1203) -/
structure Body (σ : Type) where
  elem : Option String → Ty → List Cell → σ → List (List Step × RefOp) × σ
  rest : List Cell → σ → List (List Step × RefOp) × σ × Option Throw

/-- Do what is answered, at the address `a`. (a client of DynamicData.hpp 819-1087) -/
def reply {σ : Type} (T : Ty) (f : List Cell → σ → List (List Step × RefOp) × σ × Option Throw) (a : Nat) : WWalk σ := fun m s =>
  let r := f ((m.cells.drop a).take T.memSize) s
  (writes T a r.1 m).map fun m => (m, r.2)

/-- Work on the character `&(*str)[i]` (StringType.hpp 166-172), without a check. Simplification: the character is taken out of the
string and put back afterwards. -/
def inStrW {σ : Type} (k : SK) (i : Nat) (g : Nat → WWalk σ) (a : Nat) : WWalk σ := fun m s =>
  (peekStr k m.cells a).bind fun us =>
    match us[i]? with
    | some u =>
      (g 0 ⟨rawCells (leBytes (SK.char k).size u), 0⟩ s).bind fun r =>
        (peekRaw r.1.cells 0 (SK.char k).size).map fun bs =>
          (⟨m.cells.modify a (Cell.setChar i (leNat bs)), m.leaked + r.1.leaked⟩, r.2)
    | none => .error .ub

/-- `*it` of an iterator (DynamicData.hpp 459-463, 1148-1151) with `get_instance_at`: of an array (ArrayType.hpp 284-289) and a map
(MapInstance.hpp 169-173; beyond its size, undefined behaviour) without a check, of a sequence with one (SequenceInstance.hpp
192-198); `*it` of a member iterator (DynamicData.hpp 1216-1222, 1193-1196) with the offset of the member, where those of a union, but
its discriminator, share one (StructType.hpp 59, UnionType.hpp 114, 479). -/
def atPart {σ : Type} (T : Ty) (i : Nat) (f : Option String → Ty → Nat → WWalk σ) (a : Nat) : WWalk σ :=
  match T with
  | .arr _ c _ => f none c.rget (a + i * c.memSize)
  | .seq c _ => inBlockW false c (elemW (f none c.rget) c.memSize i) a
  | .map k v _ => inBlockW true (.pair k v) (fun o =>
      if i < o.size then f none (.pair k v) (i * (k.memSize + v.memSize)) else fun _ _ => .error .ub) a
  | .str k _ => inStrW k i (f none (.prim (SK.char k))) a
  | .struct _ ms =>
    match ms.get? i, Mems.locateAt ms i with
    | some (n, _), some (off, t) => f (some n) t.rget (a + off)
    | _, _ => fun _ _ => .error .ub
  | .union _ d ms _ =>
    match i with
    | 0 => f (some discName) d.rget a
    | j + 1 =>
      match ms.get? j with
      | some (n, t) => f (some n) t.rget (a + d.memSize)
      | none => fun _ _ => .error .ub
  | _ => fun _ _ => .error .refused

/-- A round of the loop. (a client of DynamicData.hpp 1138-1203) -/
def round {σ : Type} (b : Body σ) (T : Ty) (a i : Nat) : WWalk σ :=
  (atPart T i (fun n t => reply t fun cs s => let r := b.elem n t cs s; (r.1, r.2, none)) a).andThen (reply T b.rest a)

/-- The loop from `begin()` to `end()`, which is asked for once; iterators are equal if their index and their instance are, and the
instance stays. (DynamicData.hpp 447-477, 483-490, 1169-1180; 1224-1246 for members) -/
def loopParts {σ : Type} (b : Body σ) (T : Ty) (a : Nat) : WWalk σ := fun m s =>
  (RRef.size ⟨T, m.cells, a⟩).bind fun n => WWalk.times (round b T a) 0 n m s

/-- `for (auto e : d) …` (DynamicData.hpp 500-515, 1169-1180) -/
def forIt {σ : Type} (b : Body σ) (T : Ty) (a : Nat) : WWalk σ :=
  if isColl T then loopParts b T a else fun _ _ => .error .refused

/-- `for (auto m : d.items()) …` (DynamicData.hpp 1238-1279) -/
def forItems {σ : Type} (b : Body σ) (T : Ty) (a : Nat) : WWalk σ :=
  if isAggr T then loopParts b T a else fun _ _ => .error .refused

end Verif.Inst
