import Verif.Model.Ref
/-!
# Data and programs

`DynamicData`: construction, conversion, copy, move, assignment, destruction, and programs that work with
several of them.

Simplifications: a program stops at the first refused operation (the state an exception leaves behind is not
modelled); a datum is a variable with a number, its block is `cells`; the insertion of map entries is the
subject of `Verif.Model.MapInst` and does not occur here; assignment between data of types that are different but
`EQUALS` is `outside` the model in `World.exec`, see `Data.assignOver` for it.
-/

namespace Verif.Inst

/-- `type_` (aliases resolved, DynamicData.hpp 627-651), the block `instance_` and `initialize_`. -/
structure Data where
  ty : Ty
  cells : List Cell
  init : Bool

/-- `new uint8_t[n]` followed by `memset(instance_, 0, n)`. (DynamicData.hpp 1325-1327) -/
def zeroed (n : Nat) : List Cell := List.replicate n (.raw 0)

/-- Run an initialiser on a fresh block for the type `T`.
(DynamicData.hpp 1325-1328, 1353-1359, 1366-1369, 1376-1379) -/
def newData (T : Ty) (f : Nat → Mem → M Mem) : M (Data × Nat) :=
  (f 0 ⟨zeroed T.memSize, 0⟩).map fun m => (⟨T.rget, m.cells, true⟩, m.leaked)

/-- `DynamicData(type)` (DynamicData.hpp 1323-1330). -/
def Data.create (T : Ty) : M (Data × Nat) := newData T (construct T.rget)

/-- `DynamicData(other, type)` (DynamicData.hpp 1350-1361); `S` and `src` are type and memory of `other`. -/
def Data.convert (T S : Ty) (src : List Cell) : M (Data × Nat) :=
  if compat T.rget S = Cons.none then .error .refused else newData T (copyFrom T.rget S src 0)

/-- `DynamicData(const DynamicData&)` (DynamicData.hpp 1364-1371). -/
def Data.copyOf (d : Data) : M (Data × Nat) := newData d.ty (copy d.ty d.cells 0)

/-- `DynamicData(DynamicData&&)` (DynamicData.hpp 1374-1381): the new datum, the old one, leaks. Strings and
collections are copied (see `move`), but the old datum will not be destroyed any more. -/
def Data.moveOf (d : Data) : M (Data × Data × Nat) :=
  (newData d.ty (move false d.ty d.cells 0)).map fun r => (r.1, { d with init := false }, r.2)

/-- `operator =` (DynamicData.hpp 1384-1405) of a datum of type `S` in another block. -/
def Data.assignOver (d : Data) (S : Ty) (src : List Cell) : M (Data × Nat) :=
  if compat d.ty S = Cons.equals then
    ((destroy d.ty 0 ⟨d.cells, 0⟩).bind (copy d.ty src 0 0)).map fun m => ({ d with cells := m.cells }, m.leaked)
  else .error .refused

/-- `x = x`: the source of the copy is the memory just destroyed. (DynamicData.hpp 1384-1393) -/
def Data.assignSelf (d : Data) : M (Data × Nat) :=
  if compat d.ty d.ty = Cons.equals then
    (destroy d.ty 0 ⟨d.cells, 0⟩).bind fun m =>
      (copy d.ty m.cells 0 0 m).map fun m => ({ d with cells := m.cells }, m.leaked)
  else .error .refused

/-- `~DynamicData()` (DynamicData.hpp 1590-1597): the number of objects lost with the block. -/
def Data.dispose (d : Data) : M Nat :=
  (if d.init then destroy d.ty 0 ⟨d.cells, 0⟩ else .ok ⟨d.cells, 0⟩).map fun m => m.leaked + owned m.cells

/-- Work through a reference to a part of the datum (see `withRef`). (DynamicData.hpp 884-963) -/
def Data.write (d : Data) (p : List Step) (op : RefOp) : M (Data × Nat) :=
  (withRef false p d.ty op.run 0 ⟨d.cells, 0⟩).map fun m => ({ d with cells := m.cells }, m.leaked)

/-- Read a part of the datum through readable references: its type and memory (see `locate`).
(DynamicData.hpp 156-257) -/
def Data.read (d : Data) (q : List Step) : M (Ty × List Cell) := locate q d.ty d.cells 0

/-- `operator ==` of two data (DynamicData.hpp 82-92): for arrays the names of the types are compared first. The other
datum is accessed with the type of the first one. -/
def Data.eq (d e : Data) : M Bool :=
  match d.ty with
  | .arr _ _ _ => if d.ty.name = e.ty.name then compare d.ty d.cells 0 e.cells 0 else .ok false
  | _ => compare d.ty d.cells 0 e.cells 0

/-- `operator !=` (DynamicData.hpp 95-99). -/
def Data.ne (d e : Data) : M Bool := (d.eq e).map (!·)

/-! ## Programs -/

/-- The live variables and the number of owning objects lost so far.
(the variables of a client of DynamicData.hpp 1303-1600, no code of its own) -/
structure World where
  vars : Nat → Option Data
  leaked : Nat

/-- No variable. (a client, see `World`) -/
def World.empty : World := ⟨fun _ => none, 0⟩

/-- Give the variable `x` a new state. (a client, see `World`) -/
def World.set (w : World) (x : Nat) (d : Option Data) (lk : Nat) : World :=
  ⟨fun y => if y = x then d else w.vars y, w.leaked + lk⟩

/-- The part of the variable `y` at the end of the path `q`: its type and memory.
(a client of DynamicData.hpp 156-257) -/
def World.fetch (w : World) (y : Nat) (q : List Step) : M (Ty × List Cell) :=
  match w.vars y with
  | some d => locate q d.ty d.cells 0
  | none => .error .outside

/-- What can be done through a reference; sources are parts of variables.
(the client side of DynamicData.hpp 807-1087) -/
inductive Act where
  | touch
  | value (h : Host)
  | pushHost (h : Host)
  | resize (n : Nat)
  | disc (l : Int)
  | assign (y : Nat) (q : List Step)
  | push (y : Nat) (q : List Step)
  | discRef (y : Nat) (q : List Step)

/-- Look the source up. (the client side of DynamicData.hpp 807-1087) -/
def Act.resolve (w : World) : Act → M RefOp
  | .touch => .ok .touch
  | .value h => .ok (.value h)
  | .pushHost h => .ok (.pushHost h)
  | .resize n => .ok (.resize n)
  | .disc l => .ok (.disc l)
  | .assign y q => (w.fetch y q).map fun r => .assign r.2
  | .push y q => (w.fetch y q).map fun r => .push r.2
  | .discRef y q => (w.fetch y q).map fun r => .discRef r.1 r.2

/-- One statement of a program; `x` is the variable defined or changed.
(a client of DynamicData.hpp 1323-1405, 1590-1597) -/
inductive Op where
  /-- `DynamicData x(T);` -/
  | create (x : Nat) (T : Ty)
  /-- `DynamicData x(y…, T);` -/
  | convert (x y : Nat) (q : List Step) (T : Ty)
  /-- `DynamicData x(y);` -/
  | copy (x y : Nat)
  /-- `DynamicData x(std::move(y));` -/
  | move (x y : Nat)
  /-- `x = y;` -/
  | assign (x y : Nat)
  /-- `x… = value;`, `x….push(…)`, … -/
  | write (x : Nat) (p : List Step) (a : Act)
  /-- end of the lifetime of `x` -/
  | dispose (x : Nat)

/-- Run a statement. (dispatches to DynamicData.hpp 1323-1405, 1590-1597) -/
def World.exec (w : World) : Op → M World
  | .create x T => match w.vars x with
    | none => (Data.create T).map fun r => w.set x (some r.1) r.2
    | some _ => .error .outside
  | .convert x y q T => match w.vars x with
    | none => (w.fetch y q).bind fun s => (Data.convert T s.1 s.2).map fun r => w.set x (some r.1) r.2
    | some _ => .error .outside
  | .copy x y => match w.vars x, w.vars y with
    | none, some d => (Data.copyOf d).map fun r => w.set x (some r.1) r.2
    | _, _ => .error .outside
  | .move x y => match w.vars x, w.vars y with
    | none, some d => (Data.moveOf d).map fun r => (w.set x (some r.1) r.2.2).set y (some r.2.1) 0
    | _, _ => .error .outside
  | .assign x y => match w.vars x, w.vars y with
    | some d, some e =>
      if x = y then (Data.assignSelf d).map fun r => w.set x (some r.1) r.2
      else if d.ty = e.ty then (Data.assignOver d e.ty e.cells).map fun r => w.set x (some r.1) r.2
      else .error .outside
    | _, _ => .error .outside
  | .write x p a => match w.vars x with
    | some d => (a.resolve w).bind fun op => (Data.write d p op).map fun r => w.set x (some r.1) r.2
    | none => .error .outside
  | .dispose x => match w.vars x with
    | some d => (Data.dispose d).map fun lk => w.set x none lk
    | none => .error .outside

/-- Run a program from left to right. (a client, see `World`) -/
def World.run (w : World) : List Op → M World
  | [] => .ok w
  | op :: ops => (w.exec op).bind fun w => w.run ops

end Verif.Inst
