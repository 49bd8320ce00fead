import Verif.Model.Data
import Verif.Spec.Ref
/-!
# Well-behaved data and programs
-/

namespace Verif.Inst

/-- The block of the datum holds a live instance of its type, with this value. -/
def Data.Holds (d : Data) (v : Val) : Prop := d.init = true ∧ decode d.ty d.cells = some v

/-- No owning object in the block besides those of the instance. -/
def Data.Tidy (d : Data) : Prop := tidy d.ty d.cells

/-- Reading the part at the end of the path `q` succeeds and gives the value `u`. -/
def Data.Reads (d : Data) (q : List Step) (u : Val) : Prop :=
  ∃ t cs, d.read q = .ok (t, cs) ∧ decode t cs = some u

/-- What a statement of a program needs, see the fields; it may still be refused.

The library does more than this asks for; the negative theorems of `Verif.Props.Data` show what goes wrong
without each of the conditions. -/
def Allowed (w : World) : Op → Prop
  /- a new variable of a well-formed type, collection contents owning nothing when default-constructed -/
  | .create x T => w.vars x = none ∧ T.WF ∧ T.Tight
  /- a conversion that is covered (see `Convertible`) -/
  | .convert x y q T => w.vars x = none ∧ T.WF ∧ T.Tight ∧ ∃ e, w.vars y = some e ∧ e.init = true ∧
      ∀ S, typeAt q e.ty = some S → Convertible T S
  /- a copy of a type that can be copied -/
  | .copy x y => w.vars x = none ∧ ∃ e, w.vars y = some e ∧ e.init = true ∧ e.ty.Copyable
  /- a move out of a datum that owns no heap memory -/
  | .move x y => w.vars x = none ∧ ∃ e, w.vars y = some e ∧ e.init = true ∧ e.ty.Copyable ∧ owned e.cells = 0
  /- assignment between two variables of the same type -/
  | .assign x y => x ≠ y ∧ ∃ d e, w.vars x = some d ∧ w.vars y = some e ∧ d.init = true ∧ e.init = true ∧ d.ty = e.ty ∧
      d.ty.Copyable
  /- work through references: sources have the right type and are not part of what is changed -/
  | .write x p a => ∃ d, w.vars x = some d ∧ d.init = true ∧
      (match a with
        | .assign y q => ∃ e, w.vars y = some e ∧ e.init = true ∧ (x ≠ y ∨ Apart p q d.ty) ∧
            ∃ t, typeAt q e.ty = some t ∧ typeAt p d.ty = some t
        | .push y q => ∃ e, w.vars y = some e ∧ e.init = true ∧ (x ≠ y ∨ Apart p q d.ty) ∧
            ∃ c b, typeAt q e.ty = some c.rget ∧ typeAt p d.ty = some (.seq c b)
        | .discRef y _ => ∃ e, w.vars y = some e ∧ e.init = true
        | _ => True) ∧
      ∀ op, a.resolve w = .ok op →
        (∀ t, typeAt p d.ty = some t → op.Ok t) ∧
        ∀ v, decode d.ty d.cells = some v → editAt false op.spec p d.ty v ≠ .undef
  /- the end of a variable -/
  | .dispose x => ∃ d, w.vars x = some d

/-- The states a program of allowed statements can reach. -/
inductive Reach : World → Prop where
  | empty : Reach World.empty
  | step {w w' : World} (op : Op) : Reach w → Allowed w op → w.exec op = .ok w' → Reach w'

end Verif.Inst
