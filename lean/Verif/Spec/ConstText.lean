import Verif.Spec.ExprText
import Verif.Spec.IdlDoc
import Verif.Props.Expr
/-!
# What declarations of constants with expressions mean
-/

namespace Verif.Idl
open Syn Gen Expr
open Ops (Num represents)

/-- A name, used at the top level, stands for this number: it is a constant with this type and value. -/
def IsConstant (root : Mod Item) (x : String) (v : Num) : Prop := Constant root [] x.toList (.const v.k (represents v.k v.v))

/-- A name, used at the top level, stands for no constant. -/
def Missing (root : Mod Item) (x : String) : Prop := ∃ r, Lookup root [] x.toList r ∧ r ≠ .ub ∧ fetch root .const r = none

/-- The module with a constant more. -/
def declared (root : Mod Item) (n : String) (v : Num) : Mod Item := enter [] (.const n (.const v.k (represents v.k v.v))) root

/-- The module has no constant of this name itself. -/
def Unused (root : Mod Item) (n : String) : Prop := omGet (root.content.get .const) n.toList = none

/-- The declarations, one after the other, lead from one module to another: each expression has, in the arithmetic of the
declared type and with the constants declared before, the value of the standard reading, and each constant is new. -/
inductive Yields : Mod Item → List Line → Mod Item → Prop
  | nil (root) : Yields root [] root
  | cons {root root' env d s v r} : Unused root d.name → (∀ x, .name x ∈ d.tokens → IsConstant root x (env x)) →
      Derives 0 s d.tokens → Fine d.kind s → Val d.kind env s v →
      Yields (declared root d.name ⟨d.kind, v⟩) r root' → Yields root (d :: r) root'

/-- What the declarations lead to with the values the parser computes (`constant`), step by step: a name that is no constant
stands for the Boolean `false`; a second constant of the same name is ignored; at a value that is refused or undefined the
rest of the text has no effect. -/
inductive Computes : Mod Item → List Line → Out → Prop
  | nil (root) : Computes root [] (root, none)
  | new {root env d v r o} : (∀ x, .name x ∈ d.tokens → IsConstant root x (env x) ∨ Missing root x ∧ env x = ⟨.bool, 0#8⟩) →
      Expr.constant d.kind env d.tokens = some (.ok v) → Unused root d.name → Computes (declared root d.name v) r o → Computes root (d :: r) o
  | again {root env d v r o} : (∀ x, .name x ∈ d.tokens → IsConstant root x (env x) ∨ Missing root x ∧ env x = ⟨.bool, 0#8⟩) →
      Expr.constant d.kind env d.tokens = some (.ok v) → ¬ Unused root d.name → Computes root r o → Computes root (d :: r) o
  | refused {root env d r} : (∀ x, .name x ∈ d.tokens → IsConstant root x (env x) ∨ Missing root x ∧ env x = ⟨.bool, 0#8⟩) →
      Expr.constant d.kind env d.tokens = some .refused → Computes root (d :: r) (root, some .refused)
  | undefined {root env d r} : (∀ x, .name x ∈ d.tokens → IsConstant root x (env x) ∨ Missing root x ∧ env x = ⟨.bool, 0#8⟩) →
      Expr.constant d.kind env d.tokens = some .undefined → Computes root (d :: r) (root, some .ub)

end Verif.Idl
