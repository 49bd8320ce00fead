import Verif.Model.UnionText
/-!
# Labels of a discriminator
-/

namespace Verif.Text

/-- The labels a union with this discriminator can have (`get_labels`): a union keeps a label as the number that the bytes of
the discriminator make, so it is not negative unless the discriminator has 64 bits. The labels of an enumeration are the
values of its enumerators. -/
def IsLabel (disc : Ty) (v : Int) : Prop :=
  match disc.rget with
  | .prim .bool | .prim .i8 | .prim .c8 | .prim .u8 => 0 ≤ v ∧ v < 2 ^ 8
  | .prim .i16 | .prim .u16 | .prim .c16 => 0 ≤ v ∧ v < 2 ^ 16
  | .prim .i32 | .prim .u32 | .prim .wc => 0 ≤ v ∧ v < 2 ^ 32
  | .prim .i64 | .prim .u64 => -2 ^ 63 ≤ v ∧ v < 2 ^ 63
  | .enum _ _ vals => ∃ n k, (n, k) ∈ vals ∧ v = (k : Int) ∧ k < 2 ^ 32
  | _ => False

/-- A name that starts with a letter or an underscore and is not the keyword. -/
def Identifier (s : String) : Prop :=
  s ≠ "default" ∧ ∃ c r, s.toList = c :: r ∧ (c.toNat = 95 ∨ (65 ≤ c.toNat ∧ c.toNat ≤ 90) ∨ (97 ≤ c.toNat ∧ c.toNat ≤ 122))

/-- The labels that survive printing and parsing. (A label of a Boolean discriminator can be any byte.) -/
def Survives (disc : Ty) (v : Int) : Prop :=
  match disc.rget with
  | .prim .bool => v = 0 ∨ v = 1
  | .prim .i64 => 0 ≤ v
  | .prim .c16 | .prim .wc => v < 2 ^ 16 ∧ ¬ (0xD800 ≤ v ∧ v ≤ 0xDFFF)
  | .enum _ _ vals => (∃ n vs, disc = .enum n .w4 vs) ∧ (vals.map (·.1)).Nodup ∧ ∀ e ∈ vals, (e.2 : Int) = v → Identifier e.1
  | _ => True

/-- The label a union makes of a value. -/
def kept (disc : Ty) (v : Int) : Int := shrinkLabel v disc.memSize

/-- Printing the labels of a case and parsing them again gives values that a union keeps as these labels, and no default. -/
def RoundTrip (disc : Ty) (vs : List Int) : Prop :=
  ∃ ss ws, vs.mapM (fun v => labelValue v disc) = some ss ∧ parseLabels disc ss false [] = some (false, ws) ∧
    ws.map (kept disc) = vs

/-- The same for a case that may be the default case. -/
def RoundTripCase (disc : Ty) (isDefault : Bool) (vs : List Int) : Prop :=
  ∃ ss ws, caseLabels disc isDefault vs = some ss ∧ parseLabels disc ss false [] = some (isDefault, ws) ∧
    ws.map (kept disc) = vs

end Verif.Text
