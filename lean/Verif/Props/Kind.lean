import Verif.Model.Kind
import Verif.Spec.Kind
/-!
# C73: what a type says it is
-/

namespace Verif

local macro "kinds" : tactic => `(tactic| simp [Ty.saysPrimitive, Ty.saysEnumerated, Ty.saysCollection, Ty.saysAggregation, Ty.saysConstructed, kindHas, Ty.kind, SK.kind, PK.kind, kindPrimitive, kindConstructed, kindCollection, kindAggregation, kindEnumerated, kindUnsigned, kindNo])

/-- C73: `is_primitive_type()` -/
theorem C73_primitive (T : Ty) : T.saysPrimitive = true ↔ ∃ k, T = .prim k := by
  cases T with
  | prim k => cases k <;> kinds
  | str k b => cases k <;> kinds
  | _ => kinds

/-- C73: `is_enumerated_type()` -/
theorem C73_enumerated (T : Ty) : T.saysEnumerated = true ↔ ∃ n w vs, T = .enum n w vs := by
  cases T with
  | prim k => cases k <;> kinds
  | str k b => cases k <;> kinds
  | _ => kinds

/-- C73: `is_collection_type()`: arrays, sequences, strings and maps. -/
theorem C73_collection (T : Ty) : T.saysCollection = true ↔
    (∃ n c d, T = .arr n c d) ∨ (∃ c b, T = .seq c b) ∨ (∃ k b, T = .str k b) ∨ ∃ k v b, T = .map k v b := by
  cases T with
  | prim k => cases k <;> kinds
  | str k b => cases k <;> kinds
  | _ => kinds

/-- C73: `is_aggregation_type()`: structures and unions. -/
theorem C73_aggregation (T : Ty) : T.saysAggregation = true ↔ (∃ n ms, T = .struct n ms) ∨ ∃ n d ms i, T = .union n d ms i := by
  cases T with
  | prim k => cases k <;> kinds
  | str k b => cases k <;> kinds
  | _ => kinds

/-- C73: a type is primitive or constructed, and never both. -/
theorem C73_constructed (T : Ty) : T.saysConstructed = !T.saysPrimitive := by
  cases T with
  | prim k => cases k <;> kinds
  | str k b => cases k <;> kinds
  | _ => kinds

/-- C73: no type is two of primitive, enumerated, a collection and an aggregation. -/
theorem C73_disjoint (T : Ty) :
    ([T.saysPrimitive, T.saysEnumerated, T.saysCollection, T.saysAggregation].filter id).length ≤ 1 := by
  cases T with
  | prim k => cases k <;> kinds
  | str k b => cases k <;> kinds
  | _ => kinds

/-- C73: two types have the same kind exactly if they are of the same sort: no two kinds are the same number. -/
theorem C73_kinds (T U : Ty) : T.kind = U.kind ↔ SameSort T U := by
  constructor
  · intro h
    cases T with
    | prim k => cases U with
      | prim k' => cases k <;> cases k' <;> first | constructor | (revert h; kinds)
      | str k' _ => cases k <;> cases k' <;> (revert h; kinds)
      | _ => cases k <;> (revert h; kinds)
    | str k _ => cases U with
      | prim k' => cases k <;> cases k' <;> (revert h; kinds)
      | str k' _ => cases k <;> cases k' <;> first | constructor | (revert h; kinds)
      | _ => cases k <;> (revert h; kinds)
    | _ => cases U with
      | prim k' => cases k' <;> (revert h; kinds)
      | str k' _ => cases k' <;> (revert h; kinds)
      | _ => first | constructor | (revert h; kinds)
  · intro h
    cases h <;> rfl

/-- C73: the `UNSIGNED_TYPE` bits of two types differ exactly if one of them is an unsigned number and the other is not: `bool`,
characters, enumerations and everything else count as signed. -/
theorem C73_signs (T U : Ty) : sameSign T U = true ↔ (Unsigned T ↔ Unsigned U) := by
  have key : ∀ T : Ty, (Unsigned T ∧ T.kind &&& kindUnsigned = 0x80) ∨ (¬ Unsigned T ∧ T.kind &&& kindUnsigned = 0) := by
    intro T
    unfold Unsigned
    cases T with
    | prim k => cases k <;> kinds
    | str k b => cases k <;> kinds
    | _ => kinds
  unfold sameSign
  rcases key T with ⟨h1, h2⟩ | ⟨h1, h2⟩ <;> rcases key U with ⟨h3, h4⟩ | ⟨h3, h4⟩ <;> simp [h1, h2, h3, h4]

/-- C73: what the rest of the model asks types for is what the bits say. -/
theorem C73_model (T : Ty) : T.isPrimitive = T.saysPrimitive ∧ T.isEnumerated = T.saysEnumerated ∧ T.isConstructed = T.saysConstructed ∧
    Inst.isColl T = T.saysCollection ∧ Inst.isAggr T = T.saysAggregation ∧
    (∀ k k', k.unsignedBit = k'.unsignedBit ↔ sameSign (.prim k) (.prim k') = true) := by
  have hk : ∀ k k', k.unsignedBit = k'.unsignedBit ↔ sameSign (.prim k) (.prim k') = true := by
    intro k k'
    cases k <;> cases k' <;> decide
  cases T with
  | prim k => cases k <;> exact ⟨rfl, rfl, rfl, rfl, rfl, hk⟩
  | str k b => cases k <;> refine ⟨?_, ?_, ?_, ?_, ?_, hk⟩ <;> kinds <;> rfl
  | _ => refine ⟨?_, ?_, ?_, ?_, ?_, hk⟩ <;> kinds <;> rfl

/-- C73: some kinds. -/
example : (Ty.prim .u16).kind = 0x4085 ∧ (Ty.str .s16 3).kind = 0x8209 ∧ (Ty.union "U" (.prim .u8) .nil ⟨[], 0, 0, 0⟩).kind = 0x8109 := by
  decide

end Verif
