import Verif.Model.Compat
/-! Helper lemmas about `Cons`, `rget` and `compat`. -/

namespace Verif

namespace Cons
@[simp] theorem or_none_left (a : Cons) : Cons.or none a = none :=
  BitVec.allOnes_or
@[simp] theorem or_none_right (a : Cons) : Cons.or a none = none :=
  BitVec.or_allOnes
@[simp] theorem or_equals_left (a : Cons) : Cons.or equals a = a := by
  simp [Cons.or, equals]
@[simp] theorem or_equals_right (a : Cons) : Cons.or a equals = a := by
  simp [Cons.or, equals]
theorem or_comm (a b : Cons) : Cons.or a b = Cons.or b a := BitVec.or_comm a b
theorem or_assoc (a b c : Cons) : Cons.or (Cons.or a b) c = Cons.or a (Cons.or b c) :=
  BitVec.or_assoc a b c
@[simp] theorem or_self (a : Cons) : Cons.or a a = a := BitVec.or_self
theorem or_eq_equals {a b : Cons} : Cons.or a b = equals ↔ a = equals ∧ b = equals := by
  simp [Cons.or, equals, BitVec.or_eq_zero_iff]
end Cons

theorem Ty.rget_not_alias : (t : Ty) → t.rget.isAlias = false
  | .alias _ t => by simp only [Ty.rget]; exact Ty.rget_not_alias t
  | .prim _ | .enum _ _ _ | .str _ _ | .seq _ _ | .arr _ _ _ | .map _ _ _ | .pair _ _
  | .struct _ _ | .union _ _ _ _ => by simp [Ty.rget, Ty.isAlias]

@[simp] theorem Ty.rget_rget : (t : Ty) → t.rget.rget = t.rget
  | .alias _ t => by simp only [Ty.rget]; exact Ty.rget_rget t
  | .prim _ | .enum _ _ _ | .str _ _ | .seq _ _ | .arr _ _ _ | .map _ _ _ | .pair _ _
  | .struct _ _ | .union _ _ _ _ => by simp [Ty.rget]

theorem Ty.rget_of_not_alias {t : Ty} (h : t.isAlias = false) : t.rget = t := by
  cases t <;> simp_all [Ty.rget, Ty.isAlias]

@[simp] theorem Ty.rget_memSize : (t : Ty) → t.rget.memSize = t.memSize
  | .alias _ t => by simp only [Ty.rget, Ty.memSize]; exact Ty.rget_memSize t
  | .prim _ | .enum _ _ _ | .str _ _ | .seq _ _ | .arr _ _ _ | .map _ _ _ | .pair _ _
  | .struct _ _ | .union _ _ _ _ => by simp [Ty.rget]

theorem primFlags_comm (k l : PK) : primFlags k l = primFlags l k := by
  cases k <;> cases l <;> rfl

theorem compat_alias_left (n : String) (t b : Ty) :
    compat (.alias n t) b = compat t.rget b.rget := by
  cases b <;> simp [compat, Ty.rget]

theorem compat_prim_alias (k : PK) (n : String) (u : Ty) :
    compat (.prim k) (.alias n u) = compat u.rget (.prim k) := by
  rw [compat]

/-- Right aliases are transparent except in front of a primitive. -/
theorem compat_alias_right (a : Ty) (n : String) (u : Ty) (ha : a.isPrimitive = false) :
    compat a (.alias n u) = compat a u.rget := by
  cases a <;> first
    | (simp [Ty.isPrimitive] at ha; done)
    | (rw [compat_alias_left, compat_alias_left]; simp [Ty.rget])
    | (rw [compat])

theorem compat_struct_one (n m : String) (t b : Ty) (hb : b.isAlias = false) :
    compat (.struct n (.cons m t .nil)) b = compat b t := by
  cases b <;> simp [Ty.isAlias] at hb <;> simp [compat]

theorem compat_struct_struct (n m : String) (ms os : Mems) (h : ms.length ≠ 1) :
    compat (.struct n ms) (.struct m os) = compatMems Cons.equals ms os := by
  match ms, h with
  | .nil, _ => rw [compat]; simp
  | .cons _ _ (.cons _ _ _), _ => rw [compat]; simp
  | .cons _ _ .nil, h => simp [Mems.length] at h

theorem compat_struct_other (n : String) (ms : Mems) (b : Ty) (h : ms.length ≠ 1)
    (hb : b.isAlias = false) (hs : b.isStruct = false) : compat (.struct n ms) b = Cons.none := by
  match ms, h with
  | .nil, _ => cases b <;> simp [Ty.isAlias, Ty.isStruct] at hb hs <;> simp [compat]
  | .cons _ _ (.cons _ _ _), _ =>
    cases b <;> simp [Ty.isAlias, Ty.isStruct] at hb hs <;> simp [compat]
  | .cons _ _ .nil, h => simp [Mems.length] at h

/-- A non-structure, non-pair, non-alias type facing a structure swaps the arguments. -/
theorem compat_swap (a : Ty) (n : String) (ms : Mems) (hs : a.isStruct = false)
    (ha : a.isAlias = false) (hp : ∀ x y, a ≠ .pair x y) :
    compat a (.struct n ms) = compat (.struct n ms) a := by
  cases a <;> simp [Ty.isAlias, Ty.isStruct] at hs ha hp <;> (conv => lhs; rw [compat])

theorem compat_pair_struct (x y : Ty) (n : String) (ms : Mems) :
    compat (.pair x y) (.struct n ms) = Cons.none := by simp [compat]

theorem compatMems_cons (acc : Cons) (n m : String) (t u : Ty) (r s : Mems) :
    compatMems acc (.cons n t r) (.cons m u s) =
      if compat t u = Cons.none then Cons.none
      else compatMems (Cons.or (if n ≠ m then Cons.or acc Cons.memberNames else acc) (compat t u))
        r s := by
  rw [compatMems]

end Verif
