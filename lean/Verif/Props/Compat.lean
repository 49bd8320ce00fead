import Verif.Lemmas.Compat
/-!
# Properties of `is_compatible` (C20 – C25)

`compat a b` is the model of `a.is_compatible(b)`, `Cons.equals`/`Cons.none` are
`TypeConsistency::EQUALS`/`NONE`.
-/

namespace Verif

/-! ## C24 Consistency algebra -/

/-- C24: `|` on consistencies is associative, commutative and idempotent, `EQUALS` is neutral and
`NONE` absorbing. -/
theorem C24_consistency_algebra (a b c : Cons) :
    Cons.or (Cons.or a b) c = Cons.or a (Cons.or b c) ∧ Cons.or a b = Cons.or b a ∧
    Cons.or a a = a ∧ Cons.or a Cons.equals = a ∧ Cons.or a Cons.none = Cons.none ∧
    (Cons.or a b = Cons.equals ↔ a = Cons.equals ∧ b = Cons.equals) :=
  ⟨Cons.or_assoc a b c, Cons.or_comm a b, Cons.or_self a, Cons.or_equals_right a,
    Cons.or_none_right a, Cons.or_eq_equals⟩

/-- C24: combining any list of results gives `NONE` as soon as one of them is `NONE`, and is
insensitive to the order of the list. -/
theorem C24_combination_order (l : List Cons) (acc : Cons) :
    (Cons.none ∈ l → l.foldl Cons.or acc = Cons.none) ∧
    (∀ l', l.Perm l' → l'.foldl Cons.or acc = l.foldl Cons.or acc) := by
  have hnone : ∀ l : List Cons, l.foldl Cons.or Cons.none = Cons.none := by
    intro l; induction l with
    | nil => rfl
    | cons x xs ih => simpa using ih
  constructor
  · intro h
    induction l generalizing acc with
    | nil => cases h
    | cons x xs ih =>
      rcases List.mem_cons.mp h with rfl | h
      · simpa using hnone xs
      · exact ih _ h
  · intro l' h
    induction h generalizing acc with
    | nil => rfl
    | cons x _ ih => exact ih _
    | swap x y l => simp only [List.foldl_cons]; rw [Cons.or_assoc, Cons.or_comm x y, ← Cons.or_assoc]
    | trans _ _ ih1 ih2 => rw [ih2, ih1]

/-! ## C23 Aliases are transparent (to compatibility) -/

/-- C23, negation: aliases are *not* transparent. `uint32.is_compatible(E)` is `NONE` for an
enumeration `E`, but `uint32.is_compatible(alias of E)` is `EQUALS`, because the primitive swaps the
arguments only in front of an alias (PrimitiveType.hpp 230-233). -/
theorem C23_alias_transparent_fails :
    ∃ (a t : Ty), compat a (.alias "Al" t) ≠ compat a t := by
  refine ⟨.prim .u32, .enum "E" .w4 [("A", 0)], ?_⟩
  simp [compat, Ty.rget, enumPrimFlags, EW.size, PK.size, PK.unsignedBit, Cons.or, Cons.equals,
    Cons.none]

/-- C23, partial: compatibility sees through aliases of any depth on either side, except for the
case of the negation above (a primitive in front of an alias of an enumeration).
Missing: exactly that case. -/
theorem C23_compat_alias_partial (a b : Ty)
    (h : a.rget.isPrimitive = false ∨ b.rget.isEnumerated = false) :
    compat a b = compat a.rget b.rget := by
  by_cases haa : a.isAlias
  · cases a <;> simp [Ty.isAlias] at haa
    rw [compat_alias_left]; rfl
  · have ha : a.rget = a := Ty.rget_of_not_alias (by simpa using haa)
    rw [ha] at h ⊢
    by_cases hb : b.isAlias
    · cases b <;> simp [Ty.isAlias] at hb
      rename_i n u
      by_cases hp : a.isPrimitive
      · cases a <;> simp [Ty.isPrimitive] at hp
        rename_i k
        rw [compat_prim_alias]
        simp only [Ty.rget]
        have hna := Ty.rget_not_alias u
        have he : u.rget.isEnumerated = false := by simpa [Ty.isPrimitive, Ty.rget] using h
        generalize u.rget = v at *
        cases v <;> simp [Ty.isAlias, Ty.isEnumerated] at hna he
        case prim l =>
          simp only [compat]
          by_cases hk : k = l
          · simp [hk]
          · simp [hk, Ne.symm hk, primFlags_comm l k, eq_comm]
        case struct m os => rw [compat_swap] <;> simp [Ty.isStruct, Ty.isAlias]
        all_goals simp [compat]
      · rw [compat_alias_right a n u (by simpa using hp)]; rfl
    · rw [Ty.rget_of_not_alias (t := b) (by simpa using hb)]

/-- The hypothesis of `C23_compat_alias_partial` holds e.g. for a sequence of aliased strings
against an alias of alias of a sequence. -/
example : let a := Ty.seq (.alias "S" (.str .s8 0)) 4
    let b := Ty.alias "X" (.alias "Y" (.seq (.str .s8 0) 4))
    (a.rget.isPrimitive = false ∨ b.rget.isEnumerated = false) ∧ compat a b = Cons.equals := by
  simp [Ty.rget, Ty.isPrimitive, compat, Cons.or, Cons.equals]

/-! ## C20 Reflexivity -/

mutual
/-- C20: every type is compatible with itself, with result `EQUALS`. -/
theorem C20_compat_refl (t : Ty) : compat t t = Cons.equals := by
  match t with
  | .prim k => simp [compat]
  | .enum n w vs => simp [compat]
  | .str k b => simp [compat]
  | .seq c b => simp only [compat, if_true]; rw [C20_compat_refl c]; simp
  | .arr n c d => simp only [compat, if_true]; rw [C20_compat_refl c]; simp
  | .map k v b =>
    simp only [compat, if_true]; rw [C20_compat_refl k, C20_compat_refl v]; simp
  | .pair a b => simp only [compat]; rw [C20_compat_refl a, C20_compat_refl b]; simp
  | .alias n t =>
    rw [compat_alias_left]; simp only [Ty.rget, Ty.rget_rget]
    exact C20_compat_refl t.rget
  | .struct n ms =>
    match ms with
    | .cons m t .nil =>
      rw [compat_struct_one _ _ _ _ (by simp [Ty.isAlias])]
      have key : ∀ u : Ty, u.isAlias = false → u = t.rget →
          compat (.struct n (.cons m t .nil)) u = compat u u := by
        intro u hu hut
        rw [compat_struct_one _ _ _ _ hu]
        by_cases ht : t.isAlias
        · cases t <;> simp [Ty.isAlias] at ht
          rename_i n' t'
          by_cases hp : u.isPrimitive
          · cases u <;> simp [Ty.isPrimitive] at hp
            rw [compat_prim_alias]; rw [hut]; rfl
          · rw [compat_alias_right u n' t' (by simpa using hp)]; rw [hut]; rfl
        · rw [Ty.rget_of_not_alias (by simpa using ht)] at hut; rw [hut]
      by_cases ht : t.isAlias
      · have h1 : compat (.struct n (.cons m t .nil)) t = compat (.struct n (.cons m t .nil)) t.rget := by
          cases t <;> simp [Ty.isAlias] at ht
          rw [compat_alias_right _ _ _ (by simp [Ty.isPrimitive])]; rfl
        rw [h1, key t.rget (Ty.rget_not_alias t) rfl]
        exact C20_compat_refl t.rget
      · rw [key t (by simpa using ht) (Ty.rget_of_not_alias (by simpa using ht)).symm]
        exact C20_compat_refl t
    | .nil => simp [compat, compatMems]
    | .cons n1 t1 (.cons n2 t2 r) =>
      rw [compat_struct_struct _ _ _ _ (by simp [Mems.length])]
      exact C20_compatMems_refl _ _
  | .union n d ms i =>
    simp only [compat]; rw [compatMems_cons, C20_compat_refl d]
    simp only [ne_eq, not_true_eq_false, if_false, Cons.or_equals_right]
    rw [if_neg (by simp [Cons.equals, Cons.none])]
    exact C20_compatMems_refl _ _
termination_by t.sz
decreasing_by
  all_goals simp only [Ty.sz, Mems.sz]
  all_goals first
    | omega
    | (have := Ty.rget_sz_le t; omega)
/-- C20, member lists: comparing a list with itself adds no flag. -/
theorem C20_compatMems_refl (acc : Cons) (ms : Mems) : compatMems acc ms ms = acc := by
  match ms with
  | .nil => simp [compatMems]
  | .cons n t r =>
    rw [compatMems_cons, C20_compat_refl t]
    rw [if_neg (by simp [Cons.equals, Cons.none])]
    simp only [ne_eq, not_true_eq_false, if_false, Cons.or_equals_right]
    exact C20_compatMems_refl _ r
termination_by ms.sz
decreasing_by
  all_goals simp only [Mems.sz]
  all_goals omega
end

end Verif
