import Verif.Props.Compat
/-!
# More properties of `is_compatible` (C21, C22, C25)
-/

namespace Verif

/-! ## C21 Symmetry -/

/-- C21, negation 1: an enumeration accepts a primitive, a primitive never accepts an enumeration
(EnumeratedType.hpp 108-121, PrimitiveType.hpp 242-246). -/
theorem C21_symmetry_fails_enum :
    ∃ a b : Ty, compat a b = Cons.equals ∧ compat b a = Cons.none :=
  ⟨.enum "E" .w4 [("A", 0)], .prim .u32, by
    simp [compat, enumPrimFlags, EW.size, PK.size, PK.unsignedBit, Cons.or, Cons.equals],
    by simp [compat]⟩

/-- C21, negation 2: a two-member structure accepts a one-member one (result `MEMBERS`), the
converse is `NONE`, because a one-member structure stands for its member (StructType.hpp 199-202). -/
theorem C21_symmetry_fails_struct :
    ∃ a b : Ty, compat a b = Cons.members ∧ compat b a = Cons.none :=
  ⟨.struct "A" (.cons "x" (.prim .i32) (.cons "y" (.prim .i32) .nil)),
   .struct "B" (.cons "x" (.prim .i32) .nil), by
    simp [compat, compatMems, Cons.or, Cons.equals, Cons.none],
    by simp [compat]⟩

/-- C21, negation 3: a pair never accepts a structure, but a one-member structure holding a pair
accepts the pair (PairType.hpp 157-174 has no structure rule). -/
theorem C21_symmetry_fails_pair :
    ∃ a b : Ty, compat a b = Cons.equals ∧ compat b a = Cons.none :=
  ⟨.struct "A" (.cons "p" (.pair (.prim .i32) (.prim .i32)) .nil),
   .pair (.prim .i32) (.prim .i32), by simp [compat], by simp [compat]⟩

mutual
/-- The fragment on which symmetry holds: no enumeration and no one-member structure anywhere in
the type. -/
def Ty.regular : Ty → Bool
  | .prim _ => true
  | .enum _ _ _ => false
  | .str _ _ => true
  | .seq c _ => c.regular
  | .arr _ c _ => c.regular
  | .map k v _ => k.regular && v.regular
  | .pair a b => a.regular && b.regular
  | .alias _ t => t.regular
  | .struct _ ms => ms.length != 1 && ms.regular
  | .union _ d ms _ => d.regular && ms.regular
/-- See `Ty.regular`. -/
def Mems.regular : Mems → Bool
  | .nil => true
  | .cons _ t r => t.regular && r.regular
end

theorem Ty.rget_regular : (t : Ty) → t.regular = true → t.rget.regular = true
  | .alias _ t, h => by
    simp only [Ty.rget]; exact Ty.rget_regular t (by simpa [Ty.regular] using h)
  | .prim _, h | .enum _ _ _, h | .str _ _, h | .seq _ _, h | .arr _ _ _, h | .map _ _ _, h
  | .pair _ _, h | .struct _ _, h | .union _ _ _ _, h => by simpa [Ty.rget] using h

theorem Ty.regular_not_enum {t : Ty} (h : t.regular = true) : t.rget.isEnumerated = false := by
  have := Ty.rget_regular t h
  generalize t.rget = u at *
  cases u <;> simp_all [Ty.isEnumerated, Ty.regular]

theorem compatMems_none : (ms os : Mems) → compatMems Cons.none ms os = Cons.none
  | .nil, .nil => by simp [compatMems]
  | .nil, .cons _ _ _ => by simp [compatMems]
  | .cons _ _ _, .nil => by simp [compatMems]
  | .cons n t r, .cons m u s => by
    rw [compatMems_cons]
    split
    · rfl
    · have : ∀ x, Cons.or (if n ≠ m then Cons.or Cons.none Cons.memberNames else Cons.none) x
          = Cons.none := by intro x; split <;> simp
      rw [this]; exact compatMems_none r s

theorem Ty.rget_sz_lt {t : Ty} (h : t.isAlias = true) : t.rget.sz < t.sz := by
  cases t <;> simp [Ty.isAlias] at h
  rename_i n u
  simp only [Ty.rget, Ty.sz]; have := Ty.rget_sz_le u; omega

mutual
/-- C21, partial: on types without enumerations and without one-member structures,
`A.is_compatible(B) = B.is_compatible(A)`. Missing: exactly the three failures above (an
enumeration against a primitive, a one-member structure against a longer one or against a pair). -/
theorem C21_compat_symm_partial (a b : Ty) (ha : a.regular = true) (hb : b.regular = true) :
    compat a b = compat b a := by
  by_cases h : a.isAlias ∨ b.isAlias
  · rw [C23_compat_alias_partial a b (.inr (Ty.regular_not_enum hb)),
      C23_compat_alias_partial b a (.inr (Ty.regular_not_enum ha))]
    exact C21_compat_symm_partial a.rget b.rget (Ty.rget_regular a ha) (Ty.rget_regular b hb)
  · match a, b with
    | .alias _ _, _ => simp [Ty.isAlias] at h
    | _, .alias _ _ => simp [Ty.isAlias] at h
    | .enum _ _ _, _ => simp [Ty.regular] at ha
    | _, .enum _ _ _ => simp [Ty.regular] at hb
    | .struct n ms, .struct m os =>
      simp only [Ty.regular, Bool.and_eq_true, bne_iff_ne] at ha hb
      rw [compat_struct_struct _ _ _ _ ha.1, compat_struct_struct _ _ _ _ hb.1]
      exact C21_compatMems_symm_partial _ ms os ha.2 hb.2
    | .struct n ms, .prim _ | .struct n ms, .str _ _ | .struct n ms, .seq _ _
    | .struct n ms, .arr _ _ _ | .struct n ms, .map _ _ _ | .struct n ms, .union _ _ _ _ =>
      rw [compat_swap _ n ms rfl rfl (by simp)]
    | .prim _, .struct n ms | .str _ _, .struct n ms | .seq _ _, .struct n ms
    | .arr _ _ _, .struct n ms | .map _ _ _, .struct n ms | .union _ _ _ _, .struct n ms =>
      rw [compat_swap _ n ms rfl rfl (by simp)]
    | .struct n ms, .pair _ _ =>
      simp only [Ty.regular, Bool.and_eq_true, bne_iff_ne] at ha
      rw [compat_pair_struct, compat_struct_other _ _ _ ha.1 rfl rfl]
    | .pair _ _, .struct n ms =>
      simp only [Ty.regular, Bool.and_eq_true, bne_iff_ne] at hb
      rw [compat_pair_struct, compat_struct_other _ _ _ hb.1 rfl rfl]
    | .prim k, .prim l =>
      simp only [compat]
      by_cases hk : k = l
      · simp [hk]
      · simp [hk, Ne.symm hk, primFlags_comm k l]
    | .str k c, .str l d => simp only [compat]; grind
    | .seq t c, .seq u d =>
      simp only [Ty.regular] at ha hb
      simp only [compat]; rw [C21_compat_symm_partial t u ha hb]; grind
    | .arr _ t c, .arr _ u d =>
      simp only [Ty.regular] at ha hb
      simp only [compat]; rw [C21_compat_symm_partial t u ha hb]; grind
    | .pair t1 t2, .pair u1 u2 =>
      simp only [Ty.regular, Bool.and_eq_true] at ha hb
      simp only [compat]
      rw [C21_compat_symm_partial t1 u1 ha.1 hb.1, C21_compat_symm_partial t2 u2 ha.2 hb.2]
    | .map k v c, .map l w d =>
      simp only [Ty.regular, Bool.and_eq_true] at ha hb
      simp only [compat]
      rw [C21_compat_symm_partial k l ha.1 hb.1, C21_compat_symm_partial v w ha.2 hb.2]
      grind
    | .union _ d ms _, .union _ e os _ =>
      simp only [Ty.regular, Bool.and_eq_true] at ha hb
      simp only [compat]
      exact C21_compatMems_symm_partial _ _ _ (by simp [Mems.regular, ha]) (by simp [Mems.regular, hb])
    | .prim _, .str _ _ | .prim _, .seq _ _ | .prim _, .arr _ _ _ | .prim _, .map _ _ _
    | .prim _, .pair _ _ | .prim _, .union _ _ _ _
    | .str _ _, .prim _ | .str _ _, .seq _ _ | .str _ _, .arr _ _ _ | .str _ _, .map _ _ _
    | .str _ _, .pair _ _ | .str _ _, .union _ _ _ _
    | .seq _ _, .prim _ | .seq _ _, .str _ _ | .seq _ _, .arr _ _ _ | .seq _ _, .map _ _ _
    | .seq _ _, .pair _ _ | .seq _ _, .union _ _ _ _
    | .arr _ _ _, .prim _ | .arr _ _ _, .str _ _ | .arr _ _ _, .seq _ _ | .arr _ _ _, .map _ _ _
    | .arr _ _ _, .pair _ _ | .arr _ _ _, .union _ _ _ _
    | .map _ _ _, .prim _ | .map _ _ _, .str _ _ | .map _ _ _, .seq _ _ | .map _ _ _, .arr _ _ _
    | .map _ _ _, .pair _ _ | .map _ _ _, .union _ _ _ _
    | .pair _ _, .prim _ | .pair _ _, .str _ _ | .pair _ _, .seq _ _ | .pair _ _, .arr _ _ _
    | .pair _ _, .map _ _ _ | .pair _ _, .union _ _ _ _
    | .union _ _ _ _, .prim _ | .union _ _ _ _, .str _ _ | .union _ _ _ _, .seq _ _
    | .union _ _ _ _, .arr _ _ _ | .union _ _ _ _, .map _ _ _ | .union _ _ _ _, .pair _ _ =>
      simp [compat]
termination_by (a.sz + b.sz, 1)
decreasing_by
  · have h1 := Ty.rget_sz_le a
    have h2 := Ty.rget_sz_le b
    simp only [Prod.lex_def]
    rcases h with h | h
    · have := Ty.rget_sz_lt h; omega
    · have := Ty.rget_sz_lt h; omega
  all_goals simp only [Ty.sz, Mems.sz, Prod.lex_def]
  all_goals omega
/-- C21, member lists. -/
theorem C21_compatMems_symm_partial (acc : Cons) (ms os : Mems) (ha : ms.regular = true)
    (hb : os.regular = true) : compatMems acc ms os = compatMems acc os ms := by
  match ms, os with
  | .nil, .nil => rfl
  | .nil, .cons _ _ _ => simp [compatMems]
  | .cons _ _ _, .nil => simp [compatMems]
  | .cons n t r, .cons m u s =>
    simp only [Mems.regular, Bool.and_eq_true] at ha hb
    rw [compatMems_cons, compatMems_cons, C21_compat_symm_partial t u ha.1 hb.1,
      C21_compatMems_symm_partial _ r s ha.2 hb.2]
    simp only [ne_eq, eq_comm]
termination_by (ms.sz + os.sz, 2)
decreasing_by
  all_goals simp only [Mems.sz, Prod.lex_def]
  all_goals omega
end

/-- `C21_compat_symm_partial` applies to e.g. a two-member structure with a map of sequences. -/
example :
    let a := Ty.struct "A" (.cons "x" (.map (.prim .i32) (.seq (.prim .u8) 3) 0)
      (.cons "y" (.alias "S" (.str .s8 4)) .nil))
    let b := Ty.struct "B" (.cons "x" (.map (.prim .u16) (.seq (.prim .u8) 5) 0)
      (.cons "z" (.str .s8 6) .nil))
    a.regular = true ∧ b.regular = true ∧ compat a b ≠ Cons.none ∧ compat a b ≠ Cons.equals := by
  simp [Ty.regular, Mems.regular, Mems.length, compat, compatMems, Ty.rget, primFlags, PK.size,
    PK.unsignedBit, Cons.or, Cons.equals, Cons.none, Cons.width, Cons.sign, Cons.seqBounds,
    Cons.memberNames, Cons.stringBounds]

/-! ## C22 Equal types have the same footprint -/

theorem enumPrimFlags_eq {w : EW} {l : PK} (h : enumPrimFlags w l = Cons.equals) :
    w.size = l.size := by
  revert h; cases w <;> cases l <;> decide

theorem primFlags_eq {k l : PK} (h : primFlags k l = Cons.equals) : k.size = l.size := by
  revert h; cases k <;> cases l <;> decide

mutual
/-- C22: if `A.is_compatible(B)` is `EQUALS`, instances of `A` and `B` have the same memory size. -/
theorem C22_equals_same_size (a b : Ty) (h : compat a b = Cons.equals) :
    a.memSize = b.memSize := by
  match a, b with
  | .alias n t, b =>
    rw [compat_alias_left] at h
    have := C22_equals_same_size t.rget b.rget h
    simpa [Ty.memSize] using this
  | .prim k, .alias n u =>
    rw [compat_prim_alias] at h
    have := C22_equals_same_size u.rget (.prim k) h
    simpa [Ty.memSize] using this.symm
  | .prim k, .prim l =>
    simp only [compat] at h
    split at h
    · rename_i hk; rw [hk]
    · simpa [Ty.memSize] using primFlags_eq h
  | .enum _ w _, .enum _ x _ =>
    simp only [compat] at h
    split at h
    · simpa [Ty.memSize]
    · simp [Cons.width, Cons.equals] at h
  | .enum _ w _, .prim l =>
    simp only [compat] at h; simpa [Ty.memSize] using enumPrimFlags_eq h
  | .str _ _, .str _ _ => simp [Ty.memSize]
  | .seq _ _, .seq _ _ => simp [Ty.memSize]
  | .map _ _ _, .map _ _ _ => simp [Ty.memSize]
  | .arr _ t d, .arr _ u e =>
    simp only [compat] at h
    split at h
    · rename_i hd
      rw [Cons.or_equals_left] at h
      simp [Ty.memSize, hd, C22_equals_same_size t u h]
    · rw [Cons.or_eq_equals] at h; simp [Cons.arrayBounds, Cons.equals] at h
  | .pair a1 a2, .pair b1 b2 =>
    simp only [compat] at h
    rw [Cons.or_eq_equals] at h
    simp [Ty.memSize, C22_equals_same_size a1 b1 h.1, C22_equals_same_size a2 b2 h.2]
  | .union _ d ms _, .union _ e os _ =>
    simp only [compat] at h
    rw [compatMems_cons] at h
    split at h
    · simp [Cons.equals, Cons.none] at h
    · have hm := C22_equals_mems _ ms os h
      rw [Cons.or_eq_equals] at hm
      simp [Ty.memSize, C22_equals_same_size d e hm.1.2, hm.2.2]
  | .struct n ms, b =>
    by_cases hb : b.isAlias
    · have h' : compat (.struct n ms) b.rget = Cons.equals := by
        cases b <;> simp [Ty.isAlias] at hb
        rw [compat_alias_right _ _ _ rfl] at h; exact h
      have := C22_equals_same_size (.struct n ms) b.rget h'
      simpa [Ty.memSize] using this
    · have hb' : b.isAlias = false := by simpa using hb
      match ms with
      | .cons m t .nil =>
        rw [compat_struct_one _ _ _ _ hb'] at h
        have := C22_equals_same_size b t h
        simp [Ty.memSize, Mems.sumSize, this]
      | .nil =>
        match b with
        | .struct m os =>
          rw [compat_struct_struct _ _ _ _ (by simp [Mems.length])] at h
          simp [Ty.memSize, (C22_equals_mems _ _ _ h).2.1]
        | .prim _ | .enum _ _ _ | .str _ _ | .seq _ _ | .arr _ _ _ | .map _ _ _ | .pair _ _
        | .union _ _ _ _ => simp [compat, Cons.equals, Cons.none] at h
        | .alias _ _ => simp [Ty.isAlias] at hb
      | .cons m1 t1 (.cons m2 t2 r) =>
        match b with
        | .struct m os =>
          rw [compat_struct_struct _ _ _ _ (by simp [Mems.length])] at h
          simp only [Ty.memSize, (C22_equals_mems _ _ _ h).2.1]
        | .prim _ | .enum _ _ _ | .str _ _ | .seq _ _ | .arr _ _ _ | .map _ _ _ | .pair _ _
        | .union _ _ _ _ => simp [compat, Cons.equals, Cons.none] at h
        | .alias _ _ => simp [Ty.isAlias] at hb
  | .prim _, .struct m os | .enum _ _ _, .struct m os | .str _ _, .struct m os
  | .seq _ _, .struct m os | .arr _ _ _, .struct m os | .map _ _ _, .struct m os
  | .union _ _ _ _, .struct m os =>
    rw [compat_swap _ m os rfl rfl (by simp)] at h
    exact (C22_equals_same_size (.struct m os) _ h).symm
  | .enum _ _ _, .alias _ u | .str _ _, .alias _ u
  | .seq _ _, .alias _ u | .arr _ _ _, .alias _ u | .map _ _ _, .alias _ u
  | .union _ _ _ _, .alias _ u | .pair _ _, .alias _ u =>
    rw [compat_alias_right _ _ _ rfl] at h
    have := C22_equals_same_size _ u.rget h
    simpa only [Ty.rget_memSize, Ty.memSize] using this
  | .prim _, .enum _ _ _ | .prim _, .str _ _ | .prim _, .seq _ _ | .prim _, .arr _ _ _
  | .prim _, .map _ _ _ | .prim _, .pair _ _ | .prim _, .union _ _ _ _
  | .enum _ _ _, .str _ _ | .enum _ _ _, .seq _ _ | .enum _ _ _, .arr _ _ _
  | .enum _ _ _, .map _ _ _ | .enum _ _ _, .pair _ _ | .enum _ _ _, .union _ _ _ _
  | .str _ _, .prim _ | .str _ _, .enum _ _ _ | .str _ _, .seq _ _ | .str _ _, .arr _ _ _
  | .str _ _, .map _ _ _ | .str _ _, .pair _ _ | .str _ _, .union _ _ _ _
  | .seq _ _, .prim _ | .seq _ _, .enum _ _ _ | .seq _ _, .str _ _ | .seq _ _, .arr _ _ _
  | .seq _ _, .map _ _ _ | .seq _ _, .pair _ _ | .seq _ _, .union _ _ _ _
  | .arr _ _ _, .prim _ | .arr _ _ _, .enum _ _ _ | .arr _ _ _, .str _ _ | .arr _ _ _, .seq _ _
  | .arr _ _ _, .map _ _ _ | .arr _ _ _, .pair _ _ | .arr _ _ _, .union _ _ _ _
  | .map _ _ _, .prim _ | .map _ _ _, .enum _ _ _ | .map _ _ _, .str _ _ | .map _ _ _, .seq _ _
  | .map _ _ _, .arr _ _ _ | .map _ _ _, .pair _ _ | .map _ _ _, .union _ _ _ _
  | .pair _ _, .prim _ | .pair _ _, .enum _ _ _ | .pair _ _, .str _ _ | .pair _ _, .seq _ _
  | .pair _ _, .arr _ _ _ | .pair _ _, .map _ _ _ | .pair _ _, .union _ _ _ _
  | .pair _ _, .struct _ _
  | .union _ _ _ _, .prim _ | .union _ _ _ _, .enum _ _ _ | .union _ _ _ _, .str _ _
  | .union _ _ _ _, .seq _ _ | .union _ _ _ _, .arr _ _ _ | .union _ _ _ _, .map _ _ _
  | .union _ _ _ _, .pair _ _ => simp [compat, Cons.equals, Cons.none] at h
termination_by (a.sz + b.sz, a.rank)
decreasing_by
  all_goals simp only [Ty.sz, Mems.sz, Ty.rank, Prod.lex_def]
  all_goals first
    | omega
    | (have h1 := Ty.rget_sz_le t; have h2 := Ty.rget_sz_le b; omega)
    | (have h1 := Ty.rget_sz_le u; omega)
    | (have h1 := Ty.rget_sz_lt hb; omega)
/-- C22, member lists: an `EQUALS` result means equal sums and equal maxima of the sizes. -/
theorem C22_equals_mems (acc : Cons) (ms os : Mems) (h : compatMems acc ms os = Cons.equals) :
    acc = Cons.equals ∧ ms.sumSize = os.sumSize ∧ ms.maxSize = os.maxSize := by
  match ms, os with
  | .nil, .nil => simpa [compatMems] using h
  | .nil, .cons _ _ _ =>
    rw [compatMems, Cons.or_eq_equals] at h; simp [Cons.members, Cons.equals] at h
  | .cons _ _ _, .nil =>
    rw [compatMems, Cons.or_eq_equals] at h; simp [Cons.members, Cons.equals] at h
  | .cons n t r, .cons m u s =>
    rw [compatMems_cons] at h
    split at h
    · simp [Cons.equals, Cons.none] at h
    · have hm := C22_equals_mems _ r s h
      rw [Cons.or_eq_equals] at hm
      have ht := C22_equals_same_size t u hm.1.2
      refine ⟨?_, by simp [Mems.sumSize, ht, hm.2.1], by simp [Mems.maxSize, ht, hm.2.2]⟩
      have := hm.1.1
      split at this
      · exact (Cons.or_eq_equals.mp this).1
      · exact this
termination_by (ms.sz + os.sz, 2)
decreasing_by
  all_goals simp only [Mems.sz, Prod.lex_def]
  all_goals omega
end

/-- The hypothesis of `C22_equals_same_size` relates genuinely different types: `int32` and `float`
members, an enumeration and a `uint32`, a one-member structure and its member. -/
example : compat (.struct "A" (.cons "x" (.prim .i32) (.cons "y" (.enum "E" .w4 []) .nil)))
    (.struct "B" (.cons "x" (.prim .f32) (.cons "y" (.prim .u32) .nil))) = Cons.equals := by
  simp [compat, compatMems, primFlags, enumPrimFlags, EW.size, PK.size, PK.unsignedBit, Cons.or,
    Cons.equals, Cons.none]

/-! ## C25 An incompatible part makes the whole incompatible -/

/-- Positionwise incompatibility: at some position where both lists have a member, the members are
incompatible. -/
def Mems.Clash (ms os : Mems) : Prop :=
  ∃ i n t m u, ms.get? i = some (n, t) ∧ os.get? i = some (m, u) ∧ compat t u = Cons.none

theorem compatMems_clash (acc : Cons) : (ms os : Mems) → ms.Clash os →
    compatMems acc ms os = Cons.none
  | .nil, _, ⟨_, _, _, _, _, h, _⟩ => by simp [Mems.get?] at h
  | .cons _ _ _, .nil, ⟨_, _, _, _, _, _, h, _⟩ => by simp [Mems.get?] at h
  | .cons n t r, .cons m u s, ⟨i, n', t', m', u', h1, h2, h3⟩ => by
    rw [compatMems_cons]
    split
    · rfl
    · rename_i hne
      match i with
      | 0 =>
        simp only [Mems.get?, Option.some.injEq, Prod.mk.injEq] at h1 h2
        obtain ⟨-, rfl⟩ := h1; obtain ⟨-, rfl⟩ := h2
        exact absurd h3 hne
      | i + 1 => exact compatMems_clash _ r s ⟨i, n', t', m', u', h1, h2, h3⟩

/-- C25: if two structures (neither standing for its only member) have incompatible members at some
common position, they are incompatible; likewise unions with incompatible discriminators or members,
sequences, arrays with incompatible content, pairs with an incompatible component and maps with
incompatible keys or values, whatever the bounds. -/
theorem C25_incompatible_part :
    (∀ n m ms os, ms.length ≠ 1 → Mems.Clash ms os →
      compat (.struct n ms) (.struct m os) = Cons.none) ∧
    (∀ n m d e ms os i j, compat d e = Cons.none ∨ Mems.Clash ms os →
      compat (.union n d ms i) (.union m e os j) = Cons.none) ∧
    (∀ t u c d, compat t u = Cons.none → compat (.seq t c) (.seq u d) = Cons.none) ∧
    (∀ n m t u c d, compat t u = Cons.none → compat (.arr n t c) (.arr m u d) = Cons.none) ∧
    (∀ a b c d, compat a c = Cons.none ∨ compat b d = Cons.none →
      compat (.pair a b) (.pair c d) = Cons.none) ∧
    (∀ a b c d x y, compat a c = Cons.none ∨ compat b d = Cons.none →
      compat (.map a b x) (.map c d y) = Cons.none) := by
  refine ⟨?_, ?_, ?_, ?_, ?_, ?_⟩
  · intro n m ms os h1 h2
    rw [compat_struct_struct _ _ _ _ h1]; exact compatMems_clash _ _ _ h2
  · intro n m d e ms os i j h
    simp only [compat]
    apply compatMems_clash
    rcases h with h | ⟨k, n', t', m', u', h1, h2, h3⟩
    · exact ⟨0, _, _, _, _, rfl, rfl, h⟩
    · exact ⟨k + 1, n', t', m', u', h1, h2, h3⟩
  · intro t u c d h; simp only [compat, h]; split <;> simp
  · intro n m t u c d h; simp only [compat, h]; split <;> simp
  · intro a b c d h; simp only [compat]; rcases h with h | h <;> simp [h]
  · intro a b c d x y h; simp only [compat]; rcases h with h | h <;> simp [h]

/-- C25 (one-member structures): such a structure stands for its member, so it is incompatible with
exactly what its member is incompatible with. -/
theorem C25_one_member (n m : String) (t b : Ty) (hb : b.isAlias = false) :
    compat (.struct n (.cons m t .nil)) b = Cons.none ↔ compat b t = Cons.none := by
  rw [compat_struct_one _ _ _ _ hb]

/-- A concrete clash: the second members are a string and a sequence. -/
example : Mems.Clash (.cons "x" (.prim .i32) (.cons "y" (.str .s8 0) .nil))
    (.cons "x" (.prim .u32) (.cons "y" (.seq (.prim .i8) 0) .nil)) :=
  ⟨1, _, _, _, _, rfl, rfl, by simp [compat]⟩

end Verif
