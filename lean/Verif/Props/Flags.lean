import Verif.Lemmas.Flags
import Verif.Props.CompatMore
import Mathlib.Tactic.ByContra
/-!
# The meaning of the result of `is_compatible` (C52)
-/

namespace Verif

theorem means_prim (k l : PK) : Means (compat (.prim k) (.prim l)) (Clash (.prim k) (.prim l))
    (fun f => Differs f (.prim k) (.prim l)) := by
  have h : compat (.prim k) (.prim l) = primFlags k l := by
    simp only [compat]
    split
    · rename_i h; subst h; simp [primFlags]
    · rfl
  rw [h]
  refine means_leaf rfl rfl (.prims k l) (fun x y h => by cases h <;> rename_i h' _ _ <;> cases h')
    ((Means.equals.or (Means.ite .width)).or (Means.ite .sign) |>.congr (by simp) (fun f => Iff.rfl)) ?_
  intro f
  have hs : (k.unsignedBit ≠ l.unsignedBit) ↔ ¬ (k.unsigned ↔ l.unsigned) := by
    rw [← unsigned_iff, ← unsigned_iff, ← Bool.eq_iff_iff]
  rw [hs]
  constructor
  · rintro ((h | ⟨h, rfl⟩) | ⟨h, rfl⟩)
    · exact h.elim
    · exact .primWidth _ _ h
    · exact .primSign _ _ h
  · intro h
    cases h with
    | primWidth _ _ h => exact .inl (.inr ⟨h, rfl⟩)
    | primSign _ _ h => exact .inr ⟨h, rfl⟩
    | members _ _ _ _ h => cases h
    | names _ _ _ _ _ _ _ _ _ h => cases h

theorem means_enumPrim (n : String) (w : EW) (vs) (l : PK) :
    Means (compat (.enum n w vs) (.prim l)) (Clash (.enum n w vs) (.prim l))
    (fun f => Differs f (.enum n w vs) (.prim l)) := by
  simp only [compat]
  refine means_leaf rfl rfl (.enumPrim _ _ _ _) (fun x y h => by cases h <;> rename_i h' _ _ <;> cases h')
    ((Means.equals.or (Means.ite .width)).or (Means.ite .sign) |>.congr (by simp) (fun f => Iff.rfl)) ?_
  intro f
  have hs : (l.unsignedBit = false) ↔ ¬ l.unsigned := by rw [← unsigned_iff]; simp
  rw [hs]
  constructor
  · rintro ((h | ⟨h, rfl⟩) | ⟨h, rfl⟩)
    · exact h.elim
    · exact .enumPrimWidth _ _ _ _ h
    · exact .enumPrimSign _ _ _ _ h
  · intro h
    cases h with
    | enumPrimWidth _ _ _ _ h => exact .inl (.inr ⟨h, rfl⟩)
    | enumPrimSign _ _ _ _ h => exact .inr ⟨h, rfl⟩
    | members _ _ _ _ h => cases h
    | names _ _ _ _ _ _ _ _ _ h => cases h

theorem means_enum (n m : String) (w x : EW) (vs us) :
    Means (compat (.enum n w vs) (.enum m x us)) (Clash (.enum n w vs) (.enum m x us))
    (fun f => Differs f (.enum n w vs) (.enum m x us)) := by
  have : compat (.enum n w vs) (.enum m x us) = if w.size ≠ x.size then Flag.width.cons else Cons.equals := by
    simp only [compat, Flag.cons]; by_cases h : w.size = x.size <;> simp [h]
  rw [this]
  refine means_leaf rfl rfl (.enums _ _ _ _ _ _) (fun x y h => by cases h <;> rename_i h' _ _ <;> cases h')
    (Means.ite .width) ?_
  intro f
  constructor
  · rintro ⟨h, rfl⟩
    exact .enumWidth _ _ _ _ _ _ h
  · intro h
    cases h with
    | enumWidth _ _ _ _ _ _ h => exact ⟨h, rfl⟩
    | members _ _ _ _ h => cases h
    | names _ _ _ _ _ _ _ _ _ h => cases h

theorem means_str (k l : SK) (c d : Nat) : Means (compat (.str k c) (.str l d)) (Clash (.str k c) (.str l d))
    (fun f => Differs f (.str k c) (.str l d)) := by
  by_cases hk : k = l
  · subst hk
    have : compat (.str k c) (.str k d) = if c ≠ d then Flag.stringBounds.cons else Cons.equals := by
      simp only [compat, Flag.cons]; by_cases h : c = d <;> simp [h]
    rw [this]
    refine means_leaf rfl rfl (.strings _ _ _) (fun x y h => by cases h <;> rename_i h' _ _ <;> cases h')
      (Means.ite .stringBounds) ?_
    intro f
    constructor
    · rintro ⟨h, rfl⟩
      exact .string _ _ _ h
    · intro h
      cases h with
      | string _ _ _ h => exact ⟨h, rfl⟩
      | members _ _ _ _ h => cases h
      | names _ _ _ _ _ _ _ _ _ h => cases h
  · have : compat (.str k c) (.str l d) = Cons.none := by simp only [compat, ne_eq, hk, not_false_iff, if_true]
    rw [this]
    refine means_clash rfl rfl ?_
    intro h
    cases h with
    | strings => exact hk rfl
    | aggregates _ _ _ _ h => cases h

/-- One bounded container and its content. -/
theorem means_one {a b t u : Ty} {g : Flag} {p : Prop} [Decidable p] {c : Cons} (ha : a.isAlias = false)
    (hb : b.isAlias = false) (hc : Comparable a b) (hp : ∀ x y, Part a b x y ↔ x = t ∧ y = u)
    (hd : ∀ f, Differ f a b ↔ ¬ p ∧ f = g) (h : Means c (Clash t u) (fun f => Differs f t u)) :
    Means (if p then Cons.or Cons.equals c else Cons.or g.cons c) (Clash a b) (fun f => Differs f a b) := by
  have e : (if p then Cons.or Cons.equals c else Cons.or g.cons c) =
      Cons.or (if ¬ p then g.cons else Cons.equals) c := by by_cases h : p <;> simp [h]
  rw [e]
  refine ((Means.ite g).or h).congr ?_ ?_
  · rw [clash_iff (a := a), Ty.rget_of_not_alias ha, Ty.rget_of_not_alias hb]
    simp [hc, hp, and_assoc]
  · intro f
    rw [differs_iff (a := a), Ty.rget_of_not_alias ha, Ty.rget_of_not_alias hb, hd]
    simp [hp, and_assoc]

theorem means_pair {a1 a2 b1 b2 : Ty} {c1 c2 : Cons} (h1 : Means c1 (Clash a1 b1) (fun f => Differs f a1 b1))
    (h2 : Means c2 (Clash a2 b2) (fun f => Differs f a2 b2)) :
    Means (Cons.or c1 c2) (Clash (.pair a1 a2) (.pair b1 b2))
      (fun f => Differs f (.pair a1 a2) (.pair b1 b2)) := by
  have hp : ∀ x y, Part (.pair a1 a2) (.pair b1 b2) x y ↔ (x = a1 ∧ y = b1) ∨ (x = a2 ∧ y = b2) := by
    intro x y
    constructor
    · intro h
      cases h with
      | first => exact .inl ⟨rfl, rfl⟩
      | second => exact .inr ⟨rfl, rfl⟩
      | member _ _ _ _ _ _ _ _ _ h => cases h
    · rintro (⟨rfl, rfl⟩ | ⟨rfl, rfl⟩)
      · exact .first _ _ _ _
      · exact .second _ _ _ _
  refine (h1.or h2).congr ?_ ?_
  · rw [clash_iff (a := .pair a1 a2)]
    simp only [Ty.rget, hp, Comparable.pairs, not_true_eq_false, false_or]
    constructor
    · rintro (h | h)
      · exact ⟨_, _, .inl ⟨rfl, rfl⟩, h⟩
      · exact ⟨_, _, .inr ⟨rfl, rfl⟩, h⟩
    · rintro ⟨_, _, ⟨rfl, rfl⟩ | ⟨rfl, rfl⟩, h⟩
      · exact .inl h
      · exact .inr h
  · intro f
    have hd : ¬ Differ f (.pair a1 a2) (.pair b1 b2) := by
      intro h
      cases h with
      | members _ _ _ _ h => cases h
      | names _ _ _ _ _ _ _ _ _ h => cases h
    rw [differs_iff (a := .pair a1 a2)]
    simp only [Ty.rget, hp, hd, false_or]
    constructor
    · rintro (h | h)
      · exact ⟨_, _, .inl ⟨rfl, rfl⟩, h⟩
      · exact ⟨_, _, .inr ⟨rfl, rfl⟩, h⟩
    · rintro ⟨_, _, ⟨rfl, rfl⟩ | ⟨rfl, rfl⟩, h⟩
      · exact .inl h
      · exact .inr h

theorem means_map {k v l w : Ty} {c d : Nat} {x y : Cons} (h1 : Means x (Clash k l) (fun f => Differs f k l))
    (h2 : Means y (Clash v w) (fun f => Differs f v w)) :
    Means (if c = d then Cons.or Cons.equals (Cons.or x y) else Cons.or Cons.mapBounds (Cons.or x y))
      (Clash (.map k v c) (.map l w d)) (fun f => Differs f (.map k v c) (.map l w d)) := by
  have hp : ∀ x y, Part (.map k v c) (.map l w d) x y ↔ (x = k ∧ y = l) ∨ (x = v ∧ y = w) := by
    intro x y
    constructor
    · intro h
      cases h with
      | mapKey => exact .inl ⟨rfl, rfl⟩
      | mapValue => exact .inr ⟨rfl, rfl⟩
      | member _ _ _ _ _ _ _ _ _ h => cases h
    · rintro (⟨rfl, rfl⟩ | ⟨rfl, rfl⟩)
      · exact .mapKey _ _ _ _ _ _
      · exact .mapValue _ _ _ _ _ _
  have e : (if c = d then Cons.or Cons.equals (Cons.or x y) else Cons.or Cons.mapBounds (Cons.or x y)) =
      Cons.or (if c ≠ d then Flag.mapBounds.cons else Cons.equals) (Cons.or x y) := by
    by_cases h : c = d <;> simp [h, Flag.cons]
  rw [e]
  refine ((Means.ite .mapBounds).or (h1.or h2)).congr ?_ ?_
  · rw [clash_iff (a := .map k v c)]
    simp only [Ty.rget, hp, Comparable.maps, not_true_eq_false, false_or]
    constructor
    · rintro (h | h)
      · exact ⟨_, _, .inl ⟨rfl, rfl⟩, h⟩
      · exact ⟨_, _, .inr ⟨rfl, rfl⟩, h⟩
    · rintro ⟨_, _, ⟨rfl, rfl⟩ | ⟨rfl, rfl⟩, h⟩
      · exact .inl h
      · exact .inr h
  · intro f
    have hd : Differ f (.map k v c) (.map l w d) ↔ c ≠ d ∧ f = .mapBounds := by
      constructor
      · intro h
        cases h with
        | map _ _ _ _ _ _ h => exact ⟨h, rfl⟩
        | members _ _ _ _ h => cases h
        | names _ _ _ _ _ _ _ _ _ h => cases h
      · rintro ⟨h, rfl⟩; exact .map _ _ _ _ _ _ h
    rw [differs_iff (a := .map k v c)]
    simp only [Ty.rget, hp, hd]
    apply or_congr Iff.rfl
    constructor
    · rintro (h | h)
      · exact ⟨_, _, .inl ⟨rfl, rfl⟩, h⟩
      · exact ⟨_, _, .inr ⟨rfl, rfl⟩, h⟩
    · rintro ⟨_, _, ⟨rfl, rfl⟩ | ⟨rfl, rfl⟩, h⟩
      · exact .inl h
      · exact .inr h

theorem compat_incomparable {a b : Ty} (ha : a.isAlias = false) (hb : b.isAlias = false) (hm : a.multi = true)
    (hm' : b.multi = true) (h : ¬ Comparable a b) : compat a b = Cons.none := by
  cases hs : a.isStruct
  · cases ht : b.isStruct
    · cases a <;> simp only [Ty.isAlias, Ty.isStruct, Bool.true_eq_false] at ha hs <;>
        cases b <;> simp only [Ty.isAlias, Ty.isStruct, Bool.true_eq_false] at hb ht <;>
        first
          | (simp only [compat]; done)
          | (exfalso; exact h (by first
              | exact Comparable.prims _ _
              | exact Comparable.enums _ _ _ _ _ _
              | exact Comparable.enumPrim _ _ _ _
              | exact Comparable.seqs _ _ _ _
              | exact Comparable.arrays _ _ _ _ _ _
              | exact Comparable.maps _ _ _ _ _ _
              | exact Comparable.pairs _ _ _ _
              | exact Comparable.aggregates _ _ _ _ (.unions _ _ _ _ _ _ _ _)))
          | skip
      simp only [compat]
      split
      · rfl
      · rename_i hne
        exact absurd (by rw [Decidable.not_not.mp hne]; exact .strings _ _ _) h
    · cases b <;> simp only [Ty.isStruct, Bool.false_eq_true] at ht
      rename_i n ms
      simp only [Ty.multi, Bool.and_eq_true, bne_iff_ne] at hm'
      by_cases hp : ∃ x y, a = .pair x y
      · obtain ⟨x, y, rfl⟩ := hp
        exact compat_pair_struct _ _ _ _
      · rw [compat_swap a n ms hs ha (by intro x y e; exact hp ⟨x, y, e⟩)]
        exact compat_struct_other _ _ _ hm'.1 ha hs
  · cases a <;> simp only [Ty.isStruct, Bool.false_eq_true] at hs
    rename_i n ms
    simp only [Ty.multi, Bool.and_eq_true, bne_iff_ne] at hm
    refine compat_struct_other _ _ _ hm.1 hb ?_
    cases hb' : b.isStruct
    · rfl
    · cases b <;> simp only [Ty.isStruct, Bool.false_eq_true] at hb'
      exact absurd (.aggregates _ _ _ _ (.structs _ _ _ _)) h

mutual
theorem compat_means (a b : Ty) (ha : a.multi = true) (hb : b.multi = true) (hb' : b.bare = true) :
    Means (compat a b) (Clash a b) (fun f => Differs f a b) := by
  by_cases h : a.isAlias ∨ b.isAlias
  · rw [compat_rget hb']
    refine (compat_means a.rget b.rget (Ty.rget_multi a ha) (Ty.rget_multi b hb) (Ty.rget_bare b hb')).congr
      clash_rget.symm fun f => differs_rget.symm
  have hal : a.isAlias = false ∧ b.isAlias = false := by
    constructor
    · cases e : a.isAlias
      · rfl
      · exact absurd (.inl e) h
    · cases e : b.isAlias
      · rfl
      · exact absurd (.inr e) h
  by_cases hc : Comparable a b
  · match a, b, hc with
    | .prim k, .prim l, _ => exact means_prim k l
    | .enum n w vs, .prim l, _ => exact means_enumPrim n w vs l
    | .enum n w vs, .enum m x us, _ => exact means_enum n m w x vs us
    | .str k c, .str l d, _ => exact means_str k l c d
    | .seq t c, .seq u d, _ =>
      simp only [Ty.multi, Ty.bare] at ha hb hb'
      simp only [compat]
      refine means_one (g := .seqBounds) rfl rfl (.seqs _ _ _ _) ?_ ?_ (compat_means t u ha hb hb')
      · intro x y
        constructor
        · intro h
          cases h with
          | seq => exact ⟨rfl, rfl⟩
          | member _ _ _ _ _ _ _ _ _ h => cases h
        · rintro ⟨rfl, rfl⟩; exact .seq _ _ _ _
      · intro f
        constructor
        · intro h
          cases h with
          | seq _ _ _ _ h => exact ⟨h, rfl⟩
          | members _ _ _ _ h => cases h
          | names _ _ _ _ _ _ _ _ _ h => cases h
        · rintro ⟨h, rfl⟩; exact .seq _ _ _ _ h
    | .arr n t c, .arr m u d, _ =>
      simp only [Ty.multi, Ty.bare] at ha hb hb'
      simp only [compat]
      refine means_one (g := .arrayBounds) rfl rfl (.arrays _ _ _ _ _ _) ?_ ?_ (compat_means t u ha hb hb')
      · intro x y
        constructor
        · intro h
          cases h with
          | arr => exact ⟨rfl, rfl⟩
          | member _ _ _ _ _ _ _ _ _ h => cases h
        · rintro ⟨rfl, rfl⟩; exact .arr _ _ _ _ _ _
      · intro f
        constructor
        · intro h
          cases h with
          | arr _ _ _ _ _ _ h => exact ⟨h, rfl⟩
          | members _ _ _ _ h => cases h
          | names _ _ _ _ _ _ _ _ _ h => cases h
        · rintro ⟨h, rfl⟩; exact .arr _ _ _ _ _ _ h
    | .map k v c, .map l w d, _ =>
      simp only [Ty.multi, Ty.bare, Bool.and_eq_true] at ha hb hb'
      simp only [compat]
      exact means_map (compat_means k l ha.1 hb.1 hb'.1) (compat_means v w ha.2 hb.2 hb'.2)
    | .pair k v, .pair l w, _ =>
      simp only [Ty.multi, Ty.bare, Bool.and_eq_true] at ha hb hb'
      simp only [compat]
      exact means_pair (compat_means k l ha.1 hb.1 hb'.1) (compat_means v w ha.2 hb.2 hb'.2)
    | .struct n ms, .struct m os, _ =>
      simp only [Ty.multi, Ty.bare, Bool.and_eq_true, bne_iff_ne] at ha hb hb'
      rw [compat_struct_struct _ _ _ _ ha.1]
      refine (compatMems_means Cons.equals _ Means.equals ms os ha.2 hb.2 hb').congr
        (clash_aggr (.structs n m ms os)).symm fun f => ?_
      rw [differs_aggr (.structs n m ms os)]; simp
    | .union n d ms i, .union m e os j, _ =>
      simp only [Ty.multi, Ty.bare, Bool.and_eq_true] at ha hb hb'
      simp only [compat]
      refine (compatMems_means Cons.equals _ Means.equals (.cons discName d ms) (.cons discName e os) ?_ ?_ ?_).congr
        (clash_aggr (.unions n m d e ms os i j)).symm fun f => ?_
      · simp only [Mems.multi, Bool.and_eq_true]; exact ha
      · simp only [Mems.multi, Bool.and_eq_true]; exact hb
      · simp only [Mems.bare, Bool.and_eq_true]; exact hb'
      · rw [differs_aggr (.unions n m d e ms os i j)]; simp [discName]
  · rw [compat_incomparable hal.1 hal.2 ha hb hc]
    exact means_clash hal.1 hal.2 hc
termination_by (a.sz + b.sz, 0)
decreasing_by
  all_goals simp only [Ty.sz, Mems.sz, Prod.lex_def]
  all_goals first
    | omega
    | (rcases h with h | h <;> have h1 := Ty.rget_sz_lt h <;> have h2 := Ty.rget_sz_le a <;>
        have h3 := Ty.rget_sz_le b <;> omega)
theorem compatMems_means (acc : Cons) (D : Flag → Prop) (h : Means acc False D) (ms os : Mems)
    (ha : ms.multi = true) (hb : os.multi = true) (hb' : os.bare = true) :
    Means (compatMems acc ms os) (ClashM ms os) (fun f => D f ∨ DiffersM f ms os) := by
  match ms, os with
  | .nil, .nil =>
    simp only [compatMems]
    refine h.congr ?_ fun f => ?_
    · simp [ClashM, Mems.get?]
    · simp [DiffersM, Mems.get?]
  | .nil, .cons y u s =>
    simp only [compatMems]
    refine (h.or (Means.flag .members)).congr ?_ fun f => ?_
    · simp [ClashM, Mems.get?]
    · simp [DiffersM, Mems.get?, Mems.length]
  | .cons x t r, .nil =>
    simp only [compatMems]
    refine (h.or (Means.flag .members)).congr ?_ fun f => ?_
    · simp [ClashM, Mems.get?]
    · simp [DiffersM, Mems.get?, Mems.length]
  | .cons x t r, .cons y u s =>
    simp only [Mems.multi, Mems.bare, Bool.and_eq_true] at ha hb hb'
    have ht := compat_means t u ha.1 hb.1 hb'.1
    rw [compatMems_cons]
    by_cases hn : compat t u = Cons.none
    · rw [if_pos hn]
      exact Means.none (clashM_cons.mpr (.inl (ht.ne_none.mp hn)))
    · rw [if_neg hn]
      have hnc : ¬ Clash t u := fun hc => hn (ht.ne_none.mpr hc)
      have h1 : Means (if x ≠ y then Cons.or acc Cons.memberNames else acc) False
          (fun f => D f ∨ (x ≠ y ∧ f = .memberNames)) := by
        by_cases hxy : x ≠ y
        · rw [if_pos hxy]
          exact (h.or (Means.flag .memberNames)).congr (by simp) fun f => by simp [hxy]
        · rw [if_neg hxy]
          exact h.congr Iff.rfl fun f => by simp [hxy]
      refine (compatMems_means _ _ ((h1.or ht).congr (by simp [hnc]) fun f => Iff.rfl) r s ha.2 hb.2 hb'.2).congr
        ?_ fun f => ?_
      · rw [clashM_cons]; simp [hnc]
      · rw [differsM_cons, or_assoc, or_assoc]
termination_by (ms.sz + os.sz, 2)
decreasing_by
  all_goals simp only [Mems.sz, Prod.lex_def]
  all_goals omega
end

/-! ## Flags in a result -/

theorem and_flag (c : Cons) (f : Flag) : Cons.and c f.cons ≠ Cons.equals ↔ c.getLsbD f.bit = true := by
  have hf : f.cons.getLsbD f.bit = true := (Flag.cons_getLsbD f f.bit).mpr rfl
  constructor
  · intro h
    by_contra hc
    apply h
    apply BitVec.eq_of_getLsbD_eq
    intro i _
    rw [Cons.and, BitVec.getLsbD_and]
    by_cases hi : f.bit = i
    · subst hi; simp [Bool.eq_false_iff.mpr hc, Cons.equals]
    · have : f.cons.getLsbD i = false := by
        rw [Bool.eq_false_iff]; intro h'; exact hi ((Flag.cons_getLsbD f i).mp h')
      simp [this, Cons.equals]
  · intro h h'
    have := congrArg (fun x => BitVec.getLsbD x f.bit) h'
    simp [Cons.and, BitVec.getLsbD_and, h, hf, Cons.equals] at this

/-- C24: a flag is in a combination exactly if it is in one of the parts; every flag is in `NONE`, no flag is in
`EQUALS`, and a flag is in no other flag. -/
theorem C24_intersection (a b : Cons) (f g : Flag) :
    (Cons.and (Cons.or a b) f.cons ≠ Cons.equals ↔
      Cons.and a f.cons ≠ Cons.equals ∨ Cons.and b f.cons ≠ Cons.equals) ∧
    Cons.and Cons.none f.cons = f.cons ∧ Cons.and Cons.equals f.cons = Cons.equals ∧
    (Cons.and g.cons f.cons ≠ Cons.equals ↔ f = g) := by
  refine ⟨?_, by cases f <;> decide, by cases f <;> decide, ?_⟩
  · rw [and_flag, and_flag, and_flag, Cons.or, BitVec.getLsbD_or, Bool.or_eq_true]
  · rw [and_flag, Flag.cons_getLsbD]
    exact ⟨fun h => (Flag.bit_inj h).symm, fun h => by rw [h]⟩

/-- C52, partial: the result of `is_compatible` is `NONE` exactly if somewhere the two types are of different sorts;
otherwise it has a flag exactly if somewhere there is a difference of that kind, and it is `EQUALS` exactly if there is
no difference of any kind. Aliases are transparent.
Missing: types with one-member structures, which are compared as if they were their member (`C25_one_member`), and
aliases of enumerations in the argument, which a primitive accepts although it refuses the enumeration itself
(`C23_alias_transparent_fails`). -/
theorem C52_flags_partial (a b : Ty) (ha : a.multi = true) (hb : b.multi = true) (hb' : b.bare = true) :
    (compat a b = Cons.none ↔ Clash a b) ∧
    (¬ Clash a b → (∀ f : Flag, Cons.and (compat a b) f.cons ≠ Cons.equals ↔ Differs f a b) ∧
      (compat a b = Cons.equals ↔ ∀ f, ¬ Differs f a b)) := by
  have h := compat_means a b ha hb hb'
  refine ⟨h.ne_none, fun hc => ?_⟩
  rcases h with ⟨h, -⟩ | ⟨-, h⟩
  · exact absurd h hc
  constructor
  · intro f
    rw [and_flag, h]
    constructor
    · rintro ⟨g, hg, hd⟩
      rw [← Flag.bit_inj hg]; exact hd
    · exact fun hd => ⟨f, rfl, hd⟩
  · constructor
    · intro he f hd
      have := (h f.bit).mpr ⟨f, rfl, hd⟩
      rw [he] at this
      simp [Cons.equals] at this
    · intro hd
      apply BitVec.eq_of_getLsbD_eq
      intro i _
      have : (compat a b).getLsbD i = false := by
        rw [Bool.eq_false_iff]
        intro h'
        obtain ⟨f, -, hf⟩ := (h i).mp h'
        exact hd f hf
      rw [this]; simp [Cons.equals]

/-- C52: `EQUALS` does not mean that the types are the same, not even up to names: an `int32` and a `float`, or a `bool`
and a `char`, are reported as equal, since only size and signedness are compared. -/
theorem C52_equals_not_same : compat (.prim .i32) (.prim .f32) = Cons.equals ∧
    compat (.prim .bool) (.prim .c8) = Cons.equals := by
  constructor <;> simp [compat, primFlags, PK.size, PK.unsignedBit, Cons.or, Cons.equals]

/-- A structure with a difference of width deep inside, another bound and another name: the hypotheses hold, the flags
are found, and no other. -/
example :
    let a : Ty := .struct "A" (.cons "x" (.alias "L" (.seq (.prim .i32) 4)) (.cons "y" (.str .s8 0) .nil))
    let b : Ty := .struct "B" (.cons "x" (.seq (.alias "M" (.prim .i64)) 8) (.cons "z" (.str .s8 0) .nil))
    a.multi = true ∧ b.multi = true ∧ b.bare = true ∧ ¬ Clash a b ∧ Differs .width a b ∧ Differs .seqBounds a b ∧
    Differs .memberNames a b ∧ ¬ Differs .sign a b ∧ ¬ Differs .members a b := by
  intro a b
  have h : compat a b = 38#32 := by
    simp [a, b, compat, compatMems, Ty.rget, primFlags, PK.size, PK.unsignedBit, Cons.or, Cons.equals, Cons.none,
      Cons.seqBounds, Cons.width, Cons.memberNames]
  obtain ⟨h1, h2⟩ := C52_flags_partial a b (by decide) (by decide) (by decide)
  have hn : ¬ Clash a b := by rw [← h1, h]; decide
  have h3 := (h2 hn).1
  rw [h] at h3
  exact ⟨by decide, by decide, by decide, hn, (h3 _).mp (by decide), (h3 _).mp (by decide), (h3 _).mp (by decide),
    fun hd => absurd ((h3 _).mpr hd) (by decide), fun hd => absurd ((h3 _).mpr hd) (by decide)⟩

end Verif
