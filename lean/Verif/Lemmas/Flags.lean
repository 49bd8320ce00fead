import Verif.Spec.Flags
import Verif.Props.Compat
/-!
# The consistency result as a set of kinds of difference
-/

namespace Verif

/-- The bit of a flag. -/
def Flag.bit : Flag → Nat
  | .sign => 0 | .width => 1 | .seqBounds => 2 | .arrayBounds => 3 | .stringBounds => 4 | .memberNames => 5
  | .members => 6 | .mapBounds => 7

theorem Flag.bit_inj {f g : Flag} (h : f.bit = g.bit) : f = g := by cases f <;> cases g <;> first | rfl | cases h

theorem Flag.cons_getLsbD (f : Flag) (i : Nat) : f.cons.getLsbD i = true ↔ f.bit = i := by
  by_cases hi : i < 8
  · have : i = 0 ∨ i = 1 ∨ i = 2 ∨ i = 3 ∨ i = 4 ∨ i = 5 ∨ i = 6 ∨ i = 7 := by omega
    rcases this with rfl | rfl | rfl | rfl | rfl | rfl | rfl | rfl <;> cases f <;> decide
  · have hlt : f.cons.toNat < 2 ^ i :=
      Nat.lt_of_lt_of_le (show f.cons.toNat < 2 ^ 8 by cases f <;> decide)
        (Nat.pow_le_pow_right (by decide) (by omega))
    rw [← BitVec.testBit_toNat, Nat.testBit_lt_two_pow hlt]
    constructor
    · intro h; cases h
    · intro h; cases f <;> simp only [Flag.bit] at h <;> omega

/-- `c` is `NONE` when the types clash, otherwise the set of the kinds of difference. -/
def Means (c : Cons) (C : Prop) (D : Flag → Prop) : Prop :=
  (C ∧ c = Cons.none) ∨ (¬ C ∧ ∀ i, c.getLsbD i = true ↔ ∃ f : Flag, f.bit = i ∧ D f)

theorem Means.congr {c : Cons} {C C' : Prop} {D D' : Flag → Prop} (h : Means c C D) (hC : C ↔ C')
    (hD : ∀ f, D f ↔ D' f) : Means c C' D' := by
  have : D = D' := funext fun f => propext (hD f)
  subst this
  have : C = C' := propext hC
  subst this
  exact h

theorem Means.ne_none {c : Cons} {C : Prop} {D : Flag → Prop} (h : Means c C D) : c = Cons.none ↔ C := by
  rcases h with ⟨h, e⟩ | ⟨h, e⟩
  · simp [h, e]
  · simp only [h, iff_false]
    rintro rfl
    obtain ⟨f, hf, -⟩ := (e 31).mp (by decide)
    cases f <;> cases hf

theorem Means.or {c c' : Cons} {C C' : Prop} {D D' : Flag → Prop} (h : Means c C D) (h' : Means c' C' D') :
    Means (Cons.or c c') (C ∨ C') (fun f => D f ∨ D' f) := by
  rcases h with ⟨h, rfl⟩ | ⟨h, e⟩
  · exact .inl ⟨.inl h, by simp⟩
  rcases h' with ⟨h', rfl⟩ | ⟨h', e'⟩
  · exact .inl ⟨.inr h', by simp⟩
  refine .inr ⟨by simp [h, h'], fun i => ?_⟩
  rw [Cons.or, BitVec.getLsbD_or, Bool.or_eq_true, e, e']
  constructor
  · rintro (⟨f, h1, h2⟩ | ⟨f, h1, h2⟩)
    · exact ⟨f, h1, .inl h2⟩
    · exact ⟨f, h1, .inr h2⟩
  · rintro ⟨f, h1, h2 | h2⟩
    · exact .inl ⟨f, h1, h2⟩
    · exact .inr ⟨f, h1, h2⟩

theorem Means.none {C : Prop} {D : Flag → Prop} (h : C) : Means Cons.none C D := .inl ⟨h, rfl⟩

theorem Means.equals : Means Cons.equals False (fun _ => False) :=
  .inr ⟨id, fun i => by simp [Cons.equals]⟩

theorem Means.flag (g : Flag) : Means g.cons False (fun f => f = g) :=
  .inr ⟨id, fun i => by rw [Flag.cons_getLsbD]; simp⟩

theorem Means.ite {p : Prop} [Decidable p] (g : Flag) :
    Means (if p then g.cons else Cons.equals) False (fun f => p ∧ f = g) := by
  by_cases h : p
  · rw [if_pos h]; exact (Means.flag g).congr Iff.rfl fun f => by simp [h]
  · rw [if_neg h]; exact Means.equals.congr Iff.rfl fun f => by simp [h]

/-! ## One level -/

theorem at_cases {a b c d : Ty} : At a b c d ↔
    (c = a.rget ∧ d = b.rget) ∨ ∃ x y, Part a.rget b.rget x y ∧ At x y c d := by
  constructor
  · rintro (⟨⟩ | ⟨_, _, x, y, _, _, h, h'⟩)
    · exact .inl ⟨rfl, rfl⟩
    · exact .inr ⟨x, y, h, h'⟩
  · rintro (⟨rfl, rfl⟩ | ⟨x, y, h, h'⟩)
    · exact .here _ _
    · exact .inside _ _ _ _ _ _ h h'

theorem clash_iff {a b : Ty} : Clash a b ↔
    ¬ Comparable a.rget b.rget ∨ ∃ x y, Part a.rget b.rget x y ∧ Clash x y := by
  constructor
  · rintro ⟨c, d, h, hn⟩
    rcases at_cases.mp h with ⟨rfl, rfl⟩ | ⟨x, y, h1, h2⟩
    · exact .inl hn
    · exact .inr ⟨x, y, h1, c, d, h2, hn⟩
  · rintro (h | ⟨x, y, h1, c, d, h2, h3⟩)
    · exact ⟨_, _, .here _ _, h⟩
    · exact ⟨c, d, .inside _ _ _ _ _ _ h1 h2, h3⟩

theorem differs_iff {f : Flag} {a b : Ty} : Differs f a b ↔
    Differ f a.rget b.rget ∨ ∃ x y, Part a.rget b.rget x y ∧ Differs f x y := by
  constructor
  · rintro ⟨c, d, h, hn⟩
    rcases at_cases.mp h with ⟨rfl, rfl⟩ | ⟨x, y, h1, h2⟩
    · exact .inl hn
    · exact .inr ⟨x, y, h1, c, d, h2, hn⟩
  · rintro (h | ⟨x, y, h1, c, d, h2, h3⟩)
    · exact ⟨_, _, .here _ _, h⟩
    · exact ⟨c, d, .inside _ _ _ _ _ _ h1 h2, h3⟩

/-- Members at the same place clash. -/
def ClashM (ms os : Mems) : Prop :=
  ∃ i x t y u, ms.get? i = some (x, t) ∧ os.get? i = some (y, u) ∧ Clash t u

/-- The lists of members differ. -/
def DiffersM (f : Flag) (ms os : Mems) : Prop :=
  (ms.length ≠ os.length ∧ f = .members) ∨
  (∃ i x t y u, ms.get? i = some (x, t) ∧ os.get? i = some (y, u) ∧ x ≠ y ∧ f = .memberNames) ∨
  ∃ i x t y u, ms.get? i = some (x, t) ∧ os.get? i = some (y, u) ∧ Differs f t u

theorem Aggregates.rget {a b : Ty} {ms os : Mems} (h : Aggregates a b ms os) : a.rget = a ∧ b.rget = b := by
  cases h <;> exact ⟨rfl, rfl⟩

theorem Aggregates.unique {a b : Ty} {ms os ms' os' : Mems} (h : Aggregates a b ms os)
    (h' : Aggregates a b ms' os') : ms' = ms ∧ os' = os := by
  cases h <;> cases h' <;> exact ⟨rfl, rfl⟩

theorem clash_aggr {a b : Ty} {ms os : Mems} (h : Aggregates a b ms os) : Clash a b ↔ ClashM ms os := by
  rw [clash_iff, h.rget.1, h.rget.2]
  constructor
  · rintro (hn | ⟨x, y, hp, hc⟩)
    · exact absurd (.aggregates _ _ _ _ h) hn
    · cases hp with
      | member a b ms' os' i x t y u h' h1 h2 =>
        obtain ⟨rfl, rfl⟩ := h.unique h'
        exact ⟨_, _, _, _, _, h1, h2, hc⟩
      | _ => cases h
  · rintro ⟨i, x, t, y, u, h1, h2, h3⟩
    exact .inr ⟨t, u, .member _ _ _ _ _ _ _ _ _ h h1 h2, h3⟩

theorem differs_aggr {f : Flag} {a b : Ty} {ms os : Mems} (h : Aggregates a b ms os) :
    Differs f a b ↔ DiffersM f ms os := by
  rw [differs_iff, h.rget.1, h.rget.2]
  constructor
  · rintro (hd | ⟨x, y, hp, hc⟩)
    · cases hd with
      | members a b ms' os' h' h1 =>
        obtain ⟨rfl, rfl⟩ := h.unique h'
        exact .inl ⟨h1, rfl⟩
      | names a b ms' os' i x t y u h' h1 h2 h3 =>
        obtain ⟨rfl, rfl⟩ := h.unique h'
        exact .inr (.inl ⟨_, _, _, _, _, h1, h2, h3, rfl⟩)
      | _ => cases h
    · cases hp with
      | member a b ms' os' i x t y u h' h1 h2 =>
        obtain ⟨rfl, rfl⟩ := h.unique h'
        exact .inr (.inr ⟨_, _, _, _, _, h1, h2, hc⟩)
      | _ => cases h
  · rintro (⟨h1, rfl⟩ | ⟨i, x, t, y, u, h1, h2, h3, rfl⟩ | ⟨i, x, t, y, u, h1, h2, h3⟩)
    · exact .inl (.members _ _ _ _ h h1)
    · exact .inl (.names _ _ _ _ _ _ _ _ _ h h1 h2 h3)
    · exact .inr ⟨t, u, .member _ _ _ _ _ _ _ _ _ h h1 h2, h3⟩

theorem clashM_cons {x y : String} {t u : Ty} {r s : Mems} :
    ClashM (.cons x t r) (.cons y u s) ↔ Clash t u ∨ ClashM r s := by
  constructor
  · rintro ⟨i, a, t', b, u', h1, h2, h3⟩
    cases i with
    | zero =>
      simp only [Mems.get?, Option.some.injEq, Prod.mk.injEq] at h1 h2
      obtain ⟨-, rfl⟩ := h1; obtain ⟨-, rfl⟩ := h2
      exact .inl h3
    | succ i => exact .inr ⟨i, a, t', b, u', h1, h2, h3⟩
  · rintro (h | ⟨i, a, t', b, u', h1, h2, h3⟩)
    · exact ⟨0, x, t, y, u, rfl, rfl, h⟩
    · exact ⟨i + 1, a, t', b, u', h1, h2, h3⟩

theorem differsM_cons {f : Flag} {x y : String} {t u : Ty} {r s : Mems} :
    DiffersM f (.cons x t r) (.cons y u s) ↔ (x ≠ y ∧ f = .memberNames) ∨ Differs f t u ∨ DiffersM f r s := by
  constructor
  · rintro (⟨h, rfl⟩ | ⟨i, a, t', b, u', h1, h2, h3, rfl⟩ | ⟨i, a, t', b, u', h1, h2, h3⟩)
    · simp only [Mems.length, ne_eq, Nat.add_right_cancel_iff] at h
      exact .inr (.inr (.inl ⟨h, rfl⟩))
    · cases i with
      | zero =>
        simp only [Mems.get?, Option.some.injEq, Prod.mk.injEq] at h1 h2
        obtain ⟨rfl, rfl⟩ := h1; obtain ⟨rfl, rfl⟩ := h2
        exact .inl ⟨h3, rfl⟩
      | succ i => exact .inr (.inr (.inr (.inl ⟨i, a, t', b, u', h1, h2, h3, rfl⟩)))
    · cases i with
      | zero =>
        simp only [Mems.get?, Option.some.injEq, Prod.mk.injEq] at h1 h2
        obtain ⟨rfl, rfl⟩ := h1; obtain ⟨rfl, rfl⟩ := h2
        exact .inr (.inl h3)
      | succ i => exact .inr (.inr (.inr (.inr ⟨i, a, t', b, u', h1, h2, h3⟩)))
  · rintro (⟨h, rfl⟩ | h | ⟨h, rfl⟩ | ⟨i, a, t', b, u', h1, h2, h3, rfl⟩ | ⟨i, a, t', b, u', h1, h2, h3⟩)
    · exact .inr (.inl ⟨0, x, t, y, u, rfl, rfl, h, rfl⟩)
    · exact .inr (.inr ⟨0, x, t, y, u, rfl, rfl, h⟩)
    · exact .inl ⟨by simpa [Mems.length] using h, rfl⟩
    · exact .inr (.inl ⟨i + 1, a, t', b, u', h1, h2, h3, rfl⟩)
    · exact .inr (.inr ⟨i + 1, a, t', b, u', h1, h2, h3⟩)

theorem Ty.rget_multi : (t : Ty) → t.multi = true → t.rget.multi = true
  | .alias _ t, h => by simp only [Ty.rget]; exact Ty.rget_multi t (by simpa [Ty.multi] using h)
  | .prim _, h | .enum _ _ _, h | .str _ _, h | .seq _ _, h | .arr _ _ _, h | .map _ _ _, h
  | .pair _ _, h | .struct _ _, h | .union _ _ _ _, h => by simpa [Ty.rget] using h

theorem Ty.rget_bare : (t : Ty) → t.bare = true → t.rget.bare = true
  | .alias _ t, h => by
    simp only [Ty.rget]; simp only [Ty.bare, Bool.and_eq_true] at h; exact Ty.rget_bare t h.2
  | .prim _, h | .enum _ _ _, h | .str _ _, h | .seq _ _, h | .arr _ _ _, h | .map _ _ _, h
  | .pair _ _, h | .struct _ _, h | .union _ _ _ _, h => by simpa [Ty.rget] using h

theorem compat_rget {a b : Ty} (hb : b.bare = true) : compat a b = compat a.rget b.rget := by
  cases h : a.isAlias
  · have ha : a.rget = a := Ty.rget_of_not_alias h
    cases h' : b.isAlias
    · rw [ha, Ty.rget_of_not_alias h']
    · cases b <;> simp [Ty.isAlias] at h'
      rename_i n u
      simp only [Ty.bare, Bool.and_eq_true, Bool.not_eq_true'] at hb
      exact C23_compat_alias_partial a (.alias n u) (.inr hb.1)
  · cases a <;> simp [Ty.isAlias] at h
    rename_i n t
    rw [compat_alias_left]; rfl

theorem clash_rget {a b : Ty} : Clash a b ↔ Clash a.rget b.rget := by
  rw [clash_iff, clash_iff (a := a.rget), Ty.rget_of_not_alias (Ty.rget_not_alias a),
    Ty.rget_of_not_alias (Ty.rget_not_alias b)]

theorem differs_rget {f : Flag} {a b : Ty} : Differs f a b ↔ Differs f a.rget b.rget := by
  rw [differs_iff, differs_iff (a := a.rget), Ty.rget_of_not_alias (Ty.rget_not_alias a),
    Ty.rget_of_not_alias (Ty.rget_not_alias b)]

theorem unsigned_iff (k : PK) : k.unsignedBit = true ↔ k.unsigned := by cases k <;> simp [PK.unsignedBit, PK.unsigned]

/-- Two types without parts. -/
theorem means_leaf {a b : Ty} {c : Cons} {D : Flag → Prop} (ha : a.isAlias = false) (hb : b.isAlias = false)
    (hc : Comparable a b) (hp : ∀ x y, ¬ Part a b x y) (h : Means c False D) (hD : ∀ f, D f ↔ Differ f a b) :
    Means c (Clash a b) (fun f => Differs f a b) := by
  refine h.congr ?_ ?_
  · rw [clash_iff, Ty.rget_of_not_alias ha, Ty.rget_of_not_alias hb]
    simp only [hc, not_true_eq_false, false_or, false_iff, not_exists, not_and]
    exact fun x y h' => absurd h' (hp x y)
  · intro f
    rw [differs_iff, Ty.rget_of_not_alias ha, Ty.rget_of_not_alias hb, hD]
    constructor
    · exact .inl
    · rintro (h' | ⟨x, y, h', -⟩)
      · exact h'
      · exact absurd h' (hp x y)

theorem means_clash {a b : Ty} (ha : a.isAlias = false) (hb : b.isAlias = false) (h : ¬ Comparable a b) :
    Means Cons.none (Clash a b) (fun f => Differs f a b) := by
  apply Means.none
  rw [clash_iff, Ty.rget_of_not_alias ha, Ty.rget_of_not_alias hb]
  exact .inl h

end Verif
