import Verif.Lemmas.TreeMap
import Verif.Lemmas.TextDocs
import Verif.Lemmas.DepBefore
/-!
# The tree after a part of the text
-/

namespace Verif.Idl.Syn
open Text Gen
open Dep (Event Node Kind place declared opened)

theorem nameTrans (a b c : Name) (h : a < b) (h' : b < c) : a < c := List.lt_trans h h'
theorem nameTotal (a b : Name) (h : ¬ a < b) (h' : a ≠ b) : b < a := Std.lt_of_le_of_ne h (Ne.symm h')
theorem nameIrrefl (a : Name) : ¬ a < a := List.lt_irrefl a

/-- What a declaration adds to the tables of its module. -/
def entriesOf (p : Loc) (d : Decl) : List (Cat × Name × Item) :=
  ((declKind d).cat, (declName d).toList, itemOf p d) ::
    match d with
    | .enum _ vs => vs.map fun e => (.const, e.1.toList, .const .u32 e.2)
    | _ => []

/-- The enumerators of a declaration. -/
def marksOf : Decl → List Name
  | .enum _ vs => vs.map (·.1.toList)
  | _ => []

theorem fold_mem (l : List (String × Nat)) (t : List (Name × Item)) (e : Name × Item) :
    e ∈ putConsts l t ↔ e ∈ t ∨ ∃ x ∈ l, e = (x.1.toList, .const .u32 x.2) := by
  induction l generalizing t with
  | nil => simp [putConsts]
  | cons x l ih =>
    show e ∈ putConsts l (omIns x.1.toList (.const .u32 x.2) t) ↔ _
    rw [ih, mem_omIns, List.exists_mem_cons_iff]
    tauto

theorem fold_inc : ∀ (l : List (String × Nat)) (t : List (Name × Item)), Increasing t → (l.map (·.1)).Nodup →
    (∀ e ∈ l, omHas t e.1.toList = false) → Increasing (putConsts l t)
  | [], t, h, _, _ => h
  | x :: l, t, h, hn, hf => by
    rw [List.map_cons, List.nodup_cons] at hn
    have hx := omHas_false_iff.mp (hf x (List.mem_cons_self ..))
    refine fold_inc l _ (omIns_increasing nameTrans nameTotal h hx) hn.2 fun e he => ?_
    rw [omHas_false_iff, ((omIns_perm _ _ _).map (·.1)).mem_iff, List.map_cons, List.mem_cons, not_or]
    refine ⟨fun e' => hn.1 ?_, omHas_false_iff.mp (hf e (List.mem_cons_of_mem _ he))⟩
    have e' : e.1 = x.1 := String.toList_inj.mp e'
    exact e' ▸ List.mem_map_of_mem he

theorem decl_inner (p : Loc) (d : Decl) (m : Mod Item) : (addDecl p d m).inner = m.inner := by
  cases m; cases d <;> rfl

/-- The entries of a module with one more declaration. -/
theorem decl_mem {r : Reading} {T : Mod Item} {p : Loc} {d : Decl} (h : Declarable r T p d) (m : Mod Item) (k : Cat) (x : Name) (i : Item) :
    (x, i) ∈ (addDecl p d m).content.get k ↔ (x, i) ∈ m.content.get k ∨ (k, x, i) ∈ entriesOf p d := by
  obtain ⟨c, j⟩ := m
  cases d with
  | struct n q ms =>
    cases k <;> simp only [addDecl, Mod.content, Content.get, entriesOf, declKind, declName, itemOf, Dep.Kind.cat, mem_omIns, List.mem_singleton, Prod.mk.injEq, reduceCtorEq, false_and, or_false, true_and]
    exact or_comm
  | union n u =>
    cases k <;> simp only [addDecl, Mod.content, Content.get, entriesOf, declKind, declName, itemOf, Dep.Kind.cat, mem_omIns, List.mem_singleton, Prod.mk.injEq, reduceCtorEq, false_and, or_false, true_and]
    exact or_comm
  | «alias» n t =>
    cases k <;> simp only [addDecl, Mod.content, Content.get, entriesOf, declKind, declName, itemOf, Dep.Kind.cat, mem_omIns, List.mem_singleton, Prod.mk.injEq, reduceCtorEq, false_and, or_false, true_and]
    exact or_comm
  | const n i' =>
    cases k <;> simp only [addDecl, Mod.content, Content.get, entriesOf, declKind, declName, itemOf, Dep.Kind.cat, mem_omIns, List.mem_singleton, Prod.mk.injEq, reduceCtorEq, false_and, or_false, true_and]
    exact or_comm
  | enum n vs =>
    obtain ⟨h1, h2⟩ := enum_names h
    cases k <;> simp only [addDecl, Mod.content, Content.get, entriesOf, declKind, declName, itemOf, Dep.Kind.cat, mem_omIns, List.mem_cons, List.mem_map, Prod.mk.injEq, reduceCtorEq, false_and, or_false, false_or, true_and, and_false, exists_false]
    · exact or_comm
    · have := fold_mem (inOrder vs) c.consts (x, i)
      refine Iff.trans this (or_congr_right ?_)
      constructor
      · rintro ⟨e, he, hh⟩
        rw [Prod.mk.injEq] at hh
        exact ⟨e, (h1 e).mp he, hh.1.symm, hh.2.symm⟩
      · rintro ⟨e, he, rfl, rfl⟩
        exact ⟨e, (h1 e).mpr he, rfl⟩

theorem decl_marks {r : Reading} {T : Mod Item} {p : Loc} {d : Decl} (h : Declarable r T p d) (m : Mod Item) (x : Name) :
    x ∈ (addDecl p d m).content.fromEnum ↔ x ∈ m.content.fromEnum ∨ x ∈ marksOf d := by
  obtain ⟨c, j⟩ := m
  cases d with
  | enum n vs =>
    obtain ⟨h1, h2⟩ := enum_names h
    simp only [addDecl, Mod.content, marksOf, List.mem_append, List.mem_map]
    refine or_congr_right ⟨?_, ?_⟩
    · rintro ⟨e, he, rfl⟩; exact ⟨e, (h1 e).mp he, rfl⟩
    · rintro ⟨e, he, rfl⟩; exact ⟨e, (h1 e).mpr he, rfl⟩
  | _ => simp [addDecl, Mod.content, marksOf]

theorem decl_inc {r : Reading} {T : Mod Item} {p : Loc} {d : Decl} (h : Declarable r T p d) {m : Mod Item} (hm : T.at p = some m)
    (hi : ∀ k, Increasing (m.content.get k)) (k : Cat) : Increasing ((addDecl p d m).content.get k) := by
  have hfree : ∀ x, Unseen T p x → ∀ k, x ∉ (m.content.get k).map (·.1) := fun x hx k =>
    omHas_false_iff.mp ((hasSymbol_false (free_symbol hm hx)).1 k)
  obtain ⟨c, j⟩ := m
  cases d with
  | struct n q ms =>
    have := omIns_increasing (v := .ty (.struct (scopedStr p n) (Mems.ofList ms))) nameTrans nameTotal (hi .struct) (hfree _ h.1.2 .struct)
    cases k <;> first | exact hi .union | exact hi .alias | exact hi .enum | exact hi .const | exact this
  | union n u =>
    have := omIns_increasing (v := .ty u.toTy) nameTrans nameTotal (hi .union) (hfree _ h.1.2 .union)
    cases k <;> first | exact hi .struct | exact hi .alias | exact hi .enum | exact hi .const | exact this
  | «alias» n t =>
    have := omIns_increasing (v := .ty (.alias (scopedStr p n) t)) nameTrans nameTotal (hi .alias) (hfree _ h.1.2 .alias)
    cases k <;> first | exact hi .struct | exact hi .union | exact hi .enum | exact hi .const | exact this
  | const n i =>
    have := omIns_increasing (v := i) nameTrans nameTotal (hi .const) (hfree _ h.1.2 .const)
    cases k <;> first | exact hi .struct | exact hi .union | exact hi .enum | exact hi .alias | exact this
  | enum n vs =>
    obtain ⟨h1, h2⟩ := enum_names h
    have a := omIns_increasing (v := .ty (.enum (scopedStr p n) .w4 vs)) nameTrans nameTotal (hi .enum) (hfree _ h.1.2 .enum)
    have b := fold_inc (inOrder vs) c.consts (hi .const) h2 fun e he =>
      omHas_false_iff.mpr (hfree _ (h.2.2.2.2.2 e ((h1 e).mp he)).1.2 .const)
    cases k <;> first | exact hi .struct | exact hi .union | exact hi .alias | exact a | exact b

/-- Every place of a tree with one more declaration. -/
theorem enter_places {T m : Mod Item} {p : Loc} (hm : T.at p = some m) (d : Decl) (q : Loc) :
    (q = p ∧ (enter p d T).at q = some (addDecl p d m)) ∨ (q ≠ p ∧ T.at q = none ∧ (enter p d T).at q = none) ∨
    ∃ a b, q ≠ p ∧ T.at q = some a ∧ (enter p d T).at q = some b ∧ Idl.Same a b := by
  rw [enter_at hm]
  by_cases hq : q = p
  · subst hq; exact .inl ⟨rfl, at_modify_self _ hm⟩
  right
  by_cases hs : p <:+ q
  · obtain ⟨s, rfl⟩ := hs
    have hs : s ≠ [] := by rintro rfl; exact hq rfl
    rw [at_below _ hm, at_inner (decl_inner p d m) s hs, at_append, hm, Option.bind_some]
    cases h : m.at s with
    | none => exact .inl ⟨hq, rfl, rfl⟩
    | some a => exact .inr ⟨a, a, hq, rfl, rfl, .refl a⟩
  · rcases at_other (fun _ => addDecl p d m) hm hs with ⟨h1, h2⟩ | ⟨a, b, h1, h2, h3⟩
    · exact .inl ⟨hq, h1, h2⟩
    · exact .inr ⟨a, b, hq, h1, h2, h3⟩

/-! ## The tree after a part of the events -/

/-- The tree has what the events have declared, and nothing else. -/
structure Part (root : Mod Decl) (A : List Event) (T : Mod Item) : Prop where
  mods : ∀ q, (T.at q).isSome ↔ q = [] ∨ Event.open q ∈ A
  tabs : ∀ q m, T.at q = some m → ∀ k x i, (x, i) ∈ m.content.get k ↔
    ∃ n d, Event.decl n ∈ A ∧ element root n = some d ∧ n.loc = q ∧ (k, x, i) ∈ entriesOf q d
  inner : ∀ q m, T.at q = some m → ∀ x, omHas m.inner x = true ↔ Event.open (x :: q) ∈ A
  inc : ∀ q m, T.at q = some m → (∀ k, Increasing (m.content.get k)) ∧ Increasing m.inner
  marks : ∀ q m, T.at q = some m → ∀ x, x ∈ m.content.fromEnum ↔
    ∃ n d, Event.decl n ∈ A ∧ element root n = some d ∧ n.loc = q ∧ x ∈ marksOf d

theorem part_empty (root : Mod Decl) : Part root [] .empty := by
  have h : ∀ (r : Loc) (a : Name), (Mod.empty : Mod Item).at (a :: r) = none := by
    intro r
    induction r with
    | nil => intro a; rfl
    | cons b r ih => intro a; rw [Mod.at, ih]; rfl
  have h0 : ∀ q m, (Mod.empty : Mod Item).at q = some m → m = .empty := by
    intro q m hm
    cases q with
    | nil => exact (Option.some.inj hm).symm
    | cons a r => rw [h] at hm; cases hm
  refine ⟨fun q => ?_, fun q m hm => ?_, fun q m hm => ?_, fun q m hm => ?_, fun q m hm => ?_⟩
  · cases q with
    | nil => exact ⟨fun _ => .inl rfl, fun _ => rfl⟩
    | cons a r => rw [h]; simp
  all_goals obtain rfl := h0 q m hm
  · intro k x i; cases k <;> simp [Mod.empty, Mod.content, Content.get]
  · intro x; simp [Mod.empty, Mod.inner, omHas]
  · exact ⟨fun k => by cases k <;> exact .nil, .nil⟩
  · intro x; simp [Mod.empty, Mod.content]

theorem part_close {root : Mod Decl} {A : List Event} {T : Mod Item} (h : Part root A T) (p : Loc) : Part root (A ++ [.close p]) T := by
  obtain ⟨h1, h2, h3, h4, h5⟩ := h
  refine ⟨fun q => ?_, fun q m hm k x i => ?_, fun q m hm x => ?_, h4, fun q m hm x => ?_⟩
  · rw [h1]; simp
  · rw [h2 q m hm]; simp
  · rw [h3 q m hm]; simp
  · rw [h5 q m hm]; simp

theorem inc_keys {κ α β : Type} [LT κ] {a : List (κ × α)} {b : List (κ × β)} (h : b.map (·.1) = a.map (·.1)) (hi : Increasing a) : Increasing b := by
  have h1 : (a.map (·.1)).Pairwise (· < ·) := List.pairwise_map.mpr hi
  rw [← h] at h1
  exact List.pairwise_map.mp h1

theorem part_decl {root : Mod Decl} {A : List Event} {T : Mod Item} (h : Part root A T) {r : Reading} {n : Node} {d : Decl}
    (hel : element root n = some d) (hd : Declarable r T n.loc d) {m : Mod Item} (hm : T.at n.loc = some m) :
    Part root (A ++ [.decl n]) (enter n.loc d T) := by
  have hp := enter_places hm d
  have hsub : ∀ q (P : Decl → Prop), (∃ n' d', Event.decl n' ∈ A ++ [.decl n] ∧ element root n' = some d' ∧ n'.loc = q ∧ P d') ↔
      (∃ n' d', Event.decl n' ∈ A ∧ element root n' = some d' ∧ n'.loc = q ∧ P d') ∨ (n.loc = q ∧ P d) := by
    intro q P
    constructor
    · rintro ⟨n', d', h1, h2, h3, h4⟩
      rcases List.mem_append.mp h1 with h1 | h1
      · exact .inl ⟨n', d', h1, h2, h3, h4⟩
      · rw [List.mem_singleton, Event.decl.injEq] at h1
        subst h1
        rw [hel, Option.some.injEq] at h2
        subst h2
        exact .inr ⟨h3, h4⟩
    · rintro (⟨n', d', h1, h2, h3, h4⟩ | ⟨h3, h4⟩)
      · exact ⟨n', d', List.mem_append_left _ h1, h2, h3, h4⟩
      · exact ⟨n, d, List.mem_append_right _ (List.mem_singleton.mpr rfl), hel, h3, h4⟩
  obtain ⟨h1, h2, h3, h4, h5⟩ := h
  refine ⟨fun q => ?_, fun q a ha k x i => ?_, fun q a ha x => ?_, fun q a ha => ?_, fun q a ha x => ?_⟩
  · have : (T.at q).isSome = ((enter n.loc d T).at q).isSome := by
      rcases hp q with ⟨rfl, e⟩ | ⟨_, e1, e2⟩ | ⟨_, _, _, e1, e2, _⟩
      · rw [e, hm]; rfl
      · rw [e1, e2]
      · rw [e1, e2]; rfl
    rw [← this, h1]; simp
  · rw [hsub q fun d => (k, x, i) ∈ entriesOf q d]
    rcases hp q with ⟨rfl, e⟩ | ⟨_, e1, e2⟩ | ⟨a', b, hq, e1, e2, e3⟩
    · rw [ha, Option.some.injEq] at e
      subst e
      rw [decl_mem hd, h2 _ _ hm]
      simp
    · rw [e2] at ha; cases ha
    · rw [ha, Option.some.injEq] at e2
      subst e2
      rw [e3.1, h2 _ _ e1]
      simp [Ne.symm hq]
  · have hs : Event.open (x :: q) ∈ A ++ [.decl n] ↔ Event.open (x :: q) ∈ A := by simp
    rw [hs]
    rcases hp q with ⟨rfl, e⟩ | ⟨_, e1, e2⟩ | ⟨a', b, hq, e1, e2, e3⟩
    · rw [ha, Option.some.injEq] at e
      subst e
      rw [decl_inner, h3 _ _ hm]
    · rw [e2] at ha; cases ha
    · rw [ha, Option.some.injEq] at e2
      subst e2
      rw [e3.has, h3 _ _ e1]
  · rcases hp q with ⟨rfl, e⟩ | ⟨_, e1, e2⟩ | ⟨a', b, hq, e1, e2, e3⟩
    · rw [ha, Option.some.injEq] at e
      subst e
      exact ⟨decl_inc hd hm (h4 _ _ hm).1, by rw [decl_inner]; exact (h4 _ _ hm).2⟩
    · rw [e2] at ha; cases ha
    · rw [ha, Option.some.injEq] at e2
      subst e2
      exact ⟨by rw [e3.1]; exact (h4 _ _ e1).1, inc_keys e3.2 (h4 _ _ e1).2⟩
  · rw [hsub q fun d => x ∈ marksOf d]
    rcases hp q with ⟨rfl, e⟩ | ⟨_, e1, e2⟩ | ⟨a', b, hq, e1, e2, e3⟩
    · rw [ha, Option.some.injEq] at e
      subst e
      rw [decl_marks hd, h5 _ _ hm]
      simp
    · rw [e2] at ha; cases ha
    · rw [ha, Option.some.injEq] at e2
      subst e2
      rw [e3.1, h5 _ _ e1]
      simp [Ne.symm hq]

/-- Every place of a tree with one more module. -/
theorem open_places {T m : Mod Item} {p : Loc} {x : Name} (hm : T.at p = some m) (hx : omHas m.inner x = false) (q : Loc) :
    (q = p ∧ (openModule p x T).at q = some (.mk m.content (omIns x (some .empty) m.inner))) ∨
    (q = x :: p ∧ T.at q = none ∧ (openModule p x T).at q = some .empty) ∨
    (q ≠ x :: p ∧ T.at q = none ∧ (openModule p x T).at q = none) ∨
    ∃ a b, q ≠ p ∧ q ≠ x :: p ∧ T.at q = some a ∧ (openModule p x T).at q = some b ∧ Idl.Same a b := by
  have hnone : T.at (x :: p) = none := by
    rw [at_sub hm, omGet_eq_none.mpr (omHas_false_iff.mp hx)]; rfl
  have e : openModule p x T = T.modify p fun _ => .mk m.content (omIns x (some .empty) m.inner) := by
    rw [openModule, hnone, if_neg (by simp)]
    exact modify_congr hm rfl
  rw [e]
  by_cases hq : q = p
  · subst hq; exact .inl ⟨rfl, at_modify_self _ hm⟩
  right
  by_cases hs : p <:+ q
  · obtain ⟨s, rfl⟩ := hs
    have hs : s ≠ [] := by rintro rfl; exact hq rfl
    obtain ⟨s, a, rfl⟩ := List.eq_nil_or_concat s |>.resolve_left hs
    rw [List.concat_eq_append, at_below _ hm, at_append, at_append, hm, Option.bind_some, at_append]
    simp only [Mod.at, Option.bind_some]
    rw [show (Mod.mk m.content (omIns x (some .empty) m.inner)).inner = omIns x (some .empty) m.inner from rfl, omGet_ins_inner hx]
    by_cases hxa : x = a
    · subst hxa
      rw [if_pos rfl]
      have hg : omGet m.inner x = none := omGet_eq_none.mpr (omHas_false_iff.mp hx)
      rw [hg]
      cases s with
      | nil => exact .inl ⟨by simp, rfl, rfl⟩
      | cons b s =>
        right; left
        refine ⟨by intro h; have := congrArg List.length h; simp at this; omega, rfl, ?_⟩
        show (Mod.empty : Mod Item).at (b :: s) = none
        have : ∀ (r : Loc) (a : Name), (Mod.empty : Mod Item).at (a :: r) = none := by
          intro r
          induction r with
          | nil => intro a; rfl
          | cons b r ih => intro a; rw [Mod.at, ih]; rfl
        exact this s b
    · rw [if_neg hxa]
      right
      have hne : s ++ [a] ++ p ≠ x :: p := by
        intro h
        rw [List.append_assoc] at h
        rcases s with _ | ⟨b, s⟩
        · simp at h; exact hxa h.symm
        · have := congrArg List.length h; simp at this; omega
      cases h : (omGet m.inner a).join.bind fun x => x.at s with
      | none => exact .inl ⟨hne, rfl, rfl⟩
      | some b => exact .inr ⟨b, b, by rwa [List.concat_eq_append] at hq, hne, rfl, rfl, .refl b⟩
  · right
    have hne : q ≠ x :: p := by rintro rfl; exact hs (List.suffix_cons x p)
    rcases at_other (fun _ => Mod.mk m.content (omIns x (some .empty) m.inner)) hm hs with ⟨h1, h2⟩ | ⟨a, b, h1, h2, h3⟩
    · exact .inl ⟨hne, h1, h2⟩
    · exact .inr ⟨a, b, hq, hne, h1, h2, h3⟩

theorem part_open {root : Mod Decl} {A : List Event} {T : Mod Item} (h : Part root A T) {p : Loc} {x : Name} {m : Mod Item}
    (hm : T.at p = some m) (hx : Event.open (x :: p) ∉ A) (hwf : ∀ n, Event.decl n ∈ A → n.loc ≠ x :: p)
    (hwf' : ∀ y, Event.open (y :: x :: p) ∉ A) : Part root (A ++ [.open (x :: p)]) (openModule p x T) := by
  have hno : omHas m.inner x = false := by rw [Bool.eq_false_iff]; intro hh; exact hx ((h.inner _ _ hm x).mp hh)
  have hp := open_places hm hno
  have hd : ∀ n, Event.decl n ∈ A ++ [.open (x :: p)] ↔ Event.decl n ∈ A := by simp
  have ho : ∀ q, Event.open q ∈ A ++ [.open (x :: p)] ↔ Event.open q ∈ A ∨ q = x :: p := by simp
  obtain ⟨h1, h2, h3, h4, h5⟩ := h
  refine ⟨fun q => ?_, fun q a ha k y i => ?_, fun q a ha y => ?_, fun q a ha => ?_, fun q a ha y => ?_⟩
  · rw [ho]
    rcases hp q with ⟨rfl, e⟩ | ⟨rfl, e1, e2⟩ | ⟨hq, e1, e2⟩ | ⟨a', b, hq, hq', e1, e2, e3⟩
    · have := (h1 q).mp (by rw [hm]; rfl)
      rw [e]; tauto
    · rw [e2]; simp
    · have := (h1 q).not.mp (by rw [e1]; simp)
      rw [e2]; simp; tauto
    · have := (h1 q).mp (by rw [e1]; rfl)
      rw [e2]; tauto
  · simp only [hd]
    rcases hp q with ⟨rfl, e⟩ | ⟨rfl, e1, e2⟩ | ⟨hq, e1, e2⟩ | ⟨a', b, hq, hq', e1, e2, e3⟩
    · rw [ha, Option.some.injEq] at e
      subst e
      exact h2 _ _ hm k y i
    · rw [ha, Option.some.injEq] at e2
      subst e2
      constructor
      · intro hh; cases k <;> simp [Mod.empty, Mod.content, Content.get] at hh
      · rintro ⟨n, d, k1, k2, k3, k4⟩; exact absurd k3 (hwf n k1)
    · rw [e2] at ha; cases ha
    · rw [ha, Option.some.injEq] at e2
      subst e2
      rw [e3.1]
      exact h2 _ _ e1 k y i
  · rw [ho]
    rcases hp q with ⟨rfl, e⟩ | ⟨rfl, e1, e2⟩ | ⟨hq, e1, e2⟩ | ⟨a', b, hq, hq', e1, e2, e3⟩
    · rw [ha, Option.some.injEq] at e
      subst e
      rw [← h3 _ _ hm, omHas_iff, omHas_iff]
      show y ∈ (omIns x (some Mod.empty) m.inner).map (·.1) ↔ _
      rw [((omIns_perm x (some Mod.empty) m.inner).map (·.1)).mem_iff, List.map_cons, List.mem_cons, List.cons.injEq]
      simp only [and_true]
      exact or_comm
    · rw [ha, Option.some.injEq] at e2
      subst e2
      constructor
      · intro hh; simp [Mod.empty, Mod.inner, omHas] at hh
      · rintro (hh | hh)
        · exact absurd hh (hwf' y)
        · have := congrArg List.length hh; simp at this
    · rw [e2] at ha; cases ha
    · rw [ha, Option.some.injEq] at e2
      subst e2
      rw [e3.has, h3 _ _ e1]
      have : ¬ (y :: q = x :: p) := by intro hh; rw [List.cons.injEq] at hh; exact hq hh.2
      tauto
  · rcases hp q with ⟨rfl, e⟩ | ⟨rfl, e1, e2⟩ | ⟨hq, e1, e2⟩ | ⟨a', b, hq, hq', e1, e2, e3⟩
    · rw [ha, Option.some.injEq] at e
      subst e
      exact ⟨(h4 _ _ hm).1, omIns_increasing nameTrans nameTotal (h4 _ _ hm).2 (omHas_false_iff.mp hno)⟩
    · rw [ha, Option.some.injEq] at e2
      subst e2
      exact ⟨fun k => by cases k <;> exact .nil, .nil⟩
    · rw [e2] at ha; cases ha
    · rw [ha, Option.some.injEq] at e2
      subst e2
      exact ⟨by rw [e3.1]; exact (h4 _ _ e1).1, inc_keys e3.2 (h4 _ _ e1).2⟩
  · simp only [hd]
    rcases hp q with ⟨rfl, e⟩ | ⟨rfl, e1, e2⟩ | ⟨hq, e1, e2⟩ | ⟨a', b, hq, hq', e1, e2, e3⟩
    · rw [ha, Option.some.injEq] at e
      subst e
      exact h5 _ _ hm y
    · rw [ha, Option.some.injEq] at e2
      subst e2
      constructor
      · intro hh; simp [Mod.empty, Mod.content] at hh
      · rintro ⟨n, d, k1, k2, k3, k4⟩; exact absurd k3 (hwf n k1)
    · rw [e2] at ha; cases ha
    · rw [ha, Option.some.injEq] at e2
      subst e2
      rw [e3.1]
      exact h5 _ _ e1 y

end Verif.Idl.Syn
