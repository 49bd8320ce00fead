import Verif.Lemmas.TreeOk
/-!
# The types of a tree are found in a part of it
-/

namespace Verif.Idl.Syn
open Text Gen
open Dep (Event Node Kind place declared opened EnumeratorConst Uses Before declOf typeNames memNames printedNames)

section
variable {r : Reading} {root : Mod Decl} {A : List Event} {T : Mod Item}

theorem tree_ids (hE : ExpressibleTree r root) : ∀ {q : Loc}, (root.at q).isSome → ∀ a ∈ q, Ident a
  | [], _, a, ha => by cases ha
  | b :: q, h, a, ha => by
    rcases List.mem_cons.mp ha with rfl | ha
    · have := hE.names a q ((declares_iff hE.sound.full).mpr (.inr h))
      have := ident_ident this.1
      rwa [String.toList_ofList] at this
    · exact tree_ids hE (at_tail h) a ha

theorem element_at {n : Node} (h : (element root n).isSome) : (root.at n.loc).isSome := by
  unfold element at h
  cases hm : root.at n.loc with
  | none => simp [hm] at h
  | some m => rfl

theorem tree_name (hE : ExpressibleTree r root) {n : Node} (h : (element root n).isSome) : Ident n.name := by
  have := ident_ident (hE.names _ _ (element_declares hE.sound.full h)).1
  rwa [String.toList_ofList] at this

/-- A type that has been declared. -/
theorem Part.type (hP : Part root A T) (hA : About root A) (hS : Sound root) (hD : Distinct root) {m : Node} {d : Decl}
    (hm : element root m = some d) (hin : Event.decl m ∈ A) (hat : (T.at m.loc).isSome) {ty : Ty} (hty : declTy m.loc d = some ty) :
    Declares T m.name m.loc ∧ typeOf T false (.found m.loc m.name) = some (some (.ty ty)) ∧
    omGet (((T.at m.loc).map fun x => x.content.get m.kind.cat).getD []) m.name = some (.ty ty) := by
  obtain ⟨M, hM⟩ := Option.isSome_iff_exists.mp hat
  obtain ⟨h1, h2⟩ := hS.entries m d hm
  have hi : itemOf m.loc d = .ty ty := by
    cases d <;> simp only [declTy, Option.some.injEq, reduceCtorEq] at hty <;> rw [← hty] <;> rfl
  have hmem : (m.name, Item.ty ty) ∈ M.content.get m.kind.cat := by
    refine (hP.tabs _ M hM _ _ _).mpr ⟨m, d, hin, hm, rfl, ?_⟩
    unfold entriesOf
    rw [h1, h2, hi]
    exact List.mem_cons_self ..
  have hget := (hP.get hM).mpr hmem
  have hother : ∀ k, k ≠ m.kind.cat → omGet (M.content.get k) m.name = none := by
    intro k hk
    cases hg : omGet (M.content.get k) m.name with
    | none => rfl
    | some i =>
      obtain ⟨n', d', k1, k2, k3, k4⟩ := (hP.tabs _ M hM _ _ _).mp ((hP.get hM).mp hg)
      obtain ⟨kd, d'', k5, k6, _⟩ := entry_final hS k2 k3 k4
      have := hD.kinds m ⟨m.loc, kd, m.name⟩ (by rw [hm]; rfl) (by rw [k6]; rfl) rfl rfl
      rw [this] at hk
      exact absurd k5.symm hk
  refine ⟨⟨M, hM, ?_⟩, ?_, by rw [hM]; exact hget⟩
  · have hh : omHas (M.content.get m.kind.cat) m.name = true := by rw [← omGet_isSome, hget]; rfl
    cases hk : m.kind <;> rw [hk] at hh <;> simp only [Dep.Kind.cat, Content.get] at hh <;> simp [Mod.hasSymbol, hh]
  · have hc : m.kind ≠ .const := by
      rw [← h1]
      cases d <;> simp only [declTy, reduceCtorEq] at hty <;> simp [declKind]
    unfold typeOf
    simp only [hM]
    have o1 := hother .alias
    have o2 := hother .union
    have o3 := hother .struct
    have o4 := hother .enum
    cases hk : m.kind with
    | const => exact absurd hk hc
    | «alias» => rw [hk] at hget; simp only [Dep.Kind.cat, Content.get] at hget; simp [hget]
    | union =>
      rw [hk] at hget o1
      have o1 := o1 (by simp [Dep.Kind.cat])
      simp only [Dep.Kind.cat, Content.get] at hget o1
      simp [hget, o1]
    | struct =>
      rw [hk] at hget o1 o2
      have o1 := o1 (by simp [Dep.Kind.cat])
      have o2 := o2 (by simp [Dep.Kind.cat])
      simp only [Dep.Kind.cat, Content.get] at hget o1 o2
      simp [hget, o1, o2]
    | enum =>
      rw [hk] at hget o1 o2 o3
      have o1 := o1 (by simp [Dep.Kind.cat])
      have o2 := o2 (by simp [Dep.Kind.cat])
      have o3 := o3 (by simp [Dep.Kind.cat])
      simp only [Dep.Kind.cat, Content.get] at hget o1 o2 o3
      simp [hget, o1, o2, o3]

/-- A type that has been declared is found. -/
theorem Part.means (hP : Part root A T) (hA : About root A) (hE : ExpressibleTree r root) {m : Node} {d : Decl}
    (hm : element root m = some d) (hin : Event.decl m ∈ A) (hat : (T.at m.loc).isSome) {ty : Ty} (hty : declTy m.loc d = some ty)
    {p : Loc} (hp : (T.at p).isSome) :
    Means T p (scopedStr m.loc (declName d)) ty ∧ (m.loc = p → Means T p (declName d) ty) := by
  obtain ⟨h1, h2, _⟩ := hP.type hA hE.sound hE.distinct hm hin hat hty
  have hn : (declName d).toList = m.name := (hE.sound.entries m d hm).2
  have hs : (element root m).isSome := by rw [hm]; rfl
  have hid := tree_name hE hs
  refine ⟨⟨m.loc, m.name, ?_, h2⟩, ?_⟩
  · rw [scopedStr, String.toList_ofList, hn]
    exact hP.lookup hA hE.sound hE.distinct hp (tree_ids hE (element_at hs)) hid.2 h1
  · rintro rfl
    refine ⟨m.loc, m.name, ?_, h2⟩
    rw [hn]
    exact (lookup_plain hp (cut_none hid.2) _ _).mpr ⟨rfl, innermost_self h1⟩

/-- … by what is printed for it. -/
theorem Part.stands (hP : Part root A T) (hA : About root A) (hE : ExpressibleTree r root) (hat : ∀ n, Event.decl n ∈ A → (T.at n.loc).isSome)
    {p : Loc} (hp : (T.at p).isSome) (hp' : (root.at p).isSome) {n : String} {U : Ty} (hk : Known root n U)
    (hin : ∀ m d, element root m = some d → n = scopedStr m.loc (declName d) → Event.decl m ∈ A) (full : Bool) : Stands T p full n U := by
  obtain ⟨m, d, h1, h2, rfl⟩ := hk
  have h3 := hin m d h1 rfl
  obtain ⟨k1, k2⟩ := hP.means hA hE h1 h3 (hat m h3) h2 hp
  have hn : (declName d).toList = m.name := (hE.sound.entries m d h1).2
  have hs : (element root m).isSome := by rw [h1]; rfl
  have hid := tree_name hE hs
  have hsh : Means T p (shown p full (scopedStr m.loc (declName d))) U := by
    unfold shown
    rw [scopedStr, String.toList_ofList, hn]
    by_cases hl : m.loc = []
    · rw [hl, scopedName_nil, Dep.rcut_none hid.2]
      rw [scopedStr, hl, scopedName_nil, hn] at k1
      exact k1
    · rw [Dep.rcut_scopedName (tree_ids hE (element_at hs)) hl hid.2]
      simp only
      split
      · rename_i hc
        have := Dep.scope_inj (tree_ids hE (element_at hs)) (tree_ids hE hp') hc.1
        have := k2 this
        rwa [← hn, String.ofList_toList]
      · rw [scopedStr, hn] at k1; exact k1
  unfold Stands
  split
  · exact k1
  · exact hsh

/-- The types that are mentioned are found. -/
theorem Part.writable (hP : Part root A T) (hA : About root A) (hE : ExpressibleTree r root) (hat : ∀ n, Event.decl n ∈ A → (T.at n.loc).isSome)
    {p : Loc} (hp : (T.at p).isSome) (hp' : (root.at p).isSome) (full : Bool) (U : Ty) (hw : Writable r (Known root) U)
    (hin : ∀ x ∈ typeNames U, ∀ m d, element root m = some d → x = scopedName m.loc m.name → Event.decl m ∈ A) :
    Writable r (Stands T p full) U := by
  have key : ∀ (n : String) (V : Ty), Known root n V → (∀ m d, element root m = some d → n.toList = scopedName m.loc m.name → Event.decl m ∈ A) →
      Stands T p full n V := by
    intro n V hk h
    refine hP.stands hA hE hat hp hp' hk (fun m d hm e => h m d hm ?_) full
    rw [e, scopedStr, String.toList_ofList, (hE.sound.entries m d hm).2]
  induction U using Ty.ind with
  | prim k => exact hw
  | str k b => exact hw
  | seq c b ih => exact ⟨ih hw.1 hin, hw.2⟩
  | map k v b ih1 ih2 =>
    exact ⟨ih1 hw.1 fun x hx => hin x (List.mem_append_left _ hx), ih2 hw.2.1 fun x hx => hin x (List.mem_append_right _ hx), hw.2.2⟩
  | als n t ih => exact ⟨hw.1, key _ _ hw.2 (hin _ (List.mem_singleton.mpr rfl))⟩
  | enum n w vs => exact ⟨hw.1, key _ _ hw.2 (hin _ (List.mem_singleton.mpr rfl))⟩
  | struct n ms ih => exact ⟨hw.1, key _ _ hw.2 (hin _ (List.mem_singleton.mpr rfl))⟩
  | union n d ms i ih1 ih2 => exact ⟨hw.1, key _ _ hw.2 (hin _ (List.mem_singleton.mpr rfl))⟩
  | arr n c d ih => exact absurd hw id
  | pair a b ih1 ih2 => exact absurd hw id

/-! ## No type mentions itself -/

theorem writable_size {K : String → Ty → Prop} (U : Ty) (hw : Writable r K U) {x : Name} (hx : x ∈ typeNames U) :
    ∃ N, K (String.ofList x) N ∧ sizeOf N ≤ sizeOf U := by
  induction U using Ty.ind with
  | prim k => cases hx
  | str k b => cases hx
  | seq c b ih =>
    obtain ⟨N, h1, h2⟩ := ih hw.1 hx
    exact ⟨N, h1, by simp; omega⟩
  | map k v b ih1 ih2 =>
    rcases List.mem_append.mp hx with hx | hx
    · obtain ⟨N, h1, h2⟩ := ih1 hw.1 hx; exact ⟨N, h1, by simp; omega⟩
    · obtain ⟨N, h1, h2⟩ := ih2 hw.2.1 hx; exact ⟨N, h1, by simp; omega⟩
  | als n t ih => obtain rfl := List.mem_singleton.mp hx; rw [String.ofList_toList]; exact ⟨_, hw.2, Nat.le_refl _⟩
  | enum n w vs => obtain rfl := List.mem_singleton.mp hx; rw [String.ofList_toList]; exact ⟨_, hw.2, Nat.le_refl _⟩
  | struct n ms ih => obtain rfl := List.mem_singleton.mp hx; rw [String.ofList_toList]; exact ⟨_, hw.2, Nat.le_refl _⟩
  | union n d ms i ih1 ih2 => obtain rfl := List.mem_singleton.mp hx; rw [String.ofList_toList]; exact ⟨_, hw.2, Nat.le_refl _⟩
  | arr n c d ih => exact absurd hw id
  | pair a b ih1 ih2 => exact absurd hw id

theorem innermost_names : ∀ (U : Ty), typeNames (innermost U) = typeNames U
  | .arr _ c _ => by rw [innermost, typeNames]; exact innermost_names c
  | .prim _ => rfl
  | .str _ _ => rfl
  | .seq _ _ => rfl
  | .map _ _ _ => rfl
  | .alias _ _ => rfl
  | .enum _ _ _ => rfl
  | .struct _ _ => rfl
  | .union _ _ _ _ => rfl
  | .pair _ _ => rfl

theorem innermost_size : ∀ (U : Ty), sizeOf (innermost U) ≤ sizeOf U
  | .arr _ c _ => by have := innermost_size c; rw [innermost]; simp; omega
  | .prim _ => Nat.le_refl _
  | .str _ _ => Nat.le_refl _
  | .seq _ _ => Nat.le_refl _
  | .map _ _ _ => Nat.le_refl _
  | .alias _ _ => Nat.le_refl _
  | .enum _ _ _ => Nat.le_refl _
  | .struct _ _ => Nat.le_refl _
  | .union _ _ _ _ => Nat.le_refl _
  | .pair _ _ => Nat.le_refl _

theorem mems_size : ∀ (ms : List (String × Ty)) (e : String × Ty), e ∈ ms → sizeOf e.2 < sizeOf (Mems.ofList ms)
  | (n, t) :: r, e, he => by
    rw [Mems.ofList]
    rcases List.mem_cons.mp he with rfl | he
    · simp; omega
    · have := mems_size r e he; simp; omega

theorem mems_names : ∀ (ms : List (String × Ty)) (e : String × Ty), e ∈ ms → ∀ x ∈ typeNames e.2, x ∈ memNames (Mems.ofList ms)
  | (n, t) :: r, e, he, x, hx => by
    rw [Mems.ofList, memNames]
    rcases List.mem_cons.mp he with rfl | he
    · exact List.mem_append_left _ hx
    · exact List.mem_append_right _ (mems_names r e he x hx)

/-- The elements that are mentioned have been declared. -/
theorem mentioned (hE : ExpressibleTree r root) {n : Node} {d : Decl} (hn : element root n = some d) (hf : ¬ EnumeratorConst (deps root) n)
    (hord : ∀ m, Uses (deps root) n m → Event.decl m ∈ A) {ty : Ty} (hty : declTy n.loc d = some ty) {U : Ty} (hw : Writable r (Known root) U)
    (hpr : ∀ x ∈ typeNames U, x ∈ printedNames n.kind (depDecl n.loc d)) (hsz : sizeOf U < sizeOf ty) :
    ∀ x ∈ typeNames U, ∀ m d, element root m = some d → x = scopedName m.loc m.name → Event.decl m ∈ A := by
  intro x hx m dm hm e
  have hms : (element root m).isSome := by rw [hm]; rfl
  have hns : (element root n).isSome := by rw [hn]; rfl
  obtain ⟨N, ⟨m', d', h1, h2, h3⟩, h4⟩ := writable_size U hw hx
  have hms' : (element root m').isSome := by rw [h1]; rfl
  have h3 : x = scopedName m'.loc m'.name := by
    have := congrArg String.toList h3
    rw [scopedStr, String.toList_ofList, String.toList_ofList, (hE.sound.entries m' d' h1).2] at this
    exact this
  have hmm : m = m' := by
    obtain ⟨k1, k2⟩ := Dep.scopedName_inj (tree_ids hE (element_at hms)) (tree_ids hE (element_at hms')) (tree_name hE hms) (tree_name hE hms')
      (e.symm.trans h3)
    exact hE.distinct.kinds _ _ hms hms' k1 k2
  subst hmm
  rw [hm, Option.some.injEq] at h1
  subst h1
  refine hord m ⟨?_, ?_, ?_, hf, depDecl n.loc d, by rw [deps_declOf, hn]; rfl, e ▸ hpr x hx⟩
  · rintro rfl
    rw [hn, Option.some.injEq] at hm
    subst hm
    rw [hty, Option.some.injEq] at h2
    subst h2
    omega
  · rw [← (hE.sound.entries m dm hm).1]
    cases dm <;> simp only [declTy, reduceCtorEq] at h2 <;> simp [declKind]
  · rw [deps_declOf, hm]; rfl

end

end Verif.Idl.Syn
