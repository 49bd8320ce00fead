import Verif.Lemmas.TreeStand
/-!
# The text of a tree, from the first declaration to the last
-/

namespace Verif.Idl.Syn
open Text Gen
open Dep (Event Node Kind place declared opened EnumeratorConst Uses Before declOf typeNames memNames printedNames)

section
variable {r : Reading} {root : Mod Decl} {A : List Event} {T : Mod Item}

theorem Part.constant (hP : Part root A T) (hS : Sound root) {p : Loc} (hp : (T.at p).isSome) {x : Name} (hx : ':' ∉ x)
    {i : Item} (h : Constant T p x i) : ∃ q d, q <:+ p ∧ element root ⟨q, .const, x⟩ = some d ∧ itemOf q d = i := by
  obtain ⟨q, y, h1, h2⟩ := h
  obtain ⟨rfl, h3, h4, h5⟩ := (lookup_plain hp (cut_none hx) _ _).mp h1
  unfold fetch at h2
  simp only at h2
  cases hm : T.at q with
  | none => rw [hm] at h2; cases h2
  | some M =>
    rw [hm, Option.bind_some] at h2
    obtain ⟨n, d, k1, k2, k3, k4⟩ := (hP.tabs _ M hm _ _ _).mp ((hP.get hm).mp h2)
    obtain ⟨kd, d', k5, k6, k7⟩ := entry_final hS k2 k3 k4
    have : kd = .const := cat_inj k5
    subst this
    exact ⟨q, d', h3, k6, k7⟩

theorem Part.no_constant (hP : Part root A T) (hA : About root A) (hS : Sound root) {p : Loc} (hp : (T.at p).isSome) {x : Name} (hx : ':' ∉ x)
    (h : Unseen root p x) (i : Item) : ¬ Constant T p x i := by
  intro hc
  obtain ⟨q, d, h1, h2, _⟩ := hP.constant hS hp hx hc
  exact h q h1 (element_declares hS.full (n := ⟨q, .const, x⟩) (by rw [h2]; rfl))

theorem Part.label (hP : Part root A T) (hA : About root A) (hS : Sound root) {p : Loc} (hp : (T.at p).isSome) {disc : Ty} {v : Int}
    (h : ExpressibleLabel root p disc v) : ReadableLabel T p disc v := by
  obtain ⟨h1, h2⟩ := h
  refine ⟨h1, ?_⟩
  clear h1
  generalize disc.rget = D at h2 ⊢
  cases D with
  | prim k =>
    cases k with
    | bool => exact ⟨hP.no_constant hA hS hp (by decide) h2.1, hP.no_constant hA hS hp (by decide) h2.2⟩
    | c8 => exact h2
    | c16 => exact h2
    | wc => exact h2
    | _ => trivial
  | enum n w vs =>
    intro e he hv
    obtain ⟨k1, k2, k3, k4⟩ := h2 e he hv
    refine ⟨k1, k2, k3, fun i hi => ?_⟩
    obtain ⟨q, d, k5, k6, rfl⟩ := hP.constant hS hp (ident_colon k1) hi
    exact k4 q d k5 k6
  | _ => trivial

theorem Mems.toList_ofList' (l : List (String × Ty)) : (Mems.ofList l).toList = l := by
  induction l with
  | nil => rfl
  | cons e l ih => obtain ⟨a, b⟩ := e; rw [Mems.ofList, Mems.toList, ih]

theorem not_usable_default : ¬ Usable "default" := by
  rintro ⟨_, h⟩
  obtain ⟨c, t, h1, _⟩ := h "default" (by decide) [] (by simp)
  cases h1

theorem names_default (hE : ExpressibleTree r root) (p : Loc) : Unseen root p "default".toList := by
  intro q _ hd
  have := hE.names _ _ hd
  rw [String.ofList_toList] at this
  exact not_usable_default this

/-- A declaration can be entered when those it needs have been. -/
theorem Part.declarable (hP : Part root A T) (hA : About root A) (hE : ExpressibleTree r root)
    (hat : ∀ n, Event.decl n ∈ A → (T.at n.loc).isSome) {n : Node} {d : Decl} (hn : element root n = some d)
    (hf : ¬ EnumeratorConst (deps root) n) (hnew : Event.decl n ∉ A) (hp : (T.at n.loc).isSome)
    (hord : ∀ m, Uses (deps root) n m → Event.decl m ∈ A) : Declarable r T n.loc d := by
  have hns : (element root n).isSome := by rw [hn]; rfl
  have hp' := element_at hns
  have hS := hE.sound
  have hD := hE.distinct
  obtain ⟨hkind, hname⟩ := hS.entries n d hn
  have hfree : ∀ y : String, y.toList = n.name → Free T n.loc y := by
    intro y hy
    refine ⟨?_, by rw [hy]; exact hP.free_own hA hS hD hns hf hnew⟩
    have := hE.names _ _ (element_declares hS.full hns)
    rwa [← hy, String.ofList_toList] at this
  have hmem : ∀ x : String, MemberName root n.loc x → Free T n.loc x := fun x hx => ⟨hx.1, hP.unseen hA hS hx.2⟩
  have hne : ∀ x y : String, MemberName root n.loc x → y.toList = n.name → x ≠ y := by
    intro x y hx hy e
    subst e
    exact hx.2 n.loc List.suffix_rfl (by rw [hy]; exact element_declares hS.full hns)
  have hwr : ∀ (ty : Ty), declTy n.loc d = some ty → ∀ (full : Bool) (U : Ty), Writable r (Known root) U →
      (∀ x ∈ typeNames U, x ∈ printedNames n.kind (depDecl n.loc d)) → sizeOf U < sizeOf ty → Writable r (Stands T n.loc full) U := by
    intro ty hty full U hw hpr hsz
    exact hP.writable hA hE hat hp hp' full U hw (mentioned hE hn hf hord hty hw hpr hsz)
  have hmemT : ∀ (ty : Ty), declTy n.loc d = some ty → ∀ (lim : Nat) (full : Bool) (U : Ty), Expressible r lim root U →
      (∀ x ∈ typeNames U, x ∈ printedNames n.kind (depDecl n.loc d)) → sizeOf U < sizeOf ty → WritableMember r lim T n.loc full U := by
    intro ty hty lim full U hw hpr hsz
    refine ⟨hw.1, hw.2.1, hwr ty hty _ _ hw.2.2 (fun x hx => hpr x ?_) (Nat.lt_of_le_of_lt (innermost_size U) hsz)⟩
    rwa [innermost_names] at hx
  have hd := hE.decls n d hn hf
  cases d with
  | struct y q ms =>
    obtain ⟨h1, h2, h3⟩ := hd
    have hk : n.kind = .struct := hkind.symm
    refine ⟨hfree y hname, h1, fun x hx => ?_, fun e he => ?_⟩
    · obtain ⟨k1, k2, k3, l, y', q', k4, k5⟩ := h2 x hx
      refine ⟨k1, k3, ?_⟩
      have hms : (element root ⟨l, .struct, y'.toList⟩).isSome := by rw [k4]; rfl
      have huse : Uses (deps root) n ⟨l, .struct, y'.toList⟩ := by
        refine ⟨?_, by simp, by rw [deps_declOf, k4]; rfl, hf, _, by rw [deps_declOf, hn]; rfl, ?_⟩
        · intro e
          apply k2
          have hy : y.toList = n.name := hname
          rw [k5, scopedStr, scopedStr, hy, e]
        · rw [hk]
          refine List.mem_append_left _ ?_
          subst hx
          show scopedName l y'.toList ∈ [x.1.toList]
          rw [k5]
          simp [scopedStr]
      have hin := hord _ huse
      obtain ⟨j1, j2, j3⟩ := hP.type hA hS hD k4 hin (hat _ hin) rfl
      refine ⟨l, y'.toList, scopedStr l y', Mems.ofList (ms.take x.2), ?_, ?_, Mems.toList_ofList' _⟩
      · rw [k5, scopedStr, String.toList_ofList]
        exact hP.lookup hA hS hD hp (tree_ids hE (element_at hms)) (tree_name hE hms).2 j1
      · obtain ⟨M, hM⟩ := Option.isSome_iff_exists.mp (hat _ hin)
        have hM : T.at l = some M := hM
        unfold fetch
        simp only [hM, Option.bind_some]
        simp only [hM, Option.map_some, Option.getD_some] at j3
        exact j3
    · obtain ⟨k1, k2⟩ := h3 e he
      have hem := List.mem_of_mem_drop he
      refine ⟨hmem _ k1, hne _ _ k1 hname, hmemT _ rfl _ _ _ k2 (fun x hx => ?_) ?_⟩
      · rw [hk]
        exact List.mem_append_right _ (mems_names ms e hem x hx)
      · have := mems_size ms e hem
        simp; omega
  | union y u =>
    obtain ⟨h1, h2, h3, h4, h5⟩ := hd
    have hk : n.kind = .union := hkind.symm
    refine ⟨hfree y hname, h1, h2, ?_, h4, fun e he => ?_⟩
    · refine hwr _ rfl _ _ h3 (fun x hx => ?_) ?_
      · rw [hk]; exact List.mem_append_left _ hx
      · rw [UnionB.toTy]; simp; omega
    · obtain ⟨k1, k2, k3, k4⟩ := h5 e he
      refine ⟨hmem _ k1, hne _ _ k1 hname, hmemT _ rfl _ _ _ k2 (fun x hx => ?_) ?_, k3, fun v hv => hP.label hA hS hp (k4 v hv),
        fun _ => hP.no_constant hA hS hp (by decide) (names_default hE _)⟩
      · rw [hk]; exact List.mem_append_right _ (mems_names _ e he x hx)
      · have := mems_size (caseMembers u) e he
        show sizeOf e.2 < sizeOf (Ty.union u.name u.disc (Mems.ofList (caseMembers u)) _)
        rw [Ty.union.sizeOf_spec]; omega
  | enum y vs =>
    obtain ⟨h1, h2, h3, h4⟩ := hd
    refine ⟨hfree y hname, h1, h2, h3, h4, fun e he => ?_⟩
    obtain ⟨k1, k2⟩ := enumerator_at hS hn rfl he
    have hes : (element root ⟨n.loc, .const, e.1.toList⟩).isSome := by rw [k1]; rfl
    refine ⟨⟨?_, hP.free_enumerator hA hS hD hn hnew he⟩, ?_⟩
    · have := hE.names _ _ (element_declares hS.full hes)
      rwa [String.ofList_toList] at this
    · intro e'
      have := hD.kinds _ _ hns hes rfl (by show n.name = e.1.toList; rw [e', ← hname]; rfl)
      rw [this] at hkind
      cases hkind
  | «alias» y t =>
    have hk : n.kind = .alias := hkind.symm
    refine ⟨hfree y hname, hmemT _ rfl _ _ _ hd (fun x hx => ?_) (by simp)⟩
    rw [hk]; exact hx
  | const y i => exact ⟨hfree y hname, hd⟩

end

end Verif.Idl.Syn
