import Verif.Lemmas.TreePart
/-!
# The declarations of a tree can be entered in the order of its text
-/

namespace Verif.Idl.Syn
open Text Gen
open Dep (Event Node Kind place declared opened EnumeratorConst Uses Before declOf)

theorem kind_cat (k : Cat) : ∃ kd : Kind, kd.cat = k := by
  cases k
  exacts [⟨.struct, rfl⟩, ⟨.union, rfl⟩, ⟨.alias, rfl⟩, ⟨.enum, rfl⟩, ⟨.const, rfl⟩]

theorem cat_inj {a b : Kind} (h : a.cat = b.cat) : a = b := by cases a <;> cases b <;> first | rfl | cases h

/-! ## The tree -/

section
variable {root : Mod Decl}

theorem no_null (h : root.full = true) {q : Loc} {m : Mod Decl} (hm : root.at q = some m) (x : Name) :
    omHas m.inner x = (root.at (x :: q)).isSome := by
  rw [← omGet_isSome, Mod.at, hm, Option.bind_some]
  cases hg : omGet m.inner x with
  | none => rfl
  | some o =>
    obtain ⟨m', h'⟩ := full_inner (at_full h hm) _ (omGet_mem hg)
    have h' : o = some m' := h'
    subst h'; rfl

theorem declares_iff (h : root.full = true) {q : Loc} {x : Name} :
    Declares root x q ↔ (∃ k, (element root ⟨q, k, x⟩).isSome) ∨ (root.at (x :: q)).isSome := by
  have key : ∀ m, root.at q = some m → ∀ k : Kind, (element root ⟨q, k, x⟩).isSome = omHas (m.content.get k.cat) x := by
    intro m hm k
    unfold element
    simp only [hm, Option.bind_some]
    exact omGet_isSome
  constructor
  · rintro ⟨m, hm, hs⟩
    have hk := key m hm
    have e1 := hk .struct; have e2 := hk .union; have e3 := hk .alias; have e4 := hk .enum; have e5 := hk .const
    simp only [Dep.Kind.cat, Content.get] at e1 e2 e3 e4 e5
    simp only [Mod.hasSymbol, ← e1, ← e2, ← e3, ← e4, ← e5, no_null h hm, Bool.or_eq_true] at hs
    rcases hs with ((((hs | hs) | hs) | hs) | hs) | hs
    exacts [.inl ⟨_, hs⟩, .inl ⟨_, hs⟩, .inl ⟨_, hs⟩, .inl ⟨_, hs⟩, .inl ⟨_, hs⟩, .inr hs]
  · rintro (⟨k, hk⟩ | hx)
    · cases hm : root.at q with
      | none => unfold element at hk; simp [hm] at hk
      | some m =>
        refine ⟨m, hm, ?_⟩
        rw [key m hm] at hk
        cases k <;> simp only [Dep.Kind.cat, Content.get] at hk <;> simp [Mod.hasSymbol, hk]
    · cases hm : root.at q with
      | none => simp [Mod.at, hm] at hx
      | some m =>
        refine ⟨m, hm, ?_⟩
        rw [← no_null h hm] at hx
        simp [Mod.hasSymbol, hx]

theorem element_declares (h : root.full = true) {n : Node} (hn : (element root n).isSome) : Declares root n.name n.loc :=
  (declares_iff h).mpr (.inl ⟨n.kind, hn⟩)

theorem deps_at (root : Mod Decl) (q : Loc) : (deps root).at q = (root.at q).map (·.mapAt depDecl q) := at_root depDecl root q

theorem deps_declOf (root : Mod Decl) (n : Node) : declOf (deps root) n = (element root n).map (depDecl n.loc) := by
  unfold declOf element
  rw [deps_at]
  cases root.at n.loc with
  | none => rfl
  | some m => simp only [Option.map_some, Option.bind_some, content_mapAt, get_mapAll, omGet_map]

theorem deps_fake (root : Mod Decl) (n : Node) :
    EnumeratorConst (deps root) n ↔ n.kind = .const ∧ ∃ m, root.at n.loc = some m ∧ n.name ∈ m.content.fromEnum := by
  unfold EnumeratorConst
  rw [deps_at]
  cases root.at n.loc with
  | none => simp
  | some m => simp [content_mapAt, Content.mapAll]

/-- The enumerators of an enumeration of the tree are constants that are not printed. -/
theorem enumerator_at (h : Sound root) {p : Loc} {n : Node} {y : String} {vs : List (String × Nat)} (hn : element root n = some (.enum y vs))
    (hp : n.loc = p) {e : String × Nat} (he : e ∈ vs) :
    element root ⟨p, .const, e.1.toList⟩ = some (.const e.1 (.const .u32 e.2)) ∧ EnumeratorConst (deps root) ⟨p, .const, e.1.toList⟩ := by
  obtain ⟨h1, h2⟩ := h.entries n _ hn
  have hn' : n = ⟨p, .enum, y.toList⟩ := by
    obtain ⟨a, b, c⟩ := n
    have h1 : Kind.enum = b := h1
    have h2 : y.toList = c := h2
    have hp : a = p := hp
    rw [← h1, ← h2, hp]
  rw [hn'] at hn
  refine ⟨h.values p y vs e hn he, (deps_fake _ _).mpr ⟨rfl, ?_⟩⟩
  cases hm : root.at p with
  | none => unfold element at hn; simp [hm] at hn
  | some m => exact ⟨m, rfl, (h.marks p m _ hm).mpr ⟨y, vs, hn, List.mem_map_of_mem (f := fun x : String × Nat => x.1.toList) he⟩⟩

/-- Where an entry comes from. -/
theorem entry_element (h : Sound root) {q : Loc} {n : Node} {d : Decl} (hn : element root n = some d) (hq : n.loc = q) {k : Cat} {x : Name} {i : Item}
    (he : (k, x, i) ∈ entriesOf q d) :
    (k = n.kind.cat ∧ x = n.name ∧ i = itemOf q d) ∨
    (k = .const ∧ ∃ y vs e, d = .enum y vs ∧ e ∈ vs ∧ x = e.1.toList ∧ i = .const .u32 e.2) := by
  obtain ⟨h1, h2⟩ := h.entries n _ hn
  unfold entriesOf at he
  rw [List.mem_cons] at he
  rcases he with he | he
  · rw [Prod.mk.injEq, Prod.mk.injEq] at he
    rw [h1, h2] at he
    exact .inl he
  · right
    clear h1 h2 hn
    cases d with
    | enum y vs =>
      have he : (k, x, i) ∈ vs.map fun e => (Cat.const, e.1.toList, Item.const .u32 e.2) := he
      rw [List.mem_map] at he
      simp only [Prod.mk.injEq] at he
      obtain ⟨e, he, h3, h4, h5⟩ := he
      exact ⟨h3.symm, y, vs, e, rfl, he, h4.symm, h5.symm⟩
    | _ => cases he

/-- An entry of the tree at the end. -/
theorem entry_final (h : Sound root) {q : Loc} {n : Node} {d : Decl} (hn : element root n = some d) (hq : n.loc = q) {k : Cat} {x : Name} {i : Item}
    (he : (k, x, i) ∈ entriesOf q d) : ∃ kd d', kd.cat = k ∧ element root ⟨q, kd, x⟩ = some d' ∧ itemOf q d' = i := by
  rcases entry_element h hn hq he with ⟨rfl, rfl, rfl⟩ | ⟨rfl, y, vs, e, rfl, h1, rfl, rfl⟩
  · subst hq; exact ⟨n.kind, d, rfl, hn, rfl⟩
  · exact ⟨.const, _, rfl, (enumerator_at h hn hq h1).1, rfl⟩

end

/-! ## Parts of the tree -/

section
variable {root : Mod Decl} {A : List Event} {T : Mod Item}

/-- The events are about the tree. -/
structure About (root : Mod Decl) (A : List Event) : Prop where
  decl : ∀ n, Event.decl n ∈ A → (element root n).isSome ∧ ¬ EnumeratorConst (deps root) n
  mods : ∀ p, Event.open p ∈ A → (root.at p).isSome

theorem has_entry {m : Mod Item} {k : Cat} {x : Name} (h : omHas (m.content.get k) x = true) : ∃ i, (x, i) ∈ m.content.get k := by
  obtain ⟨e, he, rfl⟩ := List.mem_map.mp (omHas_iff.mp h)
  exact ⟨e.2, he⟩

theorem symbol_cases {m : Mod Item} {x : Name} (h : m.hasSymbol x = true) : (∃ k i, (x, i) ∈ m.content.get k) ∨ omHas m.inner x = true := by
  simp only [Mod.hasSymbol, Bool.or_eq_true] at h
  rcases h with ((((h | h) | h) | h) | h) | h
  · exact .inl ⟨.struct, has_entry (k := .struct) h⟩
  · exact .inl ⟨.union, has_entry (k := .union) h⟩
  · exact .inl ⟨.alias, has_entry (k := .alias) h⟩
  · exact .inl ⟨.const, has_entry (k := .const) h⟩
  · exact .inl ⟨.enum, has_entry (k := .enum) h⟩
  · exact .inr h

theorem Part.sub (hP : Part root A T) (hA : About root A) (hS : Sound root) {x : Name} {q : Loc} (h : Declares T x q) : Declares root x q := by
  obtain ⟨m, hm, hs⟩ := h
  rw [declares_iff hS.full]
  rcases symbol_cases hs with ⟨k, i, hi⟩ | hi
  · obtain ⟨n, d, h1, h2, h3, h4⟩ := (hP.tabs q m hm k x i).mp hi
    obtain ⟨kd, d', _, h5, _⟩ := entry_final hS h2 h3 h4
    exact .inl ⟨kd, by rw [h5]; rfl⟩
  · exact .inr (hA.mods _ ((hP.inner q m hm x).mp hi))

theorem Part.unseen (hP : Part root A T) (hA : About root A) (hS : Sound root) {x : Name} {p : Loc} (h : Unseen root p x) : Unseen T p x :=
  fun q hq hd => h q hq (hP.sub hA hS hd)

theorem inc_nodup {β : Type} {t : List (Name × β)} (h : Increasing t) : (t.map (·.1)).Nodup :=
  List.pairwise_map.mpr (List.Pairwise.imp (R := fun a b : Name × β => a.1 < b.1) (S := fun a b => a.1 ≠ b.1)
    (fun {a b} hab e => nameIrrefl b.1 (by rw [e] at hab; exact hab)) h)

theorem Part.get (hP : Part root A T) {q : Loc} {m : Mod Item} (hm : T.at q = some m) {k : Cat} {x : Name} {i : Item} :
    omGet (m.content.get k) x = some i ↔ (x, i) ∈ m.content.get k :=
  ⟨omGet_mem, omGet_of_mem (inc_nodup ((hP.inc q m hm).1 k))⟩

theorem Part.noNull (hP : Part root A T) : NoNull T := by
  intro q m n hm h
  have h1 : omHas m.inner n = true := by rw [← omGet_isSome, h]; rfl
  have h2 := (hP.mods (n :: q)).mpr (.inr ((hP.inner q m hm n).mp h1))
  rw [at_sub hm, h] at h2
  cases h2

/-- Something not declared yet. -/
theorem Part.free_own (hP : Part root A T) (hA : About root A) (hS : Sound root) (hD : Distinct root) {n : Node} (hn : (element root n).isSome)
    (hf : ¬ EnumeratorConst (deps root) n) (hnew : Event.decl n ∉ A) : Unseen T n.loc n.name := by
  intro q hq hd
  have h0 := element_declares hS.full hn
  obtain rfl := hD.around _ _ _ h0 (hP.sub hA hS hd) hq
  obtain ⟨m, hm, hs⟩ := hd
  rcases symbol_cases hs with ⟨k, i, hi⟩ | hi
  · obtain ⟨n', d, h1, h2, h3, h4⟩ := (hP.tabs _ m hm k _ i).mp hi
    rcases entry_element hS h2 h3 h4 with ⟨_, h5, _⟩ | ⟨_, y, vs, e, rfl, h5, h6, _⟩
    · have := hD.kinds n n' hn (by rw [h2]; rfl) h3.symm h5
      exact hnew (this ▸ h1)
    · obtain ⟨h7, h8⟩ := enumerator_at hS h2 h3 h5
      have := hD.kinds n ⟨n.loc, .const, e.1.toList⟩ hn (by rw [h7]; rfl) rfl h6
      exact hf (this ▸ h8)
  · have h1 := hA.mods _ ((hP.inner _ m hm _).mp hi)
    rw [hD.modules n hn] at h1
    cases h1

theorem Part.free_enumerator (hP : Part root A T) (hA : About root A) (hS : Sound root) (hD : Distinct root) {n : Node} {y : String}
    {vs : List (String × Nat)} (hn : element root n = some (.enum y vs)) (hnew : Event.decl n ∉ A) {e : String × Nat} (he : e ∈ vs) :
    Unseen T n.loc e.1.toList := by
  obtain ⟨hc, hfc⟩ := enumerator_at hS hn rfl he
  have hc' : (element root ⟨n.loc, .const, e.1.toList⟩).isSome := by rw [hc]; rfl
  intro q hq hd
  have h0 := element_declares hS.full hc'
  obtain rfl := hD.around _ _ _ h0 (hP.sub hA hS hd) hq
  obtain ⟨m, hm, hs⟩ := hd
  rcases symbol_cases hs with ⟨k, i, hi⟩ | hi
  · obtain ⟨n', d, h1, h2, h3, h4⟩ := (hP.tabs _ m hm k _ i).mp hi
    rcases entry_element hS h2 h3 h4 with ⟨_, h5, _⟩ | ⟨_, y', ws, e', rfl, h5, h6, _⟩
    · have := hD.kinds _ n' hc' (by rw [h2]; rfl) h3.symm h5
      exact (hA.decl n' h1).2 (this ▸ hfc)
    · obtain ⟨k1, k2⟩ := hS.entries n _ hn
      obtain ⟨k3, k4⟩ := hS.entries n' _ h2
      have hn1 : n = ⟨n.loc, .enum, y.toList⟩ := by
        obtain ⟨a, b, c⟩ := n
        have k1 : Kind.enum = b := k1
        have k2 : y.toList = c := k2
        rw [← k1, ← k2]
      have hn2 : n' = ⟨n.loc, .enum, y'.toList⟩ := by
        obtain ⟨a, b, c⟩ := n'
        have k3 : Kind.enum = b := k3
        have k4 : y'.toList = c := k4
        have h3 : a = n.loc := h3
        rw [← k3, ← k4, h3]
      rw [hn1] at hn
      rw [hn2] at h2
      have h6 : e.1 = e'.1 := String.toList_inj.mp h6
      have := hD.enumerators _ _ _ _ _ e.1 hn h2 (List.mem_map_of_mem he) (by rw [h6]; exact List.mem_map_of_mem h5)
      rw [this] at hn1
      exact hnew (hn1.trans hn2.symm ▸ h1)
  · have h1 := hA.mods _ ((hP.inner _ m hm _).mp hi)
    have h2 := hD.modules _ hc'
    rw [h2] at h1
    cases h1

/-! ## Names that are found -/

/-- What is declared is found by its full name. -/
theorem Part.lookup (hP : Part root A T) (hA : About root A) (hS : Sound root) (hD : Distinct root)
    {p q : Loc} {y : Name} (hp : (T.at p).isSome) (hids : ∀ a ∈ q, Ident a) (hy : ':' ∉ y) (hd : Declares T y q) :
    Lookup T p (scopedName q y) (.found q y) := by
  have hroot : ∀ {x : Name} {s : Loc}, Declares T x [] → Declares T x s → s <:+ [] := by
    intro x s h0 hs
    have := hD.around _ _ _ (hP.sub hA hS hs) (hP.sub hA hS h0) List.nil_suffix
    subst this; exact List.suffix_rfl
  rcases List.eq_nil_or_concat q with rfl | ⟨s, a, rfl⟩
  · rw [scopedName_nil]
    exact (lookup_plain hp (cut_none hy) _ _).mpr ⟨rfl, List.nil_suffix, hd, fun q' _ h' => hroot hd h'⟩
  · rw [List.concat_eq_append] at hids hd ⊢
    rw [scopedName_eq hids]
    have hrev : (s ++ [a]).reverse = a :: s.reverse := by simp
    rw [hrev]
    have hat : (T.at (s ++ [a])).isSome := by obtain ⟨m, hm, -⟩ := hd; rw [hm]; rfl
    have ha : (T.at [a]).isSome := at_suffix ⟨s, rfl⟩ hat
    have hsub : HasSub T a [] := ⟨T, rfl, by
      show omHas T.inner a = true
      rw [hasSub_iff hP.noNull (show T.at [] = some T from rfl)]
      exact ha⟩
    refine (C40_qualified T hP.noNull p hp a s.reverse y (hids a (by simp)) (fun b hb => hids b (List.mem_append_left _ (List.mem_reverse.mp hb))) hy _).mpr
      ⟨[], ⟨List.nil_suffix, hsub, fun q' _ h' => hroot (hasSub_symbol hsub) (hasSub_symbol h')⟩, ?_, ?_⟩
    · simpa using hat
    · rw [List.reverse_reverse]; exact innermost_self hd

end

end Verif.Idl.Syn
