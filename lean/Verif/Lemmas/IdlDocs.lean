import Verif.Lemmas.IdlEnter
import Verif.Lemmas.IdlSteps
import Verif.Props.Module
/-!
# Whole texts, with modules in modules
-/

namespace Verif.Idl.Syn
open Text Gen

/-! ## A module in a module -/

theorem at_sub {root m : Mod Item} {p : Loc} (hm : root.at p = some m) (n : Name) : root.at (n :: p) = (omGet m.inner n).join := by
  rw [Mod.at, hm, Option.bind_some]

/-- The module that is opened is the one `create_submodule` leaves. -/
theorem open_core {root m : Mod Item} (hpr : Proper root) {p : Loc} (hm : root.at p = some m) {n : Name}
    (h : (root.at (n :: p)).isSome ∨ Unseen root p n) :
    ∃ m', createSubCore n m = some m' ∧ (root.modify p fun _ => m') = openModule p n root := by
  unfold createSubCore openModule
  rw [at_sub hm]
  rw [at_sub hm] at h
  rcases h with h | h
  · cases hg : omGet m.inner n with
    | none => rw [hg] at h; cases h
    | some e =>
      cases e with
      | none => rw [hg] at h; cases h
      | some m1 => exact ⟨m, rfl, by rw [if_pos (by rfl)]; exact modify_same (proper_keys hpr) hm⟩
  · have hno := (hasSymbol_false (free_symbol hm h)).2
    have hg : omGet m.inner n = none := omGet_eq_none.mpr (omHas_false_iff.mp hno)
    rw [hg]
    refine ⟨_, rfl, ?_⟩
    simp only [omEmplace, hno, Bool.false_eq_true, if_false, Option.join_none, Option.isSome_none]
    exact modify_congr hm rfl

theorem proper_empty : Proper (.empty : Mod Item) := by
  intro q m hm
  cases q with
  | nil =>
    rw [Mod.at, Option.some.injEq] at hm
    subst hm
    exact ⟨by decide, fun x hx => by simp [Mod.hasSymbol, Mod.empty, omHas] at hx⟩
  | cons a r =>
    exfalso
    have : ∀ (r : Loc) (a : Name), (Mod.empty : Mod Item).at (a :: r) = none := by
      intro r
      induction r with
      | nil => intro a; rfl
      | cons b r ih => intro a; rw [Mod.at, ih]; rfl
    rw [this] at hm; cases hm

/-- Opening a module. -/
theorem open_ok {root m : Mod Item} (hpr : Proper root) {p : Loc} (hm : root.at p = some m) {x : String} (hx : Identifier x)
    (h : (root.at (x.toList :: p)).isSome ∨ Unseen root p x.toList) :
    Proper (openModule p x.toList root) ∧ Ext root (openModule p x.toList root) ∧
    ((openModule p x.toList root).at (x.toList :: p)).isSome := by
  unfold openModule
  split
  · rename_i h1; exact ⟨hpr, Ext.refl _, h1⟩
  · rename_i h1
    have h := h.resolve_left h1
    have e : (root.modify p fun m => .mk m.content (omIns x.toList (some .empty) m.inner)) =
        root.modify p fun _ => .mk m.content (omIns x.toList (some .empty) m.inner) := modify_congr hm rfl
    rw [e]
    have hno := (hasSymbol_false (free_symbol hm h)).2
    refine ⟨?_, (adds_inner hm (ident_ident hx) h _).ext, ?_⟩
    · refine proper_modify hpr hm ?_
      have hp := proper_sub hpr hm
      obtain ⟨c, i⟩ := m
      have hno : omHas i x.toList = false := hno
      intro q a ha
      rcases List.eq_nil_or_concat q with rfl | ⟨s, b, rfl⟩
      · rw [Mod.at, Option.some.injEq] at ha
        subst ha
        obtain ⟨h1, h2⟩ := hp [] _ rfl
        refine ⟨omIns_keys_nodup h1 (omHas_false_iff.mp hno), fun y hy => ?_⟩
        have hhas : omHas (omIns x.toList (some .empty) i) y = (decide (y = x.toList) || omHas i y) := by
          rw [Bool.eq_iff_iff, Bool.or_eq_true, omHas_iff, omHas_iff, decide_eq_true_eq]
          have := (omIns_perm x.toList (some .empty) i).map (·.1)
          rw [this.mem_iff]; simp
        by_cases hyx : y = x.toList
        · subst hyx; rw [String.ofList_toList]; exact hx
        · refine h2 y ?_
          simp only [Mod.hasSymbol, Mod.content, Mod.inner, hhas, hyx, decide_false, Bool.false_or] at hy ⊢
          exact hy
      · rw [List.concat_eq_append, at_append] at ha
        simp only [Mod.at, Option.bind_some, Mod.inner] at ha
        rw [omGet_ins_inner hno] at ha
        by_cases hb : x.toList = b
        · rw [if_pos hb] at ha
          exact proper_empty s a ha
        · rw [if_neg hb] at ha
          refine hp (s ++ [b]) a ?_
          rw [at_append]
          exact ha
    · rw [Mod.at, at_modify_self _ hm, Option.bind_some]
      show (omGet (omIns x.toList (some Mod.empty) m.inner) x.toList).join.isSome = true
      rw [omGet_ins_inner hno, if_pos rfl]
      rfl

/-! ## Entering the parts one after the other -/

/-- The type and the constants of a declaration, in the module at a place. -/
structure Found (root : Mod Item) (p : Loc) (d : Decl) : Prop where
  place : (root.at p).isSome
  type : ∀ T, declTy p d = some T → Lookup root p (declName d).toList (.found p (declName d).toList) ∧
    typeOf root false (.found p (declName d).toList) = some (some (.ty T))
  consts : ∀ e ∈ declConsts d, Lookup root p e.1.toList (.found p e.1.toList) ∧
    fetch root .const (.found p e.1.toList) = some e.2

theorem Found.ext {a b : Mod Item} (h : Ext a b) {p : Loc} {d : Decl} (hf : Found a p d) : Found b p d :=
  ⟨h.at hf.place, fun T hT => ⟨h.look _ _ _ _ (hf.type T hT).1, h.typeOf (hf.type T hT).2⟩,
    fun e he => ⟨h.look _ _ _ _ (hf.consts e he).1, h.fetch (hf.consts e he).2⟩⟩

theorem found_enter {r : Reading} {root m : Mod Item} {p : Loc} {d : Decl} (hpr : Proper root) (hm : root.at p = some m)
    (h : Declarable r root p d) : Found (enter p d root) p d :=
  ⟨(enter_ext hpr hm h).at (by rw [hm]; rfl), fun T hT => enter_found hpr hm h hT, enter_consts hm h⟩

mutual
theorem doc_enter {r : Reading} : ∀ (d : Doc) (p : Loc) (root : Mod Item), Proper root → (root.at p).isSome → DocDeclarable r p root d →
    Proper (enterDoc p root d) ∧ Ext root (enterDoc p root d) ∧ ∀ x ∈ docDecls p d, Found (enterDoc p root d) x.1 x.2
  | .decl g t d, p, root, hp, hi, h => by
    obtain ⟨m, hm⟩ := Option.isSome_iff_exists.mp hi
    rw [DocDeclarable] at h
    rw [enterDoc, docDecls]
    refine ⟨enter_proper hp hm h.2, enter_ext hp hm h.2, fun x hx => ?_⟩
    rw [List.mem_singleton] at hx
    subst hx
    exact found_enter hp hm h.2
  | .module g t n ds e, p, root, hp, hi, h => by
    obtain ⟨m, hm⟩ := Option.isSome_iff_exists.mp hi
    rw [DocDeclarable] at h
    obtain ⟨_, _, hu, _, ho, hds⟩ := h
    obtain ⟨h1, h2, h3⟩ := open_ok hp hm hu.1 ho
    obtain ⟨k1, k2, k3⟩ := docs_enter ds _ _ h1 h3 hds
    rw [enterDoc, docDecls]
    exact ⟨k1, h2.trans k2, k3⟩
theorem docs_enter {r : Reading} : ∀ (ds : List Doc) (p : Loc) (root : Mod Item), Proper root → (root.at p).isSome → DocsDeclarable r p root ds →
    Proper (enterDocs p root ds) ∧ Ext root (enterDocs p root ds) ∧ ∀ x ∈ docsDecls p ds, Found (enterDocs p root ds) x.1 x.2
  | [], p, root, hp, _, _ => by
    rw [enterDocs, docsDecls]
    exact ⟨hp, Ext.refl _, fun x hx => by cases hx⟩
  | d :: ds, p, root, hp, hi, h => by
    rw [DocsDeclarable] at h
    obtain ⟨h1, h2, h3⟩ := doc_enter d p root hp hi h.1
    obtain ⟨k1, k2, k3⟩ := docs_enter ds p _ h1 (h2.at hi) h.2
    rw [enterDocs, docsDecls]
    refine ⟨k1, h2.trans k2, fun x hx => ?_⟩
    rcases List.mem_append.mp hx with hx | hx
    · exact Found.ext k2 (h3 x hx)
    · exact k3 x hx
end

mutual
theorem doc_build (c : Ctx) : ∀ (d : Doc) (p : Loc) (root : Mod Item), Proper root → (root.at p).isSome →
    DocDeclarable ⟨c.char, c.wide16⟩ p root d → Ev fun f => build c f p root (docDef p d) = (enterDoc p root d, none)
  | .decl g t d, p, root, hp, hi, h => by
    obtain ⟨m, hm⟩ := Option.isSome_iff_exists.mp hi
    rw [DocDeclarable] at h
    rw [docDef, enterDoc]
    exact build_ev c hp hm h.2
  | .module g t n ds e, p, root, hp, hi, h => by
    obtain ⟨m, hm⟩ := Option.isSome_iff_exists.mp hi
    rw [DocDeclarable] at h
    obtain ⟨_, _, hu, _, ho, hds⟩ := h
    obtain ⟨h1, h2, h3⟩ := open_ok hp hm hu.1 ho
    obtain ⟨m', k1, k2⟩ := open_core hp hm ho
    refine (docs_build c ds _ _ h1 h3 hds).mono fun f hf => ?_
    rw [docDef, build, resolveId_own c root p hu]
    simp only [orStop, nm_bytes, hm, Option.bind_some, k1, k2]
    rw [hf, enterDoc]
theorem docs_build (c : Ctx) : ∀ (ds : List Doc) (p : Loc) (root : Mod Item), Proper root → (root.at p).isSome →
    DocsDeclarable ⟨c.char, c.wide16⟩ p root ds → Ev fun f => buildAll c f p root (docsDef p ds) = (enterDocs p root ds, none)
  | [], p, root, _, _, _ => Ev.of fun f => by rw [docsDef, buildAll, enterDocs]
  | d :: ds, p, root, hp, hi, h => by
    rw [DocsDeclarable] at h
    obtain ⟨h1, h2, _⟩ := doc_enter d p root hp hi h.1
    refine ((doc_build c d p root hp hi h.1).and (docs_build c ds p _ h1 (h2.at hi) h.2)).mono ?_
    rintro f ⟨e1, e2⟩
    rw [docsDef, buildAll, e1, enterDocs]
    exact e2
end

mutual
theorem doc_readable {r : Reading} : ∀ (d : Doc) (p : Loc) (root : Mod Item), DocDeclarable r p root d → ReadableDoc d
  | .decl g t d, p, root, h => by
    rw [DocDeclarable] at h
    rw [ReadableDoc]
    exact ⟨h.1, readable_of h.2⟩
  | .module g t n ds e, p, root, h => by
    rw [DocDeclarable] at h
    obtain ⟨h1, h2, hu, h3, ho, hds⟩ := h
    rw [ReadableDoc]
    exact ⟨h1, h2, hu.1, h3, docs_readable ds _ _ hds⟩
theorem docs_readable {r : Reading} : ∀ (ds : List Doc) (p : Loc) (root : Mod Item), DocsDeclarable r p root ds → ReadableDocs ds
  | [], _, _, _ => by rw [ReadableDocs]; trivial
  | d :: ds, p, root, h => by
    rw [DocsDeclarable] at h
    rw [ReadableDocs]
    exact ⟨doc_readable d p root h.1, docs_readable ds p _ h.2⟩
end

mutual
theorem doc_names {r : Reading} : ∀ (d : Doc) (p : Loc) (root : Mod Item), (∀ a ∈ p, Ident a) → DocDeclarable r p root d →
    ∀ x ∈ docDecls p d, (∀ a ∈ x.1, Ident a) ∧ Identifier (declName x.2) ∧ ∀ e ∈ declConsts x.2, Identifier e.1
  | .decl g t d, p, root, hp, h => by
    rw [DocDeclarable] at h
    rw [docDecls]
    intro x hx
    rw [List.mem_singleton] at hx
    subst hx
    refine ⟨hp, ?_, consts_ident h.2⟩
    have := h.2
    cases d <;> exact this.1.1.1
  | .module g t n ds e, p, root, hp, h => by
    rw [DocDeclarable] at h
    obtain ⟨_, _, hu, _, ho, hds⟩ := h
    rw [docDecls]
    refine docs_names ds _ _ (fun a ha => ?_) hds
    rcases List.mem_cons.mp ha with rfl | ha
    · exact ident_ident hu.1
    · exact hp a ha
theorem docs_names {r : Reading} : ∀ (ds : List Doc) (p : Loc) (root : Mod Item), (∀ a ∈ p, Ident a) → DocsDeclarable r p root ds →
    ∀ x ∈ docsDecls p ds, (∀ a ∈ x.1, Ident a) ∧ Identifier (declName x.2) ∧ ∀ e ∈ declConsts x.2, Identifier e.1
  | [], _, _, _, _ => by rw [docsDecls]; intro x hx; cases hx
  | d :: ds, p, root, hp, h => by
    rw [DocsDeclarable] at h
    rw [docsDecls]
    intro x hx
    rcases List.mem_append.mp hx with hx | hx
    · exact doc_names d p root hp h.1 x hx
    · exact docs_names ds p _ hp h.2 x hx
end

theorem full_name {root : Mod Item} {p : Loc} {x : String} (hp : ∀ a ∈ p, Ident a) (hn : Identifier x)
    (hi : (root.at p).isSome) (h : Lookup root p x.toList (.found p x.toList)) :
    Lookup root [] (scopedStr p x).toList (.found p x.toList) := by
  have hd : Declares root x.toList p := ((lookup_plain hi (cut_none (ident_colon hn)) p _).mp h).2.2.1
  rw [scopedStr, String.toList_ofList]
  exact (C40_scoped_name root p _ hp (ident_colon hn) hd _).mpr rfl

/-- Found by its name where it is, and by its full name from the root. -/
theorem Found.means {root : Mod Item} {p : Loc} {d : Decl} (h : Found root p d) (hp : ∀ a ∈ p, Ident a) (hn : Identifier (declName d))
    {T : Ty} (hT : declTy p d = some T) :
    Means root p (declName d) T ∧ Means root [] (scopedStr p (declName d)) T := by
  obtain ⟨h1, h2⟩ := h.type T hT
  exact ⟨⟨_, _, h1, h2⟩, p, (declName d).toList, full_name hp hn h.place h1, h2⟩

theorem Found.constant {root : Mod Item} {p : Loc} {d : Decl} (h : Found root p d) (hp : ∀ a ∈ p, Ident a)
    (hn : ∀ e ∈ declConsts d, Identifier e.1) {e : String × Item} (he : e ∈ declConsts d) :
    Constant root p e.1.toList e.2 ∧ Constant root [] (scopedStr p e.1).toList e.2 := by
  obtain ⟨h1, h2⟩ := h.consts e he
  exact ⟨⟨_, _, h1, h2⟩, p, e.1.toList, full_name hp (hn e he) h.place h1, h2⟩

theorem lookup_place {root : Mod Item} {p q : Loc} {x y : Name} (h : Lookup root p x (.found q y)) : (root.at p).isSome := by
  obtain ⟨f, hf⟩ := h
  cases f with
  | zero => simp [resolve] at hf
  | succ f =>
    rw [resolve] at hf
    split at hf
    · simp at hf
    · cases hm : root.at p with
      | none => rw [hm] at hf; simp at hf
      | some m => rfl

theorem scopedStr_root (x : String) : scopedStr [] x = x := by
  simp [scopedStr, scopedName, scope, String.ofList_toList]

/-- Reading a text of parts. -/
theorem parse_docs (c : Ctx) {root : Mod Item} (hp : Proper root) {ds : List Doc} (hne : ds ≠ [])
    (h : DocsDeclarable ⟨c.char, c.wide16⟩ [] root ds) {e : Bytes} (he : Layout e) :
    Ev fun f => parse c f root (docsText [] ds ++ e) = .built (enterDocs [] root ds, none) := by
  have hd := docs_ok hne (docs_readable ds _ _ h) he
  refine (docs_build c ds [] root hp rfl h).mono fun f hf => ?_
  rw [parse, hd]
  exact congrArg Parsed.built hf

/-- Reading one declaration that was printed with full names. -/
theorem parse_decl (c : Ctx) {root : Mod Item} (hp : Proper root) {d : Decl} (h : Declarable ⟨c.char, c.wide16⟩ root [] d) (t : Nat) :
    Ev fun f => parse c f root (declText t d) = .built (enter [] d root, none) := by
  have hr := readable_of h
  have hd := document_ok (l := [([], t, d)]) (by simp) (by simpa [blanks_nil] using hr) blanks_nil
  simp only [textOf, List.nil_append, List.append_nil, List.map_cons, List.map_nil] at hd
  refine (build_ev c hp (show root.at [] = some root from rfl) h).mono fun f hf => ?_
  rw [defOf_root hr] at hf
  rw [parse, hd]
  simp only [buildAll, hf]

end Verif.Idl.Syn
