import Verif.Spec.IdlDoc
import Verif.Lemmas.IdlDecls
import Verif.Lemmas.DepBefore
/-!
# The text of declarations in modules

What is printed in a module is what is printed elsewhere for declarations with other names of types.
-/

namespace Verif.Idl.Syn
open Text Gen

/-! ## Names -/

theorem usable_colon {x : String} (h : Usable x) : ':' ∉ x.toList := by
  obtain ⟨c, r, e, hc, hr⟩ := h.1
  rw [e]
  intro hm
  rcases List.mem_cons.mp hm with rfl | h
  · exact absurd hc (by decide)
  · exact absurd (hr _ h) (by decide)

theorem joined_snoc (x : String) : ∀ l : List String, l ≠ [] → joined (l ++ [x]) = joined l ++ [':', ':'] ++ x.toList
  | [], h => absurd rfl h
  | [a], _ => by simp [joined]
  | a :: b :: r, _ => by
    have := joined_snoc x (b :: r) (by simp)
    have e : ∀ l : List String, l ≠ [] → joined (a :: l) = a.toList ++ ':' :: ':' :: joined l := by
      intro l hl
      cases l with
      | nil => exact absurd rfl hl
      | cons c l => rfl
    rw [List.cons_append, e _ (by simp), this, e _ (by simp)]
    simp

theorem joined_ne {l : List String} (h : l ≠ []) (hu : ∀ a ∈ l, Usable a) : joined l ≠ [] := by
  cases l with
  | nil => exact absurd rfl h
  | cons a r =>
    obtain ⟨c, t, e, _⟩ := (hu a (by simp)).1
    cases r with
    | nil => rw [joined, e]; simp
    | cons b r => rw [joined, e]; simp; simp

theorem typeName_rcut {n : String} (h : TypeName n) :
    (Dep.rcut n.toList = none ∨ ∃ sc x, Dep.rcut n.toList = some (sc, x.toList) ∧ sc ≠ [] ∧ Usable x) := by
  obtain ⟨l, hl, e, hu⟩ := h
  rcases List.eq_nil_or_concat l with rfl | ⟨l, x, rfl⟩
  · exact absurd rfl hl
  rw [List.concat_eq_append] at e hu
  have hx := hu x (by simp)
  rw [e]
  by_cases hl : l = []
  · subst hl
    exact .inl (Dep.rcut_none (usable_colon hx))
  · right
    exact ⟨joined l, x, by rw [joined_snoc x l hl]; exact Dep.rcut_append _ (usable_colon hx), joined_ne hl fun a ha => hu a (by simp [ha]), hx⟩

theorem usable_typeName {x : String} (h : Usable x) : TypeName x := ⟨[x], by simp, rfl, by simpa using h⟩

theorem shown_typeName {n : String} (h : TypeName n) (p : Loc) (s : Bool) : TypeName (shown p s n) := by
  unfold shown
  rcases typeName_rcut h with h0 | ⟨sc, x, h1, _, h2⟩
  · rw [h0]; exact h
  · rw [h1]
    simp only []
    split
    · rw [String.ofList_toList]; exact usable_typeName h2
    · exact h

theorem shown_root {n : String} (h : TypeName n) (s : Bool) : shown [] s n = n := by
  unfold shown
  rcases typeName_rcut h with h0 | ⟨sc, x, h1, h3, h2⟩
  · rw [h0]
  · rw [h1]
    simp only []
    exact if_neg fun hh => h3 hh.1

theorem shown_full (p : Loc) (n : String) : shown p true n = n := by
  unfold shown
  split
  · rw [if_neg (by simp)]
  · rfl

/-! ## Types and declarations with the names that are printed -/

/-- A type with the names that are printed in a module. -/
def localise (p : Loc) : Bool → Ty → Ty
  | _, .prim k => .prim k
  | _, .arr n c d => .arr n (localise p false c) d
  | _, .seq c b => .seq (localise p false c) b
  | _, .map k v b => .map (localise p false k) (localise p false v) b
  | _, .str k b => .str k b
  | _, .pair x y => .pair x y
  | _, .alias n t => .alias n t
  | s, .enum n w vs => .enum (shown p s n) w vs
  | s, .struct n ms => .struct (shown p s n) ms
  | s, .union n d ms i => .union (shown p s n) d ms i

theorem localise_text (p : Loc) (T : Ty) : ∀ s, typeNameAt p s T = typeName (localise p s T) := by
  induction T using Ty.ind with
  | prim k => intro s; rw [typeNameAt, localise, typeName]
  | enum n w vs => intro s; rw [typeNameAt, localise, typeName]
  | str k b => intro s; rw [typeNameAt, localise, typeName]
  | seq c b ih => intro s; rw [typeNameAt, localise, typeName, ih]
  | arr n c d ih => intro s; rw [typeNameAt, localise, typeName, ih]
  | map k v b ih1 ih2 => intro s; rw [typeNameAt, localise, typeName, ih1, ih2]
  | pair x y ih1 ih2 => intro s; rw [typeNameAt, localise, typeName]
  | als n t ih => intro s; rw [typeNameAt, localise, typeName]
  | struct n ms ih => intro s; rw [typeNameAt, localise, typeName]
  | union n d ms i ih1 ih2 => intro s; rw [typeNameAt, localise, typeName]

theorem localise_dims (p : Loc) (T : Ty) : ∀ s, arrayDimensions (localise p s T) = arrayDimensions T := by
  induction T using Ty.ind with
  | arr n c d ih => intro s; rw [localise, arrayDimensions, arrayDimensions, ih]
  | _ => intro s; rfl

theorem localise_named (p : Loc) (T : Ty) (h : Named T) : ∀ s, Named (localise p s T) := by
  induction T using Ty.ind with
  | prim k => intro s; trivial
  | enum n w vs => intro s; exact shown_typeName h p s
  | str k b => intro s; trivial
  | seq c b ih => intro s; exact ih h false
  | arr n c d ih => intro s; exact ih h false
  | map k v b ih1 ih2 => intro s; exact ⟨ih1 h.1 false, ih2 h.2 false⟩
  | pair x y ih1 ih2 => exact absurd h id
  | als n t ih => intro s; exact h
  | struct n ms ih => intro s; exact shown_typeName h p s
  | union n d ms i ih1 ih2 => intro s; exact shown_typeName h p s

theorem localise_root (T : Ty) (h : Named T) : ∀ s, localise [] s T = T := by
  induction T using Ty.ind with
  | prim k => intro s; rfl
  | enum n w vs => intro s; rw [localise, shown_root h]
  | str k b => intro s; rfl
  | seq c b ih => intro s; rw [localise, ih h]
  | arr n c d ih => intro s; rw [localise, ih h]
  | map k v b ih1 ih2 => intro s; rw [localise, ih1 h.1, ih2 h.2]
  | pair x y ih1 ih2 => exact absurd h id
  | als n t ih => intro s; rfl
  | struct n ms ih => intro s; rw [localise, shown_root h]
  | union n d ms i ih1 ih2 => intro s; rw [localise, shown_root h]

/-- The members of a union with the names that are printed. -/
def localMem (p : Loc) (m : SMem) : SMem := { m with ty := localise p false m.ty }

/-- A union with the names that are printed. -/
def localU (p : Loc) (u : UnionB) : UnionB := { u with agg := { u.agg with members := u.agg.members.map (localMem p) } }

/-- A declaration with the names that are printed. -/
def localiseD (p : Loc) : Decl → Decl
  | .struct n q ms => .struct n q (ms.map fun e => (e.1, localise p true e.2))
  | .union n u => .union n (localU p u)
  | .enum n vs => .enum n vs
  | .alias n t => .alias n (localise p false t)
  | .const n i => .const n i

theorem localU_labels (p : Loc) (u : UnionB) (n : String) : (localU p u).getLabels n = u.getLabels n := rfl
theorem localU_default (p : Loc) (u : UnionB) (n : String) : (localU p u).isDefault n = u.isDefault n := rfl

theorem localU_disc (p : Loc) (u : UnionB) : (localU p u).disc = localise p false u.disc := by
  unfold UnionB.disc localU
  cases u.agg.members with
  | nil => rfl
  | cons m r => rfl

theorem localU_cases (p : Loc) (u : UnionB) : caseMembers (localU p u) = (caseMembers u).map fun e => (e.1, localise p false e.2) := by
  unfold caseMembers localU
  cases u.agg.members with
  | nil => rfl
  | cons m r =>
    simp only [List.map_cons, List.tail_cons, List.map_map]
    rfl

theorem localise_rget (p : Loc) (s : Bool) (v : Int) (T : Ty) : labelValue v (localise p s T) = labelValue v T := by
  cases T with
  | enum n w vs => cases w <;> rfl
  | _ => rfl

theorem localU_labelText (p : Loc) (u : UnionB) (v : Int) : labelText (localU p u) v = labelText u v := by
  rw [labelText, labelText, localU_disc, localise_rget]

theorem localU_labelLines (p : Loc) (u : UnionB) (tabs : Nat) : ∀ vs, labelLines (localU p u) tabs vs = labelLines u tabs vs
  | [] => rfl
  | v :: vs => by rw [labelLines, labelLines, localU_labelText, localU_labelLines p u tabs vs]

theorem localU_labelsOf (p : Loc) (u : UnionB) (n : String) : labelsOf (localU p u) n = labelsOf u n := by
  unfold labelsOf
  rw [localU_labels, localU_default]
  congr 1
  exact List.map_congr_left fun v _ => localU_labelText p u v

theorem memberTextAt_eq (p : Loc) (s : Bool) (n : String) (t : Ty) : memberTextAt p s n t = memberText n (localise p s t) := by
  rw [memberTextAt, memberText, localise_text, localise_dims]

theorem memberLinesAt_eq (p : Loc) (tabs : Nat) : ∀ ms, memberLinesAt p tabs ms = memberLines tabs (ms.map fun e => (e.1, localise p true e.2))
  | [] => rfl
  | (n, t) :: ms => by
    rw [memberLinesAt, List.map_cons, memberLines, memberTextAt_eq, memberLinesAt_eq p tabs ms]

theorem caseLinesAt_eq (p : Loc) (u : UnionB) (tabs : Nat) : ∀ ms,
    caseLinesAt p u tabs ms = caseLines (localU p u) tabs (ms.map fun e => (e.1, localise p false e.2))
  | [] => rfl
  | (n, t) :: ms => by
    rw [caseLinesAt, List.map_cons, caseLines, memberTextAt_eq, caseLinesAt_eq p u tabs ms, localU_labels, localU_default,
      localU_labelLines]

theorem declTextAt_eq (p : Loc) (tabs : Nat) (d : Decl) : declTextAt p tabs d = declText tabs (localiseD p d) := by
  cases d with
  | struct n q ms =>
    rw [declTextAt, localiseD, declText]
    unfold structTextAt structText
    rw [memberLinesAt_eq, List.map_drop]
  | union n u =>
    rw [declTextAt, localiseD, declText, unionTextAt, unionText, localise_text, caseLinesAt_eq, localU_disc, localU_cases]
  | enum n vs => rfl
  | «alias» n t =>
    rw [declTextAt, localiseD, declText, aliasTextAt, aliasText, localise_text, localise_dims]
  | const n i => rfl

/-! ## What is read -/

theorem localiseD_struct (p : Loc) (n : String) (q : Option (String × Nat)) (ms : List (String × Ty)) :
    defOf (localiseD p (.struct n q ms)) = .struct (bytes n) (q.map fun x => bytes x.1)
      ((ownMembers q ms).map fun e => memberOf (e.1, localise p true e.2)) := by
  rw [localiseD, defOf, ownMembers, ownMembers, ← List.map_drop, List.map_map]
  rfl

theorem localiseD_union (p : Loc) (n : String) (u : UnionB) :
    defOf (localiseD p (.union n u)) = .union (bytes n) (specOf (localise p false u.disc))
      ((caseMembers u).map fun e => caseOfMember u (e.1, localise p false e.2)) := by
  rw [localiseD, defOf, localU_disc, localU_cases, List.map_map]
  congr 1
  refine List.map_congr_left fun e _ => ?_
  show caseOfMember (localU p u) _ = _
  rw [caseOfMember, caseOfMember, localU_labelsOf]

theorem localiseD_alias (p : Loc) (n : String) (t : Ty) :
    defOf (localiseD p (.alias n t)) = .typedef (specOf (localise p false t)) [some ⟨bytes n, (arrayDimensions t).map fun d => Dim.literal (dec d)⟩] := by
  rw [localiseD, defOf, localise_dims]

theorem localise_switch (p : Loc) (s : Bool) {T : Ty} (h : Switch T) : Switch (localise p s T) := by
  cases T with
  | enum n w vs => exact shown_typeName h p s
  | «alias» n t => exact h
  | prim k => exact h
  | _ => exact absurd h id

theorem localise_readable (p : Loc) {d : Decl} (h : Readable d) : Readable (localiseD p d) := by
  cases d with
  | struct n q ms =>
    refine ⟨h.1, h.2.1, fun e he => ?_⟩
    rw [ownMembers, ← List.map_drop] at he
    obtain ⟨x, hx, rfl⟩ := List.mem_map.mp he
    exact ⟨(h.2.2 x hx).1, localise_named p _ (h.2.2 x hx).2 true⟩
  | union n u =>
    refine ⟨h.1, ?_, ?_, fun e he => ?_⟩
    · rw [localU_disc]; exact localise_switch p false h.2.1
    · rw [localU_cases]; intro hh; exact h.2.2.1 (List.map_eq_nil_iff.mp hh)
    · rw [localU_cases] at he
      obtain ⟨x, hx, rfl⟩ := List.mem_map.mp he
      obtain ⟨h1, h2, h3, h4⟩ := h.2.2.2 x hx
      exact ⟨h1, localise_named p _ h2 false, by rw [localU_labelsOf]; exact h3, fun v hv => by rw [localU_labelText]; exact h4 v hv⟩
  | enum n vs => exact h
  | «alias» n t => exact ⟨h.1, localise_named p _ h.2 false⟩
  | const n i => exact h

theorem defOf_root {d : Decl} (h : Readable d) : defOf (localiseD [] d) = defOf d := by
  cases d with
  | struct n q ms =>
    rw [localiseD_struct, defOf]
    congr 1
    exact List.map_congr_left fun e he => by rw [localise_root _ (h.2.2 e he).2]
  | union n u =>
    rw [localiseD_union, defOf]
    have hd : localise [] false u.disc = u.disc := by
      have := h.2.1
      cases hd : u.disc with
      | enum m w vs => rw [hd] at this; rw [localise, shown_root this]
      | «alias» m t => rfl
      | prim k => rfl
      | _ => rw [hd] at this; exact absurd this id
    rw [hd]
    congr 1
    exact List.map_congr_left fun e he => by rw [localise_root _ (h.2.2.2 e he).2.1]
  | enum n vs => rfl
  | «alias» n t => rw [localiseD_alias, defOf, localise_root _ h.2]
  | const n i => rfl

/-! ## Modules in a text -/

mutual
/-- What is read in a part of a text. -/
def docDef (p : Loc) : Doc → Def
  | .decl _ _ d => defOf (localiseD p d)
  | .module _ _ n ds _ => .module (bytes n) (docsDef (n.toList :: p) ds)
/-- What is read in several parts. -/
def docsDef (p : Loc) : List Doc → List Def
  | [] => []
  | d :: ds => docDef p d :: docsDef p ds
end

mutual
/-- A part of a text that can be read. -/
def ReadableDoc : Doc → Prop
  | .decl g _ d => Layout g ∧ Readable d
  | .module g _ n ds e => Layout g ∧ Layout e ∧ Identifier n ∧ ds ≠ [] ∧ ReadableDocs ds
/-- Parts of a text that can be read. -/
def ReadableDocs : List Doc → Prop
  | [] => True
  | d :: ds => ReadableDoc d ∧ ReadableDocs ds
end

mutual
/-- How deep modules are nested in a part of a text. -/
def docDepth : Doc → Nat
  | .decl _ _ _ => 0
  | .module _ _ _ ds _ => docsDepth ds + 1
/-- How deep modules are nested. -/
def docsDepth : List Doc → Nat
  | [] => 0
  | d :: ds => max (docDepth d) (docsDepth ds)
end

mutual
theorem docDepth_le (p : Loc) : ∀ d, docDepth d ≤ (docText p d).length
  | .decl _ _ _ => by rw [docDepth]; omega
  | .module g t n ds e => by
    have := docsDepth_le (n.toList :: p) ds
    rw [docDepth, docText]
    have h1 : (bytes "{").length = 1 := rfl
    simp only [List.length_append, h1]
    omega
theorem docsDepth_le (p : Loc) : ∀ ds, docsDepth ds ≤ (docsText p ds).length
  | [] => by rw [docsDepth]; omega
  | d :: ds => by
    have h1 := docDepth_le p d
    have h2 := docsDepth_le p ds
    rw [docsDepth, docsText, List.length_append]
    omega
end

theorem docsDef_nil {p : Loc} : ∀ {ds}, ds ≠ [] → docsDef p ds ≠ []
  | [], h => absurd rfl h
  | d :: ds, _ => by rw [docsDef]; simp

mutual
theorem doc_ok (p : Loc) : ∀ (d : Doc), ReadableDoc d → ∀ f, docDepth d ≤ f →
    ∃ i q, docText p d = i ++ q ∧ Layout i ∧ (∀ s, Clean (q ++ s)) ∧ q ≠ [] ∧
      ∀ b s, Layout b → Clean s → definition (f + 1) (q ++ (b ++ s)) = some (docDef p d, s)
  | .decl g t d, h, f, _ => by
    rw [ReadableDoc] at h
    have hd := localise_readable p h.2
    obtain ⟨q, e, hq, hqat, hne⟩ := decl_front hd t
    refine ⟨g ++ indent t, q, ?_, layout_append h.1 (spaces_indent t), hq, hne, fun b s hb hs => ?_⟩
    · rw [docText, declTextAt_eq, e, List.append_assoc]
    · have := definition_ok hd t f hb hs
      rw [e, List.append_assoc, definition_skip f (blanks_indent t) (hq _) (hqat _)] at this
      rw [this, docDef]
  | .module g t n ds e, h, f, hf => by
    rw [ReadableDoc] at h
    obtain ⟨hg, he, hn, hne, hds⟩ := h
    rw [docDepth] at hf
    cases f with
    | zero => omega
    | succ f =>
    have hid := ident_is hn
    let q := bytes "module" ++ ([32] ++ (bytes n ++ ((10 :: indent t) ++ 123 :: (10 :: (docsText (n.toList :: p) ds ++ (e ++ (indent t ++ [125, 59, 10])))))))
    have hword := (dkw_words "module" (by decide)).1
    refine ⟨g ++ indent t, q, ?_, layout_append hg (spaces_indent t), fun s => ?_, ?_, fun b s hb hs => ?_⟩
    · have e1 : bytes "\n" = [10] := rfl
      have e2 : bytes "module " = bytes "module" ++ [32] := rfl
      have e3 : bytes "{" = [123] := rfl
      have e4 : bytes "};" = [125, 59] := rfl
      rw [docText, e1, e2, e3, e4]
      simp only [q, List.append_assoc, List.cons_append, List.nil_append]
    · show Clean ((bytes "module" ++ _) ++ s)
      rw [List.append_assoc]; exact word_clean hword _
    · intro h0
      exact hword.2 (List.append_eq_nil_iff.mp h0).1
    · have hbl : Layout (10 :: b) := blanks_append (a := [10]) blanks_nl hb
      have hsemi : sym ";" (59 :: (10 :: (b ++ s))) = some ((), s) := by
        have e := sym_front0 (w := ";") (c := 59) rfl (by decide) hbl hs
        rwa [List.cons_append] at e
      obtain ⟨b1, q1, k1, k2, k3, k4, k5⟩ := docs_chain (n.toList :: p) ds hds f (by omega) (e := e ++ indent t) (layout_append he (spaces_indent t))
        (s := 125 :: (59 :: (10 :: (b ++ s)))) (by exact (by decide : blank 125 = false ∧ 125 ≠ 47)) (definition_brace f _)
      have eq : q ++ (b ++ s) = [] ++ (bytes "module" ++ ([32] ++ (bytes n ++ ((10 :: indent t) ++ 123 :: ((10 :: b1) ++ q1))))) := by
        rw [show (10 :: b1) ++ q1 = 10 :: (b1 ++ q1) from rfl, ← k1]
        simp only [q, List.append_assoc, List.cons_append, List.nil_append]
      rw [eq, definition_succ]
      rw [docDef]
      refine definitionWith_ok (r := 59 :: (10 :: (b ++ s))) (choice_first ?_) hsemi
      unfold moduleDcl
      rw [bind_ok (annots_none (s := [] ++ (bytes "module" ++ ([32] ++ (bytes n ++ ((10 :: indent t) ++ 123 :: ((10 :: b1) ++ q1)))))) (noAt_layout blanks_nil (noAt_word hword _))), bind_ok (dkw_ok (by decide) (a := []) blanks_nil (isId_clean hid _)),
        bind_ok (isId_read hid (by exact (by decide : idChar 10 = false))),
        bind_ok (sym_front (w := "{") (c := 123) (a := 10 :: indent t) (b := 10 :: b1) rfl (by decide) (blanks_append (a := [10]) blanks_nl (blanks_indent t)) (blanks_append (a := [10]) blanks_nl k2) k3)]
      cases hl : docsDef (n.toList :: p) ds with
      | nil => exact absurd hl (docsDef_nil hne)
      | cons x l =>
        rw [hl] at k5
        cases k5 with
        | cons g1 g2 g3 =>
          rw [bind_ok (plus_chain g1 g3),
            bind_ok (sym_front1 (w := "}") (c := 125) rfl (by decide) (by exact (by decide : blank 59 = false ∧ 59 ≠ 47)))]
          rfl
theorem docs_chain (p : Loc) : ∀ (ds : List Doc), ReadableDocs ds → ∀ f, docsDepth ds ≤ f → ∀ {e s : Bytes}, Layout e → Clean s →
    definition (f + 1) s = none →
    ∃ b q, docsText p ds ++ (e ++ s) = b ++ q ∧ Layout b ∧ Clean q ∧ (ds ≠ [] → q ≠ []) ∧ Chain (definition (f + 1)) q (docsDef p ds) s
  | [], _, f, _, e, s, he, hs, hno => ⟨e, s, by rw [docsText, List.nil_append], he, hs, fun h => absurd rfl h, by rw [docsDef]; exact .nil hno⟩
  | d :: ds, h, f, hf, e, s, he, hs, hno => by
    rw [ReadableDocs] at h
    rw [docsDepth] at hf
    obtain ⟨b, q, k1, k2, k3, k4, k5⟩ := docs_chain p ds h.2 f (by omega) he hs hno
    obtain ⟨i, r, l1, l2, l3, l4, l5⟩ := doc_ok p d h.1 f (by omega)
    refine ⟨i, r ++ (b ++ q), ?_, l2, l3 _, fun _ h0 => l4 (List.append_eq_nil_iff.mp h0).1, ?_⟩
    · rw [docsText, List.append_assoc, k1, l1, List.append_assoc]
    · rw [docsDef]
      refine .cons (r := q) (l5 b q k2 k3) ?_ k5
      cases r with
      | nil => exact absurd rfl l4
      | cons c r => simp only [List.length_append, List.length_cons]; omega
end

/-- The grammar reads a text of declarations and modules. -/
theorem docs_ok {ds : List Doc} (hne : ds ≠ []) (h : ReadableDocs ds) {e : Bytes} (he : Layout e) :
    document (docsText [] ds ++ e) = some (docsDef [] ds) := by
  have hdep := docsDepth_le [] ds
  obtain ⟨b, q, e1, hb, hq, hqne, hc⟩ := docs_chain [] ds h (docsText [] ds ++ e).length (by rw [List.length_append]; omega) he (s := []) trivial
    (definition_end _)
  rw [List.append_nil] at e1
  unfold document
  generalize (docsText [] ds ++ e).length = f at hc ⊢
  rw [e1, bind_ok (wsOpt_ok hb hq)]
  cases hl : docsDef [] ds with
  | nil => exact absurd hl (docsDef_nil hne)
  | cons d r =>
    rw [hl] at hc
    cases hc with
    | cons h1 h2 h3 => rw [bind_ok (plus_chain h1 h3)]; rfl

end Verif.Idl.Syn
