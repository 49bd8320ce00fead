import Verif.Lemmas.IdlBuild
/-!
# Entering declarations
-/

namespace Verif.Idl.Syn
open Text Gen

/-! ## Registration in the root module -/

theorem hasSymbol_false {m : Mod Item} {x : Name} (h : m.hasSymbol x = false) :
    (∀ k, omHas (m.content.get k) x = false) ∧ omHas m.inner x = false := by
  simp only [Mod.hasSymbol, Bool.or_eq_false_iff] at h
  refine ⟨fun k => ?_, h.2⟩
  cases k <;> simp only [Content.get] <;> tauto

/-- A module with one more entry in a table. -/
def put (k : Cat) (x : Name) (v : Item) (m : Mod Item) : Mod Item := .mk (m.content.set k (omIns x v (m.content.get k))) m.inner

theorem registerCore_put {m : Mod Item} {k : Cat} {x : Name} (hx : ':' ∉ x) (h : omHas (m.content.get k) x = false) (v : Item) :
    registerCore k x v false m = (put k x v m, true) := by
  simp [registerCore, cut_none hx, omEmplace, h, put]

theorem register_put {root m : Mod Item} {p : Loc} (hm : root.at p = some m) {k : Cat} {x : Name} (hx : ':' ∉ x)
    (h : omHas (m.content.get k) x = false) (v : Item) :
    register root p k x v = (root.modify p fun _ => put k x v m, true) := by
  rw [register_at hm, registerCore_put hx h]

theorem erase_ins {t : List (Name × Item)} {x : Name} (h : omHas t x = false) (v : Item) : omErase (omIns x v t) x = t := by
  rw [omHas_false_iff] at h
  induction t with
  | nil => simp [omIns, omErase]
  | cons p r ih =>
    simp only [List.map_cons, List.mem_cons, not_or] at h
    have hr : omErase r x = r := by
      rw [omErase, List.filter_eq_self]
      intro a ha
      simp only [decide_eq_true_eq, ne_eq]
      rintro rfl
      exact h.2 (List.mem_map_of_mem ha)
    have hp : p.1 ≠ x := fun e => h.1 e.symm
    rw [omIns]
    split
    · show omErase ((x, v) :: p :: r) x = p :: r
      simp only [omErase, List.filter_cons, ne_eq, not_true_eq_false, decide_false, if_false, hp, not_false_eq_true, decide_true, if_true, Bool.false_eq_true]
      exact congrArg _ hr
    · show omErase (p :: omIns x v r) x = p :: r
      simp only [omErase, List.filter_cons, ne_eq, hp, not_false_eq_true, decide_true, if_true]
      exact congrArg _ (ih h.2)

theorem set_set (c : Content Item) (k : Cat) (a b : List (Name × Item)) : (c.set k a).set k b = c.set k b := by
  cases k <;> rfl

theorem get_set_same (c : Content Item) (k : Cat) (a : List (Name × Item)) : (c.set k a).get k = a := by
  cases k <;> rfl

theorem get_set_other (c : Content Item) {k j : Cat} (h : j ≠ k) (a : List (Name × Item)) : (c.set k a).get j = c.get j := by
  cases k <;> cases j <;> first | rfl | exact absurd rfl h

/-- The symbols of a module that got one more. -/
theorem hasSymbol_put {m : Mod Item} {k : Cat} {x : Name} {v : Item} (y : Name) :
    (put k x v m).hasSymbol y = (decide (y = x) || m.hasSymbol y) := by
  have h : ∀ t : List (Name × Item), omHas (omIns x v t) y = (decide (y = x) || omHas t y) := by
    intro t
    rw [Bool.eq_iff_iff, Bool.or_eq_true, omHas_iff, omHas_iff, decide_eq_true_eq]
    have := (omIns_perm x v t).map (·.1)
    rw [this.mem_iff]; simp
  cases m with
  | mk c i =>
    unfold put
    cases k <;> simp only [Mod.hasSymbol, Content.set, Content.get, Mod.content, Mod.inner, h] <;>
      cases (decide (y = x)) <;> simp

theorem get_put_same {m : Mod Item} {k : Cat} {x : Name} {v : Item} (h : omHas (m.content.get k) x = false) :
    omGet ((put k x v m).content.get k) x = some v := by
  show omGet ((m.content.set k _).get k) x = _
  rw [get_set_same, omGet_omIns (omHas_false_iff.mp h), if_pos rfl]

theorem get_put {m : Mod Item} {k : Cat} {x : Name} {v : Item} (h : omHas (m.content.get k) x = false) {y : Name} (hy : y ≠ x) (j : Cat) :
    omGet ((put k x v m).content.get j) y = omGet (m.content.get j) y := by
  show omGet ((m.content.set k _).get j) y = _
  by_cases hj : j = k
  · subst hj
    rw [get_set_same, omGet_omIns (omHas_false_iff.mp h), if_neg hy.symm]
  · rw [get_set_other _ hj]

/-- A name that is not visible is in no table. -/
theorem free_symbol {root m : Mod Item} {p : Loc} (hm : root.at p = some m) {x : Name} (h : Unseen root p x) :
    m.hasSymbol x = false := by
  rw [Bool.eq_false_iff]
  intro hs
  exact h p List.suffix_rfl ⟨m, hm, hs⟩

theorem adds_put {root m : Mod Item} {p : Loc} (hm : root.at p = some m) (k : Cat) {x : String} (v : Item) (hx : Identifier x)
    (h : Unseen root p x.toList) : Adds root (root.modify p fun _ => put k x.toList v m) p x.toList :=
  adds_mod hm (ident_ident hx) h rfl (fun y => hasSymbol_put y)
    (fun y hy j => get_put ((hasSymbol_false (free_symbol hm h)).1 k) hy j)

/-! ## Proper trees -/

theorem proper_sub {root m : Mod Item} {p : Loc} (h : Proper root) (hm : root.at p = some m) : Proper m := by
  intro q a ha
  refine h (q ++ p) a ?_
  rw [at_append, hm]; exact ha

theorem proper_modify {root m m1 : Mod Item} {p : Loc} (h : Proper root) (hm : root.at p = some m) (h1 : Proper m1) :
    Proper (root.modify p fun _ => m1) := by
  intro q a ha
  by_cases hq : p <:+ q
  · obtain ⟨s, rfl⟩ := hq
    rw [at_below _ hm] at ha
    exact h1 s a ha
  · rcases at_other (fun _ => m1) hm hq with ⟨_, h0⟩ | ⟨x, y, k1, k2, k3⟩
    · rw [ha] at h0; cases h0
    · rw [ha, Option.some.injEq] at k2
      subst k2
      obtain ⟨g1, g2⟩ := h q x k1
      refine ⟨by rw [k3.2]; exact g1, fun z hz => g2 z (by rw [k3.symbol] at hz; exact hz)⟩

/-- A change of the tables of a module only. -/
theorem proper_tables {m m1 : Mod Item} (h : Proper m) (hi : m1.inner = m.inner)
    (hs : ∀ x, m1.hasSymbol x = true → Identifier (String.ofList x)) : Proper m1 := by
  intro q a ha
  by_cases hq : q = []
  · subst hq
    rw [Mod.at, Option.some.injEq] at ha
    subst ha
    exact ⟨by rw [hi]; exact (h [] m rfl).1, hs⟩
  · rw [at_inner hi q hq] at ha
    exact h q a ha

theorem proper_put {m : Mod Item} (h : Proper m) (k : Cat) {x : String} (v : Item) (hx : Identifier x) : Proper (put k x.toList v m) := by
  refine proper_tables h rfl fun y hy => ?_
  rw [hasSymbol_put, Bool.or_eq_true, decide_eq_true_eq] at hy
  rcases hy with rfl | hy
  · rw [String.ofList_toList]; exact hx
  · exact (h [] m rfl).2 y hy

theorem proper_keys {root : Mod Item} (h : Proper root) : Keys root := fun q m hm => (h q m hm).1

/-- Found where it is. -/
theorem lookup_here {root m : Mod Item} {p : Loc} (hm : root.at p = some m) {x : Name} (hx : ':' ∉ x) (hs : m.hasSymbol x = true) :
    Lookup root p x (.found p x) :=
  (lookup_plain (by rw [hm]; rfl) (cut_none hx) p x).mpr ⟨rfl, innermost_self ⟨m, hm, hs⟩⟩

/-! ## Structures -/

theorem any_false {acc : List (String × Ty)} {n : String} (h : n ∉ acc.map (·.1)) : acc.any (·.1 == n) = false := by
  rw [Bool.eq_false_iff]
  intro hh
  obtain ⟨e, he, h2⟩ := List.any_eq_true.mp hh
  have : e.1 = n := by simpa using h2
  exact h (this ▸ List.mem_map_of_mem he)

theorem addAll_ok : ∀ (ms acc : List (String × Ty)), ((acc ++ ms).map (·.1)).Nodup → addAll acc ms = (acc ++ ms, true)
  | [], acc, _ => by rw [addAll, List.append_nil]
  | e :: r, acc, h => by
    have hn : e.1 ∉ acc.map (·.1) := by
      rw [List.map_append, List.nodup_append] at h
      intro hh
      exact h.2.2 _ hh e.1 (by simp) rfl
    rw [addAll, any_false hn, if_neg (by simp), addAll_ok r (acc ++ [e]) (by simpa using h)]
    simp

theorem forAll_dims (root : Mod Item) (p : Loc) (f : Nat) : ∀ ds : List Nat, (∀ d ∈ ds, d < 2 ^ 32) →
    forAll (dimension root p f) (ds.map fun d => Dim.literal (dec d)) = .ok ds
  | [], _ => rfl
  | d :: ds, h => by
    rw [List.map_cons, forAll, dimension_dec root p f (h d (by simp))]
    simp only [Except.bind, forAll_dims root p f ds (fun x hx => h x (List.mem_cons_of_mem _ hx)), Except.map]

theorem members_ok (c : Ctx) (root : Mod Item) (p : Loc) (f : Nat) : ∀ (ms acc : List (String × Ty)),
    ((acc ++ ms).map (·.1)).Nodup →
    (∀ e ∈ ms, Free root p e.1 ∧ Stepwise e.2 ∧ DimsBelow (2 ^ 32) e.2 ∧
      evalType c root p f (specOf (localise p true e.2)) = .ok (innermost e.2)) →
    members c root p f acc (ms.map fun e => memberOf (e.1, localise p true e.2)) = .ok (acc ++ ms)
  | [], acc, _, _ => by rw [List.map_nil, members, List.append_nil]
  | (n, T) :: r, acc, hn, h => by
    obtain ⟨hfree, hst, hd, he⟩ := h (n, T) (by simp)
    have hnn : n ∉ acc.map (·.1) := by
      rw [List.map_append, List.nodup_append] at hn
      intro hh
      exact hn.2.2 _ hh n (by simp) rfl
    have e1 : declr c root p f ⟨bytes n, (arrayDimensions T).map fun d => Dim.literal (dec d)⟩ = .ok (n, arrayDimensions T) := by
      rw [declr, resolveId_free c root hfree.1 hfree.2]
      simp only [Except.bind, forAll_dims root p f _ (below_dims hd), Except.map, str_bytes]
    have ih := members_ok c root p f r (acc ++ [(n, T)]) (by simpa using hn) (fun e he => h e (List.mem_cons_of_mem _ he))
    rw [List.map_cons, memberOf, localise_dims, members, he]
    simp only [Except.bind, forAll, e1, Except.map, addDeclrs, any_false hnn, Bool.false_eq_true, if_false, declType_ok hst]
    rw [ih]; simp

/-- Adding to the module at a place. -/
theorem enter_at {root m : Mod Item} {p : Loc} (hm : root.at p = some m) (d : Decl) : enter p d root = root.modify p fun _ => addDecl p d m :=
  modify_congr hm rfl

/-- Writing over the entry that was just made. -/
theorem register_over {root m : Mod Item} {p : Loc} (hm : root.at p = some m) {k : Cat} {x : Name} (hx : ':' ∉ x)
    (h : omHas (m.content.get k) x = false) (v w : Item) :
    (register (root.modify p fun _ => put k x v m) p k x w true).1 = root.modify p fun _ => put k x w m := by
  rw [register_at (at_modify_self _ hm)]
  simp only [modify_comp]
  refine modify_congr hm ?_
  have he : omErase ((put k x v m).content.get k) x = m.content.get k := by
    show omErase ((m.content.set k _).get k) x = _
    rw [get_set_same]
    exact erase_ins h v
  have hc : (put k x v m).content = m.content.set k (omIns x v (m.content.get k)) := rfl
  simp only [registerCore, cut_none hx, Option.isSome_none, Bool.false_eq_true, if_false, if_true, he, omEmplace, h]
  rw [hc, set_set]; rfl

theorem struct_ev (c : Ctx) {root m : Mod Item} (hpr : Proper root) {p : Loc} (hm : root.at p = some m) {n : String} {q : Option (String × Nat)}
    {ms : List (String × Ty)} (h : Declarable ⟨c.char, c.wide16⟩ root p (.struct n q ms)) :
    Ev fun f => buildStruct c root p f (bytes n) (q.map fun x => bytes x.1)
      ((ownMembers q ms).map fun e => memberOf (e.1, localise p true e.2)) = (enter p (.struct n q ms) root, none) := by
  obtain ⟨hn, hnd, hpar, hms⟩ := h
  have hco := ident_colon hn.1.1
  have hs := hasSymbol_false (free_symbol hm hn.2)
  let v0 : Item := .ty (.struct (scopedStr p n) .nil)
  let root1 : Mod Item := root.modify p fun _ => put .struct n.toList v0 m
  have hreg : register root p .struct n.toList v0 = (root1, true) := register_put hm hco (hs.1 .struct) v0
  have hadds : Adds root root1 p n.toList := adds_put hm .struct v0 hn.1.1 hn.2
  have hext := hadds.ext
  have hat1 : root1.at p = some (put .struct n.toList v0 m) := at_modify_self _ hm
  have hp1 : Proper root1 := proper_modify hpr hm (proper_put (proper_sub hpr hm) .struct v0 hn.1.1)
  have hi1 : (root1.at p).isSome := by rw [hat1]; rfl
  -- the structure is found again
  have hself : MeansStruct root1 p n [] := by
    refine ⟨p, n.toList, scopedStr p n, .nil, lookup_here hat1 hco (by rw [hasSymbol_put]; simp), ?_, rfl⟩
    rw [fetch, hat1, Option.bind_some]
    exact get_put_same (hs.1 .struct)
  have hparent : Ev fun f => parentMembers root1 p f (q.map fun x => bytes x.1) = .ok (q.map fun x => ms.take x.2) := by
    cases q with
    | none => exact Ev.of fun _ => rfl
    | some x =>
      obtain ⟨_, _, hm⟩ := hpar x rfl
      refine (structMembers_ev (MeansStruct.ext hext hm)).mono fun f hf => ?_
      simp only [Option.map_some, parentMembers, nm_bytes, hf, Except.map]
  have hown : (q.map fun x => ms.take x.2).getD [] ++ ownMembers q ms = ms := by
    cases q with
    | none => simp [ownMembers]
    | some x => simp [ownMembers]
  have hev : Ev fun f => ∀ e ∈ ownMembers q ms, evalType c root1 p f (specOf (localise p true e.2)) = .ok (innermost e.2) :=
    Ev.list fun e he => member_ev c hp1 hi1 (writable_ext hext (hms e he).2.2.2.2)
  refine (hparent.and (hev.and (structMembers_ev hself))).mono ?_
  rintro f ⟨h1, h2, h3⟩
  have hmem := members_ok c root1 p f (ownMembers q ms) [] (by
      rw [List.nil_append]
      exact hnd.sublist ((List.drop_sublist _ _).map _)) (fun e he => by
      obtain ⟨hfr, hne, hw⟩ := hms e he
      refine ⟨⟨hfr.1, hadds.other (fun e' => hne (String.toList_inj.mp e')) hfr.2⟩, hw.1, hw.2.1, h2 e he⟩)
  have hput : putStruct root1 p n.toList ms = enter p (.struct n q ms) root := by
    rw [putStruct, register_over hm hco (hs.1 .struct), enter_at hm]
    cases m with
    | mk cc ii => rfl
  unfold buildStruct
  rw [resolveId_own c root p hn.1]
  simp only [orStop]
  rw [nm_bytes, show (Item.ty (.struct (String.ofList (scopedName p n.toList)) .nil)) = v0 from rfl, hreg]
  simp only []
  rw [h1]
  simp only []
  rw [hmem]
  simp only [List.nil_append]
  rw [h3]
  simp only [ne_eq, not_true_eq_false, if_false]
  have hadd := addAll_ok (ownMembers q ms) ((q.map fun x => ms.take x.2).getD []) (by rw [hown]; exact hnd)
  rw [hown] at hadd
  simp only [hadd, if_true, hput, List.nil_append]

/-! ## Aliases -/

theorem look_fail {root : Mod Item} {p : Loc} (hp : (root.at p).isSome) {x : Name} (hx : ':' ∉ x) (h : Unseen root p x)
    {f : Nat} (hf : p.length < f) : look root p f x = .ok .fail := by
  have := (resolve_single (root := root) (orig := x) hx p true hp (by simp)).2 h
  rw [look, resolve_le root (show p.length + 1 ≤ f from hf) this]

theorem forAll_bounds : ∀ ds : List Nat, (∀ d ∈ ds, d < 2 ^ 31) →
    forAll aliasDim (ds.map fun d => Dim.literal (dec d)) = .ok ds
  | [], _ => rfl
  | d :: ds, h => by
    rw [List.map_cons, forAll]
    simp only [aliasDim, intBound_dec (h d (by simp)), Except.bind, forAll_bounds ds (fun x hx => h x (List.mem_cons_of_mem _ hx)), Except.map]

theorem alias_ev (c : Ctx) {root m : Mod Item} (hpr : Proper root) {p : Loc} (hm : root.at p = some m) {n : String} {t : Ty}
    (h : Declarable ⟨c.char, c.wide16⟩ root p (.alias n t)) :
    Ev fun f => buildAlias c root p f (specOf (localise p false t)) [some ⟨bytes n, (arrayDimensions t).map fun d => Dim.literal (dec d)⟩] =
      (enter p (.alias n t) root, none) := by
  obtain ⟨hn, hst, hd, hw⟩ := h
  have hco := ident_colon hn.1.1
  have hs := hasSymbol_false (free_symbol hm hn.2)
  have hi : (root.at p).isSome := by rw [hm]; rfl
  have he := member_ev c hpr hi hw
  refine (he.and (show Ev (fun f => look root p f n.toList = .ok .fail) from ⟨p.length + 1, fun f hf => look_fail hi hco hn.2 hf⟩)).mono ?_
  rintro f ⟨h1, h2⟩
  unfold buildAlias
  rw [h1]
  simp only [orStop, resolveId_free c root hn.1 hn.2, Except.bind, forAll_bounds _ (below_dims hd), Except.map, nm_bytes, h2,
    declType_ok hst]
  rw [createAlias, cut_none hco]
  simp only [Option.isSome_none, Bool.false_or, hasAlias, Idl.fetch, Bool.false_eq_true, if_false]
  rw [register_put hm hco (hs.1 .alias), enter_at hm]
  cases m with
  | mk cc ii => rfl

end Verif.Idl.Syn
