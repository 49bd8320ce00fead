import Verif.Spec.DeclOrder
import Verif.Lemmas.DepOrder
import Verif.Lemmas.DepSolve
import Verif.Lemmas.Module
import Verif.Lemmas.Inst
/-!
# Declaration order of the generated IDL
-/

namespace Verif.Idl.Dep

/-! ## Names -/

theorem rcut_none {x : Name} (h : ':' ∉ x) : rcut x = none := by
  induction x with
  | nil => rfl
  | cons c r ih =>
    have hc : c ≠ ':' := by rintro rfl; exact h (List.mem_cons_self ..)
    unfold rcut
    rw [ih (fun h' => h (List.mem_cons_of_mem _ h'))]
    simp only
    split
    · exact absurd rfl hc
    · rfl

theorem rcut_append {x : Name} (a : Name) (h : ':' ∉ x) : rcut (a ++ [':', ':'] ++ x) = some (a, x) := by
  induction a with
  | nil =>
    have h1 : rcut (':' :: x) = none := by
      unfold rcut
      rw [rcut_none h]
      simp only
      split
      · exact absurd (List.mem_cons_self ..) h
      · rfl
    show rcut (':' :: ':' :: x) = _
    unfold rcut
    rw [h1]
    rfl
  | cons c a ih =>
    show rcut (c :: (a ++ [':', ':'] ++ x)) = _
    unfold rcut
    rw [ih]

theorem scope_ne_nil {p : Loc} (hp : ∀ a ∈ p, Ident a) (h : p ≠ []) : scope p ≠ [] := by
  cases p with
  | nil => exact absurd rfl h
  | cons a r =>
    have := (hp a (List.mem_cons_self ..)).1
    rw [scope]
    split
    · exact this
    · simp

theorem rcut_scopedName {p : Loc} {x : Name} (hp : ∀ a ∈ p, Ident a) (h : p ≠ []) (hx : ':' ∉ x) :
    rcut (scopedName p x) = some (scope p, x) := by
  rw [scopedName, if_neg (scope_ne_nil hp h)]
  exact rcut_append _ hx

theorem unscoped_scopedName {p : Loc} {x : Name} (hp : ∀ a ∈ p, Ident a) (hx : ':' ∉ x) :
    unscoped (scopedName p x) = x := by
  cases p with
  | nil => rw [scopedName_nil, unscoped, rcut_none hx]
  | cons a r => rw [unscoped, rcut_scopedName hp (by simp) hx]

theorem scope_inj : ∀ {p q : Loc}, (∀ a ∈ p, Ident a) → (∀ a ∈ q, Ident a) → scope p = scope q → p = q := by
  intro p
  induction p with
  | nil =>
    intro q _ hq h
    cases q with
    | nil => rfl
    | cons b s => exact absurd h.symm (scope_ne_nil hq (by simp))
  | cons a r ih =>
    intro q hp hq h
    cases q with
    | nil => exact absurd h (scope_ne_nil hp (by simp))
    | cons b s =>
      rw [scope_cons, scope_cons] at h
      have ha := (hp a (List.mem_cons_self ..)).2
      have hb := (hq b (List.mem_cons_self ..)).2
      have hr : ∀ c ∈ r, Ident c := fun c hc => hp c (List.mem_cons_of_mem _ hc)
      have hs : ∀ c ∈ s, Ident c := fun c hc => hq c (List.mem_cons_of_mem _ hc)
      have e1 := congrArg unscoped h
      rw [unscoped_scopedName hr ha, unscoped_scopedName hs hb] at e1
      subst e1
      cases r with
      | nil =>
        cases s with
        | nil => rfl
        | cons d s' =>
          have := congrArg rcut h
          rw [scopedName_nil, rcut_none ha, rcut_scopedName hs (by simp) ha] at this
          cases this
      | cons c r' =>
        cases s with
        | nil =>
          have := congrArg rcut h
          rw [scopedName_nil, rcut_none ha, rcut_scopedName hr (by simp) ha] at this
          cases this
        | cons d s' =>
          have := congrArg rcut h
          rw [rcut_scopedName hr (by simp) ha, rcut_scopedName hs (by simp) ha] at this
          simp only [Option.some.injEq, Prod.mk.injEq, and_true] at this
          rw [ih hr hs this]

theorem scopedName_inj {p q : Loc} {x y : Name} (hp : ∀ a ∈ p, Ident a) (hq : ∀ a ∈ q, Ident a) (hx : Ident x)
    (hy : Ident y) (h : scopedName p x = scopedName q y) : p = q ∧ x = y := by
  have := scope_inj (p := x :: p) (q := y :: q)
    (by intro a ha; rcases List.mem_cons.mp ha with rfl | ha; exacts [hx, hp a ha])
    (by intro a ha; rcases List.mem_cons.mp ha with rfl | ha; exacts [hy, hq a ha])
    (by rw [scope_cons, scope_cons]; exact h)
  cases this
  exact ⟨rfl, rfl⟩

theorem scope_no_prefix {p : Loc} (hp : ∀ a ∈ p, Ident a) : [':', ':'].isPrefixOf (scope p) = false := by
  cases p with
  | nil => rfl
  | cons a r =>
    rw [scope_cons, scopedName_eq (fun c hc => hp c (List.mem_cons_of_mem _ hc))]
    cases hr : r.reverse with
    | nil =>
      have ha := hp a (List.mem_cons_self ..)
      simp only [joinScope]
      cases a with
      | nil => rfl
      | cons c a =>
        have : c ≠ ':' := by rintro rfl; exact ha.2 (List.mem_cons_self ..)
        simp only [List.isPrefixOf, Bool.and_eq_false_imp, beq_iff_eq]
        intro h; exact absurd h.symm this
    | cons b s =>
      have hb := hp b (List.mem_cons_of_mem _ (by rw [← List.mem_reverse, hr]; exact List.mem_cons_self ..))
      simp only [joinScope]
      cases b with
      | nil => exact absurd rfl hb.1
      | cons c b =>
        have : c ≠ ':' := by rintro rfl; exact hb.2 (List.mem_cons_self ..)
        simp only [List.isPrefixOf, List.cons_append, Bool.and_eq_false_imp, beq_iff_eq]
        intro h; exact absurd h.symm this

/-- The scope of a qualified name is that of its module and of no other one. -/
theorem scopeMatch_scopedName {p q : Loc} {x : Name} (hp : ∀ a ∈ p, Ident a) (hq : ∀ a ∈ q, Ident a) (hx : ':' ∉ x) :
    scopeMatch q (scopedName p x) = true ↔ p = [] ∨ q = p := by
  cases p with
  | nil => rw [scopedName_nil, scopeMatch, rcut_none hx]; simp
  | cons a r =>
    rw [scopeMatch, rcut_scopedName hp (by simp) hx]
    simp only [scope_no_prefix hp, Bool.false_eq_true, if_false, decide_eq_true_eq]
    constructor
    · intro h; exact .inr (scope_inj hp hq h).symm
    · rintro (h | h)
      · cases h
      · rw [h]

/-! ## Printed names are recorded -/

theorem self_seen (T s : Ty) : s ∈ seen T s := by
  induction T using Ty.ind generalizing s with
  | als n t ih => rw [seen]; exact ih s
  | _ => rw [seen]; simp

theorem typeNames_seen (T : Ty) {x : Name} (h : x ∈ typeNames T) :
    ∃ t ∈ seen T T, opts t = true ∧ t.name.toList = x := by
  induction T using Ty.ind with
  | prim k => cases h
  | enum n w l => rw [typeNames, List.mem_singleton] at h; exact ⟨_, self_seen _ _, rfl, h.symm⟩
  | str c b => cases h
  | seq c b ih =>
    obtain ⟨t, ht, ho⟩ := ih h
    exact ⟨t, by rw [seen]; exact List.mem_cons_of_mem _ ht, ho⟩
  | arr s c d ih =>
    obtain ⟨t, ht, ho⟩ := ih h
    exact ⟨t, by rw [seen]; exact List.mem_cons_of_mem _ ht, ho⟩
  | map k v b ih ih' =>
    rw [typeNames, List.mem_append] at h
    rcases h with h | h
    · obtain ⟨t, ht, ho⟩ := ih h
      exact ⟨t, by rw [seen]; simp [ht], ho⟩
    · obtain ⟨t, ht, ho⟩ := ih' h
      exact ⟨t, by rw [seen]; simp [ht], ho⟩
  | pair k v ih ih' =>
    rw [typeNames, List.mem_append] at h
    rcases h with h | h
    · obtain ⟨t, ht, ho⟩ := ih h
      exact ⟨t, by rw [seen]; simp [ht], ho⟩
    · obtain ⟨t, ht, ho⟩ := ih' h
      exact ⟨t, by rw [seen]; simp [ht], ho⟩
  | als n t ih => rw [typeNames, List.mem_singleton] at h; exact ⟨_, self_seen _ _, rfl, h.symm⟩
  | struct n ms => rw [typeNames, List.mem_singleton] at h; exact ⟨_, self_seen _ _, rfl, h.symm⟩
  | union n d ms us => rw [typeNames, List.mem_singleton] at h; exact ⟨_, self_seen _ _, rfl, h.symm⟩

theorem memNames_seen : ∀ (ms : Mems) {x : Name}, x ∈ memNames ms →
    ∃ t ∈ seenAll ms, opts t = true ∧ t.name.toList = x
  | .nil, _, h => by cases h
  | .cons _ t r, x, h => by
    rw [memNames, List.mem_append] at h
    rcases h with h | h
    · obtain ⟨t, ht, ho⟩ := typeNames_seen t h
      exact ⟨t, by rw [seenAll]; exact List.mem_append_left _ ht, ho⟩
    · obtain ⟨t, ht, ho⟩ := memNames_seen r h
      exact ⟨t, by rw [seenAll]; exact List.mem_append_right _ ht, ho⟩

theorem Clean.locs {root : Mod Decl} (hc : Clean root) {n : Node} (h : (declOf root n).isSome) :
    ∀ a ∈ n.loc, Ident a := hc.mods _ (nodesAt_at (mem_nodesAt.mpr ⟨rfl, h⟩))

theorem mem_walkNames {T t : Ty} {x : Name} (ht : t ∈ seen T T) (ho : opts t = true) (hx : t.name.toList = x)
    (hne : T.name.toList ≠ x) : x ∈ walkNames T := by
  simp only [walkNames, List.mem_map, List.mem_filter, decide_eq_true_eq]
  refine ⟨t, ⟨ht, ?_, ho⟩, hx⟩
  intro e; rw [e] at hx; exact hne hx

/-- What a declaration uses is passed to `set_dependency`. -/
theorem names_of_uses {root : Mod Decl} (hc : Clean root) {n m : Node} (h : Uses root n m) (hp : Plain root n) :
    Names root n (scopedName m.loc m.name) := by
  obtain ⟨hne, -, hm, -, d, hd, hx⟩ := h
  have hn : (declOf root n).isSome := by rw [hd]; rfl
  refine ⟨d, hd, ?_⟩
  have hpl := hp d hd
  have hself : n.kind ≠ .const → d.ty.name.toList ≠ scopedName m.loc m.name := by
    intro hk e
    rw [hc.types n d hd hk] at e
    obtain ⟨e1, e2⟩ := scopedName_inj (hc.locs hn) (hc.locs hm) (hc.names n hn) (hc.names m hm) e
    have e3 := hc.kinds n m hn hm e1 e2
    apply hne
    cases n; cases m; simp only [Node.mk.injEq]; exact ⟨e1, e3, e2⟩
  cases hk : n.kind with
  | «alias» =>
    rw [hk] at hpl hx
    obtain ⟨s, t, e, ho⟩ := hpl
    simp only [printedNames, depNames, e] at hx ⊢
    rw [if_pos ho]
    cases t <;> first | (cases ho; done) | exact hx
  | const =>
    rw [hk] at hpl hx
    simp only [printedNames, depNames] at hx ⊢
    rw [if_pos hpl]
    cases hT : d.ty <;> rw [hT] at hx hpl <;> first | (cases hpl; done) | exact hx
  | enum => rw [hk] at hx; cases hx
  | struct =>
    rw [hk] at hx
    simp only [printedNames, depNames, List.mem_append] at hx ⊢
    rcases hx with hx | hx
    · exact .inl hx
    · right
      cases hT : d.ty with
      | struct s ms =>
        rw [hT] at hx
        obtain ⟨t, ht, ho, hn'⟩ := memNames_seen ms hx
        exact mem_walkNames (by rw [seen]; exact List.mem_cons_of_mem _ ht) ho hn'
          (by rw [← hT]; exact hself (by rw [hk]; simp))
      | _ => rw [hT] at hx; cases hx
  | union =>
    rw [hk] at hx
    simp only [printedNames, depNames] at hx ⊢
    cases hT : d.ty with
    | union s disc ms us =>
      rw [hT] at hx
      have hs := hself (by rw [hk]; simp)
      rw [hT] at hs
      rcases List.mem_append.mp hx with hx | hx
      · obtain ⟨t, ht, ho, hn'⟩ := typeNames_seen disc hx
        exact mem_walkNames (by rw [seen]; exact List.mem_cons_of_mem _ (List.mem_append_left _ ht)) ho hn' hs
      · obtain ⟨t, ht, ho, hn'⟩ := memNames_seen ms hx
        exact mem_walkNames (by rw [seen]; exact List.mem_cons_of_mem _ (List.mem_append_right _ ht)) ho hn' hs
    | _ => rw [hT] at hx; cases hx

/-! ## Resolution -/

theorem node_ext {n m : Node} (h1 : n.loc = m.loc) (h2 : n.kind = m.kind) (h3 : n.name = m.name) : n = m := by
  cases n; cases m; simp only at h1 h2 h3; subst h1; subst h2; subst h3; rfl

/-- The qualified name of an element finds it. -/
theorem search_scopedName {root : Mod Decl} (hu : root.uniq) (hc : Clean root) {m : Node} (hm : (declOf root m).isSome) :
    search root (scopedName m.loc m.name) = some m := by
  have hid := hc.locs hm
  have hnm := hc.names m hm
  have hmm : m ∈ nodesAt root m.loc := mem_nodesAt.mpr ⟨rfl, hm⟩
  have hfind : (nodesAt root m.loc).find? (fun n => n.name = m.name) = some m := by
    cases hf : (nodesAt root m.loc).find? (fun n => n.name = m.name) with
    | none =>
      have := List.find?_eq_none.mp hf m hmm
      simp at this
    | some a =>
      have h1 := mem_nodesAt.mp (List.mem_of_find?_eq_some hf)
      have h2 : a.name = m.name := by simpa using List.find?_some hf
      rw [node_ext h1.1 (hc.kinds a m h1.2 hm h1.1 h2) h2]
  have hmods : m.loc ∈ mods [] root := (mem_mods_root hu _).mpr (nodesAt_at hmm)
  have hmatch : ∀ q ∈ mods [] root, (scopeMatch q (scopedName m.loc m.name) = true ↔ m.loc = [] ∨ q = m.loc) := by
    intro q hq
    exact scopeMatch_scopedName hid (hc.mods q ((mem_mods_root hu q).mp hq)) hnm.2
  by_cases hl : m.loc = []
  · unfold search
    obtain ⟨rest, hr⟩ : ∃ rest, mods [] root = [] :: rest := by
      cases root; rw [mods]; exact ⟨_, rfl⟩
    rw [unscoped_scopedName hid hnm.2, hr, List.findSome?_cons]
    rw [if_pos ((hmatch [] (by rw [hr]; simp)).mpr (.inl hl))]
    rw [hl] at hfind
    rw [hfind]
  · cases hs : search root (scopedName m.loc m.name) with
    | some a =>
      obtain ⟨h1, h2, h3, h4⟩ := search_some hs
      rcases (hmatch _ h4).mp h3 with h | h
      · exact absurd h hl
      · rw [unscoped_scopedName hid hnm.2] at h2
        have ha := (mem_nodesAt.mp h1).2
        rw [node_ext h (hc.kinds a m ha hm h h2) h2]
    | none =>
      unfold search at hs
      rw [List.findSome?_eq_none_iff] at hs
      have := hs _ hmods
      rw [if_pos ((hmatch _ hmods).mpr (.inr rfl)), unscoped_scopedName hid hnm.2, hfind] at this
      cases this

theorem not_local {root : Mod Decl} (hc : Clean root) {n m : Node} (hn : (declOf root n).isSome)
    (hm : (declOf root m).isSome) (hl : n.loc ≠ m.loc)
    (hs : m.loc = [] → ((root.at n.loc).map fun x => x.hasSymbol m.name) = some false) :
    ¬ Local root n (scopedName m.loc m.name) := by
  have hid := hc.locs hm
  have hnm := hc.names m hm
  have hsym : ((root.at n.loc).map fun x => x.hasSymbol n.name) = some true := by
    unfold declOf at hn
    cases h : root.at n.loc with
    | none => rw [h] at hn; cases hn
    | some x =>
      rw [h] at hn
      simp only [Option.bind_some] at hn
      simp only [Option.map_some, Mod.hasSymbol, Option.some.injEq, Bool.or_eq_true]
      cases hk : n.kind <;> rw [hk, omGet_isSome] at hn <;> simp only [Kind.cat, Content.get] at hn <;> simp only [hn, true_or, or_true]
  rintro (h | ⟨h1, h2⟩)
  · by_cases h0 : m.loc = []
    · rw [h0, scopedName_nil] at h
      have := hs h0
      rw [← h, hsym] at this
      cases this
    · have h3 := (hc.names n hn).2
      have := rcut_scopedName hid h0 hnm.2
      rw [← h, rcut_none h3] at this
      cases this
  · rcases (scopeMatch_scopedName hid (hc.locs hn) hnm.2).mp h1 with h | h
    · have := hs h
      rw [unscoped_scopedName hid hnm.2, this] at h2
      cases h2
    · exact hl h

/-- What is recorded for a use. -/
theorem table_of_uses {root : Mod Decl} {t : Tables} (hu : root.uniq) (hsol : solve root = some t) {n : Node} {x : Name}
    (h : Names root n x) : ∃ u, effect root n x = some u ∧ ∀ {α : Type} (R : Rel α) (y : α), y ∈ u.rel R → y ∈ t.rel R := by
  have hmem := (mem_deps hu).mpr h
  have hsome := (solve_isSome (root := root)).mp (by rw [hsol]; rfl) _ hmem
  rw [Option.isSome_iff_exists] at hsome
  obtain ⟨u, he⟩ := hsome
  exact ⟨u, he, fun R y hy => (solve_rel hsol R y).mpr ⟨_, hmem, u, he, hy⟩⟩

theorem strict_suffix {p q : Loc} (h : p <:+ q) (hne : p ≠ q) : ∃ x, x :: p <:+ q := by
  obtain ⟨w, rfl⟩ := h
  rcases List.eq_nil_or_concat w with rfl | ⟨w', x, rfl⟩
  · exact absurd rfl hne
  · exact ⟨x, ⟨w', by simp⟩⟩

theorem cons_suffix_inj {p q : Loc} {x y : Name} (h : x :: p <:+ q) (h' : y :: p <:+ q) : x = y := by
  have := suffix_eq_of_length h h' (by simp)
  cases this; rfl

/-- Two places neither of which is inside the other are in different branches. -/
theorem branch {p q : Loc} (h : ¬ p <:+ q) (h' : ¬ q <:+ p) : ∃ x y r, x ≠ y ∧ x :: r <:+ p ∧ y :: r <:+ q := by
  induction p with
  | nil => exact absurd (List.nil_suffix) h
  | cons a p ih =>
    by_cases hp : p <:+ q
    · by_cases he : p = q
      · subst he; exact absurd (List.suffix_cons _ _) h'
      · obtain ⟨y, hy⟩ := strict_suffix hp he
        refine ⟨a, y, p, ?_, List.suffix_refl _, hy⟩
        rintro rfl; exact h hy
    · obtain ⟨x, y, r, h1, h2, h3⟩ := ih hp (fun h1 => h' (h1.trans (List.suffix_cons _ _)))
      exact ⟨x, y, r, h1, h2.trans (List.suffix_cons _ _), h3⟩

/-- A node that is asked for by an inner module is needed there. -/
theorem early_of_child {root : Mod Decl} {t : Tables} (hu : root.uniq) (hsol : solve root = some t) {n : Node} {x : Name}
    (h : (n, x :: n.loc) ∈ t.nodeChild) : Early root n := by
  obtain ⟨⟨d, z⟩, he, u, hue, hm⟩ := (solve_rel hsol .nodeChild _).mp h
  have hm : (n, x :: n.loc) ∈ u.nodeChild := hm
  simp only at hue
  have hn := (mem_deps hu).mp he
  rcases effect_cases root d z with ⟨-, u', e, -, -, h1, -⟩ | ⟨-, -, e⟩ | ⟨-, m, hs, hl, u', e, -, hch, -⟩
  · rw [hue] at e; cases e; rw [h1] at hm; cases hm
  · rw [hue] at e; cases e
  · rw [hue] at e; cases e
    rw [hch, List.mem_singleton, Prod.mk.injEq] at hm
    obtain ⟨rfl, hq⟩ := hm
    refine ⟨d, z, ?_, hl, hn, hs⟩
    cases hi : innerToward n.loc d.loc with
    | some q =>
      obtain ⟨y, rfl, hy⟩ := innerToward_some hi
      exact (List.suffix_cons _ _).trans hy
    | none =>
      rw [hi, Option.getD_none] at hq
      rw [← hq]; exact List.suffix_cons _ _

/-- The ancestors of a node are of its kind and place, and it names them. -/
theorem anc_of {root : Mod Decl} {t : Tables} (hu : root.uniq) (hsol : solve root = some t) {n a : Node}
    (h : (n, a) ∈ t.nodeAnc) : a.loc = n.loc ∧ a.kind = n.kind ∧ ∃ z, n.name ≠ z ∧ Names root n z ∧ unscoped z = a.name := by
  obtain ⟨⟨d, z⟩, he, u, hue, hm⟩ := (solve_rel hsol .nodeAnc _).mp h
  have hm : (n, a) ∈ u.nodeAnc := hm
  simp only at hue
  have hn := (mem_deps hu).mp he
  rcases effect_cases root d z with ⟨-, u', e, -, -, -, h1⟩ | ⟨-, -, e⟩ | ⟨-, m, hs, hl, u', e, h1, -⟩
  · rw [hue] at e; cases e
    rcases h1 with h1 | ⟨a', h1, hne, hf⟩
    · rw [h1] at hm; cases hm
    · rw [h1, List.mem_singleton, Prod.mk.injEq] at hm
      obtain ⟨rfl, rfl⟩ := hm
      have h2 := List.find?_some hf
      simp only [decide_eq_true_eq] at h2
      exact ⟨(mem_nodesAt.mp (List.mem_of_find?_eq_some hf)).1, h2.1, z, hne, hn, h2.2.symm⟩
  · rw [hue] at e; cases e
  · rw [hue] at e; cases e; rw [h1] at hm; cases hm

/-- A use within a module and a kind is recorded. -/
theorem anc_of_uses {root : Mod Decl} {t : Tables} (hu : root.uniq) (hc : Clean root) (hsol : solve root = some t)
    {n m : Node} (hn : (declOf root n).isSome) (hm : (declOf root m).isSome) (hne : n ≠ m) (hl : n.loc = m.loc)
    (hk : n.kind = m.kind) (h : Names root n (scopedName m.loc m.name)) : (n, m) ∈ t.nodeAnc := by
  have hid := hc.locs hm
  have hnm := hc.names m hm
  obtain ⟨u, he, hu'⟩ := table_of_uses hu hsol h
  have h1 : n.name ≠ scopedName m.loc m.name := by
    intro e
    by_cases h0 : m.loc = []
    · rw [h0, scopedName_nil] at e; exact hne (node_ext hl hk e)
    · have := rcut_scopedName hid h0 hnm.2
      rw [← e, rcut_none (hc.names n hn).2] at this
      cases this
  have hmm : m ∈ nodesAt root n.loc := mem_nodesAt.mpr ⟨hl.symm, hm⟩
  have h2 : scopeMatch n.loc (scopedName m.loc m.name) = true ∧
      ((root.at n.loc).map fun x => x.hasSymbol (unscoped (scopedName m.loc m.name))) = some true := by
    refine ⟨(scopeMatch_scopedName hid (hc.locs hn) hnm.2).mpr (.inr hl), ?_⟩
    rw [unscoped_scopedName hid hnm.2, hl]
    unfold declOf at hm
    cases h : root.at m.loc with
    | none => rw [h] at hm; cases hm
    | some x =>
      rw [h] at hm
      simp only [Option.bind_some] at hm
      simp only [Option.map_some, Mod.hasSymbol, Option.some.injEq, Bool.or_eq_true]
      cases hk : m.kind <;> rw [hk, omGet_isSome] at hm <;> simp only [Kind.cat, Content.get] at hm <;> simp only [hm, true_or, or_true]
  have hf : (nodesAt root n.loc).find? (fun a => a.kind = n.kind ∧ a.name = unscoped (scopedName m.loc m.name)) =
      some m := by
    rw [unscoped_scopedName hid hnm.2]
    cases hf : (nodesAt root n.loc).find? (fun a => a.kind = n.kind ∧ a.name = m.name) with
    | none =>
      have := List.find?_eq_none.mp hf m hmm
      simp [hk] at this
    | some a =>
      have h1 := mem_nodesAt.mp (List.mem_of_find?_eq_some hf)
      have h2 := List.find?_some hf
      simp only [decide_eq_true_eq] at h2
      rw [node_ext (h1.1.trans hl) (h2.1.trans hk) h2.2]
  apply hu' .nodeAnc
  show (n, m) ∈ u.nodeAnc
  unfold effect setDependency at he
  rw [if_neg h1, if_pos h2, hf] at he
  simp only [Option.some.injEq] at he
  rw [← he]
  simp [addPair]

/-- The nodes of a module come in the order of their kinds. -/
theorem nodesAt_order {root : Mod Decl} {p : Loc} {L R : List Node} {n m : Node} (h : nodesAt root p = L ++ n :: R)
    (hm : m ∈ nodesAt root p) (hr : m.kind.rank < n.kind.rank) : m ∈ L := by
  have hs : (nodesAt root p).Pairwise fun a b => a.kind.rank ≤ b.kind.rank := by
    unfold nodesAt
    split
    · unfold nodesIn
      rw [List.pairwise_flatMap]
      constructor
      · intro k _
        rw [List.pairwise_map]
        exact List.Pairwise.imp (fun _ => Nat.le_refl _) (List.pairwise_of_forall (R := fun _ _ => True) fun _ _ => trivial)
      · have : [Kind.alias, .const, .enum, .struct, .union].Pairwise (fun a b => a.rank ≤ b.rank) := by decide
        refine this.imp ?_
        intro a b hab x hx y hy
        obtain ⟨e, -, rfl⟩ := List.mem_map.mp hx
        obtain ⟨e', -, rfl⟩ := List.mem_map.mp hy
        exact hab
    · exact List.Pairwise.nil
  rw [h] at hs hm
  rcases List.mem_append.mp hm with hm | hm
  · exact hm
  · exfalso
    rcases List.mem_cons.mp hm with rfl | hm
    · exact Nat.lt_irrefl _ hr
    · have := (List.pairwise_cons.mp (List.pairwise_append.mp hs).2.1).1 m hm
      omega

end Verif.Idl.Dep
