import Verif.Lemmas.Module
/-!
# Changes at a place of a tree of modules, and lookups in a tree that has grown
-/

namespace Verif.Idl

variable {τ : Type}

/-! ## Changes at a place -/

theorem setInner_keys (i : List (Name × Option (Mod τ))) (n : Name) (m : Mod τ) : (setInner i n m).map (·.1) = i.map (·.1) := by
  rw [setInner, List.map_map]
  refine List.map_congr_left fun e _ => ?_
  show (if e.1 = n then (e.1, some m) else e).1 = e.1
  split <;> rfl

theorem setInner_setInner (i : List (Name × Option (Mod τ))) (n : Name) (a b : Mod τ) :
    setInner (setInner i n a) n b = setInner i n b := by
  rw [setInner, setInner, List.map_map, setInner]
  refine List.map_congr_left fun e _ => ?_
  show (if (if e.1 = n then (e.1, some a) else e).1 = n then _ else _) = _
  by_cases h : e.1 = n
  · simp [h]
  · simp [h]

theorem modify_comp (p : Loc) : ∀ (root : Mod τ) (f g : Mod τ → Mod τ),
    (root.modify p f).modify p g = root.modify p fun m => g (f m) := by
  induction p with
  | nil => intro root f g; rfl
  | cons n r ih =>
    intro root f g
    rw [Mod.modify, Mod.modify, ih, Mod.modify]
    congr 1
    funext m
    cases hg : (omGet m.inner n).join with
    | none => simp only [hg]
    | some m' =>
      simp only [Mod.inner, Mod.content]
      rw [omGet_setInner, if_pos rfl]
      have : ∃ e, omGet m.inner n = some e := by
        cases h : omGet m.inner n with
        | none => rw [h] at hg; cases hg
        | some e => exact ⟨e, rfl⟩
      obtain ⟨e, he⟩ := this
      cases m with
      | mk c i =>
        simp only [Mod.inner] at he hg ⊢
        rw [he]
        simp only [Option.map_some, Option.join_some, setInner_setInner]

theorem modify_congr {p : Loc} : ∀ {root : Mod τ} {m : Mod τ} {f g : Mod τ → Mod τ}, root.at p = some m → f m = g m →
    root.modify p f = root.modify p g := by
  induction p with
  | nil => intro root m f g h e; rw [Mod.at, Option.some.injEq] at h; subst h; exact e
  | cons n r ih =>
    intro root m f g h e
    rw [Mod.at] at h
    cases hr : root.at r with
    | none => rw [hr] at h; cases h
    | some mr =>
      rw [hr, Option.bind_some] at h
      rw [Mod.modify, Mod.modify]
      refine ih hr ?_
      rw [h]
      simp only [e]

theorem setInner_same {i : List (Name × Option (Mod τ))} (hn : (i.map (·.1)).Nodup) {n : Name} {m : Mod τ}
    (h : omGet i n = some (some m)) : setInner i n m = i := by
  rw [setInner]
  conv => rhs; rw [← List.map_id i]
  refine List.map_congr_left fun e he => ?_
  show (if e.1 = n then (e.1, some m) else e) = e
  split
  · rename_i hen
    have := omGet_of_mem hn (k := e.1) (v := e.2) he
    rw [hen, h, Option.some.injEq] at this
    rw [this]
  · rfl

/-- Single levels of the tree: the keys of the submodules are distinct. -/
def Keys (root : Mod τ) : Prop := ∀ q m, root.at q = some m → (m.inner.map (·.1)).Nodup

theorem modify_same {p : Loc} : ∀ {root : Mod τ} {m : Mod τ}, Keys root → root.at p = some m → root.modify p (fun _ => m) = root := by
  induction p with
  | nil => intro root m _ h; rw [Mod.at, Option.some.injEq] at h; exact h.symm
  | cons n r ih =>
    intro root m hk h
    rw [Mod.at] at h
    cases hr : root.at r with
    | none => rw [hr] at h; cases h
    | some mr =>
      rw [hr, Option.bind_some] at h
      rw [Mod.modify]
      refine (modify_congr hr (g := fun _ => mr) ?_).trans (ih hk hr)
      rw [h]
      simp only []
      have hg : omGet mr.inner n = some (some m) := by
        cases hg : omGet mr.inner n with
        | none => rw [hg] at h; cases h
        | some e => rw [hg] at h; cases e with
          | none => cases h
          | some e => rw [Option.join_some, Option.some.injEq] at h; rw [h]
      cases mr with
      | mk c i => simp only [Mod.inner, Mod.content] at hg ⊢; rw [setInner_same (i := i) (hk r _ hr) hg]

/-- The same symbols and the same names of submodules. -/
def Same (a b : Mod τ) : Prop := b.content = a.content ∧ b.inner.map (·.1) = a.inner.map (·.1)

theorem Same.refl (a : Mod τ) : Same a a := ⟨rfl, rfl⟩

theorem Same.has {a b : Mod τ} (h : Same a b) (n : Name) : omHas b.inner n = omHas a.inner n := by
  rw [Bool.eq_iff_iff, omHas_iff, omHas_iff, h.2]

theorem Same.symbol {a b : Mod τ} (h : Same a b) (x : Name) : b.hasSymbol x = a.hasSymbol x := by
  simp only [Mod.hasSymbol, h.1, h.has x]

theorem modify_same_shape (m : Mod τ) (s : Loc) (f : Mod τ → Mod τ) (hs : s ≠ []) : Same m (m.modify s f) := by
  induction s generalizing f with
  | nil => exact absurd rfl hs
  | cons a r ih =>
    rw [Mod.modify]
    cases r with
    | nil =>
      simp only [Mod.modify]
      split
      · exact ⟨rfl, setInner_keys _ _ _⟩
      · exact Same.refl _
    | cons b r => exact ih _ (by simp)

/-- Below the place of a change. -/
theorem at_below {root : Mod τ} {p : Loc} {m : Mod τ} (f : Mod τ → Mod τ) (h : root.at p = some m) (s : Loc) :
    (root.modify p f).at (s ++ p) = (f m).at s := by
  rw [at_append, at_modify_self f h, Option.bind_some]

/-- Elsewhere. -/
theorem at_other {root : Mod τ} {p : Loc} {m : Mod τ} (f : Mod τ → Mod τ) (h : root.at p = some m) {q : Loc} (hq : ¬ p <:+ q) :
    (root.at q = none ∧ (root.modify p f).at q = none) ∨
    ∃ a b, root.at q = some a ∧ (root.modify p f).at q = some b ∧ Same a b := by
  by_cases hqp : q <:+ p
  · obtain ⟨s, rfl⟩ := hqp
    have hs : s ≠ [] := by rintro rfl; exact hq List.suffix_rfl
    rw [at_append] at h
    cases hm : root.at q with
    | none => rw [hm] at h; cases h
    | some mq =>
      refine .inr ⟨mq, _, rfl, ?_, modify_same_shape mq s f hs⟩
      rw [modify_append, at_modify_self _ hm]
  · have : (root.modify p f).at q = root.at q := by
      induction q with
      | nil => exact absurd (List.nil_suffix) hqp
      | cons n q ih =>
        have hpq' : ¬ p <:+ q := fun hc => hq (hc.trans (List.suffix_cons _ _))
        rw [Mod.at, Mod.at]
        by_cases hq : q <:+ p
        · obtain ⟨s, rfl⟩ := hq
          rcases List.eq_nil_or_concat s with rfl | ⟨s, a, rfl⟩
          · exact absurd List.suffix_rfl hpq'
          · have hna : a ≠ n := by
              rintro rfl; apply hqp; exact ⟨s, by simp⟩
            have hmq : ∃ mq, root.at q = some mq := by
              apply Option.isSome_iff_exists.mp
              exact at_suffix (List.suffix_append _ _) (by rw [h]; rfl)
            obtain ⟨mq, hmq⟩ := hmq
            rw [modify_append, at_modify_self _ hmq, hmq]
            simp only [Option.bind_some]
            rw [List.concat_eq_append, modify_append]
            simp only [Mod.modify]
            split
            · simp only [Mod.inner]; rw [omGet_setInner, if_neg hna]
            · rfl
        · rw [ih hpq' hq]
    rw [this]
    cases root.at q with
    | none => exact .inl ⟨rfl, rfl⟩
    | some a => exact .inr ⟨a, a, rfl, rfl, Same.refl a⟩

/-- Registering at a place is registering in the module there. -/
theorem register_at {root : Mod τ} {p : Loc} {m : Mod τ} (h : root.at p = some m) (k : Cat) (x : Name) (v : τ) (rep : Bool) :
    register root p k x v rep = (root.modify p fun _ => (registerCore k x v rep m).1, (registerCore k x v rep m).2) := by
  rw [register, h]
  simp only []
  rw [modify_congr h (g := fun _ => (registerCore k x v rep m).1) rfl]

/-! ## Names that are not visible -/

theorem symbolCount_zero {root : Mod τ} {x : Name} : ∀ {p : Loc}, symbolCount root p x = 0 ↔ Unseen root p x
  | [] => by
    have : root.at [] = some root := rfl
    simp only [symbolCount]
    constructor
    · intro h q hq
      have : q = [] := by simpa using hq
      subst this
      rintro ⟨m, hm, hs⟩
      rw [Mod.at, Option.some.injEq] at hm
      subst hm
      rw [if_pos hs] at h; cases h
    · intro h
      rw [if_neg fun hs => h [] List.suffix_rfl ⟨root, rfl, hs⟩]
  | n :: r => by
    rw [symbolCount, Nat.add_eq_zero_iff, symbolCount_zero]
    constructor
    · rintro ⟨h1, h2⟩ q hq
      rcases List.suffix_cons_iff.mp hq with rfl | hq
      · rintro ⟨m, hm, hs⟩
        rw [hm] at h1
        simp only [Option.map_some, Option.getD_some, hs, if_true] at h1
        cases h1
      · exact h2 q hq
    · intro h
      refine ⟨?_, fun q hq => h q (hq.trans (List.suffix_cons _ _))⟩
      have := h (n :: r) List.suffix_rfl
      cases hm : root.at (n :: r) with
      | none => rfl
      | some m =>
        rw [if_neg]
        intro hs
        exact this ⟨m, hm, by simpa using hs⟩

theorem cut_some : ∀ {s h t : Name}, cut s = some (h, t) → s = h ++ ':' :: ':' :: t
  | [], _, _, e => by cases e
  | c :: r, h, t, e => by
    unfold cut at e
    split at e
    · cases e
    · rename_i r' hr
      rw [Option.some.injEq, Prod.mk.injEq] at e
      obtain ⟨rfl, rfl⟩ := e
      exact hr
    · rename_i c' r' _ hr
      rw [List.cons.injEq] at hr
      obtain ⟨rfl, rfl⟩ := hr
      cases hc : cut r with
      | none => rw [hc] at e; cases e
      | some x =>
        rw [hc, Option.map_some, Option.some.injEq, Prod.mk.injEq] at e
        obtain ⟨rfl, rfl⟩ := e
        rw [List.cons_append, ← cut_some hc]

/-! ## Lookups in a tree that has grown -/

/-- More symbols and modules, those that were there unchanged, and what was found is found. -/
structure Ext (a b : Mod τ) : Prop where
  keep : ∀ q ma, a.at q = some ma → ∃ mb, b.at q = some mb ∧
    ∀ x, ma.hasSymbol x = true → mb.hasSymbol x = true ∧ ∀ k, omGet (mb.content.get k) x = omGet (ma.content.get k) x
  look : ∀ p x q y, Lookup a p x (.found q y) → Lookup b p x (.found q y)

theorem Ext.refl (a : Mod τ) : Ext a a := ⟨fun _ ma h => ⟨ma, h, fun _ h => ⟨h, fun _ => rfl⟩⟩, fun _ _ _ _ h => h⟩

theorem Ext.trans {a b c : Mod τ} (h : Ext a b) (k : Ext b c) : Ext a c := by
  refine ⟨fun q ma hm => ?_, fun p x q y hl => k.look _ _ _ _ (h.look _ _ _ _ hl)⟩
  obtain ⟨mb, hb, h1⟩ := h.keep q ma hm
  obtain ⟨mc, hc, h2⟩ := k.keep q mb hb
  refine ⟨mc, hc, fun x hx => ?_⟩
  obtain ⟨a1, a2⟩ := h1 x hx
  obtain ⟨b1, b2⟩ := h2 x a1
  exact ⟨b1, fun k => (b2 k).trans (a2 k)⟩

theorem Ext.at {a b : Mod τ} (h : Ext a b) {q : Loc} (hq : (a.at q).isSome) : (b.at q).isSome := by
  obtain ⟨m, hm⟩ := Option.isSome_iff_exists.mp hq
  obtain ⟨m', hm', _⟩ := h.keep q m hm
  rw [hm']; rfl

/-- One more name at one place. -/
structure Adds (a b : Mod τ) (p : Loc) (x : Name) : Prop where
  here : (a.at p).isSome
  ident : Ident x
  free : Unseen a p x
  keep : ∀ q ma, a.at q = some ma → ∃ mb, b.at q = some mb ∧
    (∀ y, mb.hasSymbol y = (decide (q = p ∧ y = x) || ma.hasSymbol y)) ∧
    (∀ n, omHas ma.inner n = true → omHas mb.inner n = true) ∧
    (∀ n, omHas mb.inner n = true → omHas ma.inner n = true ∨ q = p ∧ n = x) ∧
    ∀ y, ma.hasSymbol y = true → ∀ k, omGet (mb.content.get k) y = omGet (ma.content.get k) y

theorem hasSub_symbol {root : Mod τ} {x : Name} {q : Loc} (h : HasSub root x q) : Declares root x q := by
  obtain ⟨m, hm, hs⟩ := h
  refine ⟨m, hm, ?_⟩
  have hs : omHas m.inner x = true := hs
  simp [Mod.hasSymbol, hs]

theorem Adds.resolve {a b : Mod τ} {p : Loc} {x : Name} (h : Adds a b p x) : ∀ (f : Nat) (q : Loc) (s o : Name) (first : Bool),
    (first = true → cut s = none ∨ s = o) → ∀ (r : Loc) (y : Name),
    Idl.resolve a f q s o first = some (.found r y) → Idl.resolve b f q s o first = some (.found r y) := by
  have hfree := h.free
  intro f
  induction f with
  | zero => intro q s o first _ r y hr; simp [Idl.resolve] at hr
  | succ f ih =>
    intro q s o first hinv r y hr
    rw [Idl.resolve] at hr ⊢
    split at hr
    · simp at hr
    · rename_i hfirst
      rw [if_neg hfirst]
      cases hm : a.at q with
      | none => rw [hm] at hr; simp at hr
      | some ma =>
        obtain ⟨mb, hb, hsym, hin, hout, _⟩ := h.keep q ma hm
        rw [hm] at hr
        rw [hb]
        simp only [] at hr ⊢
        cases hc : cut s with
        | none =>
          rw [hc] at hr
          simp only [] at hr ⊢
          split at hr
          · rename_i hs
            rw [hsym, hs, Bool.or_true, if_pos rfl]; exact hr
          · rename_i hs
            by_cases hq : q = []
            · rw [if_pos hq] at hr; simp at hr
            · rw [if_neg hq] at hr
              by_cases hnew : q = p ∧ s = x
              · obtain ⟨rfl, rfl⟩ := hnew
                exfalso
                have hs' : ':' ∉ s := h.ident.2
                have hat : (a.at q.tail).isSome := at_suffix (List.tail_suffix q) h.here
                have := (resolve_single (root := a) (orig := o) hs' q.tail true hat (by simp)).2
                  (fun e he => hfree e (he.trans (List.tail_suffix q)))
                have e1 := resolve_le a (Nat.le_max_left f (q.tail.length + 1)) hr
                have e2 := resolve_le a (Nat.le_max_right f (q.tail.length + 1)) this
                rw [e1] at e2; cases e2
              · have : mb.hasSymbol s = false := by
                  rw [hsym, decide_eq_false hnew, Bool.false_or]; simpa using hs
                rw [this, if_neg (by simp), if_neg hq]
                exact ih _ _ _ _ (fun _ => .inl hc) _ _ hr
        | some z =>
          obtain ⟨hd, tl⟩ := z
          rw [hc] at hr
          simp only [] at hr ⊢
          split at hr
          · rename_i hh
            rw [if_pos hh]
            split at hr
            · rename_i hp; rw [if_pos hp]; exact ih _ _ _ _ (by simp) _ _ hr
            · rename_i hp; rw [if_neg hp]; exact ih _ _ _ _ (fun _ => .inr rfl) _ _ hr
          · rename_i hh
            rw [if_neg hh]
            by_cases hsub : omHas ma.inner hd = true
            · have hsub' := hin hd hsub
              by_cases hcond : q.head? = some hd
              · rw [if_pos ⟨hcond, hsub⟩] at hr
                rw [if_pos ⟨hcond, hsub'⟩]
                cases hr1 : Idl.resolve a f (hd :: q) tl o false with
                | none => rw [hr1] at hr; simp at hr
                | some r' =>
                  rw [hr1] at hr
                  cases r' with
                  | found q' y' => simp only [] at hr; rw [ih _ _ _ _ (by simp) _ _ hr1]; exact hr
                  | ub => simp at hr
                  | fail => simp only [hsub, if_true] at hr; simp at hr
              · rw [if_neg (fun hh => hcond hh.1)] at hr ⊢
                simp only [hsub, if_true] at hr
                simp only [hsub', if_true]
                exact ih _ _ _ _ (by simp) _ _ hr
            · rw [if_neg (fun hh => hsub hh.2)] at hr
              simp only [] at hr
              rw [if_neg hsub] at hr
              by_cases hup : q ≠ [] ∧ first = true
              · rw [if_pos hup] at hr
                have hne : ¬ omHas mb.inner hd = true := by
                  intro hhas
                  rcases hout hd hhas with h1 | ⟨rfl, rfl⟩
                  · exact hsub h1
                  · -- a found lookup of `x::…` above the place of `x`
                    have hso : s = o := by
                      rcases hinv hup.2 with h1 | h1
                      · rw [hc] at h1; cases h1
                      · exact h1
                    have hs := cut_some hc
                    rw [← hso, hs] at hr
                    have hat : (a.at q.tail).isSome := at_suffix (List.tail_suffix q) h.here
                    obtain ⟨f', hf'⟩ := resolve_climb_fail (root := a) (rest := tl) h.ident q.tail hat
                      (fun e he hh => hfree e (he.trans (List.tail_suffix q)) (hasSub_symbol hh))
                    have e1 := resolve_le a (Nat.le_max_left f f') hr
                    have e2 := resolve_le a (Nat.le_max_right f f') hf'
                    rw [e1] at e2; cases e2
                rw [if_neg (fun hh => hne hh.2)]
                simp only []
                rw [if_neg hne, if_pos hup]
                exact ih _ _ _ _ (fun _ => .inr rfl) _ _ hr
              · rw [if_neg hup] at hr; simp at hr

theorem Adds.ext {a b : Mod τ} {p : Loc} {x : Name} (h : Adds a b p x) : Ext a b := by
  refine ⟨fun q ma hm => ?_, fun p x q y => ?_⟩
  · obtain ⟨mb, h1, h2, _, _, h5⟩ := h.keep q ma hm
    exact ⟨mb, h1, fun y hy => ⟨by rw [h2, hy, Bool.or_true], h5 y hy⟩⟩
  · rintro ⟨f, hf⟩
    exact ⟨f, h.resolve f _ _ _ _ (fun _ => .inr rfl) _ _ hf⟩

/-- Another name that was free is free. -/
theorem Adds.other {a b : Mod τ} {p : Loc} {x y : Name} (h : Adds a b p x) (hy : y ≠ x) (hf : Unseen a p y) :
    Unseen b p y := by
  rintro q hq ⟨mb, hb, hs⟩
  obtain ⟨ma, ha⟩ := Option.isSome_iff_exists.mp (at_suffix hq h.here)
  obtain ⟨mb', h1, h2, _⟩ := h.keep q ma ha
  rw [hb, Option.some.injEq] at h1
  subst h1
  rw [h2, decide_eq_false (fun hh => hy hh.2), Bool.false_or] at hs
  exact hf q hq ⟨ma, ha, hs⟩

/-! ## Growing by one name -/

theorem at_inner {m m' : Mod τ} (h : m'.inner = m.inner) : ∀ (s : Loc), s ≠ [] → m'.at s = m.at s
  | [], hs => absurd rfl hs
  | [n], _ => by simp [Mod.at, h]
  | n :: k :: r, _ => by
    show (m'.at (k :: r)).bind _ = (m.at (k :: r)).bind _
    rw [at_inner h (k :: r) (by simp)]

/-- A module that gets one more name in its tables. -/
theorem adds_mod {root m m1 : Mod τ} {p : Loc} {x : Name} (hm : root.at p = some m) (hx : Ident x) (hf : Unseen root p x)
    (hi : m1.inner = m.inner) (hs : ∀ y, m1.hasSymbol y = (decide (y = x) || m.hasSymbol y))
    (hk : ∀ y, y ≠ x → ∀ k, omGet (m1.content.get k) y = omGet (m.content.get k) y) :
    Adds root (root.modify p fun _ => m1) p x := by
  have hno : m.hasSymbol x = false := by
    rw [Bool.eq_false_iff]
    intro h
    exact hf p List.suffix_rfl ⟨m, hm, h⟩
  refine ⟨by rw [hm]; rfl, hx, hf, fun q ma ha => ?_⟩
  by_cases hq : p <:+ q
  · obtain ⟨s, rfl⟩ := hq
    rw [at_below _ hm]
    rw [at_append, hm, Option.bind_some] at ha
    by_cases hs0 : s = []
    · subst hs0
      rw [Mod.at, Option.some.injEq] at ha
      subst ha
      refine ⟨m1, rfl, fun y => by rw [hs]; simp, fun n hn => by rw [hi]; exact hn, fun n hn => .inl (by rw [hi] at hn; exact hn), ?_⟩
      intro y hy k
      refine hk y ?_ k
      rintro rfl; rw [hno] at hy; cases hy
    · have hne : ¬ (s ++ p = p) := by
        intro e
        have := congrArg List.length e
        rw [List.length_append] at this
        exact hs0 (List.length_eq_zero_iff.mp (by omega))
      refine ⟨ma, (at_inner hi s hs0).trans ha, fun y => by simp [hne], fun _ h => h, fun _ h => .inl h, fun _ _ _ => rfl⟩
  · have hne : q ≠ p := by rintro rfl; exact hq List.suffix_rfl
    rcases at_other (fun _ => m1) hm hq with ⟨h0, _⟩ | ⟨a, b, h1, h2, h3⟩
    · rw [ha] at h0; cases h0
    · rw [ha, Option.some.injEq] at h1
      subst h1
      exact ⟨b, h2, fun y => by rw [h3.symbol]; simp [hne], fun n hn => by rw [h3.has]; exact hn,
        fun n hn => .inl (by rw [h3.has] at hn; exact hn), fun y _ k => by rw [h3.1]⟩

theorem omGet_ins_inner {i : List (Name × Option (Mod τ))} {n : Name} (h : omHas i n = false) (v : Option (Mod τ)) (a : Name) :
    omGet (omIns n v i) a = if n = a then some v else omGet i a := omGet_omIns (omHas_false_iff.mp h)

/-- A module that gets one more submodule. -/
theorem adds_inner {root m : Mod τ} {p : Loc} {x : Name} (hm : root.at p = some m) (hx : Ident x) (hf : Unseen root p x)
    (v : Option (Mod τ)) : Adds root (root.modify p fun _ => .mk m.content (omIns x v m.inner)) p x := by
  obtain ⟨c, i⟩ := m
  have hno : (Mod.mk c i).hasSymbol x = false := by
    rw [Bool.eq_false_iff]
    intro h
    exact hf p List.suffix_rfl ⟨_, hm, h⟩
  have hin : omHas i x = false := by
    simp only [Mod.hasSymbol, Bool.or_eq_false_iff] at hno
    exact hno.2
  have hhas : ∀ n, omHas (omIns x v i) n = (decide (n = x) || omHas i n) := by
    intro n
    rw [Bool.eq_iff_iff, Bool.or_eq_true, omHas_iff, omHas_iff, decide_eq_true_eq]
    have := (omIns_perm x v i).map (·.1)
    rw [this.mem_iff]; simp
  refine ⟨by rw [hm]; rfl, hx, hf, fun q ma ha => ?_⟩
  by_cases hq : p <:+ q
  · obtain ⟨s, rfl⟩ := hq
    rw [at_below _ hm]
    rw [at_append, hm, Option.bind_some] at ha
    rcases List.eq_nil_or_concat s with rfl | ⟨s, a, rfl⟩
    · rw [Mod.at, Option.some.injEq] at ha
      subst ha
      refine ⟨_, rfl, fun y => ?_, fun n hn => ?_, fun n hn => ?_, fun y hy k => rfl⟩
      · simp only [Mod.hasSymbol, Mod.content, Mod.inner, hhas, List.nil_append, true_and]
        cases decide (y = x) <;> simp
      · have hn : omHas i n = true := hn; simp only [Mod.inner, hhas, hn, Bool.or_true]
      · simp only [Mod.inner, hhas, Bool.or_eq_true, decide_eq_true_eq] at hn
        rcases hn with rfl | hn
        · exact .inr ⟨rfl, rfl⟩
        · exact .inl hn
    · rw [List.concat_eq_append] at ha ⊢
      have hne : ¬ ((s ++ [a]) ++ p = p) := by
        intro e
        have := congrArg List.length e
        simp at this
        omega
      refine ⟨ma, ?_, fun y => by rw [decide_eq_false (fun hh => hne hh.1), Bool.false_or], fun _ h => h, fun _ h => .inl h, fun _ _ _ => rfl⟩
      rw [at_append] at ha ⊢
      have hax : a ≠ x := by
        rintro rfl
        have : omGet i a = none := omGet_eq_none.mpr (omHas_false_iff.mp hin)
        simp [Mod.at, Mod.inner, this] at ha
      simp only [Mod.at, Option.bind_some, Mod.inner] at ha ⊢
      rw [omGet_ins_inner hin, if_neg hax.symm]
      exact ha
  · have hne : q ≠ p := by rintro rfl; exact hq List.suffix_rfl
    rcases at_other (fun _ => Mod.mk c (omIns x v i)) hm hq with ⟨h0, _⟩ | ⟨a, b, h1, h2, h3⟩
    · rw [ha] at h0; cases h0
    · rw [ha, Option.some.injEq] at h1
      subst h1
      exact ⟨b, h2, fun y => by rw [h3.symbol]; simp [hne], fun n hn => by rw [h3.has]; exact hn,
        fun n hn => .inl (by rw [h3.has] at hn; exact hn), fun y _ k => by rw [h3.1]⟩

/-! ## Names without `::` -/

theorem lookup_plain {root : Mod τ} {p : Loc} (hp : (root.at p).isSome) {x : Name} (hx : cut x = none) (q : Loc) (y : Name) :
    Lookup root p x (.found q y) ↔ y = x ∧ Innermost (Declares root x) p q := by
  have h0 := resolve_plain (root := root) (orig := x) hx p true hp (by simp)
  constructor
  · intro h
    by_cases hd : ∃ e, e <:+ p ∧ Declares root x e
    · obtain ⟨e, he, hd⟩ := hd
      obtain ⟨e, hi⟩ := innermost_exists he hd
      have := h.unique ⟨_, h0.1 e hi⟩
      rw [Res.found.injEq] at this
      obtain ⟨rfl, rfl⟩ := this
      exact ⟨rfl, hi⟩
    · have := h.unique ⟨_, h0.2 fun e he hh => hd ⟨e, he, hh⟩⟩
      cases this
  · rintro ⟨rfl, hi⟩
    exact ⟨_, h0.1 q hi⟩

end Verif.Idl
