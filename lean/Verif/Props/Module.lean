import Verif.Lemmas.Module
/-!
# Modules of the IDL front end (C40 - C43)

Specification vocabulary (Spec/Module.lean): a place is the list of module names from the inside
out; `q <:+ p` says that `q` is `p` or a module enclosing it; `Innermost P p q` that `q` is the
innermost of these with property `P`; `Declares root x q` that the module at `q` has a symbol `x`;
`joinScope [a, b] x` is the text `a::b::x`; `Ident` says that a name is not empty and has no colon;
`Lookup root p s r` that looking `s` up from the module at `p` ends with `r`. -/

namespace Verif.Idl
variable {τ : Type}

/-- Tables of a module seen from outside: what category `c` of the module at `q` holds under `x`. -/
def entry (root : Mod τ) (q : Loc) (c : Cat) (x : Name) : Option τ :=
  (root.at q).bind (fun m => omGet (m.content.get c) x)

/-! ## An example tree

```
struct B; module a { struct S; module b { struct S; struct T; union X; } }  struct X;
``` -/

def n (s : String) : Name := s.toList

def exB : Mod Nat := .mk { structs := [(n "S", 3), (n "T", 4)], unions := [(n "X", 5)] } []
def exA : Mod Nat := .mk { structs := [(n "S", 2)] } [(n "b", some exB)]
def exRoot : Mod Nat :=
  .mk { structs := [(n "B", 1), (n "X", 6)], consts := [(n "K", 9)] } [(n "a", some exA)]

/-! ## C40 -/

/-- An unqualified name is resolved to the innermost enclosing module that declares it, and the
lookup fails exactly when no enclosing module does. -/
theorem C40_unqualified (root : Mod τ) (p : Loc) (hp : (root.at p).isSome) (x : Name)
    (hx : ':' ∉ x) :
    (∀ q y, Lookup root p x (.found q y) ↔ y = x ∧ Innermost (Declares root x) p q) ∧
    (Lookup root p x .fail ↔ ∀ q, q <:+ p → ¬ Declares root x q) ∧
    ¬ Lookup root p x .ub := by
  have hs := resolve_single (root := root) (orig := x) hx p true hp (by simp)
  by_cases he : ∃ q, q <:+ p ∧ Declares root x q
  · obtain ⟨q0, h1, h2⟩ := he
    obtain ⟨q, hq⟩ := innermost_exists h1 h2
    have hl : Lookup root p x (.found q x) := ⟨_, hs.1 q hq⟩
    refine ⟨?_, ?_, ?_⟩
    · intro q' y
      constructor
      · intro h
        have := hl.unique h
        simp only [Res.found.injEq] at this
        obtain ⟨rfl, rfl⟩ := this
        exact ⟨rfl, hq⟩
      · rintro ⟨rfl, h⟩; rw [innermost_unique h hq]; exact hl
    · constructor
      · intro h; exact absurd (hl.unique h) (by simp)
      · intro h; exact absurd h2 (h q0 h1)
    · intro h; exact absurd (hl.unique h) (by simp)
  · have hn : ∀ q, q <:+ p → ¬ Declares root x q := fun q h1 h2 => he ⟨q, h1, h2⟩
    have hl : Lookup root p x .fail := ⟨_, hs.2 hn⟩
    refine ⟨?_, ?_, ?_⟩
    · intro q y
      constructor
      · intro h; exact absurd (hl.unique h) (by simp)
      · rintro ⟨-, h⟩; exact absurd h.2.1 (hn q h.1)
    · exact ⟨fun _ => hn, fun _ => hl⟩
    · intro h; exact absurd (hl.unique h) (by simp)

/-- non-vacuity: from `a::b`, `S` is the `S` of `a::b`; `B` is the `B` of the root. -/
example : Lookup exRoot [n "b", n "a"] (n "S") (.found [n "b", n "a"] (n "S")) ∧
    Lookup exRoot [n "b", n "a"] (n "B") (.found [] (n "B")) ∧
    (exRoot.at [n "b", n "a"]).isSome = true ∧ ':' ∉ n "S" :=
  ⟨⟨3, by decide⟩, ⟨5, by decide⟩, by decide, by decide⟩

/-- A name qualified from the root (`::a::b::x`) that exists is found there, and nowhere else, from
every module of the tree. -/
theorem C40_rooted_partial (root : Mod τ) (p q : Loc) (x : Name) (hp : (root.at p).isSome)
    (hq : ∀ a ∈ q, Ident a) (hx : ':' ∉ x) (hd : Declares root x q) :
    ∀ r, Lookup root p (':' :: ':' :: joinScope q.reverse x) r ↔ r = .found q x := by
  have hat : (root.at (q.reverse.reverse ++ [])).isSome := by
    obtain ⟨m, hm, -⟩ := hd; simp [hm]
  have hdown := resolve_down (root := root) (orig := ':' :: ':' :: joinScope q.reverse x) hx
    q.reverse [] (by simpa using hq) rfl (by simp; omega) hat
  obtain ⟨f, hf⟩ := hdown.1 q (by simpa using innermost_self hd)
  obtain ⟨f', hf'⟩ := resolve_rooted p hp f _ hf
  intro r
  constructor
  · intro h; exact h.unique ⟨f', hf'⟩
  · rintro rfl; exact ⟨f', hf'⟩

/-- A declared symbol is found from the root under the name the library gives it (`scope()::x`),
and that lookup has no other result. -/
theorem C40_scoped_name (root : Mod τ) (q : Loc) (x : Name) (hq : ∀ a ∈ q, Ident a)
    (hx : ':' ∉ x) (hd : Declares root x q) :
    ∀ r, Lookup root [] (scopedName q x) r ↔ r = .found q x := by
  have key : Lookup root [] (scopedName q x) (.found q x) := by
    rw [scopedName_eq hq]
    rcases List.eq_nil_or_concat q with rfl | ⟨s, a, rfl⟩
    · have := (C40_unqualified root [] rfl x hx).1 [] x
      exact this.mpr ⟨rfl, innermost_self hd⟩
    · rw [List.concat_eq_append] at hq hd ⊢
      have hrev : (s ++ [a]).reverse = a :: s.reverse := by simp
      rw [hrev]
      have hat : (root.at (s.reverse.reverse ++ [a])).isSome := by
        obtain ⟨m, hm, -⟩ := hd; simp [hm]
      have ha : Ident a := hq a (by simp)
      have hata : (root.at [a]).isSome := at_suffix (List.suffix_append _ _) hat
      have hsub : HasSub root a [] := by
        refine ⟨root, rfl, ?_⟩
        rw [Mod.hasSub, ← omGet_isSome]
        cases hg : omGet root.inner a with
        | none => simp [Mod.at, hg] at hata
        | some _ => rfl
      have hdown := resolve_down (root := root)
        (orig := a ++ ':' :: ':' :: joinScope s.reverse x) hx
        s.reverse [a] (fun b hb => hq b (by simp at hb; simp [hb])) hata (by simp; omega) hat
      obtain ⟨f, hf⟩ := hdown.1 (s ++ [a]) (by simpa using innermost_self hd)
      obtain ⟨f', hf'⟩ := resolve_climb ha [] [] rfl (innermost_self hsub) f _ hf
      exact ⟨f', hf'⟩
  intro r
  exact ⟨fun h => h.unique key, fun h => h ▸ key⟩

/-- non-vacuity: `::a::b::T` and `a::b::T` denote the `T` of `a::b`. -/
example : Declares exRoot (n "T") [n "b", n "a"] ∧ (∀ a ∈ [n "b", n "a"], Ident a) ∧
    Lookup exRoot [n "a"] (n "::a::b::T") (.found [n "b", n "a"] (n "T")) ∧
    scopedName [n "b", n "a"] (n "T") = n "a::b::T" :=
  ⟨⟨exB, rfl, by decide⟩, by unfold Ident; decide, ⟨6, by decide⟩, by decide⟩

/-- Full account of a qualified name `a::b::...::x` without a leading `::`, looked up from `p`: the
innermost enclosing module that has a submodule `a` is entered, the remaining modules are followed
down, and from there `x` is searched **outwards** like an unqualified name. -/
theorem C40_qualified (root : Mod τ) (hn : NoNull root) (p : Loc) (hp : (root.at p).isSome)
    (a : Name) (cs : List Name) (x : Name) (ha : Ident a) (hcs : ∀ b ∈ cs, Ident b)
    (hx : ':' ∉ x) (q : Loc) :
    Lookup root p (joinScope (a :: cs) x) (.found q x) ↔
      ∃ e, Innermost (HasSub root a) p e ∧ (root.at (cs.reverse ++ a :: e)).isSome ∧
        Innermost (Declares root x) (cs.reverse ++ a :: e) q := by
  have hstart : ∀ e, Innermost (HasSub root a) p e → (root.at (a :: e)).isSome := by
    rintro e ⟨-, ⟨m, hm, hs⟩, -⟩
    rw [← hasSub_iff hn hm]; exact hs
  constructor
  · intro h
    by_cases he : ∃ e0, e0 <:+ p ∧ HasSub root a e0
    · obtain ⟨e0, h1, h2⟩ := he
      obtain ⟨e, he⟩ := innermost_exists h1 h2
      refine ⟨e, he, ?_⟩
      by_cases hat : (root.at (cs.reverse ++ a :: e)).isSome
      · refine ⟨hat, ?_⟩
        have hdown := resolve_down (root := root)
          (orig := a ++ ':' :: ':' :: joinScope cs x) hx cs (a :: e) hcs (hstart e he)
          (by simp; omega) hat
        by_cases hdec : ∃ q0, q0 <:+ cs.reverse ++ a :: e ∧ Declares root x q0
        · obtain ⟨q0, g1, g2⟩ := hdec
          obtain ⟨q', hq'⟩ := innermost_exists g1 g2
          obtain ⟨f, hf⟩ := hdown.1 q' hq'
          obtain ⟨f', hf'⟩ := resolve_climb ha p e hp he f _ hf
          have := h.unique ⟨f', hf'⟩
          simp only [Res.found.injEq, and_true] at this
          rw [this]; exact hq'
        · obtain ⟨f, hf⟩ := hdown.2 (fun q0 g1 g2 => hdec ⟨q0, g1, g2⟩)
          obtain ⟨f', hf'⟩ := resolve_climb ha p e hp he f _ hf
          exact absurd (h.unique ⟨f', hf'⟩) (by simp)
      · obtain ⟨f, hf⟩ := resolve_down_fail (root := root) hn (x := x)
          (orig := a ++ ':' :: ':' :: joinScope cs x) cs (a :: e) hcs (hstart e he)
          (by simp; omega) (by simpa using hat)
        obtain ⟨f', hf'⟩ := resolve_climb ha p e hp he f _ hf
        exact absurd (h.unique ⟨f', hf'⟩) (by simp)
    · obtain ⟨f, hf⟩ := resolve_climb_fail (rest := joinScope cs x) ha p hp
        (fun e h1 h2 => he ⟨e, h1, h2⟩)
      exact absurd (h.unique ⟨f, hf⟩) (by simp)
  · rintro ⟨e, he, hat, hq⟩
    have hdown := resolve_down (root := root)
      (orig := a ++ ':' :: ':' :: joinScope cs x) hx cs (a :: e) hcs (hstart e he)
      (by simp; omega) hat
    obtain ⟨f, hf⟩ := hdown.1 q hq
    obtain ⟨f', hf'⟩ := resolve_climb ha p e hp he f _ hf
    exact ⟨f', hf'⟩

/-- non-vacuity: from `a`, `b::S` is `a::b::S`. -/
example : Lookup exRoot [n "a"] (joinScope [n "b"] (n "S")) (.found [n "b", n "a"] (n "S")) ∧
    (exRoot.at [n "a"]).isSome = true := ⟨⟨5, by decide⟩, by decide⟩

/-- The exactness half of the property is false: `::a::X` is not declared, and yet the lookup
returns the `X` of the root module. -/
theorem C40_rooted_exact_fails :
    ∃ (root : Mod Nat) (q : Loc) (x : Name), (root.at q).isSome ∧ (∀ a ∈ q, Ident a) ∧ Ident x ∧
      ¬ Declares root x q ∧
      ∃ q', q' ≠ q ∧ Lookup root [] (':' :: ':' :: joinScope q.reverse x) (.found q' x) := by
  refine ⟨exRoot, [n "a"], n "X", by decide, by unfold Ident; decide, by unfold Ident; decide, ?_, [], by decide, 5,
    by decide⟩
  rintro ⟨m, hm, hs⟩
  have : exRoot.at [n "a"] = some exA := rfl
  rw [this] at hm; cases hm
  revert hs; decide

theorem resolve_diverges {root : Mod τ} {ma : Mod τ} {a x : Name} (ha : Ident a)
    (h : root.at [a] = some ma) :
    ∀ f, resolve root f [] (a ++ ':' :: ':' :: ':' :: ':' :: x) (a ++ ':' :: ':' :: ':' :: ':' :: x)
        true = none ∧
      resolve root f [a] (':' :: ':' :: x) (a ++ ':' :: ':' :: ':' :: ':' :: x) false = none := by
  have hsub : omHas root.inner a = true := by
    rw [← omGet_isSome]
    cases hg : omGet root.inner a with
    | none => simp [Mod.at, hg] at h
    | some _ => rfl
  intro f
  induction f with
  | zero => exact ⟨rfl, rfl⟩
  | succ f ih =>
    constructor
    · rw [resolve, if_neg (by simp)]
      have h0 : root.at [] = some root := rfl
      simp only [h0, cut_append ha.2, if_neg ha.1]
      simp [hsub, ih.2]
    · rw [resolve, if_neg]
      · simp [h, cut, ih.1]
      · rintro ⟨-, hc⟩
        have := congrArg List.length hc
        simp at this
        omega

/-- A name with an empty component (`a::::x`, with `a` a module) is never answered: the lookup
recurses for ever, whatever the depth allowed. -/
theorem C40_empty_component_diverges (root : Mod τ) (a x : Name) (ha : Ident a)
    (h : (root.at [a]).isSome) : ∀ r, ¬ Lookup root [] (joinScope [a, []] x) r := by
  obtain ⟨ma, hma⟩ := Option.isSome_iff_exists.mp h
  rintro r ⟨f, hf⟩
  have := (resolve_diverges (x := x) ha hma f).1
  simp only [joinScope, List.nil_append] at hf
  rw [this] at hf; cases hf

example : (exRoot.at [n "a"]).isSome ∧ Ident (n "a") := ⟨by decide, by unfold Ident; decide⟩

/-- A symbol of any kind hides outer ones: from a module that declares `x` only as a constant, the
structure `x` of an outer module cannot be reached by its plain name. -/
theorem C40_hidden_by_other_kind (root : Mod τ) (p : Loc) (m : Mod τ) (x : Name) (hx : ':' ∉ x)
    (hm : root.at p = some m) (hd : m.hasSymbol x = true) (hns : omGet m.content.structs x = none) :
    ∀ r, Lookup root p x r → fetch root .struct r = none := by
  intro r hr
  have hl := (C40_unqualified root p (by rw [hm]; rfl) x hx).1 p x
  have := hr.unique (hl.mpr ⟨rfl, innermost_self ⟨m, hm, hd⟩⟩)
  subst this
  simp [fetch, hm, Content.get, hns]

example : exRoot.at [n "b", n "a"] = some exB ∧ exB.hasSymbol (n "X") = true ∧
    omGet exB.content.structs (n "X") = none := ⟨rfl, by decide, by decide⟩

/-! ## C41 -/

theorem content_get_set (ct : Content τ) (c c' : Cat) (t : List (Name × τ)) :
    (ct.set c t).get c' = if c = c' then t else ct.get c' := by
  cases c <;> cases c' <;> rfl

theorem omGet_omErase (t : List (Name × τ)) (k k' : Name) :
    omGet (omErase t k) k' = if k' = k then none else omGet t k' := by
  induction t with
  | nil => simp [omErase]
  | cons e r ih =>
    simp only [omErase, List.filter_cons] at ih ⊢
    by_cases h : e.1 = k
    · simp only [h, ne_eq, not_true, decide_false, Bool.false_eq_true, if_false, ih, omGet_cons]
      by_cases h2 : k' = k
      · simp [h2]
      · simp [h2, Ne.symm h2]
    · simp only [h, ne_eq, not_false_iff, decide_true, if_true, omGet_cons, ih]
      by_cases h1 : e.1 = k'
      · subst h1; simp [h]
      · simp [h1]

theorem register_entry (root : Mod τ) (p : Loc) (m : Mod τ) (hm : root.at p = some m) (c : Cat)
    (x : Name) (v : τ) (rep : Bool) (q : Loc) (c' : Cat) (y : Name) :
    entry (register root p c x v rep).1 q c' y =
      (if q = p then omGet ((registerCore c x v rep m).1.content.get c') y
        else entry root q c' y) := by
  have hinner : ∀ m : Mod τ, (registerCore c x v rep m).1.inner = m.inner := by
    intro m; unfold registerCore; split <;> rfl
  have := (at_modify (root := root) (p := p) (fun m => (registerCore c x v rep m).1) hm
    (hinner m) q).1
  have hreg : (register root p c x v rep).1 =
      root.modify p (fun m => (registerCore c x v rep m).1) := by simp [register, hm]
  rw [hreg]
  have e1 : entry (root.modify p (fun m => (registerCore c x v rep m).1)) q c' y =
      (((root.modify p (fun m => (registerCore c x v rep m).1)).at q).map (fun m => m.content)).bind
        (fun ct => omGet (ct.get c') y) := by
    unfold entry; cases (root.modify p (fun m => (registerCore c x v rep m).1)).at q <;> rfl
  rw [e1, this]
  split
  · rfl
  · unfold entry; cases root.at q <;> rfl

theorem core_get (c : Cat) (x : Name) (v : τ) (m : Mod τ) (c' : Cat) (y : Name) :
    omGet ((registerCore c x v false m).1.content.get c') y =
      if (c' = c ∧ y = x) ∧ (cut x = none ∧ omGet (m.content.get c) x = none) then some v
      else omGet (m.content.get c') y := by
  unfold registerCore
  by_cases hcut : (cut x).isSome
  · rw [if_pos hcut]
    have : ¬ cut x = none := by intro h; rw [h] at hcut; simp at hcut
    simp [this]
  · rw [if_neg hcut]
    have hcn : cut x = none := by simpa using hcut
    have hh : (omHas (m.content.get c) x = false) ↔ omGet (m.content.get c) x = none := by
      rw [← omGet_isSome]; cases omGet (m.content.get c) x <;> simp
    simp only [Bool.false_eq_true, if_false, content_mk, hcn, true_and]
    rw [content_get_set]
    by_cases hc : c = c'
    · subst hc
      simp only [true_and, if_true]
      rw [omEmplace_get]
      by_cases hy : y = x
      · subst hy; simp [hh]
      · simp [hy, Ne.symm hy]
    · have hc' : ¬ c' = c := fun h => hc h.symm
      simp [hc, hc']

theorem core_ok (c : Cat) (x : Name) (v : τ) (m : Mod τ) :
    (registerCore c x v false m).2 = true ↔ cut x = none ∧ omGet (m.content.get c) x = none := by
  unfold registerCore
  by_cases hcut : (cut x).isSome
  · rw [if_pos hcut]
    have : ¬ cut x = none := by intro h; rw [h] at hcut; simp at hcut
    simp [this]
  · rw [if_neg hcut]
    have hcn : cut x = none := by simpa using hcut
    have hh : (omHas (m.content.get c) x = false) ↔ omGet (m.content.get c) x = none := by
      rw [← omGet_isSome]; cases omGet (m.content.get c) x <;> simp
    simp only [hcn, true_and, Bool.false_eq_true, if_false, omEmplace, ← hh]
    split <;> simp_all

/-- Registering `x` in category `c` of the module at `p`: refused (with no effect on any entry of
any module) exactly when the name contains `::` or the category already has the name; otherwise
the new definition is there and every other entry of the whole tree is what it was. -/
theorem C41_redefinition_refused (root : Mod τ) (p : Loc) (hp : (root.at p).isSome) (c : Cat)
    (x : Name) (v : τ) :
    ((register root p c x v).2 = false ↔ cut x ≠ none ∨ ∃ w, entry root p c x = some w) ∧
    ((register root p c x v).2 = false → ∀ q c' y,
      entry (register root p c x v).1 q c' y = entry root q c' y) ∧
    ((register root p c x v).2 = true →
      entry (register root p c x v).1 p c x = some v ∧
      ∀ q c' y, ¬ (q = p ∧ c' = c ∧ y = x) →
        entry (register root p c x v).1 q c' y = entry root q c' y) := by
  obtain ⟨m, hm⟩ := Option.isSome_iff_exists.mp hp
  have he : ∀ c' y, entry root p c' y = omGet (m.content.get c') y := by
    intro c' y; simp [entry, hm]
  have hok : (register root p c x v).2 = (registerCore c x v false m).2 := by
    simp [register, hm]
  have hko : (registerCore c x v false m).2 = false ↔
      ¬ (cut x = none ∧ omGet (m.content.get c) x = none) := by
    rw [← core_ok c x v m]; simp
  refine ⟨?_, ?_, ?_⟩
  · rw [hok, hko, he]
    cases hc : cut x <;> cases hg : omGet (m.content.get c) x <;> simp
  · intro h q c' y
    rw [hok, hko] at h
    rw [register_entry root p m hm]
    split
    · rename_i hq; subst hq
      rw [core_get, he, if_neg]
      exact fun hc => h hc.2
    · rfl
  · intro h
    rw [hok, core_ok] at h
    constructor
    · rw [register_entry root p m hm, if_pos rfl, core_get]
      simp [h]
    · intro q c' y hne
      rw [register_entry root p m hm]
      split
      · rename_i hq; subst hq
        rw [core_get, he, if_neg]
        exact fun hc => hne ⟨rfl, hc.1⟩
      · rfl

/-- non-vacuity: redefining `a::S` is refused, defining `a::S2` is accepted. -/
example : (register exRoot [n "a"] .struct (n "S") 7).2 = false ∧
    (register exRoot [n "a"] .struct (n "S2") 7).2 = true ∧ (exRoot.at [n "a"]).isSome :=
  ⟨by decide, by decide, by decide⟩

/-- A registration never adds or removes a module. -/
theorem C41_submodules_unaffected (root : Mod τ) (p : Loc) (c : Cat) (x : Name) (v : τ)
    (rep : Bool) (q : Loc) (a : Name) :
    HasSub (register root p c x v rep).1 a q ↔ HasSub root a q := by
  cases hm : root.at p with
  | none => simp [register, hm]
  | some m =>
    have hinner : ∀ m : Mod τ, (registerCore c x v rep m).1.inner = m.inner := by
      intro m; unfold registerCore; split <;> rfl
    have := (at_modify (root := root) (p := p) (fun m => (registerCore c x v rep m).1) hm
      (hinner m) q).2 a
    have hreg : (register root p c x v rep).1 =
        root.modify p (fun m => (registerCore c x v rep m).1) := by simp [register, hm]
    have conv : ∀ r : Mod τ, HasSub r a q ↔
        (r.at q).map (fun m => omHas m.inner a) = some true := by
      intro r; unfold HasSub Mod.hasSub
      cases r.at q <;> simp
    rw [conv, conv, hreg, this]

/-- Whatever registrations follow, an accepted definition stays in place (as long as none of them
asks for a replacement). -/
theorem C41_first_definition_stays (ops : List (Loc × Cat × Name × τ)) (root : Mod τ) (p : Loc)
    (c : Cat) (x : Name) (v : τ) (h : entry root p c x = some v)
    (hex : ∀ op ∈ ops, (root.at op.1).isSome) :
    entry (ops.foldl (fun r op => (register r op.1 op.2.1 op.2.2.1 op.2.2.2).1) root) p c x =
      some v := by
  induction ops generalizing root with
  | nil => exact h
  | cons op ops ih =>
    have hop := hex op (by simp)
    rw [List.foldl_cons]
    obtain ⟨h1, h2, h3⟩ := C41_redefinition_refused root op.1 hop op.2.1 op.2.2.1 op.2.2.2
    apply ih
    · cases hr : (register root op.1 op.2.1 op.2.2.1 op.2.2.2).2 with
      | false => rw [h2 hr]; exact h
      | true =>
        rw [(h3 hr).2 p c x]
        · exact h
        · rintro ⟨e1, e2, e3⟩
          have := h1.mpr (.inr ⟨v, by rw [← e1, ← e2, ← e3]; exact h⟩)
          rw [hr] at this; cases this
    · intro op' hop'
      have hq := hex op' (by simp [hop'])
      obtain ⟨m, hm⟩ := Option.isSome_iff_exists.mp hop
      have hinner : ∀ m : Mod τ, (registerCore op.2.1 op.2.2.1 op.2.2.2 false m).1.inner = m.inner := by
        intro m; unfold registerCore; split <;> rfl
      have := (at_modify (root := root) (p := op.1)
        (fun m => (registerCore op.2.1 op.2.2.1 op.2.2.2 false m).1) hm (hinner m) op'.1).2 []
      have hreg : (register root op.1 op.2.1 op.2.2.1 op.2.2.2).1 =
        root.modify op.1 (fun m => (registerCore op.2.1 op.2.2.1 op.2.2.2 false m).1) := by
          simp [register, hm]
      rw [hreg]
      cases h' : root.at op'.1 with
      | none => simp [h'] at hq
      | some m' =>
        rw [h'] at this
        cases h'' : (root.modify op.1
          (fun m => (registerCore op.2.1 op.2.2.1 op.2.2.2 false m).1)).at op'.1 with
        | none => rw [h''] at this; simp at this
        | some _ => rfl

/-- A registration with `replace` of a plain name is always accepted and puts the new definition
in place; nothing else changes. -/
theorem C41_replace (root : Mod τ) (p : Loc) (hp : (root.at p).isSome) (c : Cat) (x : Name) (v : τ)
    (hx : cut x = none) :
    (register root p c x v true).2 = true ∧ entry (register root p c x v true).1 p c x = some v ∧
    ∀ q c' y, ¬ (q = p ∧ c' = c ∧ y = x) →
      entry (register root p c x v true).1 q c' y = entry root q c' y := by
  obtain ⟨m, hm⟩ := Option.isSome_iff_exists.mp hp
  have hhas : omHas (omErase (m.content.get c) x) x = false := by
    rw [← omGet_isSome, omGet_omErase]; simp
  have hg : ∀ c' y, omGet ((registerCore c x v true m).1.content.get c') y =
      if c' = c ∧ y = x then some v else omGet (m.content.get c') y := by
    intro c' y
    simp only [registerCore, hx, Option.isSome_none, Bool.false_eq_true, if_false, if_true,
      content_mk]
    rw [content_get_set]
    by_cases hc : c = c'
    · subst hc
      simp only [if_true, true_and]
      rw [omEmplace_get, hhas, omGet_omErase]
      by_cases hy : y = x
      · simp [hy]
      · simp [hy, Ne.symm hy]
    · have : ¬ c' = c := fun h => hc h.symm
      simp only [if_neg hc, this, false_and, if_false]
  refine ⟨?_, ?_, ?_⟩
  · simp [register, hm, registerCore, hx, omEmplace, hhas]
  · rw [register_entry root p m hm, if_pos rfl, hg]; simp
  · intro q c' y hne
    rw [register_entry root p m hm]
    split
    · rename_i hq; subst hq
      rw [hg, if_neg (fun hc => hne ⟨rfl, hc⟩)]
      simp [entry, hm]
    · rfl

/-- Registration and lookup together: an accepted definition is what a lookup of its scoped name
from the root returns. -/
theorem C41_registered_is_found (root : Mod τ) (p : Loc) (c : Cat) (x : Name) (v : τ)
    (hp : ∀ a ∈ p, Ident a) (hx : ':' ∉ x)
    (hok : (register root p c x v).2 = true) :
    ∃ r, Lookup (register root p c x v).1 [] (scopedName p x) r ∧
      fetch (register root p c x v).1 c r = some v := by
  have hps : (root.at p).isSome := by
    cases h : root.at p with
    | none => simp [register, h] at hok
    | some _ => rfl
  have h3 := (C41_redefinition_refused root p hps c x v).2.2 hok
  have hd : Declares (register root p c x v).1 x p := by
    have := h3.1
    unfold entry at this
    cases hm : (register root p c x v).1.at p with
    | none => simp [hm] at this
    | some m =>
      refine ⟨m, hm, ?_⟩
      simp only [hm, Option.bind_some] at this
      have hh : omHas (m.content.get c) x = true := by rw [← omGet_isSome, this]; rfl
      unfold Mod.hasSymbol
      cases c <;> simp_all [Content.get]
  exact ⟨_, (C40_scoped_name _ p x hp hx hd _).mpr rfl, h3.1⟩

example : (register exRoot [n "a"] .union (n "U") 7).2 = true ∧ (∀ a ∈ [n "a"], Ident a) :=
  ⟨by decide, by unfold Ident; decide⟩

/-- `create_alias` is refused also when the alias exists only in an enclosing module: a nested
module cannot define an alias of its own with that name. -/
theorem C41_alias_refused_by_outer (root : Mod τ) (p q : Loc) (x : Name) (v w : τ) (hx : ':' ∉ x)
    (hp : (root.at p).isSome) (hq : Innermost (Declares root x) p q)
    (hw : entry root q .alias x = some w) (r : Res) (hr : Lookup root p x r) :
    createAlias root p x v r = (root, false) := by
  have := hr.unique (((C40_unqualified root p hp x hx).1 q x).mpr ⟨rfl, hq⟩)
  subst this
  have : hasAlias root (.found q x) = true := by
    unfold entry at hw; simp [hasAlias, fetch, hw]
  simp [createAlias, this]

/-- non-vacuity: the alias `::I` prevents `a::I`. -/
example : createAlias (register exRoot [] .alias (n "I") 1).1 [n "a"] (n "I") 2
    (.found [] (n "I")) = ((register exRoot [] .alias (n "I") 1).1, false) ∧
    entry (register exRoot [] .alias (n "I") 1).1 [n "a"] .alias (n "I") = none := by
  constructor
  · rfl
  · decide

/-- `add_alias` does not check the name: an alias may be registered under a scoped name, under
which no lookup ever finds it. -/
theorem C41_scoped_alias_lost : ∃ (root : Mod Nat) (x : Name), cut x ≠ none ∧
    (addAliasCore x 1 root).2 = true ∧
    ∀ r, Lookup (addAliasCore x 1 root).1 [] x r → fetch (addAliasCore x 1 root).1 .alias r = none := by
  refine ⟨.empty, n "a::b", by decide, by decide, ?_⟩
  intro r hr
  have : Lookup (addAliasCore (n "a::b") 1 Mod.empty).1 [] (n "a::b") .fail := ⟨2, by decide⟩
  rw [hr.unique this]; rfl

/-- A structure passed by reference to `structure()` of a nested module is renamed to its scoped name
even when the registration is refused, and with that name it is refused everywhere. -/
theorem C41_refused_argument_renamed (root : Mod τ) (p : Loc) (a : Name) (x : Name) (w v : τ)
    (c : Cat) (hp : ∀ b ∈ a :: p, Ident b) (hx : Ident x) (hp' : (root.at (a :: p)).isSome)
    (hdup : entry root (a :: p) c x = some w) :
    (register root (a :: p) c x v).2 = false ∧ argName (a :: p) x ≠ x ∧
    ∀ q, (root.at q).isSome → (register root q c (argName (a :: p) x) v).2 = false := by
  have hc : cut x = none := cut_none hx.2
  have hcut : cut (argName (a :: p) x) ≠ none := by
    simp only [argName, hc, Option.isSome_none, Bool.false_eq_true, if_false]
    rw [scopedName_eq hp]
    have : (a :: p).reverse = p.reverse ++ [a] := by simp
    rw [this]
    cases hr : p.reverse ++ [a] with
    | nil => simp at hr
    | cons b r =>
      have hb : Ident b := hp b (by
        have : b ∈ p.reverse ++ [a] := by rw [hr]; simp
        simp at this; simp; exact this.symm)
      simp only [joinScope]
      rw [cut_append hb.2]; simp
  refine ⟨((C41_redefinition_refused root _ hp' c x v).1).mpr (.inr ⟨w, hdup⟩), ?_, ?_⟩
  · intro h; rw [h] at hcut; exact hcut hc
  · intro q hq; exact ((C41_redefinition_refused root q hq c _ v).1).mpr (.inl hcut)

example : entry exRoot [n "a"] .struct (n "S") = some 2 ∧ argName [n "a"] (n "S") = n "a::S" :=
  ⟨by decide, by decide⟩

/-! ## C42 -/

mutual
/-- The declarations of types in a module and its submodules, with the places they are in. -/
def decls (p : Loc) : Mod τ → List (Loc × Name × τ)
  | .mk c inner => (c.structs ++ c.unions ++ c.aliases ++ c.enums).map (fun e => (p, e.1, e.2)) ++
      declsInner p inner
def declsInner (p : Loc) : List (Name × Option (Mod τ)) → List (Loc × Name × τ)
  | [] => []
  | (_, none) :: rest => declsInner p rest
  | (n, some m) :: rest => decls (n :: p) m ++ declsInner p rest
end

theorem fillLoop_append (pre : Name) (t t' acc : List (Name × τ)) :
    fillLoop pre (t ++ t') acc = fillLoop pre t' (fillLoop pre t acc) := by
  simp [fillLoop, List.foldl_append]

/-- Emplacing a list of declarations under given names. -/
def emplaceAll (l : List (Name × τ)) (acc : List (Name × τ)) : List (Name × τ) :=
  l.foldl (fun a e => (omEmplace a e.1 e.2).1) acc

theorem emplaceAll_get (l acc : List (Name × τ)) (k : Name) :
    omGet (emplaceAll l acc) k = (omGet acc k).or (omGet l k) := by
  induction l generalizing acc with
  | nil => simp [emplaceAll]
  | cons e r ih =>
    have : emplaceAll (e :: r) acc = emplaceAll r (omEmplace acc e.1 e.2).1 := rfl
    rw [this, ih, omEmplace_get, omGet_cons]
    by_cases h : e.1 = k
    · subst h
      rw [← omGet_isSome]
      cases hg : omGet acc e.1 <;> simp
    · simp [h]

theorem emplaceAll_append (l l' acc : List (Name × τ)) :
    emplaceAll (l ++ l') acc = emplaceAll l' (emplaceAll l acc) := by
  simp [emplaceAll, List.foldl_append]

def keyed (l : List (Loc × Name × τ)) : List (Name × τ) :=
  l.map (fun e => (scopedName e.1 e.2.1, e.2.2))

mutual
theorem fillAll_eq (p : Loc) : ∀ (m : Mod τ) (acc : List (Name × τ)), m.full = true →
    fillAll true p m acc = some (emplaceAll (keyed (decls p m)) acc)
  | .mk c inner, acc, hf => by
    rw [fillAll, decls, keyed, List.map_append, emplaceAll_append]
    have h : ∀ (t acc : List (Name × τ)),
        fillLoop (if scope p = [] then [] else scope p ++ [':', ':']) t acc =
        emplaceAll (t.map (fun e => (scopedName p e.1, e.2))) acc := by
      intro t acc
      unfold fillLoop emplaceAll
      rw [List.foldl_map]
      congr 1
      funext a e
      unfold scopedName
      split <;> simp
    simp only [if_true]
    rw [h, h, h, h, ← emplaceAll_append, ← emplaceAll_append, ← emplaceAll_append]
    rw [fillInner_eq p inner _ (by simpa [Mod.full] using hf)]
    simp [keyed, List.map_append, Function.comp_def]
theorem fillInner_eq (p : Loc) : ∀ (i : List (Name × Option (Mod τ))) (acc : List (Name × τ)),
    innerFull i = true → fillInner true p i acc = some (emplaceAll (keyed (declsInner p i)) acc)
  | [], acc, _ => rfl
  | (_, none) :: _, _, hf => by simp [innerFull] at hf
  | (n, some m) :: rest, acc, hf => by
    simp only [innerFull, Bool.and_eq_true] at hf
    rw [fillInner, fillAll_eq (n :: p) m acc hf.1]
    simp only
    rw [fillInner_eq p rest _ hf.2, declsInner]
    simp [keyed, List.map_append, emplaceAll_append]
end

/-- The type categories. -/
def Cat.isType : Cat → Bool
  | .const => false
  | _ => true

mutual
theorem mem_decls (p : Loc) : ∀ (m : Mod τ), m.uniq → ∀ (q : Loc) (x : Name) (t : τ),
    (q, x, t) ∈ decls p m ↔ ∃ s k, q = s ++ p ∧ k.isType = true ∧ entry m s k x = some t
  | .mk c inner, hu, q, x, t => by
    rw [Mod.uniq] at hu
    rw [decls, List.mem_append, mem_declsInner p inner c hu.2.1 hu.2.2 q x t]
    have hg : ∀ k, (x, t) ∈ c.get k ↔ omGet (c.get k) x = some t :=
      fun k => ⟨omGet_of_mem (hu.1 k), omGet_mem⟩
    have g1 := hg .struct
    have g2 := hg .union
    have g3 := hg .alias
    have g4 := hg .enum
    simp only [Content.get] at g1 g2 g3 g4
    constructor
    · rintro (h | ⟨s, k, h1, h2, h3⟩)
      · simp only [List.mem_map, List.mem_append, Prod.mk.injEq] at h
        obtain ⟨⟨x', t'⟩, hmem, rfl, rfl, rfl⟩ := h
        rcases hmem with ((h | h) | h) | h
        · exact ⟨[], .struct, rfl, rfl, g1.mp h⟩
        · exact ⟨[], .union, rfl, rfl, g2.mp h⟩
        · exact ⟨[], .alias, rfl, rfl, g3.mp h⟩
        · exact ⟨[], .enum, rfl, rfl, g4.mp h⟩
      · exact ⟨s, k, h1, h2.2, h3⟩
    · rintro ⟨s, k, h1, h2, h3⟩
      by_cases hs : s = []
      · subst hs
        left
        simp only [List.nil_append] at h1; subst h1
        refine List.mem_map.mpr ⟨(x, t), ?_, rfl⟩
        simp only [List.mem_append]
        have h3' : omGet (c.get k) x = some t := h3
        cases k
        · exact .inl (.inl (.inl (g1.mpr h3')))
        · exact .inl (.inl (.inr (g2.mpr h3')))
        · exact .inl (.inr (g3.mpr h3'))
        · exact .inr (g4.mpr h3')
        · cases h2
      · exact .inr ⟨s, k, h1, ⟨hs, h2⟩, h3⟩
theorem mem_declsInner (p : Loc) : ∀ (i : List (Name × Option (Mod τ))) (c : Content τ),
    (i.map (·.1)).Nodup → innerUniq i → ∀ (q : Loc) (x : Name) (t : τ),
    (q, x, t) ∈ declsInner p i ↔
      ∃ s k, q = s ++ p ∧ (s ≠ [] ∧ k.isType = true) ∧ entry (.mk c i) s k x = some t
  | [], c, _, _, q, x, t => by
    simp only [declsInner, List.not_mem_nil, false_iff]
    rintro ⟨s, k, -, ⟨hs, -⟩, h⟩
    rcases List.eq_nil_or_concat s with rfl | ⟨s, a, rfl⟩
    · exact hs rfl
    · rw [List.concat_eq_append] at h
      have : (Mod.mk c ([] : List (Name × Option (Mod τ)))).at (s ++ [a]) = none := by
        rw [at_append]; rfl
      simp [entry, this] at h
  | (n, none) :: rest, c, hn, hu, q, x, t => by
    simp only [List.map_cons, List.nodup_cons] at hn
    rw [innerUniq] at hu
    rw [declsInner, mem_declsInner p rest c hn.2 hu q x t]
    apply exists_congr; intro s
    apply exists_congr; intro k
    apply and_congr_right; intro _
    apply and_congr_right; rintro ⟨hs, -⟩
    rcases List.eq_nil_or_concat s with rfl | ⟨s, a, rfl⟩
    · exact absurd rfl hs
    · rw [List.concat_eq_append]
      unfold entry
      rw [at_append, at_append]
      have : (Mod.mk c rest).at [a] = (Mod.mk c ((n, none) :: rest)).at [a] := by
        simp only [Mod.at, Option.bind_some, Mod.inner]
        rw [omGet_cons]
        split
        · rename_i h; simp only at h; subst h
          rw [omGet_eq_none.mpr hn.1]; rfl
        · rfl
      rw [this]
  | (n, some m) :: rest, c, hn, hu, q, x, t => by
    simp only [List.map_cons, List.nodup_cons] at hn
    rw [innerUniq] at hu
    rw [declsInner, List.mem_append, mem_declsInner p rest c hn.2 hu.2 q x t,
      mem_decls (n :: p) m hu.1 q x t]
    have hat : ∀ (s : Loc) (a : Name), (Mod.mk c ((n, some m) :: rest)).at (s ++ [a]) =
        if n = a then m.at s else (Mod.mk c rest).at (s ++ [a]) := by
      intro s a
      rw [at_append, at_append]
      have : (Mod.mk c ((n, some m) :: rest)).at [a] =
          if n = a then some m else (Mod.mk c rest).at [a] := by
        simp only [Mod.at, Option.bind_some, Mod.inner]
        rw [omGet_cons]
        by_cases h : n = a <;> simp [h]
      rw [this]
      by_cases h : n = a <;> simp [h]
    constructor
    · rintro (⟨s, k, h1, h2, h3⟩ | ⟨s, k, h1, h2, h3⟩)
      · refine ⟨s ++ [n], k, by simp [h1], ⟨by simp, h2⟩, ?_⟩
        unfold entry at h3 ⊢
        rw [hat, if_pos rfl]; exact h3
      · rcases List.eq_nil_or_concat s with rfl | ⟨s, a, rfl⟩
        · exact absurd rfl h2.1
        · rw [List.concat_eq_append] at *
          refine ⟨s ++ [a], k, h1, h2, ?_⟩
          unfold entry at h3 ⊢
          rw [hat]
          split
          · rename_i h; subst h
            exfalso
            rw [at_append] at h3
            have : (Mod.mk c rest).at [n] = none := by
              simp [Mod.at, Mod.inner, omGet_eq_none.mpr hn.1]
            simp [this] at h3
          · exact h3
    · rintro ⟨s, k, h1, h2, h3⟩
      rcases List.eq_nil_or_concat s with rfl | ⟨s, a, rfl⟩
      · exact absurd rfl h2.1
      · rw [List.concat_eq_append] at *
        unfold entry at h3
        rw [hat] at h3
        split at h3
        · rename_i h; subst h
          exact .inl ⟨s, k, by simp [h1], h2.2, h3⟩
        · exact .inr ⟨s ++ [a], k, h1, h2, h3⟩
end

/-- `get_all_types(true)` of the module at `p` (an object `m` with no null submodule) answers with
exactly the types declared in the module and below, each under its fully scoped name, provided
names are identifiers and no module uses one name for two kinds of types. -/
theorem C42_complete_partial (p : Loc) (m : Mod τ) (hu : m.uniq) (hfull : m.full = true)
    (hp : ∀ a ∈ p, Ident a)
    (hid : ∀ s k x t, entry m s k x = some t → Ident x ∧ ∀ a ∈ s, Ident a)
    (hcat : ∀ s k k' x t t', k.isType → k'.isType → entry m s k x = some t →
      entry m s k' x = some t' → k = k') :
    ∃ l, getAllTypes true p m = some l ∧ ∀ key t, omGet l key = some t ↔
      ∃ s k x, k.isType = true ∧ entry m s k x = some t ∧ key = scopedName (s ++ p) x := by
  refine ⟨_, fillAll_eq p m [] hfull, ?_⟩
  intro key t
  rw [emplaceAll_get, omGet_nil, Option.none_or]
  have hmem := mem_decls p m hu
  have inj : ∀ s k x t s' k' x' t', k.isType = true → k'.isType = true →
      entry m s k x = some t → entry m s' k' x' = some t' →
      scopedName (s ++ p) x = scopedName (s' ++ p) x' → t = t' := by
    intro s k x t s' k' x' t' hk hk' h h' he
    obtain ⟨i1, i2⟩ := hid s k x t h
    obtain ⟨j1, j2⟩ := hid s' k' x' t' h'
    have a1 : ∀ a ∈ s ++ p, Ident a := by
      intro a ha; rcases List.mem_append.mp ha with ha | ha
      · exact i2 a ha
      · exact hp a ha
    have a2 : ∀ a ∈ s' ++ p, Ident a := by
      intro a ha; rcases List.mem_append.mp ha with ha | ha
      · exact j2 a ha
      · exact hp a ha
    rw [scopedName_eq a1, scopedName_eq a2] at he
    have := joinScope_inj (by simpa [or_comm] using a1) (by simpa [or_comm] using a2) i1 j1 he
    obtain ⟨e1, rfl⟩ := this
    have e2 : s = s' := List.append_cancel_right (List.reverse_inj.mp e1)
    subst e2
    have := hcat s k k' x t t' hk hk' h h'
    subst this
    rw [h] at h'; exact Option.some.inj h'
  constructor
  · intro h
    have := omGet_mem h
    simp only [keyed, List.mem_map, Prod.mk.injEq] at this
    obtain ⟨⟨q, x, t'⟩, hm, rfl, rfl⟩ := this
    obtain ⟨s, k, rfl, hk, he⟩ := (hmem q x t').mp hm
    exact ⟨s, k, x, hk, he, rfl⟩
  · rintro ⟨s, k, x, hk, he, rfl⟩
    have hm : (s ++ p, x, t) ∈ decls p m := (hmem _ _ _).mpr ⟨s, k, rfl, hk, he⟩
    have hm' : (scopedName (s ++ p) x, t) ∈ keyed (decls p m) :=
      List.mem_map.mpr ⟨(s ++ p, x, t), hm, rfl⟩
    cases hg : omGet (keyed (decls p m)) (scopedName (s ++ p) x) with
    | none => exact absurd (List.mem_map.mpr ⟨_, hm', rfl⟩) (omGet_eq_none.mp hg)
    | some t' =>
      have := omGet_mem hg
      simp only [keyed, List.mem_map, Prod.mk.injEq] at this
      obtain ⟨⟨q, x', t''⟩, hmm, h1, h2⟩ := this
      simp only at h1 h2
      subst h2
      obtain ⟨s', k', rfl, hk', he'⟩ := (hmem q x' t'').mp hmm
      rw [inj s k x t s' k' x' t'' hk hk' he he' h1.symm]

/-- Without any hypothesis on names: nothing but declared types is ever listed, each under its
scoped name; and no declared type's name is missing. -/
theorem C42_sound (p : Loc) (m : Mod τ) (hu : m.uniq) (hfull : m.full = true) :
    ∃ l, getAllTypes true p m = some l ∧
      (∀ key t, omGet l key = some t → ∃ s k x, k.isType = true ∧ entry m s k x = some t ∧
        key = scopedName (s ++ p) x) ∧
      (∀ s k x t, k.isType = true → entry m s k x = some t →
        (omGet l (scopedName (s ++ p) x)).isSome) := by
  refine ⟨_, fillAll_eq p m [] hfull, ?_, ?_⟩
  · intro key t h
    rw [emplaceAll_get, omGet_nil, Option.none_or] at h
    have := omGet_mem h
    simp only [keyed, List.mem_map, Prod.mk.injEq] at this
    obtain ⟨⟨q, x, t'⟩, hm, rfl, rfl⟩ := this
    obtain ⟨s, k, rfl, hk, he⟩ := (mem_decls p m hu q x t').mp hm
    exact ⟨s, k, x, hk, he, rfl⟩
  · intro s k x t hk he
    rw [emplaceAll_get, omGet_nil, Option.none_or]
    have hm : (s ++ p, x, t) ∈ decls p m := (mem_decls p m hu _ _ _).mpr ⟨s, k, rfl, hk, he⟩
    have hm' : (scopedName (s ++ p) x, t) ∈ keyed (decls p m) :=
      List.mem_map.mpr ⟨(s ++ p, x, t), hm, rfl⟩
    rw [omGet_isSome, omHas_iff]
    exact List.mem_map.mpr ⟨_, hm', rfl⟩

/-- non-vacuity of C42 -/
example : exRoot.full = true ∧ getAllTypes true [] exRoot =
    some [(n "B", 1), (n "X", 6), (n "a::S", 2), (n "a::b::S", 3), (n "a::b::T", 4),
      (n "a::b::X", 5)] := ⟨by decide, by decide⟩

example : exRoot.uniq := by
  have h : ∀ c : Content Nat, ((c.structs.map (·.1)).Nodup ∧ (c.unions.map (·.1)).Nodup ∧
      (c.aliases.map (·.1)).Nodup ∧ (c.enums.map (·.1)).Nodup ∧ (c.consts.map (·.1)).Nodup) →
      ∀ k, ((c.get k).map (·.1)).Nodup := by
    rintro c ⟨a, b, d, e, f⟩ k; cases k <;> assumption
  refine ⟨h _ (by decide), by decide, ⟨⟨h _ (by decide), by decide, ⟨⟨h _ (by decide), by decide,
    trivial⟩, trivial⟩⟩, trivial⟩⟩

/-- The full statement is false: a module accepts a structure and a union of the same name, and the
union is then missing from the enumeration. -/
theorem C42_two_kinds_lost :
    ∃ (root : Mod Nat), (∃ r1, register Mod.empty [] .struct (n "X") 1 = (r1, true) ∧
        register r1 [] .union (n "X") 2 = (root, true)) ∧
      ∃ l, getAllTypes true [] root = some l ∧ ∀ e ∈ l, e.2 ≠ 2 := by
  refine ⟨_, ⟨_, rfl, rfl⟩, [(n "X", 1)], by decide, by decide⟩

/-- A null submodule entry makes the enumeration dereference a null pointer. -/
theorem C42_null_submodule (p : Loc) (c : Content τ) (i : List (Name × Option (Mod τ))) (x : Name)
    (h : omGet i x = some none) : getAllTypes true p (.mk c i) = none := by
  have : ∀ (i : List (Name × Option (Mod τ))) acc, omGet i x = some none →
      fillInner true p i acc = none := by
    intro i
    induction i with
    | nil => intro acc h; simp at h
    | cons e r ih =>
      intro acc h
      rw [omGet_cons] at h
      obtain ⟨n, e⟩ := e
      cases e with
      | none => rfl
      | some m =>
        have hr : omGet r x = some none := by
          split at h
          · simp at h
          · exact h
        rw [fillInner]
        split
        · rfl
        · exact ih _ hr
  rw [getAllTypes, fillAll]
  exact this i _ h

example : getAllTypes true [] (.mk {} [(n "m", none)] : Mod Nat) = none := by decide

/-! ## C43 -/

/-- Asking for a submodule that exists changes nothing and returns it. -/
theorem C43_existing_partial (m : Mod τ) (a : Name) (h : m.hasSub a = true) :
    (submoduleCore a m).1 = m ∧ some (submoduleCore a m).2 = omGet m.inner a := by
  rw [Mod.hasSub, ← omGet_isSome] at h
  unfold submoduleCore
  cases hg : omGet m.inner a with
  | none => simp [hg] at h
  | some e => simp

example : exRoot.hasSub (n "a") = true := by decide

/-- Asking for a submodule that does not exist creates a (null) entry for it: the property is
false for every module and every absent name. -/
theorem C43_lookup_creates (m : Mod τ) (a : Name) (h : m.hasSub a = false) :
    (submoduleCore a m).2.isNone = true ∧ (submoduleCore a m).1.hasSub a = true ∧
    createSubCore a (submoduleCore a m).1 = none ∧
    (∀ p, getAllTypes true p (submoduleCore a m).1 = none) ∧
    ∀ b, b ≠ a → (submoduleCore a m).1.hasSub b = m.hasSub b := by
  have hg : omGet m.inner a = none := by
    rw [Mod.hasSub, ← omGet_isSome] at h
    cases hg : omGet m.inner a <;> simp_all
  have e : submoduleCore a m = (.mk m.content (omEmplace m.inner a none).1, none) := by
    simp [submoduleCore, hg]
  have hha : omHas m.inner a = false := h
  have hget : ∀ b, omGet (omEmplace m.inner a none).1 b =
      if b = a then some none else omGet m.inner b := by
    intro b; rw [omEmplace_get]
    by_cases hb : b = a
    · simp [hb, hha]
    · simp [hb, Ne.symm hb]
  rw [e]
  refine ⟨rfl, ?_, ?_, ?_, ?_⟩
  · rw [Mod.hasSub, ← omGet_isSome, inner_mk, hget]; simp
  · simp only [createSubCore, inner_mk, hget, if_true]
  · intro p; exact C42_null_submodule p _ _ a (by rw [hget]; simp)
  · intro b hb
    rw [Mod.hasSub, Mod.hasSub, ← omGet_isSome, ← omGet_isSome, inner_mk, hget, if_neg hb]

example : exRoot.hasSub (n "zz") = false := by decide

end Verif.Idl
