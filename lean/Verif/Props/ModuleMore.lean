import Verif.Props.Module
/-!
# More about modules (C40, C41, C42, C43)
-/

namespace Verif

namespace Idl
variable {τ : Type}

theorem name_trans (a b c : Name) (h : a < b) (h' : b < c) : a < c := List.lt_trans h h'
theorem name_total (a b : Name) (h : ¬ a < b) (h' : a ≠ b) : b < a := Std.lt_of_le_of_ne h (Ne.symm h')

/-! ## C40: `type(name)` -/

/-- C40: when the name was resolved to a module that declares it as exactly one kind of type, `type(name)` returns that
type, whatever the kind. -/
theorem C40_type_found (root : Mod τ) (rooted : Bool) (q : Loc) (x : Name) (c : Cat) (v : τ) (hc : c ≠ .const)
    (h : entry root q c x = some v) (hu : ∀ c', c' ≠ c → c' ≠ .const → entry root q c' x = none) :
    typeOf root rooted (.found q x) = some (some v) := by
  unfold entry at h hu
  cases hm : root.at q with
  | none => rw [hm] at h; cases h
  | some m =>
    rw [hm] at h
    simp only [hm, Option.bind_some] at h hu
    have ha := hu .alias; have hun := hu .union; have hs := hu .struct; have he := hu .enum
    simp only [Content.get] at ha hun hs he
    unfold typeOf
    cases c <;> simp [Content.get] at h hc ha hun hs he <;> simp [hm, h, ha, hun, hs]

/-- C40: if the module declares no type of that name (only a constant or a submodule), `type(name)` returns nothing, or,
for a name that starts with `::`, dereferences a null pointer. -/
theorem C40_type_not_found (root : Mod τ) (q : Loc) (x : Name) (h : ∀ c, c ≠ .const → entry root q c x = none) :
    typeOf root false (.found q x) = some none ∧ typeOf root true (.found q x) = none := by
  unfold entry at h
  unfold typeOf
  cases hm : root.at q with
  | none => simp [hm]
  | some m =>
    simp only [hm, Option.bind_some] at h
    have ha := h .alias; have hun := h .union; have hs := h .struct; have he := h .enum
    simp [Content.get] at ha hun hs he
    simp [hm, ha, hun, hs, he]

/-- non-vacuity: the union `a::b::X`; the constant `K`. -/
example : typeOf exRoot false (.found [n "b", n "a"] (n "X")) = some (some 5) ∧
    typeOf exRoot true (.found [] (n "K")) = none :=
  ⟨C40_type_found exRoot false [n "b", n "a"] (n "X") .union 5 (by decide) (by decide)
    (by intro c h h'; cases c <;> first | contradiction | decide),
   (C40_type_not_found exRoot [] (n "K") (by intro c h; cases c <;> first | contradiction | decide)).2⟩

/-! ## C41: aliases -/

/-- C41: `add_alias` is refused exactly when the module has an alias of that name, and then changes nothing; otherwise
the alias is there, and every other entry of every table is as before. -/
theorem C41_add_alias (m : Mod τ) (x : Name) (v : τ) :
    ((addAliasCore x v m).2 = false ↔ (omGet m.content.aliases x).isSome) ∧
    ((addAliasCore x v m).2 = false → (addAliasCore x v m).1 = m) ∧
    ((addAliasCore x v m).2 = true → omGet (addAliasCore x v m).1.content.aliases x = some v) ∧
    (∀ c y, (c, y) ≠ (Cat.alias, x) →
      omGet ((addAliasCore x v m).1.content.get c) y = omGet (m.content.get c) y) ∧
    (addAliasCore x v m).1.inner = m.inner := by
  obtain ⟨ct, i⟩ := m
  refine ⟨?_, ?_, ?_, ?_, rfl⟩
  · rw [omGet_isSome]
    simp only [addAliasCore, omEmplace, content_mk]
    by_cases h : omHas ct.aliases x = true <;> simp [h]
  · intro h
    simp only [addAliasCore, omEmplace, content_mk] at h ⊢
    by_cases h' : omHas ct.aliases x = true
    · simp [h']
    · simp [h'] at h
  · intro h
    have e : omGet (addAliasCore x v (.mk ct i)).1.content.aliases x = omGet (omEmplace ct.aliases x v).1 x := rfl
    rw [e, omEmplace_get]
    simp only [addAliasCore, omEmplace, content_mk] at h
    by_cases h' : omHas ct.aliases x = true
    · simp [h'] at h
    · simp [h']
  · intro c y hne
    cases c with
    | «alias» =>
      have e : omGet ((addAliasCore x v (.mk ct i)).1.content.get .alias) y = omGet (omEmplace ct.aliases x v).1 y := rfl
      rw [e, omEmplace_get]
      have : ¬ y = x := by rintro rfl; exact hne rfl
      simp [Ne.symm this, Content.get]
    | _ => rfl

/-- C41: `create_alias` is accepted exactly when the name has no `::` and the lookup of the name finds no alias; the
alias is then registered in the module itself; a refused call changes nothing. -/
theorem C41_create_alias (root : Mod τ) (p : Loc) (hp : (root.at p).isSome) (x : Name) (v : τ) (r : Res) (hx : ':' ∉ x)
    (hr : Lookup root p x r) :
    ((createAlias root p x v r).2 = true ↔ fetch root .alias r = none) ∧
    ((createAlias root p x v r).2 = true → entry (createAlias root p x v r).1 p .alias x = some v) ∧
    ((createAlias root p x v r).2 = false → (createAlias root p x v r).1 = root) ∧
    (∀ q c y, (q, c, y) ≠ (p, Cat.alias, x) → entry (createAlias root p x v r).1 q c y = entry root q c y) := by
  have hcut : cut x = none := cut_none hx
  have hreg := C41_redefinition_refused root p hp .alias x v
  by_cases hf : fetch root .alias r = none
  · have e : createAlias root p x v r = register root p .alias x v := by
      simp [createAlias, hcut, hasAlias, hf]
    have hok : (register root p .alias x v).2 = true := by
      rw [← Bool.not_eq_false, hreg.1]
      rintro (h | ⟨w, hw⟩)
      · exact h hcut
      · have hd : Declares root x p := by
          unfold entry at hw
          cases hm : root.at p with
          | none => rw [hm] at hw; cases hw
          | some m =>
            rw [hm, Option.bind_some] at hw
            refine ⟨m, hm, ?_⟩
            have : omHas m.content.aliases x = true := by
              rw [← omGet_isSome]
              rw [show m.content.aliases = m.content.get .alias from rfl, hw]; rfl
            unfold Mod.hasSymbol; simp [this]
        have := hr.unique (((C40_unqualified root p hp x hx).1 p x).mpr ⟨rfl, innermost_self hd⟩)
        subst this
        unfold entry at hw
        rw [fetch, hw] at hf
        cases hf
    rw [e]
    refine ⟨⟨fun _ => hf, fun _ => hok⟩, fun _ => (hreg.2.2 hok).1, fun h => ?_, ?_⟩
    · rw [hok] at h; cases h
    · intro q c y hne
      exact (hreg.2.2 hok).2 q c y (by rintro ⟨rfl, rfl, rfl⟩; exact hne rfl)
  · have e : createAlias root p x v r = (root, false) := by
      have : hasAlias root r = true := by
        unfold hasAlias
        cases h : fetch root .alias r with
        | none => exact absurd h hf
        | some _ => rfl
      simp [createAlias, this]
    rw [e]
    exact ⟨⟨fun h => (by cases h), fun h => absurd h hf⟩, fun h => (by cases h), fun _ => rfl, fun _ _ _ _ => rfl⟩

example : Lookup exRoot [n "a"] (n "L") .fail ∧ (createAlias exRoot [n "a"] (n "L") 8 .fail).2 = true :=
  ⟨⟨5, by decide⟩, by decide⟩

/-! ## C42: order of the listing -/

theorem fillLoop_increasing (pre : Name) (t acc : List (Name × τ)) (h : Increasing acc) :
    Increasing (fillLoop pre t acc) := by
  unfold fillLoop
  induction t generalizing acc with
  | nil => exact h
  | cons e r ih => exact ih _ (omEmplace_increasing name_trans name_total h)

mutual
theorem fillAll_increasing (b : Bool) (p : Loc) : ∀ (m : Mod τ) (acc l : List (Name × τ)), Increasing acc →
    fillAll b p m acc = some l → Increasing l
  | .mk c inner, acc, l, h, e => by
    simp only [fillAll] at e
    exact fillInner_increasing b p inner _ l (fillLoop_increasing _ _ _ (fillLoop_increasing _ _ _
      (fillLoop_increasing _ _ _ (fillLoop_increasing _ _ _ h)))) e
theorem fillInner_increasing (b : Bool) (p : Loc) : ∀ (i : List (Name × Option (Mod τ))) (acc l : List (Name × τ)),
    Increasing acc → fillInner b p i acc = some l → Increasing l
  | [], acc, l, h, e => by simp only [fillInner, Option.some.injEq] at e; exact e ▸ h
  | (_, none) :: _, acc, l, h, e => by simp [fillInner] at e
  | (x, some m) :: rest, acc, l, h, e => by
    simp only [fillInner] at e
    cases hf : fillAll b (x :: p) m acc with
    | none => rw [hf] at e; cases e
    | some acc' =>
      rw [hf] at e
      exact fillInner_increasing b p rest acc' l (fillAll_increasing b (x :: p) m acc acc' h hf) e
end

/-- C42: `get_all_types` lists every name once, in increasing order of the names, with or without scopes. -/
theorem C42_increasing (b : Bool) (p : Loc) (m : Mod τ) (l : List (Name × τ)) (h : getAllTypes b p m = some l) :
    (l.map (·.1)).Pairwise (· < ·) := by
  have := fillAll_increasing b p m [] l List.Pairwise.nil h
  rw [List.pairwise_map]; exact this

example : (getAllTypes true [] exRoot).map (·.map (·.1)) = some [n "B", n "X", n "a::S", n "a::b::S", n "a::b::T", n "a::b::X"] := by
  decide

/-! ## C43: creating a submodule -/

/-- C43: creating a submodule that exists changes nothing; creating one that does not exist adds an empty module under
that name, and nothing else changes. -/
theorem C43_create (m : Mod τ) (a : Name) :
    (∀ s, omGet m.inner a = some (some s) → createSubCore a m = some m) ∧
    (m.hasSub a = false → ∃ m', createSubCore a m = some m' ∧ m'.content = m.content ∧
      (∀ b, omGet m'.inner b = if b = a then some (some Mod.empty) else omGet m.inner b)) := by
  constructor
  · intro s h; simp [createSubCore, h]
  · intro h
    have hg : omGet m.inner a = none := by
      rw [Mod.hasSub, ← omGet_isSome] at h
      cases hg : omGet m.inner a <;> simp_all
    refine ⟨.mk m.content (omEmplace m.inner a (some Mod.empty)).1, by simp only [createSubCore, hg], rfl,
      fun b => ?_⟩
    rw [inner_mk, omEmplace_get]
    have hha : omHas m.inner a = false := h
    by_cases hb : b = a
    · simp [hb, hha]
    · simp [hb, Ne.symm hb]

example : (∃ s, omGet exRoot.inner (n "a") = some (some s)) ∧ exRoot.hasSub (n "c") = false := ⟨⟨_, rfl⟩, by decide⟩

end Idl
end Verif
