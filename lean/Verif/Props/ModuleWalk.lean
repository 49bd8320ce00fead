import Verif.Lemmas.ModuleWalk
import Verif.Props.Module
/-!
# Walking the tree of modules (C68), and searching it for a type (C69)

`Mod.after calls = some root`: `root` is what the calls (the last one first) make of a new module.
-/

namespace Verif.Idl

variable {τ : Type}

/-! ## C68: walking -/

/-- C68: whatever was registered before, `for_each` on a module calls the visitor exactly once for the module itself and for
every module in it, at any depth, and for no other; every module comes before the modules in it, and modules in the same module
come in the order of their names. -/
theorem C68_visits {calls : List (MCall τ)} {root : Mod τ} (h : Mod.after calls = some root) (ha : NeverAsks calls)
    {p : Loc} {m : Mod τ} (hm : root.at p = some m) :
    ∃ l, visits p m = (l, true) ∧ (∀ q, q ∈ l ↔ p <:+ q ∧ (root.at q).isSome) ∧ l.Nodup ∧ l.Pairwise Precedes := by
  obtain ⟨h1, h2, h3⟩ := visitsBelow_ok m p (at_ordered (after_ordered h) hm) (at_full (after_full ha h) hm)
  have hp : (p :: (visitsBelow true p m).1).Pairwise Precedes := by
    rw [List.pairwise_cons]
    refine ⟨fun q hq => ?_, h3⟩
    obtain ⟨s, hs, rfl, _⟩ := (h2 q).mp hq
    unfold Precedes
    rw [List.reverse_append]
    cases e : s.reverse with
    | nil => exact absurd (by simpa using e) hs
    | cons a r =>
      have := List.append_left_lt (l₁ := p.reverse) (l₂ := []) (l₃ := a :: r) (List.nil_lt_cons _ _)
      simpa using this
  refine ⟨p :: (visitsBelow true p m).1, by rw [visits, h1], fun q => ?_, ?_, hp⟩
  · rw [List.mem_cons, h2]
    constructor
    · rintro (rfl | ⟨s, _, rfl, hs⟩)
      · exact ⟨List.suffix_rfl, by rw [hm]; rfl⟩
      · exact ⟨List.suffix_append _ _, by rw [at_append, hm, Option.bind_some]; exact hs⟩
    · rintro ⟨⟨s, rfl⟩, hs⟩
      rw [at_append, hm, Option.bind_some] at hs
      by_cases h0 : s = []
      · subst h0; exact .inl rfl
      · exact .inr ⟨s, h0, rfl, hs⟩
  · refine List.Pairwise.imp ?_ hp
    intro a b hab e
    subst e
    exact List.lt_irrefl _ hab

/-- C68: without recursion `for_each_submodule` calls the visitor exactly for the submodules of the module itself, in the order
of their names. -/
theorem C68_direct {calls : List (MCall τ)} {root : Mod τ} (h : Mod.after calls = some root) (ha : NeverAsks calls)
    {p : Loc} {m : Mod τ} (hm : root.at p = some m) :
    ∃ l, visitsBelow false p m = (l, true) ∧ (∀ q, q ∈ l ↔ ∃ n, q = n :: p ∧ (root.at q).isSome) ∧ l.Pairwise Precedes := by
  have ho := at_ordered (after_ordered h) hm
  have hf := at_full (after_full ha h) hm
  cases m with
  | mk c i =>
    rw [Mod.ordered] at ho
    rw [Mod.full] at hf
    obtain ⟨h1, h2⟩ := visitsInner_flat i p ho.1 hf
    refine ⟨i.map fun e => e.1 :: p, by rw [visitsBelow, ← h2, ← h1], fun q => ?_, ?_⟩
    · rw [List.mem_map]
      constructor
      · rintro ⟨⟨n, e⟩, he, rfl⟩
        obtain ⟨m', rfl, _⟩ := innerFull_iff.mp hf _ he
        refine ⟨n, rfl, ?_⟩
        rw [Mod.at, hm, Option.bind_some]
        change (omGet i n).join.isSome = true
        rw [omGet_of_mem (increasing_nodup ho.1) he]; rfl
      · rintro ⟨n, rfl, hs⟩
        rw [Mod.at, hm, Option.bind_some] at hs
        change (omGet i n).join.isSome = true at hs
        cases hg : omGet i n with
        | none => rw [hg] at hs; cases hs
        | some e => exact ⟨(n, e), omGet_mem hg, rfl⟩
    · rw [List.pairwise_map]
      exact ho.1.imp fun hab => by simpa using lex_beside p hab [] []

/-- C68 fails after asking for a submodule that is not there: walking over any module around it dereferences a null pointer. -/
theorem C68_asked_fails {calls : List (MCall τ)} {root root' : Mod τ} {p : Loc} {n : Name} (h : Mod.after calls = some root)
    (hn : (root.at p).map (·.hasSub n) = some false) (h' : Mod.after (.ask p n :: calls) = some root') :
    (∀ q m, q <:+ p → root'.at q = some m → (visits q m).2 = false) := by
  intro q m hq hm
  refine visitsBelow_null m q ?_
  cases hf : m.full with
  | false => rfl
  | true =>
    exfalso
    rw [Mod.after, h, Option.bind_some, Mod.call] at h'
    cases hp : root.at p with
    | none => rw [hp] at hn; cases hn
    | some mp =>
      rw [hp] at hn h'
      cases h'
      have hp' := at_modify_self (fun _ => (submoduleCore n mp).1) hp
      obtain ⟨s, rfl⟩ := hq
      rw [at_append, hm, Option.bind_some] at hp'
      have := full_iff.mp (at_full hf hp')
      have hn' : omHas mp.inner n = false := by simpa [Mod.hasSub] using hn
      have hg : omGet mp.inner n = none := by
        cases hg : omGet mp.inner n with
        | none => rfl
        | some e => rw [← omGet_isSome, hg] at hn'; cases hn'
      obtain ⟨m', he, _⟩ := this (n, none) (by
        rw [submoduleCore, hg]
        change _ ∈ (omEmplace mp.inner n none).1
        rw [omEmplace, if_neg (by simp [hn'])]
        exact mem_omIns.mpr (.inl rfl))
      cases he

/-- Modules `a` (with `c` in it) and `b`; `X` is declared in `a`. -/
def exCalls : List (MCall Nat) :=
  [.define [n "a"] .struct (n "X") 1 false, .create [n "a"] (n "c"), .create [] (n "a"), .create [] (n "b")]

/-- C68: a history as in the theorems, and what they say about it. -/
example : ∃ root, Mod.after exCalls = some root ∧ NeverAsks exCalls ∧
    visits [] root = ([[], [n "a"], [n "c", n "a"], [n "b"]], true) ∧
    visitsBelow false [] root = ([[n "a"], [n "b"]], true) ∧ (root.at []).map (·.hasSub (n "z")) = some false ∧
    ∃ root', Mod.after (.ask [] (n "z") :: exCalls) = some root' := by
  refine ⟨_, rfl, ?_, by decide, by decide, by decide, _, rfl⟩
  intro c hc p x e
  subst e
  simp [exCalls] at hc

/-! ## C69: searching -/

/-- C69: for a plain name, `type(name)` returns the type that the closest module around declares under the name; nothing if
that module declares something else, or no module around declares the name. -/
theorem C69_around {root : Mod τ} {p : Loc} (hp : (root.at p).isSome) {x : Name} (hx : ':' ∉ x) :
    (∀ t, TypeIs root p x false (.ok (some (t, none))) ↔ SeesType root x p t) ∧
    (TypeIs root p x false (.ok none) ↔ ∀ t, ¬ SeesType root x p t) ∧ ¬ TypeIs root p x false .ub := by
  obtain ⟨m, hm⟩ := Option.isSome_iff_exists.mp hp
  obtain ⟨r, hr, hh⟩ := typeHere_plain (cut_none hx) (root := root) hp
  have hv : TypeIs root p x false (typeHere root x none r) := by
    refine ⟨m, p.length + 1, hm, ?_⟩
    cases m
    rw [search]
    simp only [Bool.false_eq_true, if_false, typeAfter, hr, Option.map_some]
  by_cases hs : ∃ t, SeesType root x p t
  · obtain ⟨t, ht⟩ := hs
    rw [(hh none).1 t ht] at hv
    refine ⟨fun t' => ⟨fun h => ?_, fun h => ?_⟩, ⟨fun h => ?_, fun h => absurd ht (h t)⟩, fun h => ?_⟩
    · cases hv.unique h; exact ht
    · rw [sees_unique h ht]; exact hv
    · cases hv.unique h
    · cases hv.unique h
  · have hs' : ∀ t, ¬ SeesType root x p t := fun t ht => hs ⟨t, ht⟩
    rw [(hh none).2 hs'] at hv
    refine ⟨fun t' => ⟨fun h => ?_, fun h => absurd h (hs' t')⟩, ⟨fun _ => hs', fun _ => hv⟩, fun h => ?_⟩
    · cases hv.unique h
    · cases hv.unique h

/-- C69: exactly what the recursive search for a plain name returns: the type seen from the module itself; if there is none,
what the search from its last submodule returns (`Finds`). -/
theorem C69_search {calls : List (MCall τ)} {root : Mod τ} (h : Mod.after calls = some root) (ha : NeverAsks calls)
    {p : Loc} (hp : (root.at p).isSome) {x : Name} (hx : ':' ∉ x) (r : Got τ) :
    TypeIs root p x true r ↔ ∃ o, r = .ok (o.map fun t => (t, none)) ∧ Finds root x p o := by
  obtain ⟨m, hm⟩ := Option.isSome_iff_exists.mp hp
  obtain ⟨f, o, h1, h2⟩ := search_finds (cut_none hx) m p hm (at_ordered (after_ordered h) hm) (at_full (after_full ha h) hm)
  have hv : TypeIs root p x true _ := ⟨m, f, hm, h1⟩
  constructor
  · intro h; exact ⟨o, h.unique hv, h2⟩
  · rintro ⟨o', rfl, h'⟩
    rw [finds_unique h' h2]; exact hv

/-- C69: the recursive search always returns, and a type it returns is declared under the name in a module inside or around
the one searched; a type seen from the module itself is always preferred. -/
theorem C69_sound {calls : List (MCall τ)} {root : Mod τ} (h : Mod.after calls = some root) (ha : NeverAsks calls)
    {p : Loc} (hp : (root.at p).isSome) {x : Name} (hx : ':' ∉ x) :
    ∃ o, TypeIs root p x true (.ok (o.map fun t => (t, none))) ∧
      (∀ t, o = some t → ∃ q, (p <:+ q ∨ q <:+ p) ∧ typeAt root q x = some t) ∧ (∀ t, SeesType root x p t → o = some t) := by
  obtain ⟨m, hm⟩ := Option.isSome_iff_exists.mp hp
  obtain ⟨f, o, h1, h2⟩ := search_finds (cut_none hx) m p hm (at_ordered (after_ordered h) hm) (at_full (after_full ha h) hm)
  refine ⟨o, ⟨m, f, hm, h1⟩, fun t ht => ?_, fun t ht => finds_unique h2 (.here ht)⟩
  obtain ⟨q, h3, h4⟩ := finds_sound h2 t ht
  exact ⟨q, h3.symm, h4⟩

/-- C69, partial: if no module below has more than one submodule, the recursive search finds a type whenever a module inside
declares one under the name. Missing: trees with more modules (`C69_first_submodule_fails`). -/
theorem C69_complete_partial {calls : List (MCall τ)} {root : Mod τ} (h : Mod.after calls = some root) (ha : NeverAsks calls)
    {p : Loc} (hp : (root.at p).isSome) {x : Name} (hx : ':' ∉ x)
    (h1 : ∀ q m, p <:+ q → root.at q = some m → ∀ a b, m.hasSub a = true → m.hasSub b = true → a = b)
    {q : Loc} {t : τ} (hq : p <:+ q) (ht : typeAt root q x = some t) :
    ∃ t', TypeIs root p x true (.ok (some (t', none))) := by
  obtain ⟨o, ho, _⟩ := C69_sound h ha hp hx
  obtain ⟨o', e, hf⟩ := (C69_search h ha hp hx _).mp ho
  have hoo : o = o' := by
    cases o <;> cases o' <;> simp at e
    · rfl
    · rw [e]
  subst hoo
  obtain ⟨s, rfl⟩ := hq
  have := finds_complete hf (fun s' m' hm' => by
    have hu := h1 (s' ++ p) m' (List.suffix_append _ _) hm'
    have ho := (ordered_iff.mp (at_ordered (after_ordered h) hm')).1
    match hi : m'.inner, hu, ho with
    | [], _, _ => simp
    | [_], _, _ => simp
    | (a, ea) :: (b, eb) :: r, hu, ho =>
      have hab : a < b := (List.pairwise_cons.mp ho).1 (b, eb) (by simp)
      have := hu a b (by simp [Mod.hasSub, hi, omHas]) (by simp [Mod.hasSub, hi, omHas])
      subst this
      exact absurd hab (List.lt_irrefl _)) ht
  obtain ⟨t', rfl⟩ := Option.isSome_iff_exists.mp this
  exact ⟨t', ho⟩

/-- C69: a history as in the theorems: only one module in each. -/
example : ∃ root, Mod.after [.define [n "a"] .struct (n "X") 1 false, .create [] (n "a")] = some root ∧
    (∀ q m, [] <:+ q → root.at q = some m → ∀ a b, m.hasSub a = true → m.hasSub b = true → a = b) ∧
    typeAt root [n "a"] (n "X") = some 1 ∧ TypeIs root [] (n "X") true (.ok (some (1, none))) := by
  refine ⟨_, rfl, ?_, by decide, ⟨_, 9, rfl, by decide⟩⟩
  intro q m _ hm a b h1 h2
  have key : ∀ (m : Mod Nat), m.inner.length ≤ 1 → m.hasSub a = true → m.hasSub b = true → a = b := by
    intro m hm h1 h2
    unfold Mod.hasSub at h1 h2
    match hi : m.inner, hm with
    | [], _ => rw [hi] at h1; simp [omHas] at h1
    | [(c, e)], _ =>
      rw [hi] at h1 h2
      simp [omHas] at h1 h2
      rw [← h1, h2]
    | _ :: _ :: _, h => simp at h
  refine key m ?_ h1 h2
  rcases List.eq_nil_or_concat q with rfl | ⟨s, c, rfl⟩
  · cases hm; decide
  · simp only [List.concat_eq_append] at hm
    rw [at_append] at hm
    by_cases hc : c = n "a"
    · subst hc
      rcases List.eq_nil_or_concat s with rfl | ⟨s', d, rfl⟩
      · cases hm; decide
      · simp only [List.concat_eq_append] at hm
        change ((Mod.mk { structs := [(n "X", 1)] } [] : Mod Nat).at (s' ++ [d])) = some m at hm
        rw [at_append] at hm
        have : (Mod.at (Mod.mk { structs := [(n "X", 1)] } []) [d] : Option (Mod Nat)) = none := by simp [Mod.at, Mod.inner, omGet]
        change ((Mod.at (Mod.mk { structs := [(n "X", 1)] } []) [d] : Option (Mod Nat)).bind (·.at s')) = some m at hm
        rw [this] at hm; cases hm
    · have : ∀ x, (Mod.mk (τ := Nat) {} [(n "a", some x)]).at [c] = none := by
        intro x
        simp only [Mod.at, Option.bind_some, Mod.inner, omGet_cons]
        rw [if_neg (by simpa using Ne.symm hc)]; rfl
      change (Option.bind ((Mod.mk (τ := Nat) {} [(n "a", some _)]).at [c]) (·.at s)) = some m at hm
      rw [this] at hm; cases hm

/-- C69 fails in general: `X` is declared in the module `a`; because there is a module `b` too, the recursive search from the
root does not find it. -/
theorem C69_first_submodule_fails : ∃ root, Mod.after exCalls = some root ∧ typeAt root [n "a"] (n "X") = some 1 ∧
    ∀ r, TypeIs root [] (n "X") true r → r = .ok none :=
  ⟨_, rfl, by decide, fun r h => h.unique ⟨_, 9, rfl, by decide⟩⟩

/-- C69 fails after asking for a submodule that is not there: the recursive search dereferences a null pointer, even for a type
that `type(name)` finds. -/
theorem C69_asked_fails : ∃ root : Mod Nat, Mod.after [.ask [] (n "z"), .define [] .struct (n "X") 1 false] = some root ∧
    TypeIs root [] (n "X") false (.ok (some (1, none))) ∧ TypeIs root [] (n "X") true .ub :=
  ⟨_, rfl, ⟨_, 9, rfl, by decide⟩, ⟨_, 9, rfl, by decide⟩⟩

mutual
/-- A rooted name means the same everywhere. -/
theorem search_rooted {root : Mod τ} {name x : Name} {q : Loc} {t : τ} (hr : isRooted name = true) (ht : typeAt root q x = some t)
    (hl : ∀ p, (root.at p).isSome → Lookup root p name (.found q x)) : ∀ (m : Mod τ) (p : Loc), root.at p = some m → m.ordered →
    m.full = true → ∀ rec, ∃ f, search root f rec name p m = some (.ok (some (t, some name)))
  | .mk c i, p, hm, ho, hf, rec => by
    rw [Mod.ordered] at ho
    rw [Mod.full] at hf
    have hnd := increasing_nodup ho.1
    obtain ⟨f, hf0⟩ := hl p (by rw [hm]; rfl)
    obtain ⟨g, o, hg⟩ := searchInner_rooted hr ht hl i p none (fun n m' h => by
      rw [show n :: p = [n] ++ p from rfl, at_append, hm, Option.bind_some]
      exact at_top hnd [] n m' h) ho.2 hf
    refine ⟨max f g, ?_⟩
    have hth : ∀ prev, typeHere root name prev (.found q x) = .ok (some (t, some name)) := by
      intro prev
      simp only [typeHere, typeNamed_at, ht, hr, if_true]
    rw [search]
    cases rec with
    | false => simp only [Bool.false_eq_true, if_false, typeAfter, resolve_le root (Nat.le_max_left f g) hf0, Option.map_some, hth]
    | true =>
      simp only [if_true, searchInner_mono root (Nat.le_max_right f g) name p i none _ hg, typeAfter,
        resolve_le root (Nat.le_max_left f g) hf0, Option.map_some, hth]
/-- The loop does not fail. -/
theorem searchInner_rooted {root : Mod τ} {name x : Name} {q : Loc} {t : τ} (hr : isRooted name = true) (ht : typeAt root q x = some t)
    (hl : ∀ p, (root.at p).isSome → Lookup root p name (.found q x)) : ∀ (i : List (Name × Option (Mod τ))) (p : Loc)
    (prev : Option (τ × Option Name)), (∀ n m, (n, some m) ∈ i → root.at (n :: p) = some m) → innerOrdered i → innerFull i = true →
    ∃ f o, searchInner root f name p i prev = some (.ok o)
  | [], p, prev, _, _, _ => ⟨0, prev, by rw [searchInner]⟩
  | (_, none) :: _, p, _, _, _, hf => by simp [innerFull] at hf
  | (n, some m) :: rest, p, prev, hat, ho, hf => by
    rw [innerOrdered] at ho
    rw [innerFull, Bool.and_eq_true] at hf
    obtain ⟨f, hf0⟩ := search_rooted hr ht hl m (n :: p) (hat n m (by simp)) ho.1 hf.1 true
    obtain ⟨g, o, hg⟩ := searchInner_rooted hr ht hl rest p (some (t, some name)) (fun n' m' h => hat n' m' (by simp [h])) ho.2 hf.2
    refine ⟨max f g, o, ?_⟩
    rw [searchInner, search_mono root (Nat.le_max_left f g) true name (n :: p) m _ hf0]
    exact searchInner_mono root (Nat.le_max_right f g) name p rest _ _ hg
end

/-- C69: a name `::a::b::X` that names a type by its whole path finds this type from every module, with or without recursion;
but the type returned carries the text of the name asked for, `::a::b::X`, instead of its own name `a::b::X`. -/
theorem C69_rooted {calls : List (MCall τ)} {root : Mod τ} (h : Mod.after calls = some root) (ha : NeverAsks calls)
    {p q : Loc} (hp : (root.at p).isSome) {x : Name} (hq : ∀ a ∈ q, Ident a) (hx : ':' ∉ x) {t : τ} (ht : typeAt root q x = some t)
    (rec : Bool) (r : Got τ) : TypeIs root p (':' :: ':' :: joinScope q.reverse x) rec r ↔
      r = .ok (some (t, some (':' :: ':' :: joinScope q.reverse x))) := by
  obtain ⟨m, hm⟩ := Option.isSome_iff_exists.mp hp
  have hl : ∀ p, (root.at p).isSome → Lookup root p (':' :: ':' :: joinScope q.reverse x) (.found q x) :=
    fun p hp => (C40_rooted_partial root p q x hp hq hx (typeAt_declares ht) _).mpr rfl
  obtain ⟨f, hf⟩ := search_rooted (name := ':' :: ':' :: joinScope q.reverse x) (by simp [isRooted, cut]) ht hl m p hm
    (at_ordered (after_ordered h) hm) (at_full (after_full ha h) hm) rec
  have hv : TypeIs root p (':' :: ':' :: joinScope q.reverse x) rec _ := ⟨m, f, hm, hf⟩
  exact ⟨fun h => h.unique hv, fun e => e ▸ hv⟩

/-- C69: as in the theorem. -/
example : ∃ root, Mod.after exCalls = some root ∧ (∀ a ∈ [n "a"], Ident a) ∧ typeAt root [n "a"] (n "X") = some 1 ∧
    TypeIs root [n "b"] (n "::a::X") true (.ok (some (1, some (n "::a::X")))) :=
  ⟨_, rfl, by unfold Ident; decide, by decide, _, 9, rfl, by decide⟩

/-- C69: whatever the name asked for, plain, scoped or rooted, and wherever the search starts: a type it returns carries its
own name, unless the name asked for begins with `::`, which the type then carries. -/
theorem C69_carried {root : Mod τ} {p : Loc} {name : Name} {rec : Bool} {t : τ} {nm : Option Name}
    (h : TypeIs root p name rec (.ok (some (t, nm)))) : nm = carried name := by
  obtain ⟨m, f, _, hs⟩ := h
  exact search_carries hs t nm rfl

/-- C69: whatever the name asked for: the search without recursion returns the type that the name resolves to (C40). -/
theorem C69_resolved {root : Mod τ} {p q : Loc} {name x : Name} {t : τ} (hp : (root.at p).isSome)
    (hl : Lookup root p name (.found q x)) (ht : typeAt root q x = some t) (r : Got τ) :
    TypeIs root p name false r ↔ r = .ok (some (t, carried name)) := by
  obtain ⟨m, hm⟩ := Option.isSome_iff_exists.mp hp
  obtain ⟨f, hf⟩ := hl
  have hv : TypeIs root p name false (.ok (some (t, if isRooted name then some name else none))) := by
    refine ⟨m, f, hm, ?_⟩
    obtain ⟨c, i⟩ := m
    rw [search]
    simp only [Bool.false_eq_true, if_false, typeAfter, hf, Option.map_some, typeHere, typeNamed_at, ht]
  rw [C69_carried hv] at hv
  exact ⟨fun h => h.unique hv, fun e => e ▸ hv⟩

/-- C69: as in the theorems: a scoped name that is not rooted. -/
example : ∃ root, Mod.after exCalls = some root ∧ (root.at [n "b"]).isSome ∧
    Lookup root [n "b"] (n "a::X") (.found [n "a"] (n "X")) ∧ typeAt root [n "a"] (n "X") = some 1 ∧
    TypeIs root [n "b"] (n "a::X") true (.ok (some (1, none))) :=
  ⟨_, rfl, by decide, ⟨9, by decide⟩, by decide, _, 9, rfl, by decide⟩

/-- C69 fails: asking for a constant by its whole path as a type dereferences a null pointer. -/
theorem C69_rooted_constant_fails : ∃ root : Mod Nat, Mod.after [.define [] .const (n "K") 1 false] = some root ∧
    TypeIs root [] (n "::K") false .ub ∧ TypeIs root [] (n "K") false (.ok none) :=
  ⟨_, rfl, ⟨_, 9, rfl, by decide⟩, ⟨_, 9, rfl, by decide⟩⟩

end Verif.Idl
