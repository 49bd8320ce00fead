import Verif.Spec.IdlTree
import Verif.Lemmas.DepTree
import Verif.Lemmas.ModuleTree
/-!
# Trees with their elements replaced
-/

namespace Verif.Idl
open Gen

variable {α β : Type}

theorem get_mapAll (g : α → β) (c : Content α) (k : Cat) : (c.mapAll g).get k = (c.get k).map fun e => (e.1, g e.2) := by
  cases k <;> rfl

theorem omGet_map {κ : Type} [LT κ] [DecidableLT κ] [DecidableEq κ] (g : α → β) : ∀ (l : List (κ × α)) (x : κ),
    omGet (l.map fun e => (e.1, g e.2)) x = (omGet l x).map g
  | [], x => rfl
  | e :: l, x => by
    rw [List.map_cons, omGet_cons, omGet_cons]
    split
    · rfl
    · exact omGet_map g l x

theorem omHas_map {κ : Type} [LT κ] [DecidableLT κ] [DecidableEq κ] (g : α → β) (l : List (κ × α)) (x : κ) :
    omHas (l.map fun e => (e.1, g e.2)) x = omHas l x := by
  rw [← omGet_isSome, ← omGet_isSome, omGet_map, Option.isSome_map]

theorem content_mapAt (f : Loc → α → β) (p : Loc) (m : Mod α) : (m.mapAt f p).content = m.content.mapAll (f p) := by
  cases m; rw [Mod.mapAt]; rfl

theorem inner_mapAt (f : Loc → α → β) (p : Loc) (m : Mod α) : (m.mapAt f p).inner = mapInner f p m.inner := by
  cases m; rw [Mod.mapAt]; rfl

theorem omGet_mapInner (f : Loc → α → β) (p : Loc) : ∀ (i : List (Name × Option (Mod α))) (n : Name),
    omGet (mapInner f p i) n = (omGet i n).map fun o => o.map (·.mapAt f (n :: p))
  | [], n => by rw [mapInner]; rfl
  | (x, none) :: r, n => by
    rw [mapInner, omGet_cons, omGet_cons]
    split
    · rfl
    · exact omGet_mapInner f p r n
  | (x, some m) :: r, n => by
    rw [mapInner, omGet_cons, omGet_cons]
    split
    · rename_i h; have h : x = n := h; subst h; rfl
    · exact omGet_mapInner f p r n

theorem keys_mapInner (f : Loc → α → β) (p : Loc) : ∀ (i : List (Name × Option (Mod α))), (mapInner f p i).map (·.1) = i.map (·.1)
  | [] => by rw [mapInner]; rfl
  | (x, none) :: r => by rw [mapInner, List.map_cons, List.map_cons, keys_mapInner f p r]
  | (x, some m) :: r => by rw [mapInner, List.map_cons, List.map_cons, keys_mapInner f p r]

/-- A place of the tree. -/
theorem at_mapAt (f : Loc → α → β) (p : Loc) (m : Mod α) : ∀ q : Loc, (m.mapAt f p).at q = (m.at q).map (·.mapAt f (q ++ p))
  | [] => rfl
  | n :: r => by
    rw [Mod.at, Mod.at, at_mapAt f p m r]
    cases m.at r with
    | none => rfl
    | some a =>
      rw [Option.map_some, Option.bind_some, Option.bind_some, inner_mapAt, omGet_mapInner, List.cons_append]
      cases omGet a.inner n with
      | none => rfl
      | some o => cases o <;> rfl

theorem at_root (f : Loc → α → β) (m : Mod α) (q : Loc) : (m.mapAt f []).at q = (m.at q).map (·.mapAt f q) := by
  rw [at_mapAt, List.append_nil]

theorem hasSymbol_mapAt (f : Loc → α → β) (p : Loc) (m : Mod α) (x : Name) : (m.mapAt f p).hasSymbol x = m.hasSymbol x := by
  have h1 : ∀ k, omHas ((m.mapAt f p).content.get k) x = omHas (m.content.get k) x := by
    intro k; rw [content_mapAt, get_mapAll, omHas_map]
  have h2 : omHas (m.mapAt f p).inner x = omHas m.inner x := by
    rw [Bool.eq_iff_iff, omHas_iff, omHas_iff, inner_mapAt, keys_mapInner]
  have a := h1 .struct; have b := h1 .union; have c := h1 .alias; have d := h1 .enum; have e := h1 .const
  simp only [Content.get] at a b c d e
  simp only [Mod.hasSymbol, a, b, c, d, e, h2]

mutual
theorem full_mapAt (f : Loc → α → β) : ∀ (p : Loc) (m : Mod α), (m.mapAt f p).full = m.full
  | p, .mk c i => by rw [Mod.mapAt, Mod.full, Mod.full, full_mapInner f p i]
theorem full_mapInner (f : Loc → α → β) : ∀ (p : Loc) (i : List (Name × Option (Mod α))), innerFull (mapInner f p i) = innerFull i
  | p, [] => by rw [mapInner]; rfl
  | p, (_, none) :: r => by rw [mapInner, innerFull, innerFull]
  | p, (n, some m) :: r => by rw [mapInner, innerFull, innerFull, full_mapAt f (n :: p) m, full_mapInner f p r]
end

/-- No table of the module has two entries of one name. -/
def OneEach (m : Mod α) : Prop := (∀ k, ((m.content.get k).map (·.1)).Nodup) ∧ (m.inner.map (·.1)).Nodup

mutual
theorem uniq_of : ∀ (m : Mod α), (∀ q m', m.at q = some m' → OneEach m') → m.uniq
  | .mk c i, h => by
    rw [Mod.uniq]
    obtain ⟨h1, h2⟩ := h [] _ rfl
    refine ⟨h1, h2, innerUniq_of i fun e he m hm q m' hq => ?_⟩
    refine h (q ++ [e.1]) m' ?_
    have : omGet i e.1 = some (some m) := omGet_of_mem h2 (by rw [← hm]; exact he)
    rw [at_append]
    simp only [Mod.at, Option.bind_some, Mod.inner, this, Option.join_some]
    exact hq
theorem innerUniq_of : ∀ (i : List (Name × Option (Mod α))),
    (∀ e ∈ i, ∀ m, e.2 = some m → ∀ q m', m.at q = some m' → OneEach m') → innerUniq i
  | [], _ => by rw [innerUniq]; trivial
  | (n, none) :: r, h => by rw [innerUniq]; exact innerUniq_of r fun e he => h e (List.mem_cons_of_mem _ he)
  | (n, some m) :: r, h => by
    rw [innerUniq]
    exact ⟨uniq_of m (h (n, some m) (List.mem_cons_self ..) m rfl), innerUniq_of r fun e he => h e (List.mem_cons_of_mem _ he)⟩
end

end Verif.Idl
