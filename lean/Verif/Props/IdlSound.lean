import Verif.Lemmas.AnyMade
import Verif.Props.IdlAny
import Verif.Props.Data
/-!
# C63: what a text makes can be used

Whatever the text, the types it leaves in the modules are such that data of them can be made.
-/

namespace Verif.Idl
open Syn Gen Text

/-- Every type in every module is made properly. -/
def TypesMade (root : Mod Item) : Prop := ∀ p k x t, entry root p k x = some (.ty t) → t.Made

theorem typesMade_iff {root : Mod Item} : TypesMade root ↔ All MadeAt root :=
  ⟨fun h p k x i he t e => h p k x t (e ▸ he), fun h p k x t he => h p k x _ he t rfl⟩

/-- C63: whatever the text is and however the reading ends, every type in the modules afterwards has members of different names,
unions as constructing and adding cases make them, and enumerations of 32 bits, at every depth, if that was so before. -/
theorem C63_made (c : Ctx) (root root' : Mod Item) (e : Option Stop) (text : Bytes) (hm : TypesMade root) (h : Reads c root text (root', e)) :
    TypesMade root' := by
  obtain ⟨n, h⟩ := h
  have h := h n (le_refl _)
  unfold parse at h
  cases hd : document text with
  | none => rw [hd] at h; cases h
  | some ds =>
    rw [hd] at h
    simp only [Parsed.built.injEq] at h
    have := buildAll_steps (E := fun _ => True) (c := c) n ds [] root (fun d _ => exprs_all d)
    rw [h] at this
    exact typesMade_iff.mpr (steps_made this (typesMade_iff.mp hm))

/-- C63: so for any texts one after the other, read into an empty module. -/
theorem C63_made_all (c : Ctx) (root : Mod Item) (texts : List Bytes) (h : ReadsAll c .empty texts root) : TypesMade root := by
  have key : ∀ {root0 root1 : Mod Item} {texts : List Bytes}, ReadsAll c root0 texts root1 → TypesMade root0 → TypesMade root1 := by
    intro root0 root1 texts h
    induction h with
    | nil => exact id
    | read e h _ ih => exact fun h0 => ih (C63_made c _ _ e _ h0 h)
    | rejected _ _ ih => exact ih
  refine key h fun p k x t he => ?_
  rw [entry_empty] at he; cases he

/-- C63: the same for what a name stands for. -/
theorem C63_found (c : Ctx) (root : Mod Item) (texts : List Bytes) (h : ReadsAll c .empty texts root) {p : Loc} {x : String} {T : Ty}
    (hx : Means root p x T) : T.Made := by
  obtain ⟨q, y, _, ht⟩ := hx
  exact typeOf_made (typesMade_iff.mp (C63_made_all c root texts h)) ht

/-- C63: of every type that a name stands for after reading any texts, a datum can be made: it holds the default value and
owns nothing else; if no union in the type has a case for the value that the library keeps for "no case". -/
theorem C63_usable_partial (c : Ctx) (root : Mod Item) (texts : List Bytes) (h : ReadsAll c .empty texts root) {p : Loc} {x : String} {T : Ty}
    (hx : Means root p x T) (hu : T.Unreserved) :
    T.WF ∧ ∃ d, Inst.Data.create T = .ok (d, 0) ∧ d.ty = T.rget ∧ d.Holds (Inst.defVal T) ∧ d.Tidy := by
  have hw := wf_of_made (C63_found c root texts h hx) hu
  exact ⟨hw, Inst.C16_default_construction_partial hw⟩

/-! ## Cases -/

/-- A text that makes a union and ends with an error. -/
def soundText : Bytes := bytes "enum E { on, off }; struct T { E e; }; union U switch (E) { case on: T t; default: string s; }; struct V { U u[2]; Missing m; };"

/-- The union. -/
def soundUnion : Ty :=
  .union "U" (.enum "E" .w4 [("off", 1), ("on", 0)])
    (.ofList [("t", .struct "T" (.ofList [("e", .enum "E" .w4 [("off", 1), ("on", 0)])])), ("s", .str .s8 0)])
    ⟨[(0, "t"), (2147483647, "s")], 2147483647, 2147483646, 2147483647⟩

/-- The type and how it is found. -/
theorem reads_means {text : Bytes} (x : String) {T : Ty} {e : Option Stop} (he : e ≠ some .unfinished)
    (h : ((outcome text).map fun o => (o.2, resolve o.1 9 [] x.toList x.toList true, typeOf o.1 false (.found [] x.toList))) =
      some (e, some (.found [] x.toList), some (some (.ty T)))) :
    ∃ root', Reads {} .empty text (root', e) ∧ Means root' [] x T := by
  obtain ⟨⟨r, e'⟩, h1, h2⟩ := reads_obs (fun o => (o.2, resolve o.1 9 [] x.toList x.toList true, typeOf o.1 false (.found [] x.toList))) h (fun o ho => by
    rw [Prod.mk.injEq] at ho; rw [ho.1]; exact he)
  simp only [Prod.mk.injEq] at h2
  obtain ⟨h2, h3, h4⟩ := h2
  subst h2
  exact ⟨r, h1, [], x.toList, ⟨9, h3⟩, h4⟩

/-- The hypotheses of `C63_usable_partial`. -/
example : ∃ root, ReadsAll {} .empty [bytes "nonsense", soundText] root ∧ Means root [] "U" soundUnion ∧ soundUnion.Unreserved := by
  obtain ⟨r, h1, h2⟩ := reads_means (text := soundText) "U" (T := soundUnion) (e := some .refused) (by simp) (by decide +kernel)
  refine ⟨r, .rejected (rejects_of (by decide +kernel)) (.read _ h1 (.nil _)), h2, ?_⟩
  simp [soundUnion, Ty.Unreserved, Mems.ofList, Mems.Unreserved, Inst.UInfo.case, omGet]

/-- The union with a case for the reserved value. -/
def reservedUnion : Ty :=
  .union "U" (.prim .i32) (.ofList [("s", .str .s8 0), ("x", .prim .i32)]) ⟨[(1, "x"), (2147483646, "s")], 2147483647, 2147483646, 2147483646⟩

/-- C63 fails: with a case for the reserved value the text is read without an error; a datum of the type claims to have the member
selected, which was never constructed, and assigning to it destroys a string that is not there. -/
theorem C63_reserved_fails :
    ∃ root T, Reads {} .empty (bytes "union U switch (long) { case 2147483646: string s; case 1: long x; };") (root, none) ∧
      Means root [] "U" T ∧ ∃ d lk, Inst.Data.create T = .ok (d, lk) ∧ (∀ v, ¬ d.Holds v) ∧
        d.write [.member "s"] (.value (.str .s8 [65])) = .error .ub := by
  obtain ⟨r, h1, h2⟩ := reads_means (text := bytes "union U switch (long) { case 2147483646: string s; case 1: long x; };") "U" (T := reservedUnion)
    (e := none) (by simp) (by decide +kernel)
  refine ⟨r, _, h1, h2, _, _, rfl, ?_, rfl⟩
  rintro v ⟨_, hv⟩
  exact absurd (show (none : Option Inst.Val) = some v from hv) (by simp)

end Verif.Idl
