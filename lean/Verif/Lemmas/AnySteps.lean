import Verif.Lemmas.AnyDefs
import Mathlib.Logic.Relation
/-!
# What reading a text does to the modules, step by step
-/

namespace Verif.Idl.Syn
open Text

/-- The changes declarations make. `E` is what is known of the expressions of constants. -/
inductive Step (E : CExpr → Prop) (c : Ctx) : Mod Item → Mod Item → Prop
  | struct (root p x) : Step E c root (register root p .struct x (.ty (.struct (String.ofList (scopedName p x)) .nil))).1
  | fill {root : Mod Item} {p : Loc} {f : Nat} {x : Name} {q : Option Bytes} {ms : List (TSpec × List Declr)} {pm l} :
      parentMembers root p f q = .ok pm → members c root p f [] ms = .ok l → structMembers root p f x = .ok [] →
      (cut x = none → (root.at p).isSome → (entry root p .struct x).isSome) → Step E c root (putStruct root p x (addAll (pm.getD []) l).1)
  | union {root : Mod Item} {p : Loc} {f : Nat} {x : Name} {t d u} : evalType c root p f t = .ok d →
      UnionB.new (String.ofList (scopedName p x)) d = some u → Step E c root (register root p .union x (.ty u.toTy)).1
  | cases {root : Mod Item} {p : Loc} {f : Nat} {x : Name} {cs l n d u} : forAll (caseOf c root p f) cs = .ok l →
      unionNamed root p f x = .ok (n, d, []) →
      (cut x = none → (root.at p).isSome → (entry root p .union x).isSome) → UnionB.new n d = some u → Step E c root (putUnion root p x (addCases u l).1)
  | enumerator (root p x) (v : Nat) : Step E c root (register root p .const x (.const .u32 (v % 2 ^ 32 : Nat))).1
  | note {root : Mod Item} {p : Loc} (x) : (root.at p).isSome → Step E c root (root.modify p (noteFromEnum x))
  | enum {root r : Mod Item} {p : Loc} {ids : List Bytes} {e : EnumB} (x : Name) : enumLoop p (EnumB.new .w4) r ids = (e, root, true) → Step E c root (register root p .enum x (.ty (.enum (String.ofList (scopedName p x)) .w4 e.vals))).1
  | const {root : Mod Item} {p : Loc} {f : Nat} (x : Name) {t t' e i} : E e → constKind t = .ok t' → solveExpr root p f t' e = .ok i →
      Step E c root (register root p .const x i).1
  | alias {root : Mod Item} {p : Loc} {f : Nat} (x : Name) {s t} (ds : List Nat) (r) : evalType c root p f s = .ok t →
      Step E c root (createAlias root p x (.ty (.alias (String.ofList (scopedName p x)) (declType t ds))) r).1
  | module {root m m' : Mod Item} {p : Loc} {n : Name} : root.at p = some m → createSubCore n m = some m' →
      Step E c root (root.modify p fun _ => m')

/-- Any number of changes. -/
abbrev Steps (E : CExpr → Prop) (c : Ctx) : Mod Item → Mod Item → Prop := Relation.ReflTransGen (Step E c)

/-- What is known of the expressions in a declaration. -/
inductive Exprs (E : CExpr → Prop) : Def → Prop
  | struct {n q ms} : Exprs E (.struct n q ms)
  | forward {n} : Exprs E (.forward n)
  | union {n t cs} : Exprs E (.union n t cs)
  | unionForward {n} : Exprs E (.unionForward n)
  | enum {n ids} : Exprs E (.enum n ids)
  | const {t n e} : E e → Exprs E (.const t n e)
  | typedef {t ds} : Exprs E (.typedef t ds)
  | ignored {n} : Exprs E (.ignored n)
  | skip : Exprs E .skip
  | module {n ds} : (∀ d ∈ ds, Exprs E d) → Exprs E (.module n ds)

variable {E : CExpr → Prop} {c : Ctx}

theorem orStop_steps {α} {root r : Mod Item} {x : Except Stop α} {k : α → Out} (h : Steps E c root r)
    (hk : ∀ a, x = .ok a → Steps E c root (k a).1) : Steps E c root (orStop r x k).1 := by
  cases x with
  | error e => exact h
  | ok a => exact hk a rfl

theorem enumLoop_steps {p : Loc} : ∀ (ids : List Bytes) (e : EnumB) (root : Mod Item), Steps E c root (enumLoop p e root ids).2.1
  | [], e, root => .refl
  | t :: r, e, root => by
    unfold enumLoop
    split
    · exact .refl
    · rename_i e' _
      refine Relation.ReflTransGen.trans ?_ (enumLoop_steps r e' _)
      have h1 : Step E c root (register root p .const (nm t) (.const .u32 (e.next % 2 ^ 32))).1 := .enumerator root p (nm t) e.next
      split
      · rename_i hq
        refine (Relation.ReflTransGen.single h1).tail (.note _ ?_)
        cases hm : root.at p with
        | none => rw [register, hm] at hq; cases hq
        | some m => rw [register_at hm, at_modify_self _ hm]; rfl
      · exact .single h1

theorem entered (root : Mod Item) (p : Loc) (k : Cat) (x : Name) (v : Item) (hx : cut x = none) (hp : ((register root p k x v).1.at p).isSome) :
    (entry (register root p k x v).1 p k x).isSome := by
  cases hm : root.at p with
  | none => rw [register, hm, hm] at hp; cases hp
  | some m =>
    rw [register_entry root p m hm, if_pos rfl, core_get]
    cases hg : omGet (m.content.get k) x with
    | none => simp [hx]
    | some w => simp [hg]

theorem struct_steps (root : Mod Item) (p : Loc) (f : Nat) (n : Bytes) (q : Option Bytes) (ms : List (TSpec × List Declr)) :
    Steps E c root (buildStruct c root p f n q ms).1 := by
  unfold buildStruct
  refine orStop_steps .refl fun n _ => ?_
  dsimp only
  have h1 : Steps E c root (register root p .struct (nm n) (.ty (.struct (String.ofList (scopedName p (nm n))) .nil))).1 := .single (.struct _ _ _)
  have h2 := entered root p .struct (nm n) (.ty (.struct (String.ofList (scopedName p (nm n))) .nil))
  generalize (register root p .struct (nm n) (.ty (.struct (String.ofList (scopedName p (nm n))) .nil))).1 = r at h1 h2
  refine orStop_steps h1 fun pm hpm => orStop_steps h1 fun l hl => orStop_steps h1 fun old ho => ?_
  split
  · exact h1
  · rename_i h
    have h : old = [] := by simpa using h
    subst h
    exact h1.tail (.fill hpm hl ho h2)

theorem forward_steps (root : Mod Item) (p : Loc) (n : Bytes) : Steps E c root (buildForward c root p n).1 := by
  unfold buildForward
  refine orStop_steps .refl fun n _ => ?_
  split
  · exact .refl
  · exact .single (.struct _ _ _)

theorem union_steps (root : Mod Item) (p : Loc) (f : Nat) (n : Bytes) (t : TSpec) (cs : List Case) :
    Steps E c root (buildUnion c root p f n t cs).1 := by
  unfold buildUnion
  refine orStop_steps .refl fun n _ => orStop_steps .refl fun d hd => ?_
  dsimp only
  split
  · exact .refl
  · rename_i u hu
    have h1 : Steps E c root (register root p .union (nm n) (.ty u.toTy)).1 := .single (.union hd hu)
    have h2 := entered root p .union (nm n) (.ty u.toTy)
    generalize (register root p .union (nm n) (.ty u.toTy)).1 = r at h1 h2
    refine orStop_steps h1 fun l hl => orStop_steps h1 fun old ho => ?_
    split
    · exact h1
    · rename_i h
      obtain ⟨n', d', l'⟩ := old
      have h : l' = [] := by simpa using h
      subst h
      dsimp only
      split
      · exact h1
      · rename_i u hu
        exact h1.tail (.cases hl ho h2 hu)

theorem enum_steps (root : Mod Item) (p : Loc) (n : Bytes) (ids : List Bytes) : Steps E c root (buildEnum root p n ids).1 := by
  unfold buildEnum
  have h := enumLoop_steps (E := E) (c := c) (p := p) ids (EnumB.new .w4) root
  split
  · rename_i e r he
    rw [he] at h
    exact h.tail (.enum _ he)
  · rename_i r he
    rw [he] at h
    exact h

theorem const_steps (root : Mod Item) (p : Loc) (f : Nat) (t : TSpec) (n : Bytes) {e : CExpr} (he : E e) :
    Steps E c root (buildConst c root p f t n e).1 := by
  unfold buildConst
  exact orStop_steps .refl fun t _ => orStop_steps .refl fun t' ht => orStop_steps .refl fun i hi => orStop_steps .refl fun _ _ =>
    .single (.const _ he ht hi)

theorem alias_steps (root : Mod Item) (p : Loc) (f : Nat) (t : TSpec) (ds : List (Option Declr)) : Steps E c root (buildAlias c root p f t ds).1 := by
  unfold buildAlias
  refine orStop_steps .refl fun t ht => orStop_steps .refl fun a ha => orStop_steps .refl fun r _ => ?_
  obtain ⟨n, t'⟩ := a
  have h : ∃ ds, t' = declType t ds := by
    split at ha
    · rename_i d
      cases h1 : resolveId c root p d.name c.ignoreRedef with
      | error e => rw [h1] at ha; cases ha
      | ok n' =>
        rw [h1] at ha
        have ha : (forAll aliasDim d.dims).map (fun ds => (n', declType t ds)) = .ok (n, t') := ha
        cases h2 : forAll aliasDim d.dims with
        | error e => rw [h2] at ha; cases ha
        | ok l => rw [h2] at ha; cases ha; exact ⟨l, rfl⟩
    · cases ha; exact ⟨[], rfl⟩
  obtain ⟨l, rfl⟩ := h
  exact .single (.alias _ l r ht)

theorem build_steps (f : Nat) : ∀ (d : Def) (p : Loc) (root : Mod Item), Exprs E d → Steps E c root (build c f p root d).1 := by
  intro d
  refine Def.rec (motive_1 := fun d => ∀ (p : Loc) (root : Mod Item), Exprs E d → Steps E c root (build c f p root d).1)
    (motive_2 := fun ds => ∀ (p : Loc) (root : Mod Item), (∀ d ∈ ds, Exprs E d) → Steps E c root (buildAll c f p root ds).1)
    ?_ ?_ ?_ ?_ ?_ ?_ ?_ ?_ ?_ ?_ ?_ ?_ d
  · intro n q ms p root _; simp only [build]; exact struct_steps _ _ _ _ _ _
  · intro n p root _; simp only [build]; exact forward_steps _ _ _
  · intro n d cs p root _; simp only [build]; exact union_steps _ _ _ _ _ _
  · intro n p root _; simp only [build]; exact forward_steps _ _ _
  · intro n ids p root _; simp only [build]; exact enum_steps _ _ _ _
  · intro t n e p root h; simp only [build]; cases h with | const he => exact const_steps _ _ _ _ _ he
  · intro t ds p root _; simp only [build]; exact alias_steps _ _ _ _ _
  · intro n p root _; simp only [build]; exact orStop_steps .refl fun _ _ => .refl
  · intro p root _; simp only [build]; exact .refl
  · intro n ds ih p root h
    cases h with
    | module h =>
    simp only [build]
    refine orStop_steps .refl fun n _ => ?_
    cases hm : root.at p with
    | none => exact .refl
    | some m =>
      simp only [Option.bind_some]
      cases hs : createSubCore (nm n) m with
      | none => exact .refl
      | some m' => exact Relation.ReflTransGen.trans (.single (.module hm hs)) (ih _ _ h)
  · intro p root _; simp only [buildAll]; exact .refl
  · intro d ds ihd ihs p root h
    simp only [buildAll]
    have h1 := ihd p root (h d (by simp))
    generalize build c f p root d = o at h1
    obtain ⟨r, e⟩ := o
    cases e with
    | none => exact h1.trans (ihs _ _ fun d hd => h d (List.mem_cons_of_mem _ hd))
    | some e => exact h1

theorem buildAll_steps (f : Nat) : ∀ (ds : List Def) (p : Loc) (root : Mod Item), (∀ d ∈ ds, Exprs E d) → Steps E c root (buildAll c f p root ds).1
  | [], p, root, _ => by simp only [buildAll]; exact .refl
  | d :: ds, p, root, h => by
    simp only [buildAll]
    have h1 := build_steps (c := c) f d p root (h d (by simp))
    generalize build c f p root d = o at h1
    obtain ⟨r, e⟩ := o
    cases e with
    | none => exact h1.trans (buildAll_steps f ds _ _ fun d hd => h d (List.mem_cons_of_mem _ hd))
    | some e => exact h1

theorem exprs_plain {A : Prop} {d : Def} (h : PlainDef A d) : Exprs PlainE d := by
  induction h with
  | const _ _ h => exact .const h
  | module _ _ ih => exact .module ih
  | _ => constructor

theorem exprs_all : ∀ d : Def, Exprs (fun _ => True) d := by
  intro d
  refine Def.rec (motive_1 := fun d => Exprs (fun _ => True) d) (motive_2 := fun ds => ∀ d ∈ ds, Exprs (fun _ => True) d)
    ?_ ?_ ?_ ?_ ?_ ?_ ?_ ?_ ?_ ?_ ?_ ?_ d
  · intros; exact .struct
  · intros; exact .forward
  · intros; exact .union
  · intros; exact .unionForward
  · intros; exact .enum
  · intros; exact .const trivial
  · intros; exact .typedef
  · intros; exact .ignored
  · exact .skip
  · intro n ds h; exact .module h
  · intro d hd; cases hd
  · intro d ds h1 h2 x hx
    rcases List.mem_cons.mp hx with rfl | hx
    · exact h1
    · exact h2 x hx

end Verif.Idl.Syn
