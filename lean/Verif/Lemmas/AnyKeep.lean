import Verif.Lemmas.UnionWF
import Mathlib.Data.List.Induction
import Verif.Lemmas.AnySteps
/-!
# What the changes keep
-/

namespace Verif.Idl.Syn
open Text

/-- The tables of the module at a place. -/
def tables (root : Mod Item) (q : Loc) : Option (Content Item) := (root.at q).map (·.content)

theorem entry_tables (root : Mod Item) (q : Loc) (k : Cat) (x : Name) : entry root q k x = (tables root q).bind fun t => omGet (t.get k) x := by
  unfold entry tables; cases root.at q <;> rfl

theorem tables_some {root : Mod Item} {q : Loc} : (tables root q).isSome = (root.at q).isSome := by
  unfold tables; cases root.at q <;> rfl

theorem core_inner (k : Cat) (x : Name) (v : Item) (rep : Bool) (m : Mod Item) : (registerCore k x v rep m).1.inner = m.inner := by
  unfold registerCore; split <;> rfl

theorem tables_register {root m : Mod Item} {p : Loc} (hm : root.at p = some m) (k : Cat) (x : Name) (v : Item) (rep : Bool) (q : Loc) :
    tables (register root p k x v rep).1 q = if q = p then some (registerCore k x v rep m).1.content else tables root q := by
  rw [register_at hm]
  exact (at_modify (fun _ => (registerCore k x v rep m).1) hm (core_inner ..) q).1

theorem tables_module {root m m' : Mod Item} {p : Loc} {n : Name} (hm : root.at p = some m) (h : createSubCore n m = some m') (q : Loc) :
    tables (root.modify p fun _ => m') q = tables root q ∨ tables root q = none ∧ tables (root.modify p fun _ => m') q = some {} := by
  unfold createSubCore at h
  cases hg : omGet m.inner n with
  | some e =>
    rw [hg] at h
    cases e with
    | none => cases h
    | some a =>
      cases h
      refine .inl ?_
      have := (at_modify (fun _ => m) hm rfl q).1
      unfold tables
      rw [this]
      split
      · rename_i hq; subst hq; rw [hm]; rfl
      · rfl
  | none =>
    rw [hg] at h
    cases h
    have hno : omHas m.inner n = false := omHas_false_iff.mpr (omGet_eq_none.mp hg)
    simp only [omEmplace, hno, Bool.false_eq_true, if_false]
    by_cases hq : p <:+ q
    · obtain ⟨s, rfl⟩ := hq
      have e1 : root.at (s ++ p) = m.at s := by rw [at_append, hm]; rfl
      have e2 : (root.modify p fun _ => .mk m.content (omIns n (some .empty) m.inner)).at (s ++ p) = (Mod.mk m.content (omIns n (some .empty) m.inner)).at s :=
        at_below _ hm s
      unfold tables
      rw [e1, e2]
      rcases List.eq_nil_or_concat s with rfl | ⟨s, b, rfl⟩
      · exact .inl rfl
      · rw [List.concat_eq_append, at_append, at_append]
        simp only [Mod.at, Option.bind_some]
        have e4 : (Mod.mk m.content (omIns n (some Mod.empty) m.inner)).inner = omIns n (some Mod.empty) m.inner := rfl
        have e3 : omGet (omIns n (some Mod.empty) m.inner) b = if n = b then some (some Mod.empty) else omGet m.inner b := omGet_ins_inner hno _ b
        simp only [e4, e3]
        by_cases hb : n = b
        · subst hb
          simp only [if_true, hg, Option.join_none, Option.bind_none, Option.join_some, Option.bind_some, Option.map_none, true_and]
          cases s using List.reverseRecOn with
          | nil => exact .inr rfl
          | append_singleton s d => rw [at_append]; exact .inl rfl
        · simp only [hb, if_false]; exact .inl trivial
    · refine .inl ?_
      unfold tables
      rcases at_other (fun _ => Mod.mk m.content (omIns n (some .empty) m.inner)) hm hq with ⟨h1, h2⟩ | ⟨a, b, h1, h2, h3⟩
      · rw [h1, h2]
      · rw [h1, h2, Option.map_some, Option.map_some, h3.1]

/-- Every entry has this property. -/
def All (Q : Loc → Cat → Name → Item → Prop) (root : Mod Item) : Prop := ∀ p k x i, entry root p k x = some i → Q p k x i

variable {Q : Loc → Cat → Name → Item → Prop}

/-- Replacing or not, an entry is the new one or an old one. -/
theorem core_mem {k j : Cat} {x y : Name} {v i : Item} {rep : Bool} {m : Mod Item}
    (h : omGet ((registerCore k x v rep m).1.content.get j) y = some i) :
    (cut x = none ∧ j = k ∧ y = x ∧ i = v) ∨ omGet (m.content.get j) y = some i := by
  unfold registerCore at h
  by_cases hcut : (cut x).isSome
  · rw [if_pos hcut] at h; exact .inr h
  · rw [if_neg hcut] at h
    have hcn : cut x = none := by simpa using hcut
    have h : omGet ((m.content.set k (omEmplace (if rep then omErase (m.content.get k) x else m.content.get k) x v).1).get j) y = some i := h
    rw [content_get_set] at h
    by_cases hj : k = j
    · subst hj
      rw [if_pos rfl, omEmplace_get] at h
      by_cases hy : x = y ∧ omHas (if rep then omErase (m.content.get k) x else m.content.get k) x = false
      · rw [if_pos hy, Option.some.injEq] at h
        exact .inl ⟨hcn, rfl, hy.1.symm, h.symm⟩
      · rw [if_neg hy] at h
        right
        cases rep with
        | false => exact h
        | true =>
          rw [if_pos rfl, omGet_omErase] at h
          by_cases hyx : y = x
          · rw [if_pos hyx] at h; cases h
          · rw [if_neg hyx] at h; exact h
    · rw [if_neg hj] at h; exact .inr h

theorem All.register {root : Mod Item} (h : All Q root) (p : Loc) (k : Cat) (x : Name) (v : Item) (rep : Bool)
    (hv : (root.at p).isSome → cut x = none → Q p k x v) : All Q (register root p k x v rep).1 := by
  intro q j y i he
  cases hm : root.at p with
  | none => rw [Idl.register, hm] at he; exact h q j y i he
  | some m =>
    rw [register_entry root p m hm] at he
    split at he
    · rename_i hq; subst hq
      rcases core_mem he with ⟨hx, rfl, rfl, rfl⟩ | he
      · exact hv (by rw [hm]; rfl) hx
      · exact h q j y i (by rw [entry, hm]; exact he)
    · exact h q j y i he

theorem All.tables {root root' : Mod Item} (h : All Q root) (ht : ∀ q t, tables root' q = some t → t = {} ∨ ∃ t', tables root q = some t' ∧ ∀ k, t.get k = t'.get k) :
    All Q root' := by
  intro q j y i he
  rw [entry_tables] at he
  cases hq : Syn.tables root' q with
  | none => rw [hq] at he; cases he
  | some t =>
    rw [hq, Option.bind_some] at he
    rcases ht q t hq with rfl | ⟨t', h1, h2⟩
    · cases j <;> cases he
    · exact h q j y i (by rw [entry_tables, h1, Option.bind_some, ← h2]; exact he)

theorem All.note {root : Mod Item} (h : All Q root) {p : Loc} (hp : (root.at p).isSome) (x : Name) : All Q (root.modify p (noteFromEnum x)) := by
  obtain ⟨m, hm⟩ := Option.isSome_iff_exists.mp hp
  refine h.tables fun q t ht => .inr ?_
  have := (at_modify (noteFromEnum x) hm rfl q).1
  unfold Syn.tables at ht
  rw [this] at ht
  split at ht
  · rename_i hq; subst hq
    cases ht
    exact ⟨m.content, by rw [Syn.tables, hm]; rfl, fun k => by cases k <;> rfl⟩
  · exact ⟨t, ht, fun _ => rfl⟩

theorem All.module {root m m' : Mod Item} {p : Loc} {n : Name} (h : All Q root) (hm : root.at p = some m) (hs : createSubCore n m = some m') :
    All Q (root.modify p fun _ => m') := by
  refine h.tables fun q t ht => ?_
  rcases tables_module hm hs q with e | ⟨_, e⟩
  · exact .inr ⟨t, by rw [← e, ht], fun _ => rfl⟩
  · rw [e] at ht; cases ht; exact .inl rfl

/-- The structure that is filled is the one at the place, and has no members. -/
theorem fill_hollow {root : Mod Item} {p : Loc} {f : Nat} {x : Name} (h : structMembers root p f x = .ok []) (hx : cut x = none)
    (hp : (root.at p).isSome) (he : (entry root p .struct x).isSome) : ∃ n, entry root p .struct x = some (.ty (.struct n .nil)) := by
  obtain ⟨m, hm⟩ := Option.isSome_iff_exists.mp hp
  obtain ⟨w, hw⟩ := Option.isSome_iff_exists.mp he
  have hs : m.hasSymbol x = true := by
    rw [entry, hm, Option.bind_some] at hw
    have : omHas m.content.structs x = true := by rw [← omGet_isSome]; show (omGet (m.content.get .struct) x).isSome = true; rw [hw]; rfl
    rw [Mod.hasSymbol, this]; rfl
  have hl : Lookup root p x (.found p x) := (lookup_plain hp hx p x).mpr ⟨rfl, innermost_self ⟨m, hm, hs⟩⟩
  unfold structMembers at h
  cases hk : look root p f x with
  | error e => rw [hk] at h; cases h
  | ok r =>
    rw [hk] at h
    have hr : r = .found p x := by
      unfold look at hk
      cases hres : resolve root f p x x true with
      | none => rw [hres] at hk; cases hk
      | some r' =>
        have : r' = .found p x := (show Lookup root p x r' from ⟨f, hres⟩).unique hl
        subst this
        rw [hres] at hk; cases hk; rfl
    subst hr
    have h : (match fetch root .struct (.found p x) with | some (.ty (.struct _ ms)) => Except.ok ms.toList | _ => .error .refused) = Except.ok (ε := Stop) [] := h
    have hf : fetch root .struct (.found p x) = entry root p .struct x := rfl
    rw [hf] at h
    split at h
    · rename_i n ms he
      cases ms with
      | nil => exact ⟨n, he⟩
      | cons a b c => rw [Mems.toList, Except.ok.injEq] at h; cases h
    · cases h

/-- The union that is filled is the one at the place, and has no cases. -/
theorem cases_hollow {root : Mod Item} {p : Loc} {f : Nat} {x : Name} {n : String} {d : Ty} (h : unionNamed root p f x = .ok (n, d, [])) (hx : cut x = none)
    (hp : (root.at p).isSome) (he : (entry root p .union x).isSome) : ∃ i, entry root p .union x = some (.ty (.union n d .nil i)) := by
  obtain ⟨m, hm⟩ := Option.isSome_iff_exists.mp hp
  obtain ⟨w, hw⟩ := Option.isSome_iff_exists.mp he
  have hs : m.hasSymbol x = true := by
    rw [entry, hm, Option.bind_some] at hw
    have : omHas m.content.unions x = true := by rw [← omGet_isSome]; show (omGet (m.content.get .union) x).isSome = true; rw [hw]; rfl
    rw [Mod.hasSymbol, this]; simp
  have hl : Lookup root p x (.found p x) := (lookup_plain hp hx p x).mpr ⟨rfl, innermost_self ⟨m, hm, hs⟩⟩
  unfold unionNamed at h
  cases hk : look root p f x with
  | error e => rw [hk] at h; cases h
  | ok r =>
    rw [hk] at h
    have hr : r = .found p x := by
      unfold look at hk
      cases hres : resolve root f p x x true with
      | none => rw [hres] at hk; cases hk
      | some r' =>
        have : r' = .found p x := (show Lookup root p x r' from ⟨f, hres⟩).unique hl
        subst this
        rw [hres] at hk; cases hk; rfl
    subst hr
    have h : (match fetch root .union (.found p x) with | some (.ty (.union n d ms _)) => Except.ok (n, d, ms.toList) | _ => .error .refused) = Except.ok (ε := Stop) (n, d, []) := h
    have hf : fetch root .union (.found p x) = entry root p .union x := rfl
    rw [hf] at h
    split at h
    · rename_i n' d' ms i he
      rw [Except.ok.injEq, Prod.mk.injEq, Prod.mk.injEq] at h
      obtain ⟨rfl, rfl, h⟩ := h
      cases ms with
      | nil => exact ⟨i, he⟩
      | cons a b c => rw [Mems.toList] at h; cases h
    · cases h

theorem addCase_same {u : UnionB} (hu : u.Inv) (ls : List Int) (n : String) (t : Ty) (b : Bool) :
    (u.addCase ls n t b).1.name = u.name ∧ (u.addCase ls n t b).1.disc = u.disc := by
  have hn : ∀ n t, (u.added ls n t).name = u.name := by
    intro n t; rfl
  rcases UnionB.addCase_cases u ls n t b with ⟨_, he⟩ | ⟨ha, _, he⟩ | ⟨ha, _, _, he⟩ | ⟨ha, _, hdef, he⟩
  · rw [he]; exact ⟨rfl, rfl⟩
  · rw [he]; exact ⟨hn n t, UnionB.added_disc hu ls n t ha.2.2.2⟩
  · rw [he]; exact ⟨hn n t, UnionB.added_disc hu ls n t ha.2.2.2⟩
  · rw [he]; exact ⟨hn n t, UnionB.added_disc hu ls n t ha.2.2.2⟩

theorem addCases_same : ∀ (l : List (List Bytes × String × Ty)) {u : UnionB}, u.Built →
    (addCases u l).1.name = u.name ∧ (addCases u l).1.disc = u.disc ∧ (addCases u l).1.Built
  | [], u, hu => ⟨rfl, rfl, hu⟩
  | (ls, n, t) :: r, u, hu => by
    unfold addCases
    have hk : ∀ u' b, u.addCaseText ls n t = some (u', b) → u'.name = u.name ∧ u'.disc = u.disc ∧ u'.Built := by
      intro u' b h
      unfold UnionB.addCaseText at h
      rw [Option.map_eq_some_iff] at h
      obtain ⟨x, _, h2⟩ := h
      have h1 := addCase_same (UnionB.built_inv hu) x.2 n t x.1
      have h3 := UnionB.Built.add x.2 n t x.1 hu
      rw [h2] at h1 h3
      exact ⟨h1.1, h1.2, h3⟩
    split
    · exact ⟨rfl, rfl, hu⟩
    · rename_i u' h; exact hk u' _ h
    · rename_i u' h
      obtain ⟨h1, h2, h0⟩ := hk u' _ h
      obtain ⟨h3, h4, h5⟩ := addCases_same r h0
      exact ⟨h3.trans h1, h4.trans h2, h5⟩

theorem new_same {n : String} {d : Ty} {u : UnionB} (h : UnionB.new n d = some u) : u.name = n ∧ u.disc = d := by
  unfold UnionB.new at h
  split at h
  · cases h; exact ⟨rfl, rfl⟩
  · cases h

/-- The name of an entry. -/
def WithName (p : Loc) (k : Cat) (x : Name) (i : Item) : Prop :=
  match k with
  | .struct => ∃ ms, i = .ty (.struct (String.ofList (scopedName p x)) ms)
  | .union => ∃ d ms u, i = .ty (.union (String.ofList (scopedName p x)) d ms u)
  | .enum => ∃ w vs, i = .ty (.enum (String.ofList (scopedName p x)) w vs)
  | .alias => ∃ t, i = .ty (.alias (String.ofList (scopedName p x)) t)
  | .const => True

theorem wellNamed_iff {root : Mod Item} : WellNamed root ↔ All WithName root := by
  constructor
  · rintro ⟨h1, h2, h3, h4⟩ p k x i h
    cases k
    · exact h1 p x i h
    · exact h2 p x i h
    · exact h4 p x i h
    · exact h3 p x i h
    · trivial
  · intro h
    exact ⟨fun p x i => h p .struct x i, fun p x i => h p .union x i, fun p x i => h p .enum x i, fun p x i => h p .alias x i⟩

variable {E : CExpr → Prop} {c : Ctx}

theorem step_named {root root' : Mod Item} (h : Step E c root root') (hn : All WithName root) : All WithName root' := by
  cases h with
  | struct p x => exact hn.register _ _ _ _ _ fun _ _ => ⟨_, rfl⟩
  | fill _ _ _ _ => exact hn.register _ _ _ _ _ fun _ _ => ⟨_, rfl⟩
  | union _ hu => exact hn.register _ _ _ _ _ fun _ _ => ⟨_, _, _, by rw [UnionB.toTy, (new_same hu).1]⟩
  | @cases p _ x _ l n d u _ h1 h2 hu =>
    refine hn.register _ _ _ _ _ fun hp hx => ?_
    obtain ⟨i, hi⟩ := cases_hollow h1 hx hp (h2 hx hp)
    obtain ⟨d', ms', u', hd⟩ := hn p .union x _ hi
    rw [Item.ty.injEq, Ty.union.injEq] at hd
    exact ⟨_, _, _, by rw [UnionB.toTy, (addCases_same l (.new _ _ hu)).1, (new_same hu).1, hd.1]⟩
  | enumerator p x v => exact hn.register _ _ _ _ _ fun _ _ => trivial
  | note x hp => exact hn.note hp x
  | enum x _ => exact hn.register _ _ _ _ _ fun _ _ => ⟨_, _, rfl⟩
  | const x _ _ _ => exact hn.register _ _ _ _ _ fun _ _ => trivial
  | «alias» x ds r _ =>
    unfold createAlias
    split
    · exact hn
    · exact hn.register _ _ _ _ _ fun _ _ => ⟨_, rfl⟩
  | module hm hs => exact hn.module hm hs

theorem Keeps.refl (root : Mod Item) : Keeps root root :=
  ⟨fun _ h => h, fun _ _ _ _ h => .inl h, fun _ _ _ _ h1 h2 h => by rw [h1, Option.some.injEq] at h2; subst h2; exact h⟩

theorem Completes.trans {a b d : Item} (h : Completes a b) (k : Completes b d) : Completes a d := by
  have hs : ∀ {a b : Item}, Completes a b → (∃ n m m', a = .ty (.struct n m) ∧ b = .ty (.struct n m')) ∨
      ∃ n d m u m' u', a = .ty (.union n d m u) ∧ b = .ty (.union n d m' u') := by
    intro a b h
    unfold Completes at h
    split at h
    · exact .inl ⟨_, _, _, rfl, by rw [h]⟩
    · exact .inr ⟨_, _, _, _, _, _, rfl, by rw [h.1, h.2]⟩
    · cases h
  rcases hs h with ⟨n, m, m', rfl, rfl⟩ | ⟨n, e, m, u, m', u', rfl, rfl⟩
  · rcases hs k with ⟨n1, m1, m1', h1, rfl⟩ | ⟨n1, e1, m1, u1, m1', u1', h1, rfl⟩
    · cases h1; exact rfl
    · cases h1
  · rcases hs k with ⟨n1, m1, m1', h1, rfl⟩ | ⟨n1, e1, m1, u1, m1', u1', h1, rfl⟩
    · cases h1
    · cases h1; exact ⟨rfl, rfl⟩

theorem Keeps.trans {a b d : Mod Item} (h : Keeps a b) (k : Keeps b d) : Keeps a d := by
  refine ⟨fun p hp => k.modules p (h.modules p hp), fun p j x i he => ?_, fun p m m' x h1 h2 hx => ?_⟩
  · rcases h.entries p j x i he with h1 | ⟨h1, y, h2, h3⟩
    · exact k.entries p j x i h1
    · rcases k.entries p j x y h2 with h4 | ⟨_, z, h5, h6⟩
      · exact .inr ⟨h1, y, h4, h3⟩
      · exact .inr ⟨h1, z, h5, Completes.trans h3 h6⟩
  · obtain ⟨mb, hb⟩ := Option.isSome_iff_exists.mp (h.modules p (by rw [h1]; rfl))
    exact k.marks p mb m' x hb h2 (h.marks p m mb x h1 hb hx)

theorem keeps_of_tables {root root' : Mod Item} (h : ∀ q t, tables root q = some t → ∃ t', tables root' q = some t' ∧
    (∀ k x i, omGet (t.get k) x = some i → omGet (t'.get k) x = some i ∨ Hollow i ∧ ∃ j, omGet (t'.get k) x = some j ∧ Completes i j) ∧
    ∀ x ∈ t.fromEnum, x ∈ t'.fromEnum) : Keeps root root' := by
  refine ⟨fun p hp => ?_, fun p k x i he => ?_, fun p m m' x h1 h2 hx => ?_⟩
  · rw [← tables_some] at hp ⊢
    obtain ⟨t, ht⟩ := Option.isSome_iff_exists.mp hp
    obtain ⟨t', h1, _⟩ := h p t ht
    rw [h1]; rfl
  · rw [entry_tables] at he ⊢
    cases ht : tables root p with
    | none => rw [ht] at he; cases he
    | some t =>
      rw [ht, Option.bind_some] at he
      obtain ⟨t', h1, h2, _⟩ := h p t ht
      rw [h1]
      exact h2 k x i he
  · obtain ⟨t', k1, _, k2⟩ := h p m.content (by rw [tables, h1]; rfl)
    rw [tables, h2] at k1
    cases k1
    exact k2 x hx

/-- Adding an entry. -/
theorem keeps_add (root : Mod Item) (p : Loc) (k : Cat) (x : Name) (v : Item) : Keeps root (register root p k x v).1 := by
  cases hm : root.at p with
  | none => rw [register, hm]; exact Keeps.refl _
  | some m =>
    refine keeps_of_tables fun q t ht => ?_
    rw [tables_register hm]
    by_cases hq : q = p
    · subst hq
      rw [if_pos rfl]
      rw [tables, hm] at ht
      cases ht
      refine ⟨_, rfl, fun j y i he => .inl ?_, ?_⟩
      · rw [core_get]
        split
        · rename_i hh
          obtain ⟨⟨rfl, rfl⟩, _, h0⟩ := hh
          rw [he] at h0; cases h0
        · exact he
      · unfold registerCore
        split
        · exact fun _ h => h
        · cases k <;> exact fun _ h => h
    · rw [if_neg hq]
      exact ⟨t, ht, fun _ _ _ h => .inl h, fun _ h => h⟩

/-- Completing one. -/
theorem keeps_replace {root : Mod Item} {p : Loc} {k : Cat} {x : Name} {v : Item}
    (h : cut x = none → (root.at p).isSome → ∃ i, entry root p k x = some i ∧ Hollow i ∧ Completes i v) :
    Keeps root (register root p k x v true).1 := by
  cases hm : root.at p with
  | none => rw [register, hm]; exact Keeps.refl _
  | some m =>
    refine keeps_of_tables fun q t ht => ?_
    rw [tables_register hm]
    by_cases hq : q = p
    · subst hq
      rw [if_pos rfl]
      have ht : some m.content = some t := by rw [← ht, tables, hm]; rfl
      cases ht
      refine ⟨_, rfl, fun j y i he => ?_, ?_⟩
      · by_cases hcut : (cut x).isSome
        · refine .inl ?_
          rw [registerCore, if_pos hcut]; exact he
        · have hcn : cut x = none := by simpa using hcut
          obtain ⟨_, h1, h2⟩ := C41_replace root q (by rw [hm]; rfl) k x v hcn
          have e1 : ∀ j y, entry (register root q k x v true).1 q j y = omGet ((registerCore k x v true m).1.content.get j) y := fun j y => by
            rw [register_entry root q m hm, if_pos rfl]
          have e2 : ∀ j y, entry root q j y = omGet (m.content.get j) y := fun j y => by rw [entry, hm]; rfl
          by_cases hjy : j = k ∧ y = x
          · obtain ⟨rfl, rfl⟩ := hjy
            obtain ⟨i', h3, h4, h5⟩ := h hcn (by rw [hm]; rfl)
            rw [e2, he, Option.some.injEq] at h3
            subst h3
            exact .inr ⟨h4, v, by rw [← e1, h1], h5⟩
          · refine .inl ?_
            rw [← e1, h2 q j y (fun hh => hjy hh.2), e2, he]
      · unfold registerCore
        split
        · exact fun _ h => h
        · cases k <;> exact fun _ h => h
    · rw [if_neg hq]
      exact ⟨t, ht, fun _ _ _ h => .inl h, fun _ h => h⟩

theorem step_keeps {root root' : Mod Item} (h : Step E c root root') (hn : All WithName root) : Keeps root root' := by
  cases h with
  | struct p x => exact keeps_add _ _ _ _ _
  | @fill p f x q ms pm l _ _ h1 h2 =>
    refine keeps_replace fun hx hp => ?_
    obtain ⟨n, hi⟩ := fill_hollow h1 hx hp (h2 hx hp)
    obtain ⟨ms', hd⟩ := hn p .struct x _ hi
    rw [Item.ty.injEq, Ty.struct.injEq] at hd
    exact ⟨_, hi, trivial, hd.1.symm⟩
  | union _ hu => exact keeps_add _ _ _ _ _
  | @cases p _ x _ l n d u _ h1 h2 hu =>
    refine keeps_replace fun hx hp => ?_
    obtain ⟨i, hi⟩ := cases_hollow h1 hx hp (h2 hx hp)
    obtain ⟨k1, k2, _⟩ := addCases_same l (.new _ _ hu)
    exact ⟨_, hi, trivial, k1.trans (new_same hu).1, k2.trans (new_same hu).2⟩
  | enumerator p x v => exact keeps_add _ _ _ _ _
  | @note p x hp =>
    obtain ⟨m, hm⟩ := Option.isSome_iff_exists.mp hp
    refine keeps_of_tables fun q t ht => ?_
    have := (at_modify (noteFromEnum x) hm rfl q).1
    rw [tables, this]
    by_cases hq : q = p
    · subst hq
      rw [tables, hm] at ht
      cases ht
      rw [if_pos rfl]
      refine ⟨_, rfl, fun k x i h => .inl (by cases k <;> exact h), fun y hy => ?_⟩
      exact List.mem_append_left _ hy
    · rw [if_neg hq]
      exact ⟨t, ht, fun _ _ _ h => .inl h, fun _ h => h⟩
  | enum x _ => exact keeps_add _ _ _ _ _
  | const x _ _ _ => exact keeps_add _ _ _ _ _
  | «alias» x ds r _ =>
    unfold createAlias
    split
    · exact Keeps.refl _
    · exact keeps_add _ _ _ _ _
  | module hm hs =>
    refine keeps_of_tables fun q t ht => ?_
    rcases tables_module hm hs q with e | ⟨e, _⟩
    · exact ⟨t, by rw [e, ht], fun _ _ _ h => .inl h, fun _ h => h⟩
    · rw [e] at ht; cases ht

theorem steps_keep {root root' : Mod Item} (h : Steps E c root root') (hn : All WithName root) : All WithName root' ∧ Keeps root root' := by
  induction h with
  | refl => exact ⟨hn, Keeps.refl _⟩
  | tail _ hs ih => exact ⟨step_named hs ih.1, Keeps.trans ih.2 (step_keeps hs ih.1)⟩

end Verif.Idl.Syn
