import Verif.Props.Member
/-!
# C75 for unions

The cases of a union keep their annotations just as the members of structures do.
-/

namespace Verif.UnionM

open StructM (Inv getElem?_snoc)

/-- The members and their index, as those of a structure. -/
def view (u : UnionM) : StructM := .mk "" none u.members u.base.agg.indexes 0

theorem view_byName (u : UnionM) (n : String) : u.view.byName? n = u.byName? n := rfl

theorem addCase_base (u : UnionB) (ls : List Int) (n : String) (t : Ty) (b : Bool) :
    ((u.addCase ls n t b).1 = u ∧ (u.addCase ls n t b).2 = false) ∨
    (u.agg.has n = false ∧ (u.addCase ls n t b).1.agg.indexes = (omEmplace u.agg.indexes n u.agg.members.length).1 ∧
      (u.addCase ls n t b).1.agg.members = u.agg.members ++ [⟨n, t, u.disc.memSize⟩]) := by
  unfold UnionB.addCase
  split
  · exact .inl ⟨rfl, rfl⟩
  split
  · exact .inl ⟨rfl, rfl⟩
  split
  · exact .inl ⟨rfl, rfl⟩
  cases hh : u.agg.has n with
  | true =>
    rw [Agg.insert, if_pos (by exact hh)]
    exact .inl ⟨rfl, rfl⟩
  | false =>
    rw [Agg.insert, if_neg (by rw [hh]; simp)]
    refine .inr ⟨rfl, ?_, ?_⟩
    all_goals
      dsimp only
      repeat' split
      all_goals rfl

/-- The invariant: the index is that of the members, and they are those of the union without annotations. -/
structure Ok (u : UnionM) : Prop where
  inv : u.view.Inv
  same : u.members.map (fun m => (m.name, m.ty, m.offset)) = u.base.agg.members.map fun m => (m.name, m.ty, some m.offset)

theorem Ok.length {u : UnionM} (h : u.Ok) : u.base.agg.members.length = u.members.length := by
  have := congrArg List.length h.same
  simpa using this.symm

theorem addCase_cases {u : UnionM} (h : u.Ok) (ls : List Int) (m : Member) (b : Bool) :
    (u.addCase ls m b = (u, false)) ∨
    (u.view.has m.name = false ∧ ∃ v, (u.addCase ls m b).1 = ⟨v, u.members ++ [{ m with offset := some u.base.disc.memSize }]⟩ ∧
      v.agg.indexes = (omEmplace u.base.agg.indexes m.name u.members.length).1 ∧
      v.agg.members = u.base.agg.members ++ [⟨m.name, m.ty, u.base.disc.memSize⟩]) := by
  rcases addCase_base u.base ls m.name m.ty b with ⟨h1, h2⟩ | ⟨h1, h2, h3⟩
  · refine .inl ?_
    unfold addCase
    rw [show u.base.addCase ls m.name m.ty b = (u.base, false) from Prod.ext h1 h2]
    simp
  · refine .inr ⟨h1, (u.base.addCase ls m.name m.ty b).1, ?_, ?_, h3⟩
    · unfold addCase
      dsimp only
      rw [if_pos (by rw [h3]; simp)]
    · rw [h2, h.length]

theorem addCase_ok {u : UnionM} (h : u.Ok) (ls : List Int) (m : Member) (b : Bool) : (u.addCase ls m b).1.Ok := by
  rcases addCase_cases h ls m b with e | ⟨h1, v, e, h2, h3⟩
  · rw [e]; exact h
  · rw [e]
    refine ⟨?_, ?_⟩
    · show (StructM.mk "" none (u.members ++ [_]) v.agg.indexes 0).Inv
      rw [h2]
      exact StructM.inv_snoc (s := u.view) (m := { m with offset := some u.base.disc.memSize }) h.inv h1
    · show (u.members ++ [_]).map _ = v.agg.members.map _
      rw [h3, List.map_append, List.map_append, h.same]; rfl

theorem built_ok {u : UnionM} (h : u.Built) : u.Ok := by
  induction h with
  | @new n d u e =>
    unfold new UnionB.new at e
    split at e
    · simp only [Option.map_some, Option.some.injEq] at e
      subst e
      refine ⟨?_, rfl⟩
      exact StructM.inv_snoc (s := .mk "" none [] [] 0) (m := { Member.new discName d with offset := some 0 }) StructM.inv_nil rfl
    · cases e
  | add ls m b _ ih => exact addCase_ok ih ls m b

/-- A member at the end: lookup by name. -/
theorem byName_snoc {s r : StructM} (h : s.Inv) (hr : r.Inv) {x : Member} (e : r.members = s.members ++ [x]) (n : String) :
    r.byName? n = if n = x.name then some x else s.byName? n := by
  have key : ∀ y, r.byName? n = some y ↔ ∃ i : Nat, (s.members ++ [x])[i]? = some y ∧ y.name = n := by
    intro y; rw [← e]; exact StructM.byName_iff hr n y
  by_cases hx : n = x.name
  · rw [if_pos hx]
    exact (key _).mpr ⟨s.members.length, by rw [getElem?_snoc, if_neg (by omega), if_pos rfl], hx.symm⟩
  · rw [if_neg hx]
    apply Option.ext
    intro y
    rw [key, StructM.byName_iff h]
    constructor
    · rintro ⟨i, hi, hxn⟩
      rw [getElem?_snoc] at hi
      split at hi
      · exact ⟨i, hi, hxn⟩
      · split at hi
        · cases hi; exact absurd hxn.symm hx
        · cases hi
    · rintro ⟨i, hi, hxn⟩
      exact ⟨i, by rw [getElem?_snoc, if_pos (List.getElem?_eq_some_iff.mp hi).1]; exact hi, hxn⟩

/-- C75 for unions: a case that is accepted has a new name, and is found under it and behind the others, as declared and behind the
discriminator; a name that is there is refused, and nothing changes; all others are found as before. -/
theorem C75_union_added {u : UnionM} (h : u.Built) (ls : List Int) (m : Member) (b : Bool) :
    ((u.byName? m.name).isSome → u.addCase ls m b = (u, false)) ∧
    ((u.addCase ls m b).2 = true → u.byName? m.name = none ∧ ∃ r, r.Same m ∧ r.offset = some u.base.disc.memSize ∧
      (u.addCase ls m b).1.byName? m.name = some r ∧ (u.addCase ls m b).1.at? u.members.length = some r ∧
      (u.addCase ls m b).1.members.length = u.members.length + 1) ∧
    (∀ n, n ≠ m.name → (u.addCase ls m b).1.byName? n = u.byName? n) ∧
    (∀ i, i < u.members.length → (u.addCase ls m b).1.at? i = u.at? i) := by
  have hi := built_ok h
  have hn := StructM.has_byName hi.inv m.name
  rw [view_byName] at hn
  rcases addCase_cases hi ls m b with e | ⟨h1, v, e, h2, h3⟩
  · rw [e]
    exact ⟨fun _ => rfl, fun h => by simp at h, fun _ _ => rfl, fun _ _ => rfl⟩
  · have hb := byName_snoc (x := { m with offset := some u.base.disc.memSize }) hi.inv (addCase_ok hi ls m b).inv (by rw [e]; rfl)
    simp only [view_byName] at hb
    have h0 : u.byName? m.name = none := by
      cases hx : u.byName? m.name with
      | none => rfl
      | some x => rw [hx, h1] at hn; cases hn
    have hm : (u.addCase ls m b).1.members = u.members ++ [{ m with offset := some u.base.disc.memSize }] := by rw [e]
    refine ⟨fun h => (by rw [h0] at h; cases h), fun _ => ⟨h0, { m with offset := some u.base.disc.memSize }, ⟨rfl, rfl, rfl, rfl, rfl⟩, rfl, ?_, ?_, ?_⟩,
      fun n hne => ?_, fun i hlt => ?_⟩
    · rw [hb, if_pos rfl]
    · unfold at?
      rw [hm, getElem?_snoc, if_neg (by omega), if_pos rfl]
    · rw [hm]; simp
    · rw [hb, if_neg hne]
    · unfold at?
      rw [hm, getElem?_snoc, if_pos hlt]

/-- C75 for unions, for whole histories: after any number of additions, accepted or refused, a name that was there means what it meant, and
the others are added as they were declared: a name that is new means some case of that name that was added. -/
theorem C75_union_history {u : UnionM} (h : u.Built) (l : List (List Int × Member × Bool)) (n : String) :
    (∀ r, u.byName? n = some r → (u.adds l).byName? n = some r) ∧
    (∀ r, u.byName? n = none → (u.adds l).byName? n = some r → ∃ c ∈ l, r.Same c.2.1) := by
  induction l generalizing u with
  | nil => exact ⟨fun r h => h, fun r h1 h2 => by rw [adds, h1] at h2; cases h2⟩
  | cons c l ih =>
    obtain ⟨i1, i2⟩ := ih (.add c.1 c.2.1 c.2.2 h)
    rw [adds]
    have hi := built_ok h
    rcases addCase_cases hi c.1 c.2.1 c.2.2 with e | ⟨h1, v, e, h2, h3⟩
    · rw [e] at i1 i2 ⊢
      refine ⟨i1, fun r h1 h2 => ?_⟩
      obtain ⟨x, hx, hs⟩ := i2 r h1 h2
      exact ⟨x, List.mem_cons_of_mem _ hx, hs⟩
    · have hb := byName_snoc (x := { c.2.1 with offset := some u.base.disc.memSize }) hi.inv (addCase_ok hi c.1 c.2.1 c.2.2).inv (by rw [e]; rfl)
      simp only [view_byName] at hb
      have hn := StructM.has_byName hi.inv c.2.1.name
      rw [view_byName, h1] at hn
      by_cases hx : n = c.2.1.name
      · subst hx
        refine ⟨fun r hr => (by rw [hr] at hn; cases hn), fun r _ hr => ?_⟩
        have := i1 _ ((hb c.2.1.name).trans (if_pos rfl))
        rw [hr] at this
        cases this
        exact ⟨c, List.mem_cons_self .., ⟨rfl, rfl, rfl, rfl, rfl⟩⟩
      · have hb := (hb n).trans (if_neg hx)
        rw [← hb]
        refine ⟨i1, fun r h1 h2 => ?_⟩
        obtain ⟨x, hx, hs⟩ := i2 r h1 h2
        exact ⟨x, List.mem_cons_of_mem _ hx, hs⟩

/-- C75 for unions: building without annotations, as in the other properties of unions, gives the same names, types and offsets, and
refuses the same. -/
theorem C75_union_layout {u : UnionM} (h : u.Built) :
    u.base.Built ∧ (u.members.map fun m => (m.name, m.ty, m.offset)) = (u.base.agg.members.map fun m => (m.name, m.ty, some m.offset)) ∧
    ∀ ls m b, (u.addCase ls m b).1.base = (u.base.addCase ls m.name m.ty b).1 ∧ (u.addCase ls m b).2 = (u.base.addCase ls m.name m.ty b).2 := by
  refine ⟨?_, (built_ok h).same, fun ls m b => ⟨rfl, rfl⟩⟩
  induction h with
  | @new n d u e =>
    unfold new at e
    cases e1 : UnionB.new n d with
    | none => rw [e1] at e; cases e
    | some b => rw [e1] at e; cases e; exact .new n d e1
  | add ls m b _ ih => exact .add _ _ _ _ ih

/-- A union with annotated cases, two of which are refused. -/
def exMemberU : Option UnionM := (new "U" (.prim .i32)).map fun u => u.adds [([1], (Member.new "a" (.prim .u8)).sets [.id 4, .key true], false),
  ([1], Member.new "b" (.prim .u16), false), ([], (Member.new "c" (.prim .u64)).setOptional true, true), ([2], (Member.new "a" (.prim .u8)).setId 5, false)]

theorem adds_built {u : UnionM} (h : u.Built) : (l : List (List Int × Member × Bool)) → (u.adds l).Built
  | [] => h
  | c :: l => adds_built (.add c.1 c.2.1 c.2.2 h) l

/-- C75: what it has. -/
example : ∃ u, exMemberU = some u ∧ u.Built ∧ u.members.length = 3 ∧ (u.byName? "a").map (·.getId) = some 4 ∧
    (u.byName? "a").map (·.isKey) = some true ∧ (u.byName? "b").isNone = true ∧ (u.byName? "c").map (·.isOptional) = some true ∧
    (u.byName? "c").map (·.offset) = some (some 4) ∧ (u.addCase [7] (Member.new "d" (.prim .u8)) false).2 = true := by
  refine ⟨_, rfl, adds_built (.new "U" (.prim .i32) rfl) _, ?_, ?_, ?_, ?_, ?_, ?_, ?_⟩ <;> decide +kernel

/-- C75 for unions: a case that is refused because there is a default already stays in the union, with its annotations (C32 has what
becomes of its labels). -/
theorem C75_union_refused_stays : ∃ u, exMemberU = some u ∧ (u.addCase [9] ((Member.new "z" (.prim .u8)).setId 6) true).2 = false ∧
    ((u.addCase [9] ((Member.new "z" (.prim .u8)).setId 6) true).1.byName? "z").map (·.getId) = some 6 := by
  refine ⟨_, rfl, ?_, ?_⟩ <;> decide +kernel

end Verif.UnionM
