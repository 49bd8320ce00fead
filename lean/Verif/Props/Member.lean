import Verif.Lemmas.Member
import Verif.Lemmas.Builder
/-!
# C75: members keep what they were declared with

"A member has the name, type, id, key and optional it was declared with: the last setting of each counts, whatever else is
set; without one it has no id, is no key and not optional. A structure gives every accepted member back with all of this, by
name and by position, whatever is added later, accepted or refused; so does every structure made with it as parent, and that one
says that it has this parent. Annotations and parents have no influence on the layout."
-/

namespace Verif.StructM

/-- C75: what the settings of a member leave; a key or an optional that is set between two ids does not touch the id, and so on. -/
theorem C75_settings (n : String) (t : Ty) (l : List Setting) :
    let m := (Member.new n t).sets l
    m.name = n ∧ m.ty = t ∧ m.getId = (lastId l).getD (-1) ∧ m.isKey = (lastKey l).getD false ∧
    m.isOptional = (lastOptional l).getD false ∧ (m.hasId = true ↔ ∃ v, lastId l = some v ∧ 0 ≤ v) := by
  have key : ∀ (l : List Setting) (m : Member), (m.sets l).name = m.name ∧ (m.sets l).ty = m.ty ∧
      (m.sets l).id = (lastId l).getD m.id ∧ (m.sets l).key = (lastKey l).getD m.key ∧
      (m.sets l).optional = (lastOptional l).getD m.optional := by
    intro l
    induction l with
    | nil => intro m; exact ⟨rfl, rfl, rfl, rfl, rfl⟩
    | cons a l ih =>
      intro m
      have f1 : ∀ (m : Member) (v : Int), (m.setId v).name = m.name ∧ (m.setId v).ty = m.ty ∧ (m.setId v).id = v ∧
          (m.setId v).key = m.key ∧ (m.setId v).optional = m.optional := fun _ _ => ⟨rfl, rfl, rfl, rfl, rfl⟩
      have f2 : ∀ (m : Member) (v : Bool), (m.setKey v).name = m.name ∧ (m.setKey v).ty = m.ty ∧ (m.setKey v).id = m.id ∧
          (m.setKey v).key = v ∧ (m.setKey v).optional = m.optional := fun _ _ => ⟨rfl, rfl, rfl, rfl, rfl⟩
      have f3 : ∀ (m : Member) (v : Bool), (m.setOptional v).name = m.name ∧ (m.setOptional v).ty = m.ty ∧
          (m.setOptional v).id = m.id ∧ (m.setOptional v).key = m.key ∧ (m.setOptional v).optional = v :=
        fun _ _ => ⟨rfl, rfl, rfl, rfl, rfl⟩
      unfold lastId lastKey lastOptional at *
      simp only [List.reverse_cons, List.findSome?_append]
      cases a with
      | id v =>
        obtain ⟨a, b, c, d, e⟩ := ih (m.setId v)
        rw [Member.sets]
        refine ⟨a, b, ?_, ?_, ?_⟩
        · rw [c]; cases List.findSome? _ l.reverse <;> rfl
        · rw [d]; cases List.findSome? _ l.reverse <;> rfl
        · rw [e]; cases List.findSome? _ l.reverse <;> rfl
      | key v =>
        obtain ⟨a, b, c, d, e⟩ := ih (m.setKey v)
        rw [Member.sets]
        refine ⟨a, b, ?_, ?_, ?_⟩
        · rw [c]; cases List.findSome? _ l.reverse <;> rfl
        · rw [d]; cases List.findSome? _ l.reverse <;> rfl
        · rw [e]; cases List.findSome? _ l.reverse <;> rfl
      | optional v =>
        obtain ⟨a, b, c, d, e⟩ := ih (m.setOptional v)
        rw [Member.sets]
        refine ⟨a, b, ?_, ?_, ?_⟩
        · rw [c]; cases List.findSome? _ l.reverse <;> rfl
        · rw [d]; cases List.findSome? _ l.reverse <;> rfl
        · rw [e]; cases List.findSome? _ l.reverse <;> rfl
  obtain ⟨a, b, c, d, e⟩ := key l (Member.new n t)
  refine ⟨a, b, c, d, e, ?_⟩
  unfold Member.hasId
  rw [c, decide_eq_true_eq]
  cases lastId l with
  | none => exact ⟨fun h => absurd h (by show ¬(-1 : Int) ≥ 0; decide), fun ⟨v, h, _⟩ => by cases h⟩
  | some v => exact ⟨fun h => ⟨v, rfl, h⟩, fun ⟨w, h, hw⟩ => by cases h; exact hw⟩

/-- C75: a chain of settings. -/
example : let m := (Member.new "x" (.prim .i32)).sets [.id 3, .key true, .id 5, .optional true, .key false]
    m.getId = 5 ∧ m.hasId = true ∧ m.isKey = false ∧ m.isOptional = true := by decide

/-- C75: adding a member is refused exactly if there is one with the name, and then the structure is as before; an accepted member is
found under its name and behind the others, as declared and at the end of the memory; all others are found as before. -/
theorem C75_added {s : StructM} (h : s.Built) (m : Member) :
    ((s.addMember m).2 = false ↔ (s.byName? m.name).isSome) ∧
    ((s.addMember m).2 = false → (s.addMember m).1 = s) ∧
    ((s.addMember m).2 = true → ∃ r, r.Same m ∧ r.offset = some s.size ∧ (s.addMember m).1.byName? m.name = some r ∧
      (s.addMember m).1.at? s.members.length = some r ∧ (s.addMember m).1.members.length = s.members.length + 1) ∧
    (∀ n, n ≠ m.name → (s.addMember m).1.byName? n = s.byName? n) ∧
    (∀ i, i < s.members.length → (s.addMember m).1.at? i = s.at? i) ∧
    (s.addMember m).1.parent? = s.parent? ∧ (s.addMember m).1.name = s.name := by
  have hi := built_inv h
  rw [← has_byName hi]
  cases hn : s.has m.name with
  | true =>
    rw [addMember_has hn]
    exact ⟨by simp, fun _ => rfl, fun h => by simp at h, fun _ _ => rfl, fun _ _ => rfl, rfl, rfl⟩
  | false =>
    have e := addMember_new hn
    have hb := byName_add hi hn
    refine ⟨?_, ?_, ?_, ?_, ?_, ?_, ?_⟩
    · rw [e]; simp
    · intro h; rw [e] at h; cases h
    · intro _
      refine ⟨{ m with offset := some s.size }, ⟨rfl, rfl, rfl, rfl, rfl⟩, rfl, ?_, ?_, ?_⟩
      · rw [hb, if_pos rfl]
      · rw [e]
        show (s.members ++ [_])[s.members.length]? = _
        rw [getElem?_snoc, if_neg (by omega), if_pos rfl]
      · rw [e]; show (s.members ++ [_]).length = _; simp
    · intro n hne; rw [hb, if_neg hne]
    · intro i hlt
      rw [e]
      show (s.members ++ [_])[i]? = s.members[i]?
      rw [getElem?_snoc, if_pos hlt]
    · rw [e]; rfl
    · rw [e]; rfl

theorem adds_built {s : StructM} (h : s.Built) : (l : List Member) → (s.adds l).Built
  | [] => h
  | m :: l => adds_built (.add m h) l

/-- C75, for whole histories: after any number of additions, accepted or refused, a name that was there means what it meant; any other
name means the first member with that name that was added, as declared, or nothing if none was. -/
theorem C75_history {s : StructM} (h : s.Built) (l : List Member) (n : String) :
    (∀ r, s.byName? n = some r → (s.adds l).byName? n = some r) ∧
    (s.byName? n = none → ∀ m, l.find? (fun m => m.name = n) = some m → ∃ r, r.Same m ∧ (s.adds l).byName? n = some r) ∧
    (s.byName? n = none → l.find? (fun m => m.name = n) = none → (s.adds l).byName? n = none) := by
  induction l generalizing s with
  | nil =>
    refine ⟨fun r h => h, ?_, fun h _ => h⟩
    intro _ m h; cases h
  | cons a l ih =>
    obtain ⟨h1, h2, h3, h4, -⟩ := C75_added h a
    obtain ⟨i1, i2, i3⟩ := ih (.add a h)
    rw [adds]
    by_cases hn : n = a.name
    · subst hn
      cases hb : s.byName? a.name with
      | some r =>
        have := h2 (h1.mpr (by rw [hb]; rfl))
        refine ⟨?_, ?_, ?_⟩
        · intro x hx; exact i1 x (by rw [this, hb]; exact hx)
        · intro h; cases h
        · intro h; cases h
      | none =>
        have h0 : (s.addMember a).2 = true := by
          cases e : (s.addMember a).2 with
          | true => rfl
          | false => have := h1.mp e; rw [hb] at this; cases this
        obtain ⟨r, hs, _, hr, _⟩ := h3 h0
        refine ⟨fun x hx => (nomatch hx), fun _ m hm => ?_, fun _ hm => ?_⟩
        · rw [List.find?_cons_of_pos (by simp)] at hm
          cases hm
          exact ⟨r, hs, i1 r hr⟩
        · rw [List.find?_cons_of_pos (by simp)] at hm; cases hm
    · have hb := h4 n hn
      have hne : ¬ a.name = n := fun e => hn e.symm
      rw [List.find?_cons_of_neg (by simpa using hne), ← hb]
      exact ⟨i1, i2, i3⟩

/-- C75: a structure with a parent starts with the members of the parent, annotations and all, and says that it has this parent; a
structure without one does not. -/
theorem C75_parent {p : StructM} (h : p.Built) (n : String) :
    (child n p).members = p.members ∧ (∀ x, (child n p).byName? x = p.byName? x) ∧ (child n p).size = p.size ∧
    (child n p).name = n ∧ (child n p).hasParent = true ∧ (child n p).parent? = some p ∧
    (new n).hasParent = false ∧ (new n).members = [] := by
  obtain ⟨a, b, c, d⟩ := child_ok (built_inv h) n
  exact ⟨b, fun x => byName_eq a (built_inv h) b x, rfl, c, by unfold hasParent; rw [d]; rfl, d, rfl, rfl⟩

/-- C75: whatever is added to a structure with a parent, what it has from the parent stays. -/
theorem C75_inherited {p : StructM} (h : p.Built) (n : String) (l : List Member) (x : String) (r : Member)
    (hr : p.byName? x = some r) : ((child n p).adds l).byName? x = some r :=
  (C75_history (.child n h) l x).1 r (by rw [(C75_parent h n).2.1]; exact hr)

/-- C75: building without annotations and parents, as in the other properties of structures, gives the same names, types, offsets and
size, and refuses the same. -/
theorem C75_layout {s : StructM} {b : StructB} (h : s.Built) (hb : b.Built) (e : s.IsBare b) :
    (∀ m, (s.addMember m).1.IsBare (b.addMember m.name m.ty).1 ∧ (s.addMember m).2 = (b.addMember m.name m.ty).2) ∧
    (∀ n, (child n s).IsBare (StructB.child n b)) ∧ ∀ n, (new n).IsBare (StructB.new n) := by
  obtain ⟨e1, e2, e3, e4⟩ := e
  refine ⟨fun m => ?_, fun n => ?_, fun n => ⟨rfl, rfl, rfl, rfl⟩⟩
  · have hh : s.has m.name = b.agg.has m.name := by unfold has Agg.has; rw [e3]
    have hl : s.members.length = b.agg.members.length := by
      have := congrArg List.length e2
      simpa [bare] using this
    cases hn : s.has m.name with
    | true =>
      rw [addMember_has hn, StructB.addMember, Agg.insert, if_pos (by rw [← hh]; exact hn)]
      exact ⟨⟨e1, e2, e3, e4⟩, rfl⟩
    | false =>
      rw [addMember_new hn, StructB.addMember, Agg.insert, if_neg (by rw [← hh, hn]; simp)]
      refine ⟨⟨e1, ?_, ?_, ?_⟩, rfl⟩
      · show (s.members ++ [_]).map _ = _
        rw [List.map_append]
        show s.bare ++ _ = _
        rw [e2, e4]; simp
      · show (omEmplace s.indexes m.name s.members.length).1 = _
        rw [e3, hl]
      · show s.size + m.ty.memSize = b.size + m.ty.memSize
        rw [e4]
  · obtain ⟨a, c, d, _⟩ := child_ok (built_inv h) n
    have hb2 : (StructB.child n b).agg.members = b.agg.members := Agg.ofParent_members (StructB.built_inv hb).agg
    refine ⟨d, ?_, ?_, e4⟩
    · rw [hb2, ← e2, bare, bare, c]
    · have : ∀ (l : List Member) (l' : List SMem) (s : StructM) (g : Agg), s.indexes = g.indexes → s.members.length = g.members.length →
          l.map (·.name) = l'.map (·.name) →
          (l.foldl (fun s m => (s.insert m).1) s).indexes = (l'.foldl (fun a m => (a.insert m).1) g).indexes := by
        intro l
        induction l with
        | nil =>
          intro l' s g h1 h2 h3
          have : l' = [] := by simpa using h3.symm
          subst this; exact h1
        | cons m l ih =>
          intro l' s g h1 h2 h3
          cases l' with
          | nil => cases h3
          | cons m' l' =>
            rw [List.map_cons, List.map_cons, List.cons.injEq] at h3
            rw [List.foldl_cons, List.foldl_cons]
            have hh : s.has m.name = g.has m'.name := by unfold has Agg.has; rw [h1, h3.1]
            cases hn : s.has m.name with
            | true =>
              have x1 : s.insert m = (s, false) := by simp only [insert, hn, if_true]
              rw [x1, Agg.insert, if_pos (by rw [← hh]; exact hn)]
              exact ih l' s g h1 h2 h3.2
            | false =>
              rw [insert_new hn, Agg.insert, if_neg (by rw [← hh, hn]; simp)]
              refine ih l' _ _ ?_ ?_ h3.2
              · show (omEmplace s.indexes m.name s.members.length).1 = (omEmplace g.indexes m'.name g.members.length).1
                rw [h1, h2, h3.1]
              · show (s.members ++ [m]).length = (g.members ++ [m']).length
                simp [h2]
      refine this s.members b.agg.members _ Agg.empty rfl rfl ?_
      have := congrArg (List.map (·.1)) e2
      simpa [bare, Function.comp_def] using this

/-- C75: a structure with a parent, a member that is refused, and an annotated one. -/
def exMember : StructM :=
  (child "T" (((new "S").addMember ((Member.new "x" (.prim .i32)).sets [.id 1, .key true])).1.addMember
    (Member.new "x" (.prim .u8))).1).adds [(Member.new "x" (.prim .u8)).setId 9, (Member.new "y" (.prim .u16)).setOptional true]

/-- C75: what it has. -/
example : exMember.Built ∧ exMember.hasParent = true ∧ exMember.members.length = 2 ∧ (exMember.byName? "x").map (·.getId) = some 1 ∧
    (exMember.byName? "x").map (·.isKey) = some true ∧ (exMember.byName? "y").map (·.isOptional) = some true ∧
    (exMember.byName? "y").map (·.hasId) = some false ∧ exMember.size = 6 := by
  refine ⟨adds_built (.child _ (.add _ (.add _ (.new _)))) _, ?_, ?_, ?_, ?_, ?_, ?_, ?_⟩ <;> decide +kernel

end Verif.StructM
