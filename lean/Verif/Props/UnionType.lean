import Verif.Lemmas.UnionB
/-!
# Union types (C32, C51)

`u.Built`: `u` results from the union constructor and any sequence of `add_case_member` calls,
accepted or refused. The labels given to `add_case_member` are reduced to the width of the
discriminator (`shrinkLabel`) before use.
-/

namespace Verif

/-! ## C32 -/

/-- C32: in every union that can be built, no label is mapped twice, every label selects an
existing case member (case member names are pairwise different and never `discriminator`), and the
member a label selects never changes, whatever is added later. -/
theorem C32_labels_unambiguous {u : UnionB} (h : u.Built) :
    (u.labels.map (·.1)).Nodup ∧
    (∀ l n, omGet u.labels l = some n → n ∈ u.caseNames) ∧
    (u.caseNames.Nodup ∧ discName ∉ u.caseNames) ∧
    (∀ ls n t b l n', omGet u.labels l = some n' →
      omGet (u.addCase ls n t b).1.labels l = some n') := by
  have hi := UnionB.built_inv h
  refine ⟨hi.nodup, hi.names, ?_, ?_⟩
  · obtain ⟨rest, hr, -⟩ := hi.head
    have := hi.agg.nodup
    rw [hr] at this
    simp only [List.map_cons, List.nodup_cons] at this
    unfold UnionB.caseNames; rw [hr]; exact ⟨this.2, this.1⟩
  · intro ls n t b l n' hl
    have hadd : u.Accepts ls n b → omGet (u.added ls n t).labels l = some n' := by
      intro ha
      show omGet (UnionB.setLabels n u.defaultValue u.disc.memSize ls u.labels u.defaultValue).1 l = _
      rw [UnionB.setLabels_get, if_neg]
      · exact hl
      · rintro ⟨hm, -⟩
        obtain ⟨v, hv, rfl⟩ := List.mem_map.mp hm
        have := (ha.2.2.1 v hv).2
        rw [← omGet_isSome, hl] at this; cases this
    rcases UnionB.addCase_cases u ls n t b with ⟨_, he⟩ | ⟨ha, _, he⟩ | ⟨ha, _, _, he⟩ |
      ⟨ha, _, hdef, he⟩
    · rw [he]; exact hl
    · rw [he]; exact hadd ha
    · rw [he]; exact hadd ha
    · rw [he]
      simp only
      split
      · rw [omGet_omSet, if_neg]
        · exact hadd ha
        · rintro rfl
          have : omHas u.labels u.defaultValue = true := by rw [← omGet_isSome, hl]; rfl
          have := hi.dlab this
          rw [hdef, hi.iv] at this; omega
      · exact hadd ha

/-- C32: a case with a label that is already used, or that is the reserved value, or that the
discriminator enumeration does not have, is refused and leaves the union unchanged; so is a case
whose name is taken or reserved, and a non-default case without labels. -/
theorem C32_bad_case_refused (u : UnionB) (ls : List Int) (n : String) (t : Ty) (b : Bool)
    (h : (∃ v ∈ ls, omHas u.labels (shrinkLabel v u.disc.memSize) = true) ∨
      (∃ v ∈ ls, shrinkLabel v u.disc.memSize = u.defaultValue) ∨
      (∃ v ∈ ls, u.labelAllowed (shrinkLabel v u.disc.memSize) = false) ∨
      u.agg.has n = true ∨ n = discName ∨ (ls = [] ∧ b = false)) :
    u.addCase ls n t b = (u, false) := by
  have hno : ¬ u.Accepts ls n b := by
    rintro ⟨h1, h2, h3, h4⟩
    rcases h with ⟨v, hv, hb⟩ | ⟨v, hv, hb⟩ | ⟨v, hv, hb⟩ | hb | hb | ⟨hb1, hb2⟩
    · rw [(h3 v hv).2] at hb; cases hb
    · have := (h3 v hv).1; simp [UnionB.labelAllowed, hb] at this
    · rw [(h3 v hv).1] at hb; cases hb
    · rw [h4] at hb; cases hb
    · exact h2 hb
    · rcases h1 with h1 | h1
      · rw [hb2] at h1; cases h1
      · exact h1 hb1
  rcases UnionB.addCase_cases u ls n t b with ⟨_, he⟩ | ⟨ha, _⟩ | ⟨ha, _⟩ | ⟨ha, _⟩
  · exact he
  all_goals exact absurd ha hno

/-- C32: accepted cases: all labels of the call select the new member from then on, so that
label and member correspond exactly as declared. -/
theorem C32_accepted_case {u : UnionB} (h : u.Built) (ls : List Int) (n : String) (t : Ty) (b : Bool)
    (hacc : (u.addCase ls n t b).2 = true) :
    (∀ v ∈ ls, omGet (u.addCase ls n t b).1.labels (shrinkLabel v u.disc.memSize) = some n) ∧
    (u.addCase ls n t b).1.caseNames = u.caseNames ++ [n] ∧
    (∀ l n', omGet (u.addCase ls n t b).1.labels l = some n' →
      omGet u.labels l = some n' ∨ (n' = n ∧ (l ∈ ls.map (shrinkLabel · u.disc.memSize) ∨
        (b = true ∧ l = u.defaultValue)))) := by
  have hi := UnionB.built_inv h
  have hget : ∀ l, omGet (u.added ls n t).labels l =
      if l ∈ ls.map (shrinkLabel · u.disc.memSize) ∧ l ≠ u.defaultValue then some n
      else omGet u.labels l := fun l => UnionB.setLabels_get _ _ _ _ _ _ _
  have hlab : u.Accepts ls n b → ∀ v ∈ ls,
      omGet (u.added ls n t).labels (shrinkLabel v u.disc.memSize) = some n := by
    intro ha v hv
    rw [hget, if_pos]
    refine ⟨List.mem_map.mpr ⟨v, hv, rfl⟩, ?_⟩
    have := (ha.2.2.1 v hv).1
    simp only [UnionB.labelAllowed, Bool.and_eq_true, bne_iff_ne] at this
    exact this.1
  have hback : ∀ l n', omGet (u.added ls n t).labels l = some n' →
      omGet u.labels l = some n' ∨ (n' = n ∧ (l ∈ ls.map (shrinkLabel · u.disc.memSize) ∨
        (b = true ∧ l = u.defaultValue))) := by
    intro l n' hl
    rw [hget] at hl
    split at hl
    · rename_i hc; simp only [Option.some.injEq] at hl; exact .inr ⟨hl.symm, .inl hc.1⟩
    · exact .inl hl
  rcases UnionB.addCase_cases u ls n t b with ⟨_, he⟩ | ⟨ha, _, he⟩ | ⟨ha, _, _, he⟩ |
      ⟨ha, hb, hdef, he⟩
  · rw [he] at hacc; cases hacc
  · rw [he]; exact ⟨hlab ha, UnionB.added_caseNames hi ls n t ha.2.2.2, hback⟩
  · rw [he] at hacc; cases hacc
  · rw [he]
    refine ⟨?_, UnionB.added_caseNames hi ls n t ha.2.2.2, ?_⟩
    · intro v hv
      simp only
      split
      · rw [omGet_omSet]; split
        · rfl
        · exact hlab ha v hv
      · exact hlab ha v hv
    · intro l n' hl
      simp only at hl
      split at hl
      · rw [omGet_omSet] at hl
        split at hl
        · rename_i hc; simp only [Option.some.injEq] at hl
          exact .inr ⟨hl.symm, .inr ⟨hb, hc.symm⟩⟩
        · exact hback l n' hl
      · exact hback l n' hl

/-- Membership in `get_labels` of a built union. -/
theorem mem_getLabels {u : UnionB} (h : u.Built) (n : String) (l : Int) :
    l ∈ u.getLabels n ↔ omGet u.labels l = some n ∧ l ≠ u.defaultValue := by
  have hn := (UnionB.built_inv h).nodup
  simp only [UnionB.getLabels, List.mem_map, List.mem_filter, decide_eq_true_eq]
  constructor
  · rintro ⟨⟨a, b⟩, ⟨hm, hb, hd⟩, rfl⟩
    simp only at hb; subst hb
    exact ⟨omGet_of_mem hn hm, hd⟩
  · rintro ⟨hg, hd⟩
    exact ⟨(l, n), ⟨omGet_mem hg, rfl, hd⟩, rfl⟩

theorem setLabels_increasing (n : String) (dv : Int) (sz : Nat) (ls : List Int) (m : List (Int × String)) (f : Int)
    (h : Increasing m) : Increasing (UnionB.setLabels n dv sz ls m f).1 := by
  induction ls generalizing m f with
  | nil => exact h
  | cons v vs ih =>
    simp only [UnionB.setLabels]
    split
    · exact ih _ _ (omSet_increasing (fun a b c => Int.lt_trans) (fun a b h h' => by omega) h)
    · exact ih _ _ h

theorem built_increasing {u : UnionB} (h : u.Built) : Increasing u.labels := by
  induction h with
  | new n d h =>
    unfold UnionB.new at h
    split at h
    · simp only [Option.some.injEq] at h
      subst h
      exact List.Pairwise.nil
    · cases h
  | @add ls n t b u _ ih =>
    have hs := setLabels_increasing n u.defaultValue u.disc.memSize ls u.labels u.defaultValue ih
    rcases UnionB.addCase_cases u ls n t b with ⟨_, he⟩ | ⟨ha, _, he⟩ | ⟨ha, _, _, he⟩ | ⟨ha, _, _, he⟩
    · rw [he]; exact ih
    all_goals rw [he]
    · exact hs
    · exact hs
    · simp only []
      split
      · exact omSet_increasing (fun a b c => Int.lt_trans) (fun a b h h' => by omega) hs
      · exact hs

/-- C32: the labels of a member are reported in increasing order. -/
theorem C32_labels_increasing {u : UnionB} (h : u.Built) (n : String) : (u.getLabels n).Pairwise (· < ·) := by
  unfold UnionB.getLabels
  rw [List.pairwise_map]
  exact (built_increasing h).sublist List.filter_sublist

/-- C32: `get_labels` reports exactly what was declared: for the member just added, the labels of the
call (in the width of the discriminator); for every other name, what it reported before; each label
once. -/
theorem C32_get_labels {u : UnionB} (h : u.Built) (ls : List Int) (n : String) (t : Ty) (b : Bool)
    (hacc : (u.addCase ls n t b).2 = true) :
    (∀ l, l ∈ (u.addCase ls n t b).1.getLabels n ↔ l ∈ ls.map (shrinkLabel · u.disc.memSize)) ∧
    (∀ n' l, n' ≠ n → (l ∈ (u.addCase ls n t b).1.getLabels n' ↔ l ∈ u.getLabels n')) ∧
    (∀ n', ((u.addCase ls n t b).1.getLabels n').Nodup) := by
  have hi := UnionB.built_inv h
  have hb' : (u.addCase ls n t b).1.Built := .add _ _ _ _ h
  obtain ⟨h1, -, h3⟩ := C32_accepted_case h ls n t b hacc
  have h4 := (C32_labels_unambiguous h).2.2.2 ls n t b
  have hdv : (u.addCase ls n t b).1.defaultValue = u.defaultValue ∧ u.Accepts ls n b := by
    rcases UnionB.addCase_cases u ls n t b with ⟨_, he⟩ | ⟨ha, _, he⟩ | ⟨ha, _, _, he⟩ |
      ⟨ha, _, _, he⟩
    · rw [he] at hacc; cases hacc
    all_goals rw [he]; exact ⟨rfl, ha⟩
  obtain ⟨hdv, ha⟩ := hdv
  have hfresh : ∀ l, omGet u.labels l ≠ some n := by
    intro l hl
    have := hi.names _ _ hl
    unfold UnionB.caseNames at this
    obtain ⟨m, hm, rfl⟩ := List.mem_map.mp this
    have hh := ha.2.2.2
    rw [Bool.eq_false_iff] at hh
    exact hh ((hi.agg.has_iff _).mpr (List.mem_map.mpr ⟨m, List.mem_of_mem_tail hm, rfl⟩))
  refine ⟨?_, ?_, ?_⟩
  · intro l
    rw [mem_getLabels hb', hdv]
    constructor
    · rintro ⟨hg, hd⟩
      rcases h3 _ _ hg with h5 | ⟨-, h5 | ⟨-, h5⟩⟩
      · exact absurd h5 (hfresh l)
      · exact h5
      · exact absurd h5 hd
    · intro hl
      obtain ⟨v, hv, rfl⟩ := List.mem_map.mp hl
      refine ⟨h1 v hv, ?_⟩
      have := (ha.2.2.1 v hv).1
      simp only [UnionB.labelAllowed, Bool.and_eq_true, bne_iff_ne] at this
      exact this.1
  · intro n' l hne
    rw [mem_getLabels hb', mem_getLabels h, hdv]
    constructor
    · rintro ⟨hg, hd⟩
      rcases h3 _ _ hg with h5 | ⟨h5, -⟩
      · exact ⟨h5, hd⟩
      · exact absurd h5 hne
    · rintro ⟨hg, hd⟩
      exact ⟨h4 _ _ hg, hd⟩
  · intro n'
    have hn := (UnionB.built_inv hb').nodup
    exact (hn.sublist (List.Sublist.map _ List.filter_sublist))

/-- A union over `int8` with two cases, one of them default. -/
def exUnion : UnionB :=
  match UnionB.new "U" (.prim .i8) with
  | some u => ((u.addCase [1, -2] "a" (.prim .i32) false).1.addCase [] "b" (.str .s8 0) true).1
  | none => ⟨"", ⟨[], []⟩, [], 0, 0, 0, 0, 0⟩

theorem exUnion_built : exUnion.Built :=
  .add _ _ _ _ (.add _ _ _ _ (.new "U" (.prim .i8) rfl))

example : exUnion.getLabels "a" = [1, 254] ∧ exUnion.getLabels "b" = [] := by decide

example : exUnion.labels = [(1, "a"), (127, "b"), (254, "a")] ∧ exUnion.default = 127 ∧
    (exUnion.addCase [3, 254] "c" (.prim .i32) false) = (exUnion, false) ∧
    (exUnion.addCase [3] "c" (.prim .i32) false).2 = true := by decide

/-- C32, negation: a refused call can change the union. The check that there is only one default
comes after the member and its labels have been stored (UnionType.hpp 110-140). -/
theorem C32_refused_default_changes_union :
    ∃ (u : UnionB) (ls : List Int) (n : String) (t : Ty), u.Built ∧
      (u.addCase ls n t true).2 = false ∧ (u.addCase ls n t true).1 ≠ u ∧
      omGet (u.addCase ls n t true).1.labels 5 = some n :=
  ⟨exUnion, [5], "c", .prim .i32, exUnion_built, by decide, by decide, by decide⟩

/-- C32, partial: a refused call leaves the union unchanged unless it is a second default case.
Missing: exactly that case, see `C32_refused_default_changes_union`. -/
theorem C32_refused_unchanged_partial (u : UnionB) (ls : List Int) (n : String) (t : Ty) (b : Bool)
    (hb : b = false ∨ u.default = u.invalidValue)
    (h : (u.addCase ls n t b).2 = false) : (u.addCase ls n t b).1 = u := by
  rcases UnionB.addCase_cases u ls n t b with ⟨_, he⟩ | ⟨_, _, he⟩ | ⟨_, hb', hd, he⟩ | ⟨_, _, _, he⟩
  · rw [he]
  · rw [he] at h; cases h
  · rcases hb with hb | hb
    · rw [hb] at hb'; cases hb'
    · exact absurd hb hd
  · rw [he] at h; cases h

/-- C32, negation: two members can be accepted as default. The reserved value `invalid_value_` is
not refused as a label, and a default whose first label is that value is not remembered
(UnionType.hpp 138-146). -/
theorem C32_two_defaults :
    ∃ (u : UnionB) (l1 l2 : List Int) (n1 n2 : String) (t : Ty), u.Built ∧ n1 ≠ n2 ∧
      (u.addCase l1 n1 t true).2 = true ∧
      ((u.addCase l1 n1 t true).1.addCase l2 n2 t true).2 = true ∧
      (u.addCase l1 n1 t true).1.isDefault n1 = false := by
  refine ⟨_, [126], [1], "a", "b", .prim .i32, .new "U" (.prim .i8) rfl, by decide, by decide,
    by decide, by decide⟩

/-- C32, partial: once a default is recorded it stays the default for ever and every further default
case is refused; it is the member `is_default` reports, and no other. Missing: the case of
`C32_two_defaults` (first label equal to the value the library uses for "none"). -/
theorem C32_single_default_partial {u : UnionB} (h : u.Built) (hd : u.default ≠ u.invalidValue) :
    (∀ ls n t b, (u.addCase ls n t b).1.default = u.default ∧
      (u.addCase ls n t b).1.invalidValue = u.invalidValue) ∧
    (∀ ls n t, (u.addCase ls n t true).2 = false) ∧
    (∃ n ∈ u.caseNames, ∀ n', u.isDefault n' = true ↔ n' = n) := by
  have hi := UnionB.built_inv h
  refine ⟨?_, ?_, ?_⟩
  · intro ls n t b
    rcases UnionB.addCase_cases u ls n t b with ⟨_, he⟩ | ⟨_, _, he⟩ | ⟨_, _, _, he⟩ |
      ⟨_, _, hd', he⟩
    · rw [he]; exact ⟨rfl, rfl⟩
    · rw [he]; exact ⟨rfl, rfl⟩
    · rw [he]; exact ⟨rfl, rfl⟩
    · exact absurd hd' hd
  · intro ls n t
    rcases UnionB.addCase_cases u ls n t true with ⟨_, he⟩ | ⟨_, hb, he⟩ | ⟨_, _, _, he⟩ |
      ⟨_, _, hd', he⟩
    · rw [he]
    · cases hb
    · rw [he]
    · exact absurd hd' hd
  · have h1 := hi.dflt hd
    rw [← omGet_isSome, Option.isSome_iff_exists] at h1
    obtain ⟨n, hn⟩ := h1
    refine ⟨n, hi.names _ _ hn, ?_⟩
    intro n'
    simp only [UnionB.isDefault, hn, Bool.and_eq_true, bne_iff_ne, beq_iff_eq, Option.some.injEq]
    exact ⟨fun h => h.2.symm, fun h => ⟨hd, h.symm⟩⟩

example : exUnion.default ≠ exUnion.invalidValue ∧ exUnion.isDefault "b" = true := by decide

/-! ## C51 Union layout -/

/-- C51: in every union that can be built the discriminator is at offset 0, all case members start
right behind it and fit into the instance, and the size reported is the size of the discriminator
plus that of the largest case member. -/
theorem C51_union_layout {u : UnionB} (h : u.Built) :
    (∃ rest, u.agg.members = ⟨discName, u.disc, 0⟩ :: rest ∧
      ∀ m ∈ rest, m.offset = u.disc.memSize ∧ m.offset + m.ty.memSize ≤ u.size) ∧
    u.toTy.memSize = u.size := by
  have hi := UnionB.built_inv h
  obtain ⟨rest, hr, hoff, hmax⟩ := hi.head
  refine ⟨⟨rest, hr, fun m hm => ⟨(hoff m hm).1, ?_⟩⟩, ?_⟩
  · have := hoff m hm; have := hi.size; omega
  · have hms : ∀ l : List SMem, (∀ m ∈ l, m.ty.memSize ≤ u.maxCase) →
        (Mems.ofList (l.map fun m => (m.name, m.ty))).maxSize ≤ u.maxCase := by
      intro l
      induction l with
      | nil => intro _; simp [Mems.ofList, Mems.maxSize]
      | cons m r ih =>
        intro hl
        simp only [List.map_cons, Mems.ofList, Mems.maxSize]
        have h1 := hl m (by simp)
        have h2 := ih (fun m' hm' => hl m' (by simp [hm']))
        omega
    have hms' : ∀ l : List SMem, ∀ m ∈ l,
        m.ty.memSize ≤ (Mems.ofList (l.map fun m => (m.name, m.ty))).maxSize := by
      intro l
      induction l with
      | nil => simp
      | cons m r ih =>
        intro m' hm'
        simp only [List.map_cons, Mems.ofList, Mems.maxSize]
        rcases List.mem_cons.mp hm' with rfl | hm'
        · omega
        · have := ih m' hm'; omega
    have hle := hms rest (fun m hm => (hoff m hm).2)
    have hge := hmax _ (hms' rest)
    have : u.agg.members.tail = rest := by rw [hr]; rfl
    simp only [UnionB.toTy, Ty.memSize, this]
    rw [hi.size]; omega

example : exUnion.size = 33 := by decide

end Verif
