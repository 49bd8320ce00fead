import Verif.Spec.Member
import Verif.Lemmas.OMap
/-! # Members -/

namespace Verif.StructM

/-- The index is that of the members. -/
structure Inv (s : StructM) : Prop where
  nodup : (s.indexes.map (·.1)).Nodup
  get : ∀ n i, omGet s.indexes n = some i ↔ ∃ m, s.members[i]? = some m ∧ m.name = n

theorem has_iff {s : StructM} (h : s.Inv) (n : String) : s.has n = true ↔ ∃ (i : Nat) (m : Member), s.members[i]? = some m ∧ m.name = n := by
  unfold has
  rw [← omGet_isSome, Option.isSome_iff_exists]
  constructor
  · rintro ⟨i, hi⟩; exact ⟨i, (h.get n i).mp hi⟩
  · rintro ⟨i, m, hm⟩; exact ⟨i, (h.get n i).mpr ⟨m, hm⟩⟩

theorem getElem?_snoc {α : Type} (l : List α) (a : α) (i : Nat) :
    (l ++ [a])[i]? = if i < l.length then l[i]? else if i = l.length then some a else none := by
  by_cases h : i < l.length
  · rw [if_pos h, List.getElem?_append_left h]
  · rw [if_neg h, List.getElem?_append_right (by omega)]
    by_cases h2 : i = l.length
    · simp [h2]
    · rw [if_neg h2]
      have : i - l.length ≠ 0 := by omega
      cases e : i - l.length with
      | zero => exact absurd e this
      | succ k => simp

/-- Members at the end, with the index entry. -/
theorem inv_snoc {s : StructM} (h : s.Inv) {m : Member} (hn : s.has m.name = false) {nm : String} {p : Option StructM} {z : Nat} :
    (mk nm p (s.members ++ [m]) (omEmplace s.indexes m.name s.members.length).1 z).Inv := by
  have hk : m.name ∉ s.indexes.map (·.1) := by
    rw [← omGet_eq_none]
    cases e : omGet s.indexes m.name with
    | none => rfl
    | some i =>
      have := omGet_isSome (m := s.indexes) (k := m.name)
      rw [e] at this
      unfold has at hn
      rw [hn] at this; cases this
  have he : (omEmplace s.indexes m.name s.members.length).1 = omIns m.name s.members.length s.indexes := by
    unfold omEmplace
    unfold has at hn
    rw [hn]; rfl
  constructor
  · show ((omEmplace s.indexes m.name s.members.length).1.map (·.1)).Nodup
    rw [he]
    exact omIns_keys_nodup h.nodup hk
  · intro n i
    show omGet (omEmplace s.indexes m.name s.members.length).1 n = some i ↔ ∃ x, (s.members ++ [m])[i]? = some x ∧ x.name = n
    rw [he, omGet_omIns hk, getElem?_snoc]
    by_cases hnm : n = m.name
    · subst hnm
      rw [if_pos (by simp)]
      constructor
      · intro e; cases e
        exact ⟨m, by rw [if_neg (by omega), if_pos rfl], rfl⟩
      · rintro ⟨x, hx, hxn⟩
        split at hx
        · exact absurd ((has_iff h _).mpr ⟨i, x, hx, hxn⟩) (by rw [hn]; simp)
        · split at hx
          · rename_i e; rw [e]
          · cases hx
    · rw [if_neg (by first | exact hnm | exact fun e => hnm e.symm), h.get n i]
      constructor
      · rintro ⟨x, hx, hxn⟩
        exact ⟨x, by rw [if_pos (List.getElem?_eq_some_iff.mp hx).1]; exact hx, hxn⟩
      · rintro ⟨x, hx, hxn⟩
        split at hx
        · exact ⟨x, hx, hxn⟩
        · split at hx
          · cases hx; exact absurd hxn.symm hnm
          · cases hx

theorem modify_last {α : Type} (l : List α) (a : α) (f : α → α) : (l ++ [a]).modify ((l ++ [a]).length - 1) f = l ++ [f a] := by
  induction l with
  | nil => rfl
  | cons b r ih =>
    have : (b :: r ++ [a]).length - 1 = ((r ++ [a]).length - 1) + 1 := by simp
    rw [this, List.cons_append, List.modify_succ_cons, ih]; rfl

theorem addMember_has {s : StructM} {m : Member} (h : s.has m.name = true) : s.addMember m = (s, false) := by
  simp only [addMember, insert, h, if_true]

theorem addMember_new {s : StructM} {m : Member} (h : s.has m.name = false) : s.addMember m =
    (mk s.name s.parent? (s.members ++ [{ m with offset := some s.size }])
      (omEmplace s.indexes m.name s.members.length).1 (s.size + m.ty.memSize), true) := by
  simp only [addMember, insert, h, Bool.false_eq_true, if_false]
  simp only [members, name, parent?, indexes, modify_last]

theorem insert_new {s : StructM} {m : Member} (h : s.has m.name = false) : s.insert m =
    (mk s.name s.parent? (s.members ++ [m]) (omEmplace s.indexes m.name s.members.length).1 s.size, true) := by
  simp only [insert, h, Bool.false_eq_true, if_false]

theorem addMember_inv {s : StructM} (h : s.Inv) (m : Member) : (s.addMember m).1.Inv := by
  cases hn : s.has m.name with
  | true => rw [addMember_has hn]; exact h
  | false => rw [addMember_new hn]; exact inv_snoc (m := { m with offset := some s.size }) h hn

/-- What the loop over the members of the parent does. -/
theorem foldl_insert : (l : List Member) → (s : StructM) → s.Inv → (l.map (·.name)).Nodup → (∀ m ∈ l, s.has m.name = false) →
    (l.foldl (fun s m => (s.insert m).1) s).Inv ∧ (l.foldl (fun s m => (s.insert m).1) s).members = s.members ++ l ∧
    (l.foldl (fun s m => (s.insert m).1) s).name = s.name ∧ (l.foldl (fun s m => (s.insert m).1) s).parent? = s.parent?
  | [], s, h, _, _ => ⟨h, (List.append_nil _).symm, rfl, rfl⟩
  | m :: l, s, h, hn, hs => by
    have h0 := hs m (List.mem_cons_self ..)
    rw [List.map_cons, List.nodup_cons] at hn
    rw [List.foldl_cons, insert_new h0]
    have hi : (mk s.name s.parent? (s.members ++ [m]) (omEmplace s.indexes m.name s.members.length).1 s.size).Inv := inv_snoc h h0
    obtain ⟨a, b, c, d⟩ := foldl_insert l _ hi hn.2 (by
      intro x hx
      rw [Bool.eq_false_iff]
      intro hc
      obtain ⟨i, y, hy, hyn⟩ := (has_iff hi _).mp hc
      change (s.members ++ [m])[i]? = some y at hy
      rw [getElem?_snoc] at hy
      split at hy
      · have := (has_iff h x.name).mpr ⟨i, y, hy, hyn⟩
        rw [hs x (List.mem_cons_of_mem _ hx)] at this; cases this
      · split at hy
        · cases hy
          exact hn.1 (List.mem_map.mpr ⟨x, hx, hyn.symm⟩)
        · cases hy)
    refine ⟨a, ?_, c, d⟩
    rw [b]; simp [members]

theorem names_nodup {s : StructM} (h : s.Inv) : (s.members.map (·.name)).Nodup := by
  rw [List.Nodup, List.pairwise_iff_getElem]
  intro i j hi hj hij e
  rw [List.length_map] at hi hj
  rw [List.getElem_map, List.getElem_map] at e
  have h1 := (h.get s.members[i].name i).mpr ⟨_, List.getElem?_eq_getElem hi, rfl⟩
  have h2 := (h.get s.members[i].name j).mpr ⟨_, List.getElem?_eq_getElem hj, e.symm⟩
  rw [h1] at h2; cases h2; omega

theorem inv_nil {n : String} {p : Option StructM} {z : Nat} : (mk n p [] [] z).Inv :=
  ⟨by simp [indexes], fun n i => by simp [indexes, members]⟩

theorem child_ok {p : StructM} (h : p.Inv) (n : String) :
    (child n p).Inv ∧ (child n p).members = p.members ∧ (child n p).name = n ∧ (child n p).parent? = some p := by
  obtain ⟨a, b, c, d⟩ := foldl_insert p.members (mk n (some p) [] [] 0) inv_nil (names_nodup h) (fun m _ => rfl)
  refine ⟨⟨a.nodup, a.get⟩, ?_, c, d⟩
  exact b

theorem built_inv {s : StructM} (h : s.Built) : s.Inv := by
  induction h with
  | new n => exact inv_nil
  | child n _ ih => exact (child_ok ih n).1
  | add m _ ih => exact addMember_inv ih m

theorem byName_iff {s : StructM} (h : s.Inv) (n : String) (m : Member) : s.byName? n = some m ↔
    ∃ i : Nat, s.members[i]? = some m ∧ m.name = n := by
  unfold byName?
  constructor
  · intro e
    cases h1 : omGet s.indexes n with
    | none => rw [h1] at e; cases e
    | some i =>
      rw [h1] at e
      obtain ⟨x, hx, hxn⟩ := (h.get n i).mp h1
      refine ⟨i, e, ?_⟩
      change s.members[i]? = some m at e
      rw [hx] at e; cases e; exact hxn
  · rintro ⟨i, hi, hn⟩
    rw [(h.get n i).mpr ⟨m, hi, hn⟩]
    exact hi

/-- Lookup by name depends on the members only. -/
theorem byName_eq {s r : StructM} (h : s.Inv) (hr : r.Inv) (e : s.members = r.members) (n : String) : s.byName? n = r.byName? n := by
  cases h1 : s.byName? n with
  | some m =>
    obtain ⟨i, hi⟩ := (byName_iff h n m).mp h1
    exact ((byName_iff hr n m).mpr ⟨i, e ▸ hi⟩).symm
  | none =>
    cases h2 : r.byName? n with
    | none => rfl
    | some m =>
      obtain ⟨i, hi⟩ := (byName_iff hr n m).mp h2
      rw [(byName_iff h n m).mpr ⟨i, e ▸ hi⟩] at h1; cases h1

theorem has_byName {s : StructM} (h : s.Inv) (n : String) : s.has n = (s.byName? n).isSome := by
  rw [Bool.eq_iff_iff, has_iff h, Option.isSome_iff_exists]
  constructor
  · rintro ⟨i, m, hm⟩; exact ⟨m, (byName_iff h n m).mpr ⟨i, hm⟩⟩
  · rintro ⟨m, hm⟩
    obtain ⟨i, hi⟩ := (byName_iff h n m).mp hm
    exact ⟨i, m, hi⟩

theorem byName_add {s : StructM} (h : s.Inv) {m : Member} (hn : s.has m.name = false) (n : String) :
    (s.addMember m).1.byName? n = if n = m.name then some { m with offset := some s.size } else s.byName? n := by
  have hi := addMember_inv h m
  have hm : (s.addMember m).1.members = s.members ++ [{ m with offset := some s.size }] := by rw [addMember_new hn]; rfl
  have key : ∀ x, (s.addMember m).1.byName? n = some x ↔
      ∃ i : Nat, (s.members ++ [{ m with offset := some s.size }])[i]? = some x ∧ x.name = n := by
    intro x; rw [← hm]; exact byName_iff hi n x
  by_cases hx : n = m.name
  · rw [if_pos hx]
    exact (key _).mpr ⟨s.members.length, by rw [getElem?_snoc, if_neg (by omega), if_pos rfl], hx.symm⟩
  · rw [if_neg hx]
    have k2 : ∀ x, (s.addMember m).1.byName? n = some x ↔ s.byName? n = some x := by
      intro x
      rw [key, byName_iff h]
      constructor
      · rintro ⟨i, hi, hxn⟩
        rw [getElem?_snoc] at hi
        split at hi
        · exact ⟨i, hi, hxn⟩
        · split at hi
          · cases hi; exact absurd hxn.symm hx
          · cases hi
      · rintro ⟨i, hi, hxn⟩
        exact ⟨i, by rw [getElem?_snoc, if_pos (List.getElem?_eq_some_iff.mp hi).1]; exact hi, hxn⟩
    cases h1 : s.byName? n with
    | some x => exact (k2 x).mpr h1
    | none =>
      cases h2 : (s.addMember m).1.byName? n with
      | none => rfl
      | some x => rw [(k2 x).mp h2] at h1; cases h1

end Verif.StructM
