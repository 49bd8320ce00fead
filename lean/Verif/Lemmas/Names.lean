import Verif.Model.Ty
/-! # Names of types as text -/

namespace Verif

/-- Types whose names are made by the library from the names of the primitive and string types. -/
inductive Canon : Ty → Prop where
  | prim (k : PK) : Canon (.prim k)
  | str (k : SK) (b : Nat) : Canon (.str k b)
  | seq {c : Ty} (b : Nat) : Canon c → Canon (.seq c b)
  | array {c : Ty} (d : Nat) : Canon c → Canon (c.array d)

theorem digits_underscore {n m : Nat} {r s : List Char}
    (h : Nat.toDigits 10 n ++ '_' :: r = Nat.toDigits 10 m ++ '_' :: s) : n = m ∧ r = s := by
  have key : ∀ (xs ys : List Char), '_' ∉ xs → '_' ∉ ys → xs ++ '_' :: r = ys ++ '_' :: s → xs = ys ∧ r = s := by
    intro xs
    induction xs with
    | nil =>
      intro ys _ h2 h
      cases ys with
      | nil => exact ⟨rfl, by simpa using h⟩
      | cons y ys => simp at h; exact absurd (by rw [← h.1]; simp) h2
    | cons x xs ih =>
      intro ys h1 h2 h
      cases ys with
      | nil => simp at h; exact absurd (by rw [h.1]; simp) h1
      | cons y ys =>
        simp only [List.cons_append, List.cons.injEq] at h
        obtain ⟨h3, h4⟩ := ih ys (fun h => h1 (List.mem_cons_of_mem _ h)) (fun h => h2 (List.mem_cons_of_mem _ h)) h.2
        exact ⟨by rw [h.1, h3], h4⟩
  obtain ⟨h1, h2⟩ := key _ _ Nat.underscore_not_in_toDigits Nat.underscore_not_in_toDigits h
  refine ⟨?_, h2⟩
  rw [← Nat.ofDigitChars_ten_toDigits (n := n), h1, Nat.ofDigitChars_ten_toDigits]

theorem digits_inj {n m : Nat} (h : Nat.toDigits 10 n = Nat.toDigits 10 m) : n = m := by
  rw [← Nat.ofDigitChars_ten_toDigits (n := n), h, Nat.ofDigitChars_ten_toDigits]

/-- No name starts with a digit. -/
theorem Canon.head {T : Ty} (h : Canon T) : ∃ c r, T.name.toList = c :: r ∧ c.isDigit = false := by
  cases h with
  | prim k => cases k <;> exact ⟨_, _, rfl, rfl⟩
  | str k b => cases k <;> simp only [Ty.name, SK.name, String.toList_append] <;> exact ⟨_, _, rfl, rfl⟩
  | seq b _ => simp only [Ty.name, String.toList_append]; exact ⟨_, _, rfl, rfl⟩
  | array d _ => simp only [Ty.array, Ty.name, String.toList_append]; exact ⟨_, _, rfl, rfl⟩

/-- The names of such types identify them. -/
theorem Canon.name_inj {T : Ty} (h : Canon T) : ∀ {S : Ty}, Canon S → T.name = S.name → T = S := by
  have un : ∀ (n : Nat) (s : String), ("_" ++ s).toList = '_' :: s.toList := fun _ s => by
    rw [String.toList_append]; rfl
  induction h with
  | prim k =>
    intro S hS he
    cases hS with
    | prim l => revert he; cases k <;> cases l <;> decide
    | str l b => 
      have := congrArg (fun s => s.toList.take 2) he
      simp only [Ty.name, String.toList_append] at this
      exfalso; revert this; cases k <;> cases l <;> simp [PK.name, SK.name]
    | seq b _ =>
      have := congrArg (fun s => s.toList.take 1) he
      simp only [Ty.name, String.toList_append] at this
      exfalso; revert this; cases k <;> simp [PK.name]
    | array d _ =>
      have := congrArg (fun s => s.toList.take 1) he
      simp only [Ty.array, Ty.name, String.toList_append] at this
      exfalso; revert this; cases k <;> simp [PK.name]
  | str k b =>
    intro S hS he
    cases hS with
    | prim l => 
      have := congrArg (fun s => s.toList.take 2) he
      simp only [Ty.name, String.toList_append] at this
      exfalso; revert this; cases k <;> cases l <;> simp [PK.name, SK.name]
    | str l b' =>
      have hkl : k = l := by
        have := congrArg (fun s => s.toList.take 6) he
        simp only [Ty.name, String.toList_append] at this
        revert this; cases k <;> cases l <;> simp [SK.name]
      subst hkl
      have := congrArg String.toList he
      simp only [Ty.name, String.toList_append] at this
      have := List.append_cancel_left this
      have hb : b = b' := by
        split at this <;> split at this
        · simp only [String.toList_append, toString, Nat.toList_repr] at this
          exact digits_inj (List.append_cancel_left this)
        · simp at this
        · simp at this
        · omega
      rw [hb]
    | seq b' _ =>
      have := congrArg (fun s => s.toList.take 2) he
      simp only [Ty.name, String.toList_append] at this
      exfalso; revert this; cases k <;> simp [SK.name]
    | array d _ =>
      have := congrArg (fun s => s.toList.take 1) he
      simp only [Ty.array, Ty.name, String.toList_append] at this
      exfalso; revert this; cases k <;> simp [SK.name]
  | @seq c b hc ih =>
    intro S hS he
    cases hS with
    | prim l => 
      have := congrArg (fun s => s.toList.take 1) he
      simp only [Ty.name, String.toList_append] at this
      exfalso; revert this; cases l <;> simp [PK.name]
    | str l b' =>
      have := congrArg (fun s => s.toList.take 2) he
      simp only [Ty.name, String.toList_append] at this
      exfalso; revert this; cases l <;> simp [SK.name]
    | @seq c' b' hc' =>
      have := congrArg String.toList he
      simp only [Ty.name, String.toList_append, List.append_assoc] at this
      have h2 := List.append_cancel_left this
      unfold boundsPrefix at h2
      obtain ⟨x, r, e1, e2⟩ := hc.head
      obtain ⟨y, s, e3, e4⟩ := hc'.head
      have bad : ∀ (n : Nat) (z : Char) (t u : List Char), z.isDigit = false → Nat.toDigits 10 n ++ u = z :: t → False := by
        intro n z t u hz h
        cases hd : Nat.toDigits 10 n with
        | nil => exact Nat.toDigits_ne_nil hd
        | cons w ws =>
          rw [hd] at h
          have : w = z := by simp at h; exact h.1
          have hw := Nat.isDigit_of_mem_toDigits (b := 10) (n := n) (c := w) (by omega) (by omega) (by rw [hd]; simp)
          rw [this, hz] at hw; cases hw
      split at h2 <;> split at h2
      · simp only [String.toList_append, toString, Nat.toList_repr, List.append_assoc] at h2
        obtain ⟨h3, h4⟩ := digits_underscore (by simpa using h2)
        rw [h3, ih hc' (String.ext (by simpa using h4))]
      · simp only [String.toList_append, toString, Nat.toList_repr, List.append_assoc, e3] at h2
        exact (bad _ _ _ _ e4 (by simpa using h2)).elim
      · simp only [String.toList_append, toString, Nat.toList_repr, List.append_assoc, e1] at h2
        exact (bad _ _ _ _ e2 (by simpa using h2.symm)).elim
      · rw [ih hc' (String.ext (by simpa using h2))]
        congr 1; omega
    | array d _ =>
      have := congrArg (fun s => s.toList.take 1) he
      simp only [Ty.array, Ty.name, String.toList_append] at this
      exfalso; revert this; simp
  | @array c d hc ih =>
    intro S hS he
    cases hS with
    | prim l => 
      have := congrArg (fun s => s.toList.take 1) he
      simp only [Ty.array, Ty.name, String.toList_append] at this
      exfalso; revert this; cases l <;> simp [PK.name]
    | str l b' =>
      have := congrArg (fun s => s.toList.take 2) he
      simp only [Ty.array, Ty.name, String.toList_append] at this
      exfalso; revert this; cases l <;> simp [SK.name]
    | seq b' _ =>
      have := congrArg (fun s => s.toList.take 1) he
      simp only [Ty.array, Ty.name, String.toList_append] at this
      exfalso; revert this; simp
    | @array c' d' hc' =>
      have := congrArg String.toList he
      simp only [Ty.array, Ty.name, String.toList_append, toString, Nat.toList_repr, List.append_assoc] at this
      have h2 := List.append_cancel_left this
      obtain ⟨h3, h4⟩ := digits_underscore (by simpa using h2)
      rw [h3, ih hc' (String.ext (by simpa using h4))]

end Verif
