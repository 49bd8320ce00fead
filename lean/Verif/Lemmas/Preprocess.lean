import Verif.Spec.Shell
/-!
# Lemmas: the text, escaped, and what the shell reads
-/

namespace Verif.Pre

/-! ## Escaping -/

/-- The text with its quotation marks escaped: each as `\"`, but one that comes after a backslash, and is not the first, as
`\\"`. -/
def esc : Bool → Nat → Bytes → Bytes
  | _, _, [] => []
  | seen, prev, c :: r =>
    if c = 34 then (if seen && prev == 92 then escaped else [92, 34]) ++ esc true 34 r else c :: esc seen c r

theorem esc_none {w : Bytes} (h : 34 ∉ w) (seen : Bool) (prev : Nat) : esc seen prev w = w := by
  induction w generalizing seen prev with
  | nil => rfl
  | cons c r ih =>
    simp only [List.mem_cons, not_or] at h
    rw [esc, if_neg (Ne.symm h.1), ih h.2]

theorem esc_split {u v : Bytes} (h : 34 ∉ u) (seen : Bool) (prev : Nat) :
    esc seen prev (u ++ 34 :: v) = u ++ ((if seen && u.getLast?.getD prev == 92 then escaped else [92, 34]) ++ esc true 34 v) := by
  induction u generalizing prev with
  | nil => rfl
  | cons c r ih =>
    simp only [List.mem_cons, not_or] at h
    rw [List.cons_append, esc, if_neg (Ne.symm h.1), ih h.2, List.cons_append]
    cases r with
    | nil => rfl
    | cons d r => rw [List.getLast?_cons_cons]; cases hq : (d :: r).getLast? with
      | none => simp at hq
      | some q => rfl

theorem find_none {a w : Bytes} (h : 34 ∉ w) : find [34] (a ++ w) a.length = none := by
  unfold find
  rw [List.find?_range_eq_none]
  intro i hi
  by_cases hp : a.length ≤ i
  · obtain ⟨k, rfl⟩ := Nat.exists_eq_add_of_le hp
    have e : (a ++ w).drop (a.length + k) = w.drop k := by rw [List.drop_append]; simp
    rw [e]
    cases hd : w.drop k with
    | nil => simp
    | cons x r =>
      have : x ∈ w := List.mem_of_mem_drop (i := k) (by rw [hd]; simp)
      have hx : x ≠ 34 := fun e => h (e ▸ this)
      simp [List.isPrefixOf, Ne.symm hx]
  · simp [hp]

theorem find_some {a u v : Bytes} (h : 34 ∉ u) : find [34] (a ++ (u ++ 34 :: v)) a.length = some (a.length + u.length) := by
  unfold find
  rw [List.find?_range_eq_some]
  have e : ∀ k, (a ++ (u ++ 34 :: v)).drop (a.length + k) = (u ++ 34 :: v).drop k := fun k => by rw [List.drop_append]; simp
  refine ⟨?_, ?_, fun j hj => ?_⟩
  · rw [e, List.drop_append]; simp [List.isPrefixOf]
  · simp; omega
  · by_cases hp : a.length ≤ j
    · obtain ⟨k, rfl⟩ := Nat.exists_eq_add_of_le hp
      rw [e]
      have hk : k < u.length := by omega
      rw [List.drop_append_of_le_length (by omega)]
      cases hd : u.drop k with
      | nil => rw [List.drop_eq_nil_iff] at hd; omega
      | cons x r =>
        have : x ∈ u := List.mem_of_mem_drop (i := k) (by rw [hd]; simp)
        have hx : x ≠ 34 := fun e => h (e ▸ this)
        simp [List.isPrefixOf, Ne.symm hx]
    · simp [hp]

theorem split_quote (w : Bytes) : 34 ∉ w ∨ ∃ u v, w = u ++ 34 :: v ∧ 34 ∉ u := by
  by_cases h : 34 ∈ w
  · obtain ⟨u, v, e, hu⟩ := List.eq_append_cons_of_mem h
    exact .inr ⟨u, v, e, hu⟩
  · exact .inl h

theorem replace_here {a u v : Bytes} (to : Bytes) :
    replace (a ++ (u ++ 34 :: v)) (a.length + u.length) 1 to = (a ++ (u ++ to)) ++ v := by
  unfold replace
  have h1 : (a ++ (u ++ 34 :: v)).take (a.length + u.length) = a ++ u := by
    rw [← List.append_assoc, List.take_append_of_le_length (by simp)]
    exact List.take_of_length_le (by simp)
  have h2 : (a ++ (u ++ 34 :: v)).drop (a.length + u.length + 1) = v := by
    have : a ++ (u ++ 34 :: v) = (a ++ u ++ [34]) ++ v := by simp
    rw [this]
    exact List.drop_left' (by simp [Nat.add_assoc])
  rw [h1, h2]; simp

theorem before {a u v : Bytes} (ha : a.getLast? = some 34) :
    (a ++ (u ++ 34 :: v)).getD (a.length + u.length - 1) 0 = u.getLast?.getD 34 := by
  rcases List.eq_nil_or_concat u with rfl | ⟨t, x, rfl⟩
  · rcases List.eq_nil_or_concat a with rfl | ⟨b, y, rfl⟩
    · cases ha
    · simp at ha
      subst ha
      simp [List.getD_eq_getElem?_getD]
  · have e : a ++ (t.concat x ++ 34 :: v) = (a ++ t) ++ (x :: 34 :: v) := by simp
    have el : a.length + (t.concat x).length - 1 = (a ++ t).length := by simp
    rw [e, el, List.getD_eq_getElem?_getD, List.getElem?_append_right (Nat.le_refl _)]
    simp

/-- The first quotation mark of the text, if there is one, does not come after a backslash. -/
def Free (w : Bytes) : Prop := 34 ∉ w ∨ ∃ u v, w = u ++ 34 :: v ∧ 34 ∉ u ∧ u.getLast?.getD 34 ≠ 92

theorem inner_ok {b : Nat} (hb : b ≠ 92) : ∀ (f : Nat) (a w : Bytes), w.length < f → a.getLast? = some 34 →
    ∃ a' w', inner (some b) [34] f (a ++ w) (find [34] (a ++ w) a.length) = .ok (a' ++ w', find [34] (a' ++ w') a'.length) ∧
      w'.length ≤ w.length ∧ a'.getLast? = some 34 ∧ a ++ esc true 34 w = a' ++ esc true 34 w' ∧ Free w'
  | 0, _, _, hf, _ => absurd hf (by omega)
  | f + 1, a, w, hf, ha => by
    rcases split_quote w with h | ⟨u, v, rfl, h⟩
    · refine ⟨a, w, ?_, Nat.le_refl _, ha, rfl, .inl h⟩
      rw [find_none h]
      simp only [inner, if_neg hb]
    · by_cases h92 : u.getLast?.getD 34 = 92
      · have e1 : inner (some b) [34] (f + 1) (a ++ (u ++ 34 :: v)) (find [34] (a ++ (u ++ 34 :: v)) a.length) =
            inner (some b) [34] f ((a ++ (u ++ escaped)) ++ v) (find [34] ((a ++ (u ++ escaped)) ++ v) (a ++ (u ++ escaped)).length) := by
          have el : a.length + u.length + escaped.length = (a ++ (u ++ escaped)).length := by simp [Nat.add_assoc]
          have hr := replace_here (a := a) (u := u) (v := v) escaped
          rw [find_some h]
          simp only [inner, before ha, h92, if_true, List.length_singleton, hr, el]
        obtain ⟨a', w', h1, h2, h3, h4, h5⟩ := inner_ok hb f (a ++ (u ++ escaped)) v
          (by simp only [List.length_append, List.length_cons] at hf; omega)
          (by rw [List.getLast?_append, List.getLast?_append]; rfl)
        refine ⟨a', w', e1.trans h1, by simp only [List.length_append, List.length_cons]; omega, h3, ?_, h5⟩
        rw [← h4, esc_split h, h92]
        simp
      · refine ⟨a, u ++ 34 :: v, ?_, Nat.le_refl _, ha, rfl, .inr ⟨u, v, rfl, h, h92⟩⟩
        rw [find_some h]
        simp only [inner, before ha, if_neg h92]

theorem outer_ok {b : Nat} (hb : b ≠ 92) : ∀ (f : Nat) (a w : Bytes), w.length < f → a.getLast? = some 34 → Free w →
    outer (some b) [34] [92, 34] f (a ++ w) (find [34] (a ++ w) a.length) = .ok (a ++ esc true 34 w)
  | 0, _, _, hf, _, _ => absurd hf (by omega)
  | f + 1, a, w, hf, ha, hfree => by
    rcases hfree with h | ⟨u, v, rfl, h, h92⟩
    · rw [find_none h, esc_none h]; rfl
    · have hlen : v.length < f := by simp only [List.length_append, List.length_cons] at hf; omega
      obtain ⟨a', w', h1, h2, h3, h4, h5⟩ := inner_ok hb (f + 1) (a ++ (u ++ [92, 34])) v (by omega)
          (by rw [List.getLast?_append, List.getLast?_append]; rfl)
      have el : a.length + u.length + ([92, 34] : Bytes).length = (a ++ (u ++ [92, 34])).length := by simp [Nat.add_assoc]
      have hr := replace_here (a := a) (u := u) (v := v) [92, 34]
      have hstep : outer (some b) [34] [92, 34] (f + 1) (a ++ (u ++ 34 :: v)) (find [34] (a ++ (u ++ 34 :: v)) a.length) =
          outer (some b) [34] [92, 34] f (a' ++ w') (find [34] (a' ++ w') a'.length) := by
        rw [find_some h]
        simp only [outer, List.length_singleton, hr, el, h1]
      rw [hstep, outer_ok hb f a' w' (by omega) h3 h5, ← h4, esc_split h]
      have : (u.getLast?.getD 34 == 92) = false := by simpa using h92
      simp [this]

/-- What `replace_all_string` makes of a text, if the character it reads outside of the text is no backslash. -/
theorem replaceAll_ok {b : Nat} (hb : b ≠ 92) {f : Nat} {t : Bytes} (hf : t.length < f) (prev : Nat) :
    replaceAll (some b) f t [34] [92, 34] = .ok (esc false prev t) := by
  unfold replaceAll
  obtain ⟨f, rfl⟩ : ∃ g, f = g + 1 := ⟨f - 1, by omega⟩
  have e0 : find [34] t 0 = find [34] ([] ++ t) ([] : Bytes).length := rfl
  rcases split_quote t with h | ⟨u, v, rfl, h⟩
  · rw [e0, find_none h, esc_none h]; rfl
  · have hlen : v.length < f := by simp only [List.length_append, List.length_cons] at hf; omega
    obtain ⟨a', w', h1, h2, h3, h4, h5⟩ := inner_ok hb (f + 1) ([] ++ (u ++ [92, 34])) v (by omega)
        (by rw [List.getLast?_append, List.getLast?_append]; rfl)
    have el : ([] : Bytes).length + u.length + ([92, 34] : Bytes).length = ([] ++ (u ++ [92, 34])).length := by simp
    have hr := replace_here (a := []) (u := u) (v := v) [92, 34]
    have hs : replace (u ++ 34 :: v) (([] : Bytes).length + u.length) 1 [92, 34] = ([] ++ (u ++ [92, 34])) ++ v := hr
    have hstep : outer (some b) [34] [92, 34] (f + 1) (u ++ 34 :: v) (find [34] (u ++ 34 :: v) 0) =
        outer (some b) [34] [92, 34] f (a' ++ w') (find [34] (a' ++ w') a'.length) := by
      rw [e0, find_some h]
      simp only [outer, List.length_singleton, hs, el, h1]
    rw [hstep, outer_ok hb f a' w' (by omega) h3 h5, ← h4, esc_split h]
    simp

/-- Reading outside of the text: exactly if there is a quotation mark. -/
theorem replaceAll_ub {f : Nat} {t : Bytes} (hf : t.length < f) : replaceAll none f t [34] [92, 34] = .ub ∨ 34 ∉ t := by
  by_cases h : 34 ∈ t
  · left
    have inner_ub : ∀ (f : Nat) (a w : Bytes), w.length < f → a.getLast? = some 34 →
        inner none [34] f (a ++ w) (find [34] (a ++ w) a.length) = .ub ∨
        ∃ a' w', inner none [34] f (a ++ w) (find [34] (a ++ w) a.length) = .ok (a' ++ w', find [34] (a' ++ w') a'.length) ∧
          w'.length ≤ w.length ∧ a'.getLast? = some 34 ∧ ∃ u v, w' = u ++ 34 :: v ∧ 34 ∉ u := by
      intro f
      induction f with
      | zero => intro a w hf; omega
      | succ f ih =>
        intro a w hf ha
        rcases split_quote w with h | ⟨u, v, rfl, h⟩
        · left; rw [find_none h]; rfl
        · by_cases h92 : u.getLast?.getD 34 = 92
          · have e1 : inner none [34] (f + 1) (a ++ (u ++ 34 :: v)) (find [34] (a ++ (u ++ 34 :: v)) a.length) =
                inner none [34] f ((a ++ (u ++ escaped)) ++ v) (find [34] ((a ++ (u ++ escaped)) ++ v) (a ++ (u ++ escaped)).length) := by
              have el : a.length + u.length + escaped.length = (a ++ (u ++ escaped)).length := by simp [Nat.add_assoc]
              have hr := replace_here (a := a) (u := u) (v := v) escaped
              rw [find_some h]
              simp only [inner, before ha, h92, if_true, List.length_singleton, hr, el]
            rw [e1]
            rcases ih (a ++ (u ++ escaped)) v (by simp only [List.length_append, List.length_cons] at hf; omega)
              (by rw [List.getLast?_append, List.getLast?_append]; rfl) with h1 | ⟨a', w', h1, h2, h3, h4⟩
            · exact .inl h1
            · exact .inr ⟨a', w', h1, by simp only [List.length_append, List.length_cons]; omega, h3, h4⟩
          · right
            refine ⟨a, u ++ 34 :: v, ?_, Nat.le_refl _, ha, u, v, rfl, h⟩
            rw [find_some h]
            simp only [inner, before ha, if_neg h92]
    have outer_ub : ∀ (f : Nat) (a u v : Bytes), (u ++ 34 :: v).length < f → 34 ∉ u →
        outer none [34] [92, 34] f (a ++ (u ++ 34 :: v)) (find [34] (a ++ (u ++ 34 :: v)) a.length) = .ub := by
      intro f
      induction f with
      | zero => intro a u v hf; omega
      | succ f ih =>
        intro a u v hf h
        have el : a.length + u.length + ([92, 34] : Bytes).length = (a ++ (u ++ [92, 34])).length := by simp [Nat.add_assoc]
        have hr := replace_here (a := a) (u := u) (v := v) [92, 34]
        simp only [List.length_append, List.length_cons] at hf
        rw [find_some h]
        simp only [outer, List.length_singleton, hr, el]
        rcases inner_ub (f + 1) (a ++ (u ++ [92, 34])) v (by omega)
            (by rw [List.getLast?_append, List.getLast?_append]; rfl) with h1 | ⟨a', w', h1, h2, h3, u', v', rfl, h4⟩
        · rw [h1]
        · rw [h1]
          exact ih a' u' v' (by omega) h4
    obtain ⟨u, v, rfl, hu⟩ := List.eq_append_cons_of_mem h
    exact outer_ub f [] u v hf hu
  · exact .inr h

/-! ## What the shell reads -/

theorem inside_char {c : Nat} {r : Bytes} (h1 : c ≠ 92) (h2 : c ≠ 34) (h3 : c ≠ 36) (h4 : c ≠ 96) :
    inside (c :: r) = (inside r).map fun x => (c :: x.1, x.2) := by
  rw [inside, if_neg h2, if_neg (by simp [h3, h4])]
  · intro h; exact absurd h h1
  · intro _ _ h; exact absurd h h1

theorem inside_close (r : Bytes) : inside (34 :: r) = some ([], r) := by
  rw [inside, if_pos rfl]
  · intro h; cases h
  · intro _ _ h; cases h

theorem inside_expand {c : Nat} {r : Bytes} (h : c = 36 ∨ c = 96) : inside (c :: r) = none := by
  rcases h with rfl | rfl <;>
  · rw [inside, if_neg (by decide), if_pos (by decide)]
    · intro h; cases h
    · intro _ _ h; cases h

theorem inside_slash {c : Nat} {r : Bytes} : inside (92 :: c :: r) =
    if c = 10 then inside r else (inside r).map fun x => ((if c ∈ special then [c] else [92, c]) ++ x.1, x.2) := by
  rw [inside]

theorem inside_quoted {c : Nat} {r : Bytes} (h : c ∈ special) : inside (92 :: c :: r) = (inside r).map fun x => (c :: x.1, x.2) := by
  have h10 : c ≠ 10 := by rintro rfl; exact absurd h (by decide)
  rw [inside_slash, if_neg h10]
  simp [h]

/-- The rest is shorter. -/
theorem inside_length : ∀ (n : Nat) (s x r : Bytes), s.length ≤ n → inside s = some (x, r) → r.length < s.length := by
  intro n
  induction n with
  | zero => intro s x r hn h; rw [List.length_eq_zero_iff.mp (by omega : s.length = 0)] at h; cases h
  | succ n ih =>
    intro s x r hn h
    cases s with
    | nil => cases h
    | cons c s =>
      simp only [List.length_cons] at hn ⊢
      by_cases h1 : c = 92
      · subst h1
        cases s with
        | nil => cases h
        | cons d s =>
          simp only [List.length_cons] at hn ⊢
          rw [inside_slash] at h
          split at h
          · have := ih s x r (by omega) h; omega
          · simp only [Option.map_eq_some_iff, Prod.mk.injEq] at h
            obtain ⟨⟨y, r'⟩, h, _, h2⟩ := h
            have := ih s y r' (by omega) h
            simp only at h2; subst h2; omega
      · by_cases h2 : c = 34
        · subst h2; rw [inside_close] at h
          simp only [Option.some.injEq, Prod.mk.injEq] at h
          rw [h.2]; omega
        · by_cases h3 : c = 36 ∨ c = 96
          · rw [inside_expand h3] at h; cases h
          · rw [inside_char h1 h2 (fun e => h3 (.inl e)) (fun e => h3 (.inr e))] at h
            simp only [Option.map_eq_some_iff, Prod.mk.injEq] at h
            obtain ⟨⟨y, r'⟩, h, _, h2⟩ := h
            have := ih s y r' (by omega) h
            simp only at h2; subst h2; omega

theorem passes_tail {seen : Bool} {c : Nat} {r : Bytes} (h : Passes seen (c :: r)) (hc : c ≠ 92) : Passes (seen || c == 34) r := by
  cases r with
  | nil => trivial
  | cons d r => rw [Passes, if_neg hc] at h; exact h.2.2

theorem passes_head {seen : Bool} {c : Nat} {r : Bytes} (h : Passes seen (c :: r)) (hc : c ≠ 92) : c ≠ 36 ∧ c ≠ 96 := by
  cases r with
  | nil => exact ⟨h.1, h.2.1⟩
  | cons d r => rw [Passes, if_neg hc] at h; exact ⟨h.1, h.2.1⟩

theorem passes_inside : ∀ (n : Nat) (t : Bytes) (seen : Bool) (prev : Nat) (rest : Bytes), t.length ≤ n → prev ≠ 92 → Passes seen t →
    inside (esc seen prev t ++ 34 :: rest) = some (t, rest) := by
  intro n
  induction n with
  | zero => intro t seen prev rest hn _ _; rw [List.length_eq_zero_iff.mp (by omega : t.length = 0)]; exact inside_close rest
  | succ n ih =>
    intro t seen prev rest hn hp h
    cases t with
    | nil => exact inside_close rest
    | cons c t =>
      simp only [List.length_cons] at hn
      by_cases h1 : c = 92
      · subst h1
        cases t with
        | nil => exact absurd rfl h.2.2
        | cons d t =>
          simp only [List.length_cons] at hn
          rw [Passes, if_pos rfl] at h
          obtain ⟨d1, d2, d3, d4, d5, h⟩ := h
          by_cases hd : d = 34
          · subst hd
            have hs := d5 rfl
            subst hs
            have h' := passes_tail h (by decide)
            have e : esc true prev (92 :: 34 :: t) ++ 34 :: rest = 92 :: 92 :: 92 :: 34 :: (esc true 34 t ++ 34 :: rest) := rfl
            rw [e, inside_quoted (by decide), inside_quoted (by decide), ih t true 34 rest (by omega) (by decide) h']
            rfl
          · have h' := passes_tail h d3
            have hs : (seen || d == 34) = seen := by simp [hd]
            rw [hs] at h'
            have e : esc seen prev (92 :: d :: t) ++ 34 :: rest = 92 :: d :: (esc seen d t ++ 34 :: rest) := by
              rw [esc, if_neg (by decide), esc, if_neg hd]; rfl
            rw [e, inside_slash, if_neg d4, ih t seen d rest (by omega) d3 h']
            have : d ∉ special := by simp [special, d1, d2, d3, hd]
            simp [this]
      · obtain ⟨c1, c2⟩ := passes_head h h1
        have h' := passes_tail h h1
        by_cases h2 : c = 34
        · subst h2
          have e : esc seen prev (34 :: t) ++ 34 :: rest = 92 :: 34 :: (esc true 34 t ++ 34 :: rest) := by
            rw [esc, if_pos rfl]
            have : (seen && prev == 92) = false := by simp [hp]
            rw [this]; rfl
          have hs : (seen || (34 : Nat) == 34) = true := by simp
          rw [hs] at h'
          rw [e, inside_slash, if_neg (by decide), ih t true 34 rest (by omega) (by decide) h']
          rfl
        · have e : esc seen prev (c :: t) ++ 34 :: rest = c :: (esc seen c t ++ 34 :: rest) := by
            rw [esc, if_neg h2]; rfl
          have hs : (seen || c == 34) = seen := by simp [h2]
          rw [hs] at h'
          rw [e, inside_char h1 h2 c1 c2, ih t seen c rest (by omega) h1 h']
          rfl

/-- What is read is never longer than the text. -/
theorem inside_le : ∀ (n : Nat) (t : Bytes) (seen : Bool) (prev : Nat) (x rest : Bytes), t.length ≤ n →
    inside (esc seen prev t ++ 34 :: rest) = some (x, rest) → x.length ≤ t.length := by
  intro n
  induction n with
  | zero =>
    intro t seen prev x rest hn h
    rw [List.length_eq_zero_iff.mp (by omega : t.length = 0)] at h ⊢
    rw [show esc seen prev [] ++ 34 :: rest = 34 :: rest from rfl, inside_close] at h
    simp only [Option.some.injEq, Prod.mk.injEq] at h
    rw [← h.1]; exact Nat.le_refl _
  | succ n ih =>
    intro t seen prev x rest hn h
    cases t with
    | nil => exact ih [] seen prev x rest (by simp) h
    | cons c t =>
      simp only [List.length_cons] at hn ⊢
      by_cases h2 : c = 34
      · subst h2
        by_cases hs : (seen && prev == 92) = true
        · -- closed too early
          rw [esc, if_pos rfl, if_pos hs, show escaped ++ esc true 34 t ++ 34 :: rest = 92 :: 92 :: 34 :: (esc true 34 t ++ 34 :: rest) from rfl,
            inside_slash, if_neg (by decide), inside_close] at h
          simp only [Option.map_some, Option.some.injEq, Prod.mk.injEq] at h
          have := congrArg List.length h.2
          simp only [List.length_append, List.length_cons] at this
          omega
        · rw [esc, if_pos rfl, if_neg hs, show [92, 34] ++ esc true 34 t ++ 34 :: rest = 92 :: 34 :: (esc true 34 t ++ 34 :: rest) from rfl,
            inside_slash, if_neg (by decide)] at h
          simp only [Option.map_eq_some_iff, Prod.mk.injEq] at h
          obtain ⟨⟨y, r'⟩, h, e1, e2⟩ := h
          simp only at e2; subst e2
          have := ih t true 34 y _ (by omega) h
          rw [← e1]
          simp only [special, List.length_append]
          simp; omega
      · by_cases h1 : c = 92
        · subst h1
          rw [esc, if_neg (by decide)] at h
          cases t with
          | nil =>
            rw [show 92 :: esc seen 92 [] ++ 34 :: rest = 92 :: 34 :: rest from rfl, inside_slash, if_neg (by decide)] at h
            simp only [Option.map_eq_some_iff, Prod.mk.injEq] at h
            obtain ⟨⟨y, r'⟩, h, e1, e2⟩ := h
            simp only at e2; subst e2
            have := inside_length _ _ _ _ (Nat.le_refl _) h
            omega
          | cons d t =>
            simp only [List.length_cons] at hn ⊢
            by_cases hd : d = 34
            · subst hd
              by_cases hs : seen = true
              · subst hs
                rw [show 92 :: esc true 92 (34 :: t) ++ 34 :: rest = 92 :: 92 :: 92 :: 34 :: (esc true 34 t ++ 34 :: rest) from rfl,
                  inside_quoted (by decide), inside_quoted (by decide)] at h
                simp only [Option.map_eq_some_iff, Prod.mk.injEq] at h
                obtain ⟨_, ⟨⟨z, r''⟩, h, rfl⟩, e1, e2⟩ := h
                simp only at e1 e2; subst e2
                have := ih t true 34 z _ (by omega) h
                rw [← e1]
                simp; omega
              · have hs : seen = false := by simpa using hs
                subst hs
                rw [show 92 :: esc false 92 (34 :: t) ++ 34 :: rest = 92 :: 92 :: 34 :: (esc true 34 t ++ 34 :: rest) from rfl,
                  inside_slash, if_neg (by decide), inside_close] at h
                simp only [Option.map_some, Option.some.injEq, Prod.mk.injEq] at h
                have := congrArg List.length h.2
                simp only [List.length_append, List.length_cons] at this
                omega
            · rw [esc, if_neg hd, show 92 :: (d :: esc seen d t) ++ 34 :: rest = 92 :: d :: (esc seen d t ++ 34 :: rest) from rfl,
                inside_slash] at h
              split at h
              · have := ih t seen d x rest (by omega) h; omega
              · simp only [Option.map_eq_some_iff, Prod.mk.injEq] at h
                obtain ⟨⟨y, r'⟩, h, e1, e2⟩ := h
                simp only at e2; subst e2
                have := ih t seen d y _ (by omega) h
                rw [← e1]
                split <;> simp <;> omega
        · by_cases h3 : c = 36 ∨ c = 96
          · rw [esc, if_neg h2, List.cons_append, inside_expand h3] at h; cases h
          · rw [esc, if_neg h2, List.cons_append, inside_char h1 h2 (fun e => h3 (.inl e)) (fun e => h3 (.inr e))] at h
            simp only [Option.map_eq_some_iff, Prod.mk.injEq] at h
            obtain ⟨⟨y, r'⟩, h, e1, e2⟩ := h
            simp only at e2; subst e2
            have := ih t seen c y _ (by omega) h
            rw [← e1]
            simp; omega

/-- A text that is read as itself passes. -/
theorem inside_passes : ∀ (n : Nat) (t : Bytes) (seen : Bool) (prev : Nat) (rest : Bytes), t.length ≤ n →
    inside (esc seen prev t ++ 34 :: rest) = some (t, rest) → Passes seen t := by
  intro n
  induction n with
  | zero => intro t seen prev rest hn _; rw [List.length_eq_zero_iff.mp (by omega : t.length = 0)]; trivial
  | succ n ih =>
    intro t seen prev rest hn h
    cases t with
    | nil => trivial
    | cons c t =>
      simp only [List.length_cons] at hn
      have step : c ≠ 92 → c ≠ 36 → c ≠ 96 → Passes (seen || c == 34) t → Passes seen (c :: t) := by
        intro c1 c2 c3 h
        cases t with
        | nil => exact ⟨c2, c3, c1⟩
        | cons d t => rw [Passes, if_neg c1]; exact ⟨c2, c3, h⟩
      by_cases h2 : c = 34
      · subst h2
        by_cases hs : (seen && prev == 92) = true
        · rw [esc, if_pos rfl, if_pos hs, show escaped ++ esc true 34 t ++ 34 :: rest = 92 :: 92 :: 34 :: (esc true 34 t ++ 34 :: rest) from rfl,
            inside_slash, if_neg (by decide), inside_close] at h
          simp only [Option.map_some, Option.some.injEq, Prod.mk.injEq] at h
          have := congrArg List.length h.2
          simp only [List.length_append, List.length_cons] at this
          omega
        · rw [esc, if_pos rfl, if_neg hs, show [92, 34] ++ esc true 34 t ++ 34 :: rest = 92 :: 34 :: (esc true 34 t ++ 34 :: rest) from rfl,
            inside_slash, if_neg (by decide)] at h
          simp only [Option.map_eq_some_iff, Prod.mk.injEq] at h
          obtain ⟨⟨y, r'⟩, h, e1, e2⟩ := h
          simp only at e2; subst e2
          have e1 : y = t := by simpa [special] using e1
          subst e1
          refine step (by decide) (by decide) (by decide) ?_
          have : (seen || (34 : Nat) == 34) = true := by simp
          rw [this]
          exact ih y true 34 _ (by omega) h
      · by_cases h1 : c = 92
        · subst h1
          rw [esc, if_neg (by decide)] at h
          cases t with
          | nil =>
            rw [show 92 :: esc seen 92 [] ++ 34 :: rest = 92 :: 34 :: rest from rfl, inside_slash, if_neg (by decide)] at h
            simp only [Option.map_eq_some_iff, Prod.mk.injEq] at h
            obtain ⟨⟨y, r'⟩, h, e1, e2⟩ := h
            simp only at e2; subst e2
            have := inside_length _ _ _ _ (Nat.le_refl _) h
            omega
          | cons d t =>
            simp only [List.length_cons] at hn
            rw [Passes, if_pos rfl]
            by_cases hd : d = 34
            · subst hd
              by_cases hs : seen = true
              · subst hs
                rw [show 92 :: esc true 92 (34 :: t) ++ 34 :: rest = 92 :: 92 :: 92 :: 34 :: (esc true 34 t ++ 34 :: rest) from rfl,
                  inside_quoted (by decide), inside_quoted (by decide)] at h
                simp only [Option.map_eq_some_iff, Prod.mk.injEq] at h
                obtain ⟨_, ⟨⟨z, r''⟩, h, rfl⟩, e1, e2⟩ := h
                simp only at e1 e2; subst e2
                have e1 : z = t := by simpa using e1
                subst e1
                refine ⟨by decide, by decide, by decide, by decide, fun _ => rfl, ?_⟩
                have := ih z true 34 _ (by omega) h
                cases z with
                | nil => exact ⟨by decide, by decide, by decide⟩
                | cons q z => rw [Passes, if_neg (by decide)]; exact ⟨by decide, by decide, this⟩
              · have hs : seen = false := by simpa using hs
                subst hs
                rw [show 92 :: esc false 92 (34 :: t) ++ 34 :: rest = 92 :: 92 :: 34 :: (esc true 34 t ++ 34 :: rest) from rfl,
                  inside_slash, if_neg (by decide), inside_close] at h
                simp only [Option.map_some, Option.some.injEq, Prod.mk.injEq] at h
                have := congrArg List.length h.2
                simp only [List.length_append, List.length_cons] at this
                omega
            · rw [esc, if_neg hd, show 92 :: (d :: esc seen d t) ++ 34 :: rest = 92 :: d :: (esc seen d t ++ 34 :: rest) from rfl,
                inside_slash] at h
              split at h
              · have := inside_le _ t seen d _ rest (Nat.le_refl _) h
                simp only [List.length_cons] at this; omega
              · rename_i h10
                simp only [Option.map_eq_some_iff, Prod.mk.injEq] at h
                obtain ⟨⟨y, r'⟩, h, e1, e2⟩ := h
                simp only at e2; subst e2
                have hle := inside_le _ t seen d y _ (Nat.le_refl _) h
                by_cases hsp : d ∈ special
                · rw [if_pos hsp] at e1
                  have := congrArg List.length e1
                  simp only [List.length_append, List.length_cons, List.length_nil] at this
                  omega
                · rw [if_neg hsp] at e1
                  have e1 : y = t := by simpa using e1
                  subst e1
                  simp only [special, List.mem_cons, List.not_mem_nil, or_false, not_or] at hsp
                  refine ⟨hsp.1, hsp.2.1, hsp.2.2.2, h10, fun e => absurd e hd, ?_⟩
                  have := ih y seen d _ (by omega) h
                  cases y with
                  | nil => exact ⟨hsp.1, hsp.2.1, hsp.2.2.2⟩
                  | cons q z =>
                    rw [Passes, if_neg hsp.2.2.2]
                    have hs : (seen || d == 34) = seen := by simp [hd]
                    rw [hs]
                    exact ⟨hsp.1, hsp.2.1, this⟩
        · by_cases h3 : c = 36 ∨ c = 96
          · rw [esc, if_neg h2, List.cons_append, inside_expand h3] at h; cases h
          · have h36 : c ≠ 36 := fun e => h3 (.inl e)
            have h96 : c ≠ 96 := fun e => h3 (.inr e)
            rw [esc, if_neg h2, List.cons_append, inside_char h1 h2 h36 h96] at h
            simp only [Option.map_eq_some_iff, Prod.mk.injEq] at h
            obtain ⟨⟨y, r'⟩, h, e1, e2⟩ := h
            simp only at e2; subst e2
            have e1 : y = t := by simpa using e1
            subst e1
            refine step h1 h36 h96 ?_
            have hs : (seen || c == 34) = seen := by simp [h2]
            rw [hs]
            exact ih y seen c _ (by omega) h

/-! ## Tokens -/

theorem tokens_inside : ∀ (n : Nat) (s x r w : Bytes), s.length ≤ n → inside s = some (x, r) →
    tokens .double (some w) s = tokens .plain (some (w ++ x)) r := by
  intro n
  induction n with
  | zero => intro s x r w hn h; rw [List.length_eq_zero_iff.mp (by omega : s.length = 0)] at h; cases h
  | succ n ih =>
    intro s x r w hn h
    cases s with
    | nil => cases h
    | cons c s =>
      simp only [List.length_cons] at hn
      by_cases h1 : c = 92
      · subst h1
        cases s with
        | nil => cases h
        | cons d s =>
          simp only [List.length_cons] at hn
          rw [inside_slash] at h
          rw [tokens]
          by_cases h10 : d = 10
          · rw [if_pos h10] at h ⊢
            exact ih s x r w (by omega) h
          · rw [if_neg h10] at h ⊢
            simp only [Option.map_eq_some_iff, Prod.mk.injEq] at h
            obtain ⟨⟨y, r'⟩, h, e1, e2⟩ := h
            simp only at e1 e2; subst e2; subst e1
            by_cases hsp : d ∈ special
            · rw [if_pos hsp, if_pos hsp]
              refine (ih s y r' (w ++ [d]) (by omega) h).trans ?_
              rw [List.append_assoc]
            · rw [if_neg hsp, if_neg hsp]
              refine (ih s y r' (w ++ [92, d]) (by omega) h).trans ?_
              rw [List.append_assoc]
      · by_cases h2 : c = 34
        · subst h2
          rw [inside_close] at h
          simp only [Option.some.injEq, Prod.mk.injEq] at h
          obtain ⟨rfl, rfl⟩ := h
          rw [tokens, if_pos rfl, List.append_nil]
          · intro h; cases h
          · intro _ _ h; cases h
        · by_cases h3 : c = 36 ∨ c = 96
          · rw [inside_expand h3] at h; cases h
          · rw [inside_char h1 h2 (fun e => h3 (.inl e)) (fun e => h3 (.inr e))] at h
            simp only [Option.map_eq_some_iff, Prod.mk.injEq] at h
            obtain ⟨⟨y, r'⟩, h, e1, e2⟩ := h
            simp only at e1 e2; subst e2; subst e1
            rw [tokens, if_neg h2, if_neg h3]
            · refine (ih s y r' (w ++ [c]) (by omega) h).trans ?_
              rw [List.append_assoc]; rfl
            · intro h; exact absurd h h1
            · intro _ _ h; exact absurd h h1

/-- A character that needs no quotes. -/
theorem tokens_char {c : Nat} (h : (97 ≤ c ∧ c ≤ 122) ∨ (65 ≤ c ∧ c ≤ 90) ∨ (48 ≤ c ∧ c ≤ 57) ∨ c ∈ bytes "_-+.,/:=@%") (cur : Option Bytes) (r : Bytes) :
    tokens .plain cur (c :: r) = tokens .plain (more cur [c]) r := by
  have key : c ≠ 92 ∧ ¬(c = 32 ∨ c = 9) ∧ c ∉ bytes "\n;|&<>()" ∧ c ≠ 34 ∧ c ≠ 39 ∧ c ∉ bytes "$`*?[~" ∧ c ≠ 35 := by
    have e1 : bytes "\n;|&<>()" = [10, 59, 124, 38, 60, 62, 40, 41] := by decide
    have e2 : bytes "$`*?[~" = [36, 96, 42, 63, 91, 126] := by decide
    have e3 : bytes "_-+.,/:=@%" = [95, 45, 43, 46, 44, 47, 58, 61, 64, 37] := by decide
    rw [e1, e2]
    rw [e3] at h
    simp only [List.mem_cons, List.not_mem_nil, or_false, not_or] at h ⊢
    omega
  obtain ⟨h1, h2, h3, h4, h5, h6, h7⟩ := key
  rw [tokens, if_neg h2, if_neg h3, if_neg h4, if_neg h5, if_neg h6, if_neg (fun h => h7 h.1)]
  · intro h; exact absurd h h1
  · intro _ _ h; exact absurd h h1

theorem more_more (cur : Option Bytes) (a b : Bytes) : more (more cur a) b = more cur (a ++ b) := by
  simp [more]

theorem tokens_safe {w : Bytes} (h : Safe w) (cur : Option Bytes) (r : Bytes) :
    tokens .plain cur (w ++ r) = tokens .plain (more cur w) r := by
  obtain ⟨hne, h⟩ := h
  have key : ∀ (w : Bytes), (∀ c ∈ w, (97 ≤ c ∧ c ≤ 122) ∨ (65 ≤ c ∧ c ≤ 90) ∨ (48 ≤ c ∧ c ≤ 57) ∨ c ∈ bytes "_-+.,/:=@%") →
      ∀ v, tokens .plain (some v) (w ++ r) = tokens .plain (some (v ++ w)) r := by
    intro w
    induction w with
    | nil => intro _ v; simp
    | cons c w ih =>
      intro h v
      rw [List.cons_append, tokens_char (h c (by simp))]
      refine (ih (fun x hx => h x (List.mem_cons_of_mem _ hx)) (v ++ [c])).trans ?_
      simp
  cases w with
  | nil => exact absurd rfl hne
  | cons c w =>
    rw [List.cons_append, tokens_char (h c (by simp))]
    refine (key w (fun x hx => h x (List.mem_cons_of_mem _ hx)) (cur.getD [] ++ [c])).trans ?_
    simp [more]

theorem tokens_blank (cur : Option Bytes) (r : Bytes) : tokens .plain cur (32 :: r) = (tokens .plain none r).map (flush cur ++ ·) := by
  rw [tokens, if_pos (by decide)]
  · intro h; cases h
  · intro _ _ h; cases h

theorem tokens_op {c : Nat} (h : c ∈ bytes "\n;|&<>()") (cur : Option Bytes) (r : Bytes) :
    tokens .plain cur (c :: r) = (tokens .plain none r).map (flush cur ++ .op c :: ·) := by
  have e1 : bytes "\n;|&<>()" = [10, 59, 124, 38, 60, 62, 40, 41] := by decide
  have key : c ≠ 92 ∧ ¬(c = 32 ∨ c = 9) := by
    rw [e1] at h
    simp only [List.mem_cons, List.not_mem_nil, or_false] at h
    omega
  rw [tokens, if_neg key.2, if_pos h]
  · intro h; exact absurd h key.1
  · intro _ _ h; exact absurd h key.1

theorem tokens_quote (cur : Option Bytes) (r : Bytes) : tokens .plain cur (34 :: r) = tokens .double (more cur []) r := by
  rw [tokens, if_neg (by decide), if_neg (by decide), if_pos rfl]
  · intro h; cases h
  · intro _ _ h; cases h

/-- A safe word and a blank. -/
theorem tokens_word {w : Bytes} (h : Safe w) (r : Bytes) : tokens .plain none (w ++ 32 :: r) = (tokens .plain none r).map (.word w :: ·) := by
  rw [tokens_safe h, tokens_blank]; rfl

theorem tokens_words {ws : List Bytes} (hne : ws ≠ []) (h : ∀ w ∈ ws, Safe w) (r : Bytes) :
    tokens .plain none (joinWords ws ++ 32 :: r) = (tokens .plain none r).map (ws.map Tok.word ++ ·) := by
  induction ws with
  | nil => exact absurd rfl hne
  | cons w ws ih =>
    cases ws with
    | nil =>
      have e : joinWords [w] = w := by simp [joinWords]
      rw [e]
      exact tokens_word (h w (by simp)) r
    | cons v ws =>
      have e : joinWords (w :: v :: ws) = w ++ 32 :: joinWords (v :: ws) := by simp [joinWords, List.intercalate]
      rw [e, List.append_assoc, List.cons_append, tokens_word (h w (by simp)), ih (by simp) (fun x hx => h x (List.mem_cons_of_mem _ hx)),
        Option.map_map]
      rfl

theorem safe_append {a b : Bytes} (ha : Safe a) (hb : Safe b) : Safe (a ++ b) :=
  ⟨by simp [ha.1], fun c hc => (List.mem_append.mp hc).elim (ha.2 c) (hb.2 c)⟩

theorem tokens_paths {flag : Bytes} (hf : Safe flag) : ∀ {ps : List Bytes}, (∀ p ∈ ps, Safe p) → ∀ (r : Bytes),
    tokens .plain none (ps.flatMap (fun p => flag ++ p ++ [32]) ++ r) =
      (tokens .plain none r).map ((ps.map (flag ++ ·)).map Tok.word ++ ·)
  | [], _, r => by simp
  | p :: ps, h, r => by
    have e : (p :: ps).flatMap (fun p => flag ++ p ++ [32]) ++ r = (flag ++ p) ++ 32 :: (ps.flatMap (fun p => flag ++ p ++ [32]) ++ r) := by
      simp
    rw [e, tokens_word (safe_append hf (h p (by simp))), tokens_paths hf (fun q hq => h q (List.mem_cons_of_mem _ hq)), Option.map_map]
    rfl

theorem tokens_redirect (cur : Option Bytes) : tokens .plain cur (bytes " 2>/dev/null") =
    some (flush cur ++ [.word (bytes "2"), .op 62, .word (bytes "/dev/null")]) := by
  have e : bytes " 2>/dev/null" = 32 :: 50 :: 62 :: bytes "/dev/null" := by decide
  have hs : Safe (bytes "/dev/null") := ⟨by decide, by decide⟩
  rw [e, tokens_blank, tokens_char (by decide), tokens_op (by decide), ← List.append_nil (bytes "/dev/null"), tokens_safe hs, tokens]
  simp [flush, more]
  rfl

/-! ## Reading the output -/

theorem line_prefix : ∀ (n : Nat) (s : Bytes), ∃ r, s = line n s ++ r
  | 0, s => ⟨s, rfl⟩
  | _ + 1, [] => ⟨[], rfl⟩
  | n + 1, c :: s => by
    rw [line]
    split
    · rename_i h; subst h; exact ⟨s, rfl⟩
    · obtain ⟨r, h⟩ := line_prefix n s
      exact ⟨r, congrArg (c :: ·) h⟩

theorem line_some (n c : Nat) (s : Bytes) : 1 ≤ (line (n + 1) (c :: s)).length := by
  rw [line]; split <;> simp

theorem cString_id {s : Bytes} (h : 0 ∉ s) : cString s = s := by
  unfold cString
  induction s with
  | nil => rfl
  | cons c s ih =>
    simp only [List.mem_cons, not_or] at h
    rw [List.takeWhile_cons, if_pos (by simpa using Ne.symm h.1), ih h.2]

theorem collect_ok : ∀ (f : Nat) (s : Bytes), s.length < f → 0 ∉ s → collect f s = s
  | 0, _, h, _ => absurd h (by omega)
  | _ + 1, [], _, _ => rfl
  | f + 1, c :: s, hf, h0 => by
    obtain ⟨r, hr⟩ := line_prefix 255 (c :: s)
    have hl : 1 ≤ (line 255 (c :: s)).length := line_some 254 c s
    have hlen := congrArg List.length hr
    simp only [List.length_append, List.length_cons] at hlen hf
    have hd : (c :: s).drop (line 255 (c :: s)).length = r := by
      generalize line 255 (c :: s) = l at hr
      rw [hr]; exact List.drop_left' rfl
    show cString (line 255 (c :: s)) ++ collect f ((c :: s).drop (line 255 (c :: s)).length) = c :: s
    have m1 : 0 ∉ line 255 (c :: s) := fun h => h0 (by rw [hr]; exact List.mem_append_left _ h)
    have m2 : 0 ∉ r := fun h => h0 (by rw [hr]; exact List.mem_append_right _ h)
    rw [hd, cString_id m1, collect_ok f r (by omega) m2]
    exact hr.symm

end Verif.Pre
