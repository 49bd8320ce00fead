import Verif.Lemmas.Builder
/-!
# Enumerations (C35, C36)

`EnumB.run e ops` runs a history of `add_enumerator` calls (with or without explicit value), and
returns the enumeration together with the accepted declarations in order. -/

namespace Verif

namespace EnumB

theorem pow_pos (w : EW) : 0 < 2 ^ (8 * w.size) := Nat.pow_pos (by decide)

theorem step_eq (e : EnumB) (op : Op) :
    e.step op = e.add (e.declared op).1 (e.declared op).2 := by
  cases op <;> simp [step, addImplicit, declared, add]

theorem declared_lt (e : EnumB) (op : Op) : (e.declared op).2 < 2 ^ (8 * e.w.size) := by
  cases op <;> exact Nat.mod_lt _ (pow_pos _)

theorem add_cases (e : EnumB) (n : String) (v : Nat) (hv : v < 2 ^ (8 * e.w.size)) :
    (e.add n v = (e, false) ∧ (v < e.next ∨ omHas e.vals n = true)) ∨
    (e.next ≤ v ∧ omHas e.vals n = false ∧
      e.add n v = (⟨e.w, (omEmplace e.vals n v).1, (v + 1) % 2 ^ (8 * e.w.size)⟩, true)) := by
  unfold add
  simp only [Nat.mod_eq_of_lt hv]
  by_cases h1 : v < e.next
  · left; simp [h1]
  · by_cases h2 : omHas e.vals n = true
    · left; simp [h1, h2]
    · right; simp [h1, h2]; omega

/-- The lookup table is exactly the list of accepted declarations. -/
theorem run_vals (ops : List Op) (e : EnumB) (hn : (e.vals.map (·.1)).Nodup) :
    (((e.run ops).1.vals.map (·.1)).Nodup ∧ (e.run ops).1.w = e.w) ∧
    (∀ n v, (n, v) ∈ (e.run ops).1.vals ↔ (n, v) ∈ e.vals ∨ (n, v) ∈ (e.run ops).2) ∧
    (∀ d ∈ (e.run ops).2, d.1 ∉ e.vals.map (·.1) ∧ d.2 < 2 ^ (8 * e.w.size)) ∧
    ((e.run ops).2.map (·.1)).Nodup := by
  induction ops generalizing e with
  | nil => simp [run, hn]
  | cons op ops ih =>
    have hlt := declared_lt e op
    rcases add_cases e (e.declared op).1 (e.declared op).2 hlt with ⟨he, -⟩ | ⟨-, hfresh, he⟩
    · have : e.run (op :: ops) = e.run ops := by
        simp only [run]; rw [step_eq, he]
      rw [this]; exact ih e hn
    · generalize hg : (⟨e.w, (omEmplace e.vals (e.declared op).1 (e.declared op).2).1,
        ((e.declared op).2 + 1) % 2 ^ (8 * e.w.size)⟩ : EnumB) = e' at *
      have hrun : e.run (op :: ops) = ((e'.run ops).1, e.declared op :: (e'.run ops).2) := by
        simp only [run]; rw [step_eq, he]
      have hvals : e'.vals = omIns (e.declared op).1 (e.declared op).2 e.vals := by
        subst hg; simp [omEmplace, hfresh]
      have hw : e'.w = e.w := by subst hg; rfl
      have hnd : (e'.vals.map (·.1)).Nodup := by
        rw [hvals]; exact omIns_keys_nodup hn (omHas_false_iff.mp hfresh)
      obtain ⟨⟨i1, i2⟩, i3, i4, i5⟩ := ih e' hnd
      rw [hrun]
      have hkeys : ∀ x, x ∈ e'.vals.map (·.1) ↔ x = (e.declared op).1 ∨ x ∈ e.vals.map (·.1) := by
        intro x
        rw [hvals]
        have := ((omIns_perm (e.declared op).1 (e.declared op).2 e.vals).map (·.1)).mem_iff (a := x)
        rw [this]; simp
      refine ⟨⟨i1, by rw [i2, hw]⟩, ?_, ?_, ?_⟩
      · intro n v
        rw [i3, hvals, mem_omIns, List.mem_cons]
        constructor
        · rintro ((h | h) | h)
          · exact .inr (.inl h)
          · exact .inl h
          · exact .inr (.inr h)
        · rintro (h | h | h)
          · exact .inl (.inr h)
          · exact .inl (.inl h)
          · exact .inr h
      · intro d hd
        rcases List.mem_cons.mp hd with rfl | hd
        · exact ⟨omHas_false_iff.mp hfresh, hlt⟩
        · have := i4 d hd
          rw [hkeys] at this
          exact ⟨fun hc => this.1 (.inr hc), by rw [← hw]; exact this.2⟩
      · simp only [List.map_cons, List.nodup_cons]
        refine ⟨?_, i5⟩
        intro hc
        obtain ⟨d, hd, hde⟩ := List.mem_map.mp hc
        have := (i4 d hd).1
        rw [hkeys, hde] at this
        exact this (.inl rfl)

theorem run_sorted (ops : List Op) (e : EnumB)
    (hmax : ∀ d ∈ (e.run ops).2.dropLast, d.2 + 1 ≠ 2 ^ (8 * e.w.size)) :
    ((e.run ops).2.map (·.2)).Pairwise (· < ·) ∧ ∀ d ∈ (e.run ops).2, e.next ≤ d.2 := by
  induction ops generalizing e with
  | nil => simp [run]
  | cons op ops ih =>
    have hlt := declared_lt e op
    rcases add_cases e (e.declared op).1 (e.declared op).2 hlt with ⟨he, -⟩ | ⟨hge, hfresh, he⟩
    · have : e.run (op :: ops) = e.run ops := by
        simp only [run]; rw [step_eq, he]
      rw [this] at hmax ⊢; exact ih e hmax
    · generalize hg : (⟨e.w, (omEmplace e.vals (e.declared op).1 (e.declared op).2).1,
        ((e.declared op).2 + 1) % 2 ^ (8 * e.w.size)⟩ : EnumB) = e' at *
      have hrun : e.run (op :: ops) = ((e'.run ops).1, e.declared op :: (e'.run ops).2) := by
        simp only [run]; rw [step_eq, he]
      rw [hrun] at hmax ⊢
      simp only at hmax ⊢
      cases hL : (e'.run ops).2 with
      | nil => simp [hge]
      | cons d L =>
        rw [hL] at hmax
        have hd0 := hmax (e.declared op) (by simp)
        have hw : e'.w = e.w := by subst hg; rfl
        have hnext : e'.next = (e.declared op).2 + 1 := by
          subst hg; exact Nat.mod_eq_of_lt (by omega)
        have hih := ih e' (by
          intro x hx
          rw [hw]
          rw [hL] at hx
          exact hmax x (by simp only [List.dropLast_cons_cons]; exact List.mem_cons_of_mem _ hx))
        rw [hL, hnext] at hih
        refine ⟨?_, ?_⟩
        · rw [List.map_cons, List.pairwise_cons]
          refine ⟨?_, hih.1⟩
          intro x hx
          obtain ⟨y, hy, rfl⟩ := List.mem_map.mp hx
          have := hih.2 y hy; omega
        · intro x hx
          rcases List.mem_cons.mp hx with rfl | hx
          · exact hge
          · have := hih.2 x hx; omega

theorem run_append (e : EnumB) (o1 o2 : List Op) :
    e.run (o1 ++ o2) = ((e.run o1).1.run o2 |>.1, (e.run o1).2 ++ ((e.run o1).1.run o2).2) := by
  induction o1 generalizing e with
  | nil => simp [run]
  | cons op ops ih =>
    simp only [List.cons_append, run]
    split
    · simp [ih]
    · exact ih _

/-- `next` after a history. -/
theorem run_next (ops : List Op) (e : EnumB) :
    (e.run ops).1.next = match (e.run ops).2.getLast? with
      | none => e.next
      | some d => (d.2 + 1) % 2 ^ (8 * e.w.size) := by
  induction ops generalizing e with
  | nil => simp [run]
  | cons op ops ih =>
    have hlt := declared_lt e op
    rcases add_cases e (e.declared op).1 (e.declared op).2 hlt with ⟨he, -⟩ | ⟨hge, hfresh, he⟩
    · have : e.run (op :: ops) = e.run ops := by
        simp only [run]; rw [step_eq, he]
      rw [this]; exact ih e
    · generalize hg : (⟨e.w, (omEmplace e.vals (e.declared op).1 (e.declared op).2).1,
        ((e.declared op).2 + 1) % 2 ^ (8 * e.w.size)⟩ : EnumB) = e' at *
      have hrun : e.run (op :: ops) = ((e'.run ops).1, e.declared op :: (e'.run ops).2) := by
        simp only [run]; rw [step_eq, he]
      have hw : e'.w = e.w := by subst hg; rfl
      rw [hrun]; simp only
      rw [ih e', List.getLast?_cons]
      cases hL : (e'.run ops).2.getLast? with
      | none => subst hg; simp
      | some d => simp [hw]

end EnumB

/-! ## C35 -/

/-- C35 (names): after any history of declarations, the enumerators are exactly the accepted
declarations, each name was accepted once, and `value(name)` returns its declared value. -/
theorem C35_names_exact (w : EW) (ops : List EnumB.Op) :
    let r := (EnumB.new w).run ops
    (r.2.map (·.1)).Nodup ∧ (∀ n v, r.1.value n = some v ↔ (n, v) ∈ r.2) ∧
    (∀ v, r.1.allowed v = true ↔ ∃ n, (n, v) ∈ r.2) := by
  intro r
  obtain ⟨⟨h1, -⟩, h2, -, h4⟩ := EnumB.run_vals ops (EnumB.new w) (by simp [EnumB.new])
  have h2' : ∀ n v, (n, v) ∈ r.1.vals ↔ (n, v) ∈ r.2 := by
    intro n v; rw [h2]; simp [EnumB.new, r]
  refine ⟨h4, ?_, ?_⟩
  · intro n v
    rw [← h2']
    exact ⟨omGet_mem, omGet_of_mem h1⟩
  · intro v
    simp only [EnumB.allowed, List.any_eq_true, beq_iff_eq]
    constructor
    · rintro ⟨p, hp, rfl⟩; exact ⟨p.1, (h2' _ _).mp hp⟩
    · rintro ⟨n, hn⟩; exact ⟨(n, v), (h2' _ _).mpr hn, rfl⟩

/-- C35, negation: enumerators need not be injective. After the largest value of the underlying type
`next_value_` wraps to 0 and anything is accepted again (EnumerationType.hpp 37-40). -/
theorem C35_injectivity_fails :
    ∃ (ops : List EnumB.Op) (n m : String) (v : Nat), n ≠ m ∧
      ((EnumB.new .w1).run ops).1.value n = some v ∧ ((EnumB.new .w1).run ops).1.value m = some v :=
  ⟨[.explicit "A" 255, .explicit "B" 255], "A", "B", 255, by decide, by decide, by decide⟩

/-- C35, partial: as long as no declaration follows one with the largest value of the underlying
type, the declared values strictly increase in declaration order; hence different names have
different values, and `value` and `enumerator` are inverse to each other.
Missing: declarations after the largest value, see `C35_injectivity_fails`. -/
theorem C35_injective_ordered_partial (w : EW) (ops : List EnumB.Op)
    (hmax : ∀ d ∈ ((EnumB.new w).run ops).2.dropLast, d.2 ≠ 2 ^ (8 * w.size) - 1) :
    let r := (EnumB.new w).run ops
    (r.2.map (·.2)).Pairwise (· < ·) ∧
    (∀ n m v, r.1.value n = some v → r.1.value m = some v → n = m) ∧
    (∀ n v, r.1.value n = some v → r.1.enumerator v = n) ∧
    (∀ v, r.1.allowed v = true → r.1.value (r.1.enumerator v) = some v) := by
  intro r
  have hs := EnumB.run_sorted ops (EnumB.new w) (by
    intro d hd h; apply hmax d hd; have : (EnumB.new w).w = w := rfl; rw [this] at h; omega)
  obtain ⟨hn, hval, hall⟩ := C35_names_exact w ops
  have hinj : ∀ n m v, r.1.value n = some v → r.1.value m = some v → n = m := by
    intro n m v h1 h2
    have m1 := (hval n v).mp h1
    have m2 := (hval m v).mp h2
    have hp : (((EnumB.new w).run ops).2.map (·.2)).Nodup := hs.1.imp (fun h => by omega)
    obtain ⟨i, hi⟩ := List.getElem?_of_mem m1
    obtain ⟨j, hj⟩ := List.getElem?_of_mem m2
    have hii := (List.getElem?_eq_some_iff.mp hi).1
    have hij : i = j := by
      apply (List.getElem?_inj (by simpa using hii) hp).mp
      simp [hi, hj]
    subst hij
    rw [hi] at hj; simpa using hj
  obtain ⟨⟨h1, -⟩, -, -, -⟩ := EnumB.run_vals ops (EnumB.new w) (by simp [EnumB.new])
  have hen : ∀ v, r.1.allowed v = true → r.1.value (r.1.enumerator v) = some v := by
    intro v hv
    unfold EnumB.enumerator
    simp only [EnumB.allowed, List.any_eq_true, beq_iff_eq] at hv
    cases hf : r.1.vals.find? (fun p => p.2 == v) with
    | none =>
      rw [List.find?_eq_none] at hf
      obtain ⟨p, hp, hpv⟩ := hv
      exact absurd (by simpa using hpv) (hf p hp)
    | some p =>
      have hp := List.mem_of_find?_eq_some hf
      have hpv := List.find?_some hf
      simp only [beq_iff_eq] at hpv
      simp only; subst hpv
      exact omGet_of_mem h1 hp
  refine ⟨hs.1, hinj, ?_, hen⟩
  intro n v hv
  have hal : r.1.allowed v = true := (hall v).mpr ⟨n, (hval n v).mp hv⟩
  exact hinj _ _ v (hen v hal) hv

/-- C35: an enumerator declared without a value gets the successor of the previously declared one
(0 for the first), unless that one was the largest value. -/
theorem C35_implicit_follows (w : EW) (ops : List EnumB.Op) (n : String)
    (hfresh : n ∉ ((EnumB.new w).run ops).2.map (·.1)) :
    let r := (EnumB.new w).run ops
    (∀ d, r.2.getLast? = some d → d.2 ≠ 2 ^ (8 * w.size) - 1 →
      ((EnumB.new w).run (ops ++ [.implicit n])).2 = r.2 ++ [(n, d.2 + 1)]) ∧
    (r.2 = [] → ((EnumB.new w).run (ops ++ [.implicit n])).2 = [(n, 0)]) := by
  intro r
  obtain ⟨⟨h1, hw⟩, h2, h3, h4⟩ := EnumB.run_vals ops (EnumB.new w) (by simp [EnumB.new])
  have hnext := EnumB.run_next ops (EnumB.new w)
  have hno : omHas r.1.vals n = false := by
    rw [omHas_false_iff]
    intro hc
    obtain ⟨p, hp, rfl⟩ := List.mem_map.mp hc
    have := (h2 p.1 p.2).mp hp
    simp only [EnumB.new, List.not_mem_nil, false_or] at this
    exact hfresh (List.mem_map.mpr ⟨p, this, rfl⟩)
  have hstep : ∀ x, r.1.next = x → x < 2 ^ (8 * r.1.w.size) →
      (r.1.run [.implicit n]).2 = [(n, x)] := by
    intro x hx hlt
    subst hx
    simp only [EnumB.run]
    rw [EnumB.step_eq]
    have hd : r.1.declared (.implicit n) = (n, r.1.next) := by
      simp [EnumB.declared, Nat.mod_eq_of_lt hlt]
    rw [hd]
    rcases EnumB.add_cases r.1 n r.1.next hlt with ⟨_, hbad | hbad⟩ | ⟨_, _, he⟩
    · omega
    · rw [hno] at hbad; cases hbad
    · simp only [he]
  have hw' : r.1.w = w := hw
  constructor
  · intro d hd hmax
    have hdm := List.mem_of_getLast? hd
    have hlt := (h3 d hdm).2
    have hww : (EnumB.new w).w = w := rfl
    rw [hd] at hnext
    simp only [hww] at hnext hlt
    have : (d.2 + 1) % 2 ^ (8 * w.size) = d.2 + 1 := Nat.mod_eq_of_lt (by omega)
    rw [EnumB.run_append]
    simp only
    rw [hstep (d.2 + 1) (by rw [← this]; exact hnext) (by rw [hw']; omega)]
  · intro he
    rw [EnumB.run_append]
    have he' : ((EnumB.new w).run ops).2 = [] := he
    rw [he'] at hnext ⊢
    simp only [List.nil_append]
    exact hstep 0 hnext (by rw [hw']; exact EnumB.pow_pos w)

example : let r := (EnumB.new .w1).run [.implicit "A", .explicit "B" 5, .implicit "C",
      .explicit "D" 3, .implicit "A"]
    r.2 = [("A", 0), ("B", 5), ("C", 6)] ∧ (∀ d ∈ r.2.dropLast, d.2 ≠ 2 ^ (8 * EW.w1.size) - 1) ∧
    r.1.enumerator 5 = "B" := by decide

/-! ## C36 -/

/-- The values a datum of enumeration type `e` can have: after construction and any history of
`value(v)` calls, accepted or refused. -/
inductive EnumB.Reach (e : EnumB) : Nat → Prop
  | construct : Reach e EnumB.construct
  | set (v) {d} : Reach e d → Reach e (e.setValue d v).1

/-- C36, negation: a fresh datum holds 0 even if 0 is not an enumerator (PrimitiveType.hpp
115-119 is not overridden by enumerations). -/
theorem C36_default_not_enumerator :
    ∃ (ops : List EnumB.Op) (d : Nat), ((EnumB.new .w4).run ops).1.Reach d ∧
      ((EnumB.new .w4).run ops).1.allowed d = false ∧ ((EnumB.new .w4).run ops).1.vals ≠ [] :=
  ⟨[.explicit "A" 1], 0, .construct, by decide, by decide⟩

/-- C36, partial: setting a value succeeds exactly for enumerators and then stores it, otherwise
the datum is unchanged; so a datum always holds an enumerator or still the initial 0.
Missing: the initial 0 when it is not an enumerator, see `C36_default_not_enumerator`. -/
theorem C36_enum_datum_partial (e : EnumB) :
    (∀ d v, ((e.setValue d v).2 = true ↔ e.allowed v = true) ∧
      ((e.setValue d v).2 = true → (e.setValue d v).1 = v) ∧
      ((e.setValue d v).2 = false → (e.setValue d v).1 = d)) ∧
    (∀ d, e.Reach d → e.allowed d = true ∨ d = 0) ∧
    (e.allowed 0 = true → ∀ d, e.Reach d → e.allowed d = true) := by
  have h2 : ∀ d, e.Reach d → e.allowed d = true ∨ d = 0 := by
    intro d hd
    induction hd with
    | construct => right; rfl
    | set v _ ih =>
      unfold EnumB.setValue; split
      · left; assumption
      · exact ih
  refine ⟨?_, h2, ?_⟩
  · intro d v; unfold EnumB.setValue; split <;> simp_all
  · intro h0 d hd
    rcases h2 d hd with h | rfl
    · exact h
    · exact h0

example : ((EnumB.new .w4).run [.implicit "A"]).1.allowed 0 = true := by decide

end Verif
