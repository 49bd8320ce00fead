import Verif.Lemmas.RefRead
import Verif.Spec.Data
import Verif.Props.Compat
/-! # Data: construction, copies, destruction -/

namespace Verif.Inst

theorem owned_zeroed (n : Nat) : owned (zeroed n) = 0 := by
  simp [owned, zeroed, List.countP_replicate, Cell.owning]

theorem newData_ok {T : Ty} {dec : List Cell → Option Val} {td : List Cell → Prop} {cl : Prop} {f : Nat → Mem → M Mem}
    {v : Val} (h : Makes T.memSize dec td cl f v) :
    ∃ cells lk, newData T f = .ok (⟨T.rget, cells, true⟩, lk) ∧ dec cells = some v ∧ (cl → lk = 0 ∧ td cells) := by
  obtain ⟨new, d, hr, hl, hd, hc⟩ := h [] (zeroed T.memSize) [] 0 (by simp [zeroed])
  refine ⟨new, d, ?_, hd, hc (owned_zeroed _)⟩
  simp only [List.nil_append, List.append_nil, List.length_nil, Nat.zero_add] at hr
  simp only [newData, hr, Except.map]

/-- Construction. -/
theorem create_ok {T : Ty} (h : T.WF) :
    ∃ d, Data.create T = .ok (d, 0) ∧ d.ty = T.rget ∧ d.Holds (defVal T) ∧ d.Tidy := by
  obtain ⟨cells, lk, hr, hd, hc⟩ := newData_ok (construct_ok T h)
  obtain ⟨rfl, ht⟩ := hc trivial
  refine ⟨_, by rw [Data.create, construct_rget]; exact hr, rfl, ⟨rfl, ?_⟩, ?_⟩
  · simpa only [decode_rget] using hd
  · simpa only [Data.Tidy, tidy_rget] using ht

/-- Conversion. -/
theorem convert_ok {T S : Ty} {src : List Cell} {v : Val} (h : T.WF) (hc : Convertible T S) (hv : decode S src = some v)
    (hn : compat T.rget S ≠ Cons.none) :
    ∃ d lk, Data.convert T S src = .ok (d, lk) ∧ d.ty = T.rget ∧ d.Holds (conv T S v) ∧ (T.Tight → lk = 0 ∧ d.Tidy) := by
  obtain ⟨cells, lk, hr, hd, ht⟩ := newData_ok (copyFrom_ok T h S src v hc hv [] [])
  simp only [List.nil_append, List.append_nil, List.length_nil] at hr
  refine ⟨_, lk, by rw [Data.convert, if_neg hn, copyFrom_rget]; exact hr, rfl, ⟨rfl, ?_⟩, ?_⟩
  · simpa only [decode_rget] using hd
  · simpa only [Data.Tidy, tidy_rget] using ht

/-- Copy construction. -/
theorem copyOf_ok {d : Data} {v : Val} (h : d.ty.WF) (hc : d.ty.Copyable) (hv : d.Holds v) (hs : v.Selected)
    (ha : d.ty.rget = d.ty) :
    ∃ e lk, Data.copyOf d = .ok (e, lk) ∧ e.ty = d.ty ∧ e.Holds v ∧ (d.ty.Tight → lk = 0 ∧ e.Tidy) := by
  obtain ⟨cells, lk, hr, hd, ht⟩ := newData_ok (copy_ok d.ty h hc d.cells v hv.2 hs [] [])
  simp only [List.nil_append, List.append_nil, List.length_nil] at hr
  refine ⟨_, lk, hr, ha, ⟨rfl, ?_⟩, ?_⟩
  · simpa only [decode_rget] using hd
  · simpa only [Data.Tidy, tidy_rget] using ht

/-- Copy construction with an unselected union. -/
theorem copyOf_refused {d : Data} {v : Val} (h : d.ty.WF) (hc : d.ty.Copyable) (hv : d.Holds v) (hs : ¬ v.Selected) :
    Data.copyOf d = .error .refused := by
  have := copy_refused d.ty h hc d.cells v hv.2 hs [] [] [] (zeroed d.ty.memSize) [] 0 (by simp [zeroed])
  simp only [List.nil_append, List.append_nil, List.length_nil] at this
  rw [Data.copyOf, newData, this]; rfl

/-- Move construction. -/
theorem moveOf_ok {d : Data} {v : Val} (h : d.ty.WF) (hc : d.ty.Copyable) (hv : d.Holds v) (ha : d.ty.rget = d.ty) :
    ∃ e lk, Data.moveOf d = .ok (e, { d with init := false }, lk) ∧ e.ty = d.ty ∧ e.Holds v ∧
      (d.ty.Tight → lk = 0 ∧ e.Tidy) := by
  obtain ⟨cells, lk, hr, hd, ht⟩ := newData_ok (move_ok d.ty h hc d.cells v hv.2 [] [])
  simp only [List.nil_append, List.append_nil, List.length_nil] at hr
  refine ⟨_, lk, by rw [Data.moveOf, hr]; rfl, ha, ⟨rfl, ?_⟩, ?_⟩
  · simpa only [decode_rget] using hd
  · simpa only [Data.Tidy, tidy_rget] using ht

/-- Destruction of a live datum. -/
theorem destroy_whole {d : Data} {v : Val} (h : d.ty.WF) (hv : d.Holds v) :
    ∃ new lk, destroy d.ty 0 ⟨d.cells, 0⟩ = .ok ⟨new, lk⟩ ∧ new.length = d.cells.length ∧
      (d.Tidy → lk = 0 ∧ owned new = 0) := by
  obtain ⟨new, lk, hr, hl, ht⟩ := destroy_ok d.ty h [] d.cells [] 0 v hv.2
  simp only [List.nil_append, List.append_nil, List.length_nil, Nat.zero_add] at hr
  exact ⟨new, lk, hr, hl, ht⟩

theorem dispose_ok {d : Data} {v : Val} (h : d.ty.WF) (hv : d.Holds v) (ht : d.Tidy) : Data.dispose d = .ok 0 := by
  obtain ⟨new, lk, hr, _, hk⟩ := destroy_whole h hv
  obtain ⟨rfl, h0⟩ := hk ht
  rw [Data.dispose, if_pos hv.1, hr]
  simp [Except.map, h0]

/-- Assignment from a datum of the same type. -/
theorem assign_ok {d e : Data} {v w : Val} (h : d.ty.WF) (hc : d.ty.Copyable) (hv : d.Holds v) (he : e.Holds w)
    (hty : d.ty = e.ty) (hs : w.Selected) :
    ∃ d' lk, Data.assignOver d e.ty e.cells = .ok (d', lk) ∧ d'.ty = d.ty ∧ d'.Holds w ∧
      (d.ty.Tight → d.Tidy → lk = 0 ∧ d'.Tidy) := by
  obtain ⟨new, lk, hr, hl, hk⟩ := destroy_whole h hv
  have hlen : d.cells.length = d.ty.memSize := decode_length _ _ _ hv.2
  obtain ⟨new', lk', hr', hl', hd', ht'⟩ := copy_ok d.ty h hc e.cells w (by rw [hty]; exact he.2) hs [] [] [] new [] lk
    (by rw [hl, hlen])
  simp only [List.nil_append, List.append_nil, List.length_nil] at hr'
  refine ⟨{ d with cells := new' }, lk + lk', ?_, rfl, ⟨hv.1, hd'⟩, ?_⟩
  · rw [Data.assignOver, ← hty, if_pos (C20_compat_refl _), hr]
    simp only [Except.bind, hr', Except.map]
  · intro hti htd
    obtain ⟨rfl, h0⟩ := hk htd
    obtain ⟨rfl, h1⟩ := ht' h0 hti
    exact ⟨rfl, h1⟩

theorem assign_refused {d e : Data} {v w : Val} (h : d.ty.WF) (hc : d.ty.Copyable) (hv : d.Holds v) (he : e.Holds w)
    (hty : d.ty = e.ty) (hs : ¬ w.Selected) : Data.assignOver d e.ty e.cells = .error .refused := by
  obtain ⟨new, lk, hr, hl, hk⟩ := destroy_whole h hv
  have hlen : d.cells.length = d.ty.memSize := decode_length _ _ _ hv.2
  have := copy_refused d.ty h hc e.cells w (by rw [hty]; exact he.2) hs [] [] [] new [] lk (by rw [hl, hlen])
  simp only [List.nil_append, List.append_nil, List.length_nil] at this
  rw [Data.assignOver, ← hty, if_pos (C20_compat_refl _), hr]
  simp only [Except.bind, this, Except.map]

/-- Work through references. -/
theorem write_ok {d : Data} {v : Val} {p : List Step} {op : RefOp} (h : d.ty.WF)
    (ho : ∀ t, typeAt p d.ty = some t → op.Ok t) (hv : d.Holds v) :
    (editAt false op.spec p d.ty v = .refused → Data.write d p op = .error .refused) ∧
    ∀ w, editAt false op.spec p d.ty v = .ok w → ∃ d' lk, Data.write d p op = .ok (d', lk) ∧ d'.ty = d.ty ∧
      d'.Holds w ∧ (d.ty.Tight → d.Tidy → lk = 0 ∧ d'.Tidy) := by
  have := write_edits false op p d.ty h ho [] d.cells [] 0 v hv.2
  simp only [List.nil_append, List.append_nil, List.length_nil, Nat.zero_add] at this
  constructor
  · intro hr
    rw [Data.write, this.1 hr]; rfl
  · intro w hw
    obtain ⟨new, lk, hr, hl, hd, ht⟩ := this.2 w hw
    exact ⟨{ d with cells := new }, lk, by rw [Data.write, hr]; rfl, rfl, ⟨hv.1, hd⟩, ht⟩

/-- Reading. -/
theorem fetch_ok {w : World} {y : Nat} {q : List Step} {e : Data} {v : Val} (he : w.vars y = some e) (h : e.ty.WF)
    (hv : e.Holds v) :
    (∀ u, valAt q e.ty v = some u → ∃ t x, typeAt q e.ty = some t ∧ w.fetch y q = .ok (t, x) ∧ decode t x = some u) ∧
    (valAt q e.ty v = none → w.fetch y q = .error .refused) := by
  have := locate_reads q e.ty h [] e.cells [] v hv.2
  simp only [List.nil_append, List.append_nil, List.length_nil] at this
  rw [World.fetch, he]
  exact this

/-! ## Programs -/

/-- Every variable holds a live, tidy instance (or owns nothing, after a move); nothing was lost. -/
def WorldOk (w : World) : Prop :=
  w.leaked = 0 ∧ ∀ x d, w.vars x = some d → d.ty.WF ∧ d.ty.Tight ∧ d.ty.rget = d.ty ∧
    (d.init = true → (∃ v, d.Holds v) ∧ d.Tidy) ∧ (d.init = false → owned d.cells = 0)

theorem worldOk_set {w : World} {x : Nat} {o : Option Data} (h : WorldOk w)
    (ho : ∀ d, o = some d → d.ty.WF ∧ d.ty.Tight ∧ d.ty.rget = d.ty ∧ (d.init = true → (∃ v, d.Holds v) ∧ d.Tidy) ∧
      (d.init = false → owned d.cells = 0)) : WorldOk (w.set x o 0) := by
  refine ⟨h.1, ?_⟩
  intro y d hy
  simp only [World.set] at hy
  split at hy
  · exact ho d hy
  · exact h.2 y d hy

/-- One allowed statement. -/
theorem exec_ok {w : World} {op : Op} (h : WorldOk w) (ha : Allowed w op) :
    w.exec op = .error .refused ∨ ∃ w', w.exec op = .ok w' ∧ WorldOk w' := by
  cases op with
  | create x T =>
    obtain ⟨hx, hw, ht⟩ := ha
    obtain ⟨d, hr, hty, hh, htd⟩ := create_ok hw
    right
    refine ⟨w.set x (some d) 0, by simp only [World.exec, hx, hr, Except.map], worldOk_set h ?_⟩
    rintro _ ⟨⟩
    exact ⟨hty ▸ WF_rget T hw, hty ▸ Tight_rget T ht, by rw [hty, Ty.rget_rget], fun _ => ⟨⟨_, hh⟩, htd⟩,
      fun hi => by rw [hh.1] at hi; cases hi⟩
  | convert x y q T =>
    obtain ⟨hx, hw, ht, e, he, hi, hc⟩ := ha
    obtain ⟨hw', _, _, hh, _⟩ := h.2 y e he
    obtain ⟨⟨v, hv⟩, _⟩ := hh hi
    have hf := fetch_ok (q := q) he hw' hv
    cases hu : valAt q e.ty v with
    | none => left; simp only [World.exec, hx, hf.2 hu, Except.bind]
    | some u =>
      obtain ⟨S, s, hS, hs, hd⟩ := hf.1 u hu
      by_cases hn : compat T.rget S = Cons.none
      · left; simp only [World.exec, hx, hs, Except.bind, Data.convert, if_pos hn, Except.map]
      · obtain ⟨d, lk, hr, hty, hhd, hk⟩ := convert_ok hw (hc S hS) hd hn
        obtain ⟨rfl, htd⟩ := hk ht
        right
        refine ⟨w.set x (some d) 0, by simp only [World.exec, hx, hs, Except.bind, hr, Except.map], worldOk_set h ?_⟩
        rintro _ ⟨⟩
        exact ⟨hty ▸ WF_rget T hw, hty ▸ Tight_rget T ht, by rw [hty, Ty.rget_rget], fun _ => ⟨⟨_, hhd⟩, htd⟩,
          fun hi => by rw [hhd.1] at hi; cases hi⟩
  | copy x y =>
    obtain ⟨hx, e, he, hi, hc⟩ := ha
    obtain ⟨hw', ht', hrg, hh, _⟩ := h.2 y e he
    obtain ⟨⟨v, hv⟩, _⟩ := hh hi
    by_cases hs : v.Selected
    · obtain ⟨d, lk, hr, hty, hhd, hk⟩ := copyOf_ok hw' hc hv hs hrg
      obtain ⟨rfl, htd⟩ := hk ht'
      right
      refine ⟨w.set x (some d) 0, by simp only [World.exec, hx, he, hr, Except.map], worldOk_set h ?_⟩
      rintro _ ⟨⟩
      exact ⟨hty ▸ hw', hty ▸ ht', by rw [hty, hrg], fun _ => ⟨⟨_, hhd⟩, htd⟩, fun hi => by rw [hhd.1] at hi; cases hi⟩
    · left; simp only [World.exec, hx, he, copyOf_refused hw' hc hv hs, Except.map]
  | move x y =>
    obtain ⟨hx, e, he, hi, hc, h0⟩ := ha
    obtain ⟨hw', ht', hrg, hh, _⟩ := h.2 y e he
    obtain ⟨⟨v, hv⟩, _⟩ := hh hi
    obtain ⟨d, lk, hr, hty, hhd, hk⟩ := moveOf_ok hw' hc hv hrg
    obtain ⟨rfl, htd⟩ := hk ht'
    right
    refine ⟨(w.set x (some d) 0).set y (some { e with init := false }) 0,
      by simp only [World.exec, hx, he, hr, Except.map], worldOk_set (worldOk_set h ?_) ?_⟩
    · rintro _ ⟨⟩
      exact ⟨hty ▸ hw', hty ▸ ht', by rw [hty, hrg], fun _ => ⟨⟨_, hhd⟩, htd⟩, fun hi => by rw [hhd.1] at hi; cases hi⟩
    · rintro _ ⟨⟩
      exact ⟨hw', ht', hrg, fun hi => (by cases hi), fun _ => h0⟩
  | assign x y =>
    obtain ⟨hxy, d, e, hd, he, hid, hie, hty, hc⟩ := ha
    obtain ⟨hw', ht', hrg, hh, _⟩ := h.2 x d hd
    obtain ⟨⟨v, hv⟩, htd⟩ := hh hid
    obtain ⟨_, _, _, hh', _⟩ := h.2 y e he
    obtain ⟨⟨u, hu⟩, _⟩ := hh' hie
    by_cases hs : u.Selected
    · obtain ⟨d', lk, hr, hty', hhd, hk⟩ := assign_ok hw' hc hv hu hty hs
      obtain ⟨rfl, htd'⟩ := hk ht' htd
      right
      refine ⟨w.set x (some d') 0, by simp only [World.exec, hd, he, if_neg hxy, if_pos hty, hr, Except.map], worldOk_set h ?_⟩
      rintro _ ⟨⟩
      exact ⟨hty' ▸ hw', hty' ▸ ht', by rw [hty', hrg], fun _ => ⟨⟨_, hhd⟩, htd'⟩, fun hi => by rw [hhd.1] at hi; cases hi⟩
    · left; simp only [World.exec, hd, he, if_neg hxy, if_pos hty, assign_refused hw' hc hv hu hty hs, Except.map]
  | write x p a =>
    obtain ⟨d, hd, hid, hsrc, hop⟩ := ha
    obtain ⟨hw', ht', hrg, hh, _⟩ := h.2 x d hd
    obtain ⟨⟨v, hv⟩, htd⟩ := hh hid
    have hres : a.resolve w = .error .refused ∨ ∃ op, a.resolve w = .ok op := by
      have key : ∀ y q e, w.vars y = some e → e.init = true →
          w.fetch y q = .error .refused ∨ ∃ r, w.fetch y q = .ok r := by
        intro y q e he hie
        obtain ⟨hwe, _, _, hh', _⟩ := h.2 y e he
        obtain ⟨⟨u, hu⟩, _⟩ := hh' hie
        have hf := fetch_ok (q := q) he hwe hu
        cases hu' : valAt q e.ty u with
        | none => exact .inl (hf.2 hu')
        | some z => obtain ⟨S, s, _, hs, _⟩ := hf.1 z hu'; exact .inr ⟨_, hs⟩
      cases a with
      | assign y q =>
        obtain ⟨e, he, hie, _⟩ := hsrc
        rcases key y q e he hie with hk | ⟨r, hk⟩ <;> simp [Act.resolve, hk, Except.map]
      | push y q =>
        obtain ⟨e, he, hie, _⟩ := hsrc
        rcases key y q e he hie with hk | ⟨r, hk⟩ <;> simp [Act.resolve, hk, Except.map]
      | discRef y q =>
        obtain ⟨e, he, hie⟩ := hsrc
        rcases key y q e he hie with hk | ⟨r, hk⟩ <;> simp [Act.resolve, hk, Except.map]
      | _ => exact .inr ⟨_, rfl⟩
    rcases hres with hres | ⟨op, hres⟩
    · left; simp only [World.exec, hd, hres, Except.bind]
    · obtain ⟨ho, hu⟩ := hop op hres
      have hwr := write_ok (p := p) hw' ho hv
      cases hg : editAt false op.spec p d.ty v with
      | undef => exact absurd hg (hu v hv.2)
      | refused => left; simp only [World.exec, hd, hres, Except.bind, hwr.1 hg, Except.map]
      | ok z =>
        obtain ⟨d', lk, hr, hty, hhd, hk⟩ := hwr.2 z hg
        obtain ⟨rfl, htd'⟩ := hk ht' htd
        right
        refine ⟨w.set x (some d') 0, by simp only [World.exec, hd, hres, Except.bind, hr, Except.map], worldOk_set h ?_⟩
        rintro _ ⟨⟩
        exact ⟨hty ▸ hw', hty ▸ ht', by rw [hty, hrg], fun _ => ⟨⟨_, hhd⟩, htd'⟩, fun hi => by rw [hhd.1] at hi; cases hi⟩
  | dispose x =>
    obtain ⟨d, hd⟩ := ha
    obtain ⟨hw', ht', hrg, hh, h0⟩ := h.2 x d hd
    right
    have hr : Data.dispose d = .ok 0 := by
      cases hi : d.init with
      | true =>
        obtain ⟨⟨v, hv⟩, htd⟩ := hh hi
        exact dispose_ok hw' hv htd
      | false => simp [Data.dispose, hi, Except.map, h0 hi]
    refine ⟨w.set x none 0, by simp only [World.exec, hd, hr, Except.map], worldOk_set h ?_⟩
    rintro _ ⟨⟩

theorem reach_ok {w : World} (h : Reach w) : WorldOk w := by
  induction h with
  | empty => exact ⟨rfl, fun _ _ h => by cases h⟩
  | step op _ ha he ih =>
    rcases exec_ok ih ha with hr | ⟨w', hr, hok⟩
    · rw [he] at hr; cases hr
    · rw [he] at hr; cases hr; exact hok

end Verif.Inst
