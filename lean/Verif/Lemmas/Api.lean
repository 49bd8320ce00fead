import Verif.Spec.Api
import Verif.Lemmas.RefRead
import Mathlib.Data.List.Forall2
/-! # Size and iteration -/

namespace Verif.Inst

theorem sees_at {t : Ty} {cs pre x post : List Cell} {a : Nat} {v : Val} (hc : cs = pre ++ x ++ post) (ha : pre.length = a)
    (hd : decode t x = some v) : (RRef.mk' t cs a).Sees v :=
  ⟨pre, x, post, hc, ha, by rw [RRef.mk', decode_rget]; exact hd⟩

theorem flat_slot {k : SK} : (us : List Nat) → {i u : Nat} → us[i]? = some u →
    ∃ a c : List Cell, (us.flatMap fun u => rawCells (leBytes (SK.char k).size u)) = a ++ rawCells (leBytes (SK.char k).size u) ++ c ∧
      a.length = i * (SK.char k).size
  | [], _, _, h => by cases h
  | w :: us, 0, u, h => by
    simp only [List.getElem?_cons_zero, Option.some.injEq] at h
    subst h
    exact ⟨[], _, by rw [List.flatMap_cons, List.nil_append], by simp⟩
  | w :: us, i + 1, u, h => by
    obtain ⟨a, c, e, hl⟩ := flat_slot us (by simpa using h)
    refine ⟨rawCells (leBytes (SK.char k).size w) ++ a, c, ?_, ?_⟩
    · rw [List.flatMap_cons, e]; simp only [List.append_assoc]
    · rw [List.length_append, rawCells_length, leBytes_length, hl, Nat.succ_mul]; omega

/-- Size and elements of a collection. -/
theorem instAt_ok {r : RRef} {v : Val} {c : Ty} (h : r.Sees v) (hc : elemTy r.ty = some c) :
    r.size = .ok (elems r.ty v).length ∧
      ∀ (i : Nat) (w : Val), (elems r.ty v)[i]? = some w → ∃ x, r.instAt i = .ok x ∧ x.ty = c.rget ∧ x.Sees w := by
  obtain ⟨T, cells, addr⟩ := r
  obtain ⟨pre, x, post, e, ha, hd⟩ := h
  simp only at e ha hd hc
  subst e ha
  cases T with
  | prim _ => cases hc
  | enum _ _ _ => cases hc
  | pair _ _ => cases hc
  | «alias» _ _ => cases hc
  | struct _ _ => cases hc
  | union _ _ _ _ => cases hc
  | arr n c' d =>
    obtain rfl : c' = c := Option.some.inj hc
    rw [decode] at hd
    split at hd
    · rename_i hl
      cases e : decN (decode c') c'.memSize d x with
      | none => rw [e] at hd; cases hd
      | some vs =>
        rw [e] at hd; cases hd
        have hvl := decN_length e
        refine ⟨by simp only [RRef.size, elems, hvl], ?_⟩
        intro i w hw
        simp only [elems] at hw
        have hi : i < d := by rw [← hvl]; exact (List.getElem?_eq_some_iff.mp hw).1
        obtain ⟨a, b, g, u, e1, e2, _, e4, e5⟩ := decN_slot hl e hi
        rw [hw] at e5; cases e5
        refine ⟨_, rfl, rfl, sees_at (pre := pre ++ a) (x := b) (post := g ++ post) ?_ ?_ e4⟩
        · rw [e1]; simp only [List.append_assoc]
        · rw [List.length_append, e2]
    · cases hd
  | seq c' b =>
    obtain rfl : c' = c := Option.some.inj hc
    rw [decode] at hd
    obtain ⟨size, cap, blk, vs, rfl, h1, h2, h3, h4, rfl⟩ := decColl_iff.mp hd
    have hp := peekColl_at false c' size cap blk pre post
    have hvl := decN_length h4
    refine ⟨?_, ?_⟩
    · simp only [RRef.size, hp, elems, List.length_take, hvl]
      rw [Nat.min_eq_left h1]; rfl
    · intro i w hw
      simp only [elems] at hw
      have hi : i < size := by
        have := (List.getElem?_eq_some_iff.mp hw).1
        rw [List.length_take] at this; omega
      obtain ⟨a, b', g, u, e1, e2, _, e4, e5⟩ := decN_slot h3 h4 (i := i) (by omega)
      rw [List.getElem?_take_of_lt hi, e5] at hw; cases hw
      exact ⟨_, by simp only [RRef.instAt, hp, Except.bind]; rw [if_pos hi], rfl, sees_at e1 e2 e4⟩
  | map k' v' b =>
    obtain rfl : Ty.pair k' v' = c := Option.some.inj hc
    rw [decode] at hd
    obtain ⟨size, cap, blk, vs, rfl, h1, h2, h3, h4, rfl⟩ := decColl_iff.mp hd
    have hp := peekColl_at true (.pair k' v') size cap blk pre post
    have hvl := decN_length h4
    refine ⟨?_, ?_⟩
    · simp only [RRef.size, hp, elems, List.length_take, hvl]
      rw [Nat.min_eq_left h1]; rfl
    · intro i w hw
      simp only [elems] at hw
      have hi : i < size := by
        have := (List.getElem?_eq_some_iff.mp hw).1
        rw [List.length_take] at this; omega
      obtain ⟨a, b', g, u, e1, e2, _, e4, e5⟩ := decN_slot h3 h4 (i := i) (by omega)
      rw [List.getElem?_take_of_lt hi, e5] at hw; cases hw
      exact ⟨_, by simp only [RRef.instAt, hp, Except.map], rfl, sees_at (t := .pair k' v') e1 e2 (by rw [decode]; exact e4)⟩
  | str k b =>
    cases hc
    rw [decode] at hd
    obtain ⟨us, hp, rfl, h1, rfl⟩ := decStr_iff.mp hd
    have hp := peekStr_at k us hp pre post
    refine ⟨by simp only [RRef.size, hp, elems, List.length_map]; rfl, ?_⟩
    intro i w hw
    simp only [elems, List.getElem?_map] at hw
    cases hu : us[i]? with
    | none => rw [hu] at hw; cases hw
    | some u =>
      rw [hu] at hw; cases hw
      have hi : i < us.length := (List.getElem?_eq_some_iff.mp hu).1
      have hu' : (us ++ [0])[i]? = some u := by rw [List.getElem?_append_left hi]; exact hu
      obtain ⟨a, c, e1, e2⟩ := flat_slot (k := k) (us ++ [0]) hu'
      refine ⟨_, by simp only [RRef.instAt, hp, Except.bind]; rw [if_pos (Nat.le_of_lt hi)], by rw [char_eq]; rfl, ?_⟩
      refine sees_at e1 e2 ?_
      rw [decode, char_eq]
      exact decBytes_iff.mpr ⟨_, rfl, leBytes_length _ _, rfl⟩

theorem loop_det {ρ : Type} {deref : It → M ρ} {e b : It} {l l' : List ρ} (h : Loop deref e b l) (h' : Loop deref e b l') :
    l = l' := by
  induction h generalizing l' with
  | stop hs =>
    cases h' with
    | stop _ => rfl
    | go hn _ _ => rw [hs] at hn; cases hn
  | go hn hx _ ih =>
    cases h' with
    | stop hs => rw [hs] at hn; cases hn
    | go _ hx' hl' =>
      rw [hx] at hx'; cases hx'
      rw [ih hl']

theorem loop_ok {ρ α : Type} {deref : It → M ρ} {r : RRef} {R : ρ → α → Prop} {vs : List α}
    (h : ∀ i w, vs[i]? = some w → ∃ x, deref ⟨r, i⟩ = .ok x ∧ R x w) :
    (rest : List α) → (i : Nat) → vs.drop i = rest → i ≤ vs.length →
      ∃ l, Loop deref ⟨r, vs.length⟩ ⟨r, i⟩ l ∧ List.Forall₂ R l rest
  | [], i, hd, hi => by
    have : vs.length ≤ i := by simpa using hd
    refine ⟨[], .stop ?_, .nil⟩
    simp [It.same]; omega
  | w :: rest, i, hd, hi => by
    have hw : vs[i]? = some w := by
      have := congrArg (·[0]?) hd
      simpa using this
    have hlt : i < vs.length := (List.getElem?_eq_some_iff.mp hw).1
    obtain ⟨x, hx, hr⟩ := h i w hw
    obtain ⟨l, hl, hf⟩ := loop_ok h rest (i + 1) (by
      have := congrArg (List.drop 1) hd
      simpa [List.drop_drop] using this) (by omega)
    exact ⟨x :: l, .go (by simp [It.same]; omega) hx hl, .cons hr hf⟩

end Verif.Inst
