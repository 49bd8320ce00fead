import Verif.Lemmas.RefOps
/-! # Values along paths -/

namespace Verif.Inst

theorem Tight_rget : (T : Ty) → T.Tight → T.rget.Tight
  | .alias _ t, h => by rw [Ty.rget]; rw [Ty.Tight] at h; exact Tight_rget t h
  | .prim _, h | .enum _ _ _, h | .str _ _, h | .seq _ _, h | .arr _ _ _, h | .map _ _ _, h | .pair _ _, h
  | .struct _ _, h | .union _ _ _ _, h => h

theorem tyAt_tight : {ms : Mems} → ms.Tight → {i : Nat} → {t : Ty} → Mems.tyAt ms i = some t → t.Tight
  | .nil, _, _, _, h => by cases h
  | .cons _ t r, ht, 0, _, h => by rw [Mems.tyAt] at h; cases h; rw [Mems.Tight] at ht; exact ht.1
  | .cons _ t r, ht, i + 1, _, h => by rw [Mems.tyAt] at h; rw [Mems.Tight] at ht; exact tyAt_tight ht.2 h

theorem posOf_tight : {ms : Mems} → ms.Tight → {n : String} → {i : Nat} → {t : Ty} → Mems.posOf ms n = some (i, t) → t.Tight
  | .nil, _, _, _, _, h => by cases h
  | .cons x t r, ht, n, i, u, h => by
    rw [Mems.posOf] at h
    rw [Mems.Tight] at ht
    split at h
    · cases h; exact ht.1
    · cases e : Mems.posOf r n with
      | none => rw [e] at h; cases h
      | some q =>
        rw [e] at h; cases h
        exact posOf_tight ht.2 (n := n) (i := q.1) (by rw [e])

theorem child_tight {S : Ty} (h : S.Tight) {s : Step} {i : Nat} {t : Ty} (hc : child S s = some (i, t)) : t.Tight := by
  unfold child at hc
  split at hc
  · rw [Ty.Tight] at h; exact posOf_tight h hc
  · rename_i ms j
    rw [Ty.Tight] at h
    cases e : Mems.tyAt ms j with
    | none => rw [e] at hc; cases hc
    | some u => rw [e] at hc; cases hc; exact tyAt_tight h e
  · rw [Ty.Tight] at h
    split at hc
    · cases hc; exact h
    · cases hc
  · rw [Ty.Tight] at h; cases hc; exact h.1
  · rw [Ty.Tight] at h; cases hc; exact h.2
  · rw [Ty.Tight] at h; cases hc; exact h.2
  · cases hc; rw [Ty.Tight]; trivial
  · rw [Ty.Tight] at h; cases hc; exact h.2.2
  · cases hc

theorem typeAt_tight : (p : List Step) → (T t : Ty) → T.Tight → typeAt p T = some t → t.Tight
  | [], T, t, h, ht => by rw [typeAt] at ht; cases ht; exact Tight_rget T h
  | s :: p, T, t, h, ht => by
    have hS := Tight_rget T h
    cases hr : T.rget.isUnion with
    | true =>
      cases hT : T.rget <;> rw [hT] at hr <;> simp only [Ty.isUnion, Bool.false_eq_true] at hr
      rename_i n d ms i
      cases s with
      | member nm =>
        simp only [typeAt, hT] at ht
        cases hf : ms.find? nm with
        | none => rw [hf] at ht; cases ht
        | some u =>
          rw [hf] at ht
          rw [hT, Ty.Tight] at hS
          exact typeAt_tight p u t (Mems.Tight.find hS hf) ht
      | index j => simp [typeAt, hT, child] at ht
      | key j => simp [typeAt, hT, child] at ht
    | false =>
      rw [typeAt_child rfl hr] at ht
      cases hc : child T.rget s with
      | none => rw [hc] at ht; cases ht
      | some q =>
        rw [hc] at ht
        exact typeAt_tight p q.2 t (child_tight hS (i := q.1) hc) ht

/-- Any operation at the end of any path does what the specification says. -/
theorem write_edits (ro : Bool) (op : RefOp) (p : List Step) (T : Ty) (hw : T.WF)
    (ho : ∀ t, typeAt p T = some t → op.Ok t) :
    EditsTo (decode T) (tidy T) T.Tight (withRef ro p T op.run) (editAt ro op.spec p T) :=
  withRef_edits p T hw fun t ht hwt => edits_clean (refOp_edits op t hwt (ho t ht)) fun h => typeAt_tight p T t h ht

/-! ## Reading back -/

theorem valAt_child {s : Step} {p : List Step} {T S : Ty} {v : Val} (hT : T.rget = S) (hS : S.isUnion = false) :
    valAt (s :: p) T v = (child S s).bind fun q => (elem S v q.1).bind (valAt p q.2) := by
  cases S <;> first | (cases hS; done) | (cases s <;> simp only [valAt, hT])

theorem elem_putElem {S : Ty} {v : Val} {i : Nat} {u w : Val} (h : elem S v i = some u)
    (hw : ∀ k b, S = .str k b → ∃ bs, w = .bytes bs ∧ bs.length = (charOf k).size) :
    elem S (putElem S v i w) i = some w := by
  cases S with
  | str k b =>
    obtain ⟨bs, rfl, hl⟩ := hw k b rfl
    cases v with
    | str us =>
      simp only [elem] at h
      cases hu : us[i]? with
      | none => rw [hu] at h; cases h
      | some x =>
        have hi := (List.getElem?_eq_some_iff.mp hu).1
        simp [putElem, elem, hi, ← hl, leBytes_leNat]
    | _ => simp [elem] at h
  | map a b c =>
    cases v with
    | coll vs =>
      simp only [elem] at h
      split at h
      · rename_i x y hxy
        cases h
        simp only [putElem, hxy, elem]
        have hi := (List.getElem?_eq_some_iff.mp hxy).1
        simp [hi]
      · cases h
    | list vs =>
      simp only [elem] at h
      have hi := (List.getElem?_eq_some_iff.mp h).1
      simp [putElem, elem, hi]
    | _ => simp [elem] at h
  | _ =>
    cases v <;> simp only [elem, reduceCtorEq] at h
    all_goals
      have hi := (List.getElem?_eq_some_iff.mp h).1
      simp [putElem, elem, hi]

theorem elem_putElem_ne {S : Ty} {v : Val} {i j : Nat} {w : Val} (h : i ≠ j) : elem S (putElem S v i w) j = elem S v j := by
  cases S with
  | str k b =>
    cases v <;> first | rfl | skip
    cases w <;> first | rfl | simp [elem, putElem, List.getElem?_set_ne h]
  | map a b c =>
    cases v <;> simp only [putElem]
    · simp [elem, List.getElem?_set_ne h]
    · split
      · simp [elem, List.getElem?_set_ne h]
      · rfl
  | _ => cases v <;> simp [putElem, elem, List.getElem?_set_ne h]

/-- A number stays a number of its type. -/
def KeepsNum (g : Ty → Val → Out) : Prop :=
  ∀ (k : PK) (bs : List Byte) (w : Val), bs.length = k.size → g (.prim k) (.bytes bs) = .ok w →
    ∃ bs', w = .bytes bs' ∧ bs'.length = k.size

/-- Below a string there is only a character. -/
theorem editAt_char {ro : Bool} {g : Ty → Val → Out} (hg : KeepsNum g) {T : Ty} {k : SK} {b : Nat} (hT : T.rget = .str k b)
    {s : Step} {p : List Step} {i : Nat} {t : Ty} (hc : child T.rget s = some (i, t)) {v u x : Val}
    (he : elem T.rget v i = some u) (hx : editAt ro g p t u = .ok x) :
    ∃ bs, x = .bytes bs ∧ bs.length = (charOf k).size := by
  rw [hT] at hc he
  have ht : t = .prim (charOf k) := by cases s <;> simp [child] at hc; exact hc.2.symm
  subst ht
  have hu : ∃ bs, u = .bytes bs ∧ bs.length = (charOf k).size := by
    cases v <;> simp [elem] at he
    obtain ⟨y, _, rfl⟩ := he
    exact ⟨_, rfl, leBytes_length _ _⟩
  obtain ⟨bs, rfl, hl⟩ := hu
  cases p with
  | nil => rw [editAt] at hx; exact hg _ _ _ hl hx
  | cons r q => rw [editAt_child rfl rfl] at hx; cases r <;> simp [child, Ty.rget] at hx

/-- After a change of the part at `p`, that part is what the change made of it. -/
theorem valAt_editAt {ro : Bool} {g : Ty → Val → Out} (hg : KeepsNum g) : (p : List Step) → (T : Ty) → (v v' : Val) →
    editAt ro g p T v = .ok v' → ∃ t u w, typeAt p T = some t ∧ (∀ u', valAt p T v = some u' → u' = u) ∧
      g t u = .ok w ∧ valAt p T v' = some w
  | [], T, v, v', h => by
    rw [editAt] at h
    exact ⟨T.rget, v, v', rfl, fun u' hu => by rw [valAt] at hu; cases hu; rfl, h, rfl⟩
  | s :: p, T, v, v', h => by
    cases hr : T.rget.isUnion with
    | true =>
      cases hT : T.rget <;> rw [hT] at hr <;> simp only [Ty.isUnion, Bool.false_eq_true] at hr
      rename_i n d ms i
      cases s with
      | member nm =>
        simp only [editAt, hT] at h
        cases hf : ms.find? nm with
        | none => rw [hf] at h; cases h
        | some t =>
          rw [hf] at h
          simp only [] at h
          cases hl : firstLabel i nm with
          | none => rw [hl] at h; cases h
          | some l =>
            rw [hl] at h
            simp only [] at h
            split at h
            · cases h
            · obtain ⟨x, hx, rfl⟩ := map_ok.mp h
              obtain ⟨t', u, w, h1, h2, h3, h4⟩ := valAt_editAt hg p t _ x hx
              refine ⟨t', u, w, ?_, ?_, h3, ?_⟩
              · simp only [typeAt, hT, hf]; exact h1
              · intro u' hu'
                simp only [valAt, hT] at hu'
                cases v <;> try (cases hu'; done)
                rename_i db y z
                simp only [] at hu'
                split at hu'
                · rename_i hy
                  rw [hf] at hu'
                  apply h2
                  simp only [caseVal, hy, if_true]
                  exact hu'
                · cases hu'
              · simp only [valAt, hT, hf, if_true]; exact h4
      | index j => simp [editAt, hT, child] at h
      | key j => simp [editAt, hT, child] at h
    | false =>
      rw [editAt_child rfl hr] at h
      cases hc : child T.rget s with
      | none => rw [hc] at h; cases h
      | some q =>
        rw [hc] at h
        simp only [] at h
        cases he : elem T.rget v q.1 with
        | none => rw [he] at h; cases h
        | some u =>
          rw [he] at h
          simp only [] at h
          obtain ⟨x, hx, rfl⟩ := map_ok.mp h
          obtain ⟨t', u', w, h1, h2, h3, h4⟩ := valAt_editAt hg p q.2 _ x hx
          refine ⟨t', u', w, ?_, ?_, h3, ?_⟩
          · rw [typeAt_child rfl hr, hc]; exact h1
          · intro y hy
            rw [valAt_child rfl hr, hc] at hy
            simp only [Option.bind_some, he] at hy
            exact h2 y hy
          · rw [valAt_child rfl hr, hc]
            simp only [Option.bind_some]
            rw [elem_putElem he fun k b hk => editAt_char hg hk hc he hx]
            exact h4

/-- The operations keep numbers numbers of their type. -/
theorem spec_keeps {op : RefOp} {t : Ty} (h : op.Ok t) : KeepsNum op.spec := by
  intro k bs w hl hw
  cases op with
  | touch => cases hw; exact ⟨bs, rfl, hl⟩
  | value x =>
    cases x with
    | num l cs =>
      simp only [RefOp.spec, Host.fits, decide_eq_true_eq] at hw
      split at hw
      · rename_i e
        cases hw
        exact ⟨cs, rfl, e ▸ h⟩
      · cases hw
    | str l us => simp [RefOp.spec, Host.fits] at hw
  | assign src =>
    simp only [RefOp.spec] at hw
    split at hw
    · rename_i x hd
      cases hw
      rw [decode] at hd
      obtain ⟨cs, rfl, hc, _⟩ := decBytes_iff.mp hd
      exact ⟨cs, rfl, hc⟩
    · cases hw
  | _ => cases hw

theorem rget_rget (T : Ty) : T.rget.rget = T.rget := by
  have := Ty.rget_not_alias T
  cases h : T.rget <;> first | rfl | (rw [h] at this; cases this)

theorem editAt_rget {ro : Bool} {g : Ty → Val → Out} (p : List Step) (T : Ty) (v : Val) :
    editAt ro g p T.rget v = editAt ro g p T v := by
  cases p with
  | nil => rw [editAt, editAt, rget_rget]
  | cons s p => conv => lhs; unfold editAt
                conv => rhs; unfold editAt
                rw [rget_rget]

/-- A path in two parts. -/
theorem editAt_append {ro : Bool} {g : Ty → Val → Out} (q : List Step) : (p : List Step) → (T : Ty) → (v : Val) →
    editAt ro g (p ++ q) T v = editAt ro (editAt ro g q) p T v
  | [], T, v => by rw [List.nil_append, editAt, editAt_rget]
  | s :: p, T, v => by
    rw [List.cons_append]
    conv => lhs; unfold editAt
    conv => rhs; unfold editAt
    simp only [editAt_append q p]

theorem tyAt_posOf : {ms : Mems} → {n : String} → {i : Nat} → {t : Ty} → Mems.posOf ms n = some (i, t) → Mems.tyAt ms i = some t
  | .nil, _, _, _, h => by cases h
  | .cons x t r, n, i, u, h => by
    rw [Mems.posOf] at h
    split at h
    · cases h; rfl
    · cases e : Mems.posOf r n with
      | none => rw [e] at h; cases h
      | some q =>
        rw [e] at h; cases h
        rw [Mems.tyAt]
        exact tyAt_posOf (n := n) (by rw [e])

theorem child_tyAt {n : String} {ms : Mems} {s : Step} {i : Nat} {t : Ty} (h : child (.struct n ms) s = some (i, t)) :
    Mems.tyAt ms i = some t := by
  cases s with
  | member x => exact tyAt_posOf h
  | index j =>
    simp only [child] at h
    cases e : Mems.tyAt ms j with
    | none => rw [e] at h; cases h
    | some u => rw [e] at h; cases h; exact e
  | key j => cases h

theorem child_pair {x y : Ty} {s : Step} {i : Nat} {t : Ty} (h : child (.pair x y) s = some (i, t)) :
    (i = 0 ∧ t = x) ∨ (i = 1 ∧ t = y) := by
  unfold child at h
  split at h <;> simp_all

/-- The type of a child is determined by its position. -/
theorem child_det {S : Ty} {s r : Step} {i : Nat} {t u : Ty} (h1 : child S s = some (i, t)) (h2 : child S r = some (i, u)) :
    t = u := by
  cases S with
  | struct n ms =>
    have a := child_tyAt h1
    have b := child_tyAt h2
    rw [a] at b; cases b; rfl
  | pair x y =>
    rcases child_pair h1 with ⟨a, rfl⟩ | ⟨a, rfl⟩ <;> rcases child_pair h2 with ⟨b, rfl⟩ | ⟨b, rfl⟩ <;>
      first | rfl | omega
  | arr n c d =>
    cases s <;> cases r <;> simp only [child, reduceCtorEq, Option.ite_none_right_eq_some] at h1 h2
    cases h1.2; cases h2.2; rfl
  | seq c b => cases s <;> cases r <;> simp only [child, reduceCtorEq] at h1 h2; cases h1; cases h2; rfl
  | map k v b => cases s <;> cases r <;> simp only [child, reduceCtorEq] at h1 h2; cases h1; cases h2; rfl
  | prim k => cases s <;> cases h1
  | enum n w vs => cases s <;> cases h1
  | str k b => cases s <;> cases r <;> simp only [child, reduceCtorEq] at h1 h2; cases h1; cases h2; rfl
  | «alias» n t => cases s <;> cases h1
  | union n d ms i => cases s <;> cases h1

/-- A change at `p` leaves the part at `q` alone. -/
theorem valAt_editAt_apart {ro : Bool} {g : Ty → Val → Out} : (p q : List Step) → (T : Ty) → (v v' w : Val) →
    Apart p q T → editAt ro g p T v = .ok v' → valAt q T v = some w → valAt q T v' = some w
  | [], _, _, _, _, _, ha, _, _ => by simp [Apart] at ha
  | _ :: _, [], _, _, _, _, ha, _, _ => by simp [Apart] at ha
  | s :: p, r :: q, T, v, v', w, ha, h, hv => by
    cases hr : T.rget.isUnion with
    | true =>
      cases hT : T.rget <;> rw [hT] at hr <;> simp only [Ty.isUnion, Bool.false_eq_true] at hr
      rename_i n d ms i
      rw [Apart] at ha
      simp only [hT] at ha
      obtain ⟨nm, t, rfl, rfl, hf, ha⟩ := ha
      simp only [editAt, hT, hf] at h
      cases hl : firstLabel i nm with
      | none => rw [hl] at h; cases h
      | some l =>
        rw [hl] at h
        simp only [] at h
        split at h
        · cases h
        · obtain ⟨x, hx, rfl⟩ := map_ok.mp h
          simp only [valAt, hT] at hv
          rename_i hro
          cases v <;> try (cases hv; done)
          rename_i db y z
          simp only [] at hv
          split at hv
          · rename_i hy
            rw [hf] at hv
            simp only [caseVal, hy, if_true] at hx
            have := valAt_editAt_apart p q t z x w ha hx hv
            simp only [valAt, hT, hf, if_true]; exact this
          · cases hv
    | false =>
      have ha' : ∃ i t j u, child T.rget s = some (i, t) ∧ child T.rget r = some (j, u) ∧ (i ≠ j ∨ Apart p q t) := by
        rw [Apart] at ha
        cases hT : T.rget <;> rw [hT] at hr <;> simp only [hT] at ha <;> first | exact ha | (cases hr; done)
      obtain ⟨i, t, j, u, hc1, hc2, ha⟩ := ha'
      rw [editAt_child rfl hr, hc1] at h
      simp only [] at h
      rw [valAt_child rfl hr, hc2] at hv ⊢
      simp only [Option.bind_some] at hv ⊢
      cases he : elem T.rget v i with
      | none => rw [he] at h; cases h
      | some y =>
        rw [he] at h
        simp only [] at h
        obtain ⟨x, hx, rfl⟩ := map_ok.mp h
        by_cases hij : i = j
        · subst hij
          have hap := ha.resolve_left (by simp)
          rw [he] at hv
          have hns : ∀ k b, T.rget = .str k b → ∃ bs, x = .bytes bs ∧ bs.length = (charOf k).size := by
            intro k b hk
            rw [hk] at hc1
            have ht : t = .prim (charOf k) := by cases s <;> simp [child] at hc1; exact hc1.2.symm
            subst ht
            cases p <;> cases q <;> simp [Apart, Ty.rget, child] at hap
          rw [elem_putElem he hns]
          have htu : t = u := child_det hc1 hc2
          subst htu
          exact valAt_editAt_apart p q t y x w hap hx hv
        · rw [elem_putElem_ne hij]
          exact hv

end Verif.Inst
