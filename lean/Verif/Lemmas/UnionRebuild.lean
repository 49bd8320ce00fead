import Verif.Props.UnionType
import Verif.Lemmas.UnionWF
import Verif.Spec.IdlDoc
/-! Adding the cases of a union to a new union, in order, with the labels it reports. -/

namespace Verif.UnionB
open Idl.Gen
open Idl (Restorable)

theorem new_facts {n : String} {d : Ty} (h : checkDisc d = true) : ∃ u, new n d = some u ∧ u.name = n ∧ u.disc = d ∧
    caseMembers u = [] ∧ u.labels = [] ∧ u.default = u.invalidValue := by
  refine ⟨_, by rw [new, if_pos h], rfl, rfl, rfl, rfl, rfl⟩

theorem caseMembers_names (u : UnionB) : (caseMembers u).map (·.1) = u.caseNames := by
  unfold caseMembers caseNames; rw [List.map_map]; rfl

theorem increasing_eq {a b : List (Int × String)} (ha : Increasing a) (hb : Increasing b) (h : ∀ l, omGet a l = omGet b l) : a = b := by
  have nd : ∀ {m : List (Int × String)}, Increasing m → (m.map (·.1)).Nodup := by
    intro m hm
    exact List.pairwise_map.mpr (hm.imp fun h e => by omega)
  have pn : ∀ {m : List (Int × String)}, Increasing m → m.Nodup := by
    intro m hm
    exact hm.imp fun h e => by rw [e] at h; omega
  refine List.Perm.eq_of_pairwise (le := fun a b : Int × String => a.1 < b.1) (fun a b _ _ h h' => by omega) ha hb ?_
  refine (List.perm_ext_iff_of_nodup (pn ha) (pn hb)).mpr fun x => ?_
  constructor
  · intro hx
    have := omGet_of_mem (nd ha) (k := x.1) (v := x.2) hx
    rw [h] at this
    exact omGet_mem this
  · intro hx
    have := omGet_of_mem (nd hb) (k := x.1) (v := x.2) hx
    rw [← h] at this
    exact omGet_mem this

theorem setLabels_keep (n : String) (dv : Int) (ds : Nat) : ∀ (ls : List Int) (m : List (Int × String)) (f : Int), f ≠ dv →
    (setLabels n dv ds ls m f).2 = f
  | [], _, _, _ => rfl
  | v :: vs, m, f, h => by
    simp only [setLabels]
    split
    · exact setLabels_keep n dv ds vs _ f h
    · exact setLabels_keep n dv ds vs _ f h

theorem setLabels_head (n : String) (dv : Int) (ds : Nat) (v : Int) (vs : List Int) (m : List (Int × String))
    (h : shrinkLabel v ds ≠ dv) : (setLabels n dv ds (v :: vs) m dv).2 = shrinkLabel v ds := by
  simp only [setLabels, if_pos h, if_true]
  exact setLabels_keep n dv ds vs _ _ h

/-- What a union made of the first cases of another one is. -/
structure Upto (u : UnionB) (pre : List (String × Ty)) (w : UnionB) : Prop where
  built : w.Built
  name : w.name = u.name
  disc : w.disc = u.disc
  cases : caseMembers w = pre
  labels : ∀ l, omGet w.labels l = (omGet u.labels l).filter fun n => decide (n ∈ pre.map (·.1))
  some : ∀ n ∈ pre.map (·.1), u.isDefault n = true → w.default = u.default
  none : (∀ n ∈ pre.map (·.1), u.isDefault n = false) → w.default = u.invalidValue

theorem Upto.values {u w : UnionB} {pre : List (String × Ty)} (h : u.Built) (hw : Upto u pre w) :
    w.defaultValue = u.defaultValue ∧ w.invalidValue = u.invalidValue := by
  have h1 := (built_inv h).dv
  have h2 := (built_inv hw.built).dv
  have h3 := (built_inv h).iv
  have h4 := (built_inv hw.built).iv
  rw [hw.disc] at h2
  exact ⟨h2.trans h1.symm, by rw [h3, h4, h1, h2]⟩

theorem Upto.start {u w : UnionB} (hu : u.Built) (h : new u.name u.disc = Option.some w) : Upto u [] w := by
  obtain ⟨w', h1, h2, h3, h4, h5, h6⟩ := new_facts (n := u.name) (built_inv hu).check
  rw [h, Option.some.injEq] at h1
  subst h1
  refine ⟨.new _ _ h, h2, h3, h4, ?_, by simp, ?_⟩
  · intro l; rw [h5]; cases omGet u.labels l <;> simp [omGet]
  · intro _
    have e1 := (built_inv (.new _ _ h)).iv
    have e2 := (built_inv (.new _ _ h)).dv
    rw [h6, e1, e2, h3, (built_inv hu).iv, (built_inv hu).dv]

theorem Upto.step {u w : UnionB} {pre : List (String × Ty)} {n : String} {t : Ty} (h : u.Built) (hw : Upto u pre w)
    (hn : n ∉ pre.map (·.1)) (hc : n ∈ u.caseNames) (hr : Restorable u n) :
    (w.addCase (u.getLabels n) n t (u.isDefault n)).2 = true ∧
    Upto u (pre ++ [(n, t)]) (w.addCase (u.getLabels n) n t (u.isDefault n)).1 := by
  obtain ⟨hdv, hiv⟩ := hw.values h
  have hi := built_inv h
  have hwi := built_inv hw.built
  have hiv' : u.invalidValue ≠ u.defaultValue := by rw [hi.iv]; omega
  have hlab : ∀ l ∈ u.getLabels n, omGet u.labels l = Option.some n ∧ l ≠ u.defaultValue ∧ shrinkLabel l u.disc.memSize = l := by
    intro l hl
    obtain ⟨h1, h2⟩ := (mem_getLabels h n l).mp hl
    exact ⟨h1, h2, (built_labels h l n h1).resolve_right h2⟩
  have hmap : (u.getLabels n).map (shrinkLabel · w.disc.memSize) = u.getLabels n := by
    rw [hw.disc]
    conv => rhs; rw [← List.map_id (u.getLabels n)]
    exact List.map_congr_left fun l hl => (hlab l hl).2.2
  have hnoget : ∀ l, omGet u.labels l = Option.some n → omGet w.labels l = Option.none := by
    intro l hl; rw [hw.labels, hl]; simp [Option.filter, hn]
  have hwn : w.caseNames = pre.map (·.1) := by rw [← caseMembers_names, hw.cases]
  have hdisc : n ≠ discName := fun e => (C32_labels_unambiguous h).2.2.1.2 (e ▸ hc)
  have hhas : w.agg.has n = false := by
    rw [Bool.eq_false_iff]
    intro hh
    have := (hwi.agg.has_iff n).mp hh
    obtain ⟨rest, hr, -⟩ := hwi.head
    rw [hr, List.map_cons, List.mem_cons] at this
    rcases this with e | e
    · exact hdisc e
    · apply hn
      rw [← hwn, caseNames, hr]; exact e
  have hacc : w.Accepts (u.getLabels n) n (u.isDefault n) := by
    refine ⟨hr.1, hdisc, fun v hv => ?_, hhas⟩
    obtain ⟨h1, h2, h3⟩ := hlab v hv
    rw [hw.disc, h3]
    refine ⟨?_, ?_⟩
    · have := built_allowed h v n h1 h2
      unfold labelAllowed at this ⊢
      rw [hw.disc, hdv]; exact this
    · have := hnoget v h1
      rw [Bool.eq_false_iff]
      intro hh
      rw [← omGet_isSome, this] at hh; cases hh
  -- the labels after the first part
  have hset : ∀ l, omGet (w.added (u.getLabels n) n t).labels l =
      if l ∈ u.getLabels n then Option.some n else omGet w.labels l := by
    intro l
    show omGet (setLabels n w.defaultValue w.disc.memSize (u.getLabels n) w.labels w.defaultValue).1 l = _
    rw [setLabels_get, hmap, hdv]
    by_cases hl : l ∈ u.getLabels n
    · rw [if_pos ⟨hl, (hlab l hl).2.1⟩, if_pos hl]
    · rw [if_neg (fun e => hl e.1), if_neg hl]
  have hmem : caseMembers (w.added (u.getLabels n) n t) = pre ++ [(n, t)] := by
    obtain ⟨rest, hr, -⟩ := hwi.head
    have e : (w.added (u.getLabels n) n t).agg.members = w.agg.members ++ [⟨n, t, w.disc.memSize⟩] := insert_members hhas
    have hc := hw.cases
    unfold caseMembers at hc ⊢
    rw [e]
    rw [hr] at hc ⊢
    simp only [List.tail_cons] at hc
    simp only [List.cons_append, List.tail_cons, List.map_append, hc]
    rfl
  have hfilt : ∀ l, (omGet u.labels l).filter (fun x => decide (x ∈ (pre ++ [(n, t)]).map (·.1))) =
      if omGet u.labels l = Option.some n then Option.some n else omGet w.labels l := by
    intro l
    rw [hw.labels]
    cases omGet u.labels l with
    | none => simp
    | some m =>
      by_cases hm : m = n
      · subst hm; simp
      · have : ¬ (Option.some m = Option.some n) := by simpa using hm
        rw [if_neg this]
        simp only [Option.filter, List.map_append, List.map_cons, List.map_nil, List.mem_append, List.mem_singleton, hm, or_false]
  have hone : u.isDefault n = true → ∀ m, u.isDefault m = true → m = n := by
    intro hd m hm
    simp only [isDefault, Bool.and_eq_true, bne_iff_ne, beq_iff_eq] at hd hm
    have := hm.2.symm.trans hd.2
    simpa using this
  have hbuilt : (w.addCase (u.getLabels n) n t (u.isDefault n)).1.Built := .add _ _ _ _ hw.built
  have hdd := added_disc hwi (u.getLabels n) n t hhas
  cases hb : u.isDefault n with
  | false =>
    rcases addCase_cases w (u.getLabels n) n t false with ⟨ha, _⟩ | ⟨_, _, he⟩ | ⟨_, hb', _⟩ | ⟨_, hb', _⟩
    · rw [hb] at hacc; exact absurd hacc ha
    · rw [hb] at hbuilt
      rw [he] at hbuilt ⊢
      refine ⟨rfl, hbuilt, hw.name, hdd.trans hw.disc, hmem, fun l => ?_, ?_, ?_⟩
      · rw [hset, hfilt]
        by_cases hl : omGet u.labels l = Option.some n
        · rw [if_pos hl, if_pos]
          refine (mem_getLabels h n l).mpr ⟨hl, fun e => ?_⟩
          subst e
          have h1 : omHas u.labels u.defaultValue = true := by rw [← omGet_isSome, hl]; rfl
          have h2 := hi.dlab h1
          rw [isDefault, h2, hl] at hb
          simp only [beq_self_eq_true, Bool.and_true, bne_eq_false_iff_eq] at hb
          exact hiv' hb.symm
        · rw [if_neg hl, if_neg (fun e => hl ((mem_getLabels h n l).mp e).1)]
      · intro m hm hd
        rw [List.map_append, List.mem_append] at hm
        rcases hm with hm | hm
        · exact hw.some m hm hd
        · simp only [List.map_cons, List.map_nil, List.mem_singleton] at hm
          subst hm; rw [hb] at hd; cases hd
      · intro hall
        exact hw.none fun m hm => hall m (by rw [List.map_append]; exact List.mem_append_left _ hm)
    · cases hb'
    · cases hb'
  | true =>
    have hwd : w.default = w.invalidValue := by
      rw [hiv]
      refine hw.none fun m hm => ?_
      rw [Bool.eq_false_iff]
      intro hd
      exact hn (hone hb m hd ▸ hm)
    have hdn : omGet u.labels u.default = Option.some n := by
      simp only [isDefault, Bool.and_eq_true, beq_iff_eq] at hb
      exact hb.2
    have hfirst : (setLabels n w.defaultValue w.disc.memSize (u.getLabels n) w.labels w.defaultValue).2 = u.default := by
      rcases hr.2 hb with hnil | hhd
      · rw [hnil]
        show w.defaultValue = u.default
        rw [hdv]
        by_cases e : u.default = u.defaultValue
        · exact e.symm
        · have := (mem_getLabels h n u.default).mpr ⟨hdn, e⟩
          rw [hnil] at this; cases this
      · cases hl : u.getLabels n with
        | nil => rw [hl] at hhd; cases hhd
        | cons v vs =>
          rw [hl, List.head?_cons, Option.some.injEq] at hhd
          have hv := hlab v (by rw [hl]; simp)
          have e : shrinkLabel v w.disc.memSize = v := by rw [hw.disc]; exact hv.2.2
          rw [setLabels_head _ _ _ _ _ _ (by rw [e, hdv]; exact hv.2.1), e, hhd]
    rcases addCase_cases w (u.getLabels n) n t true with ⟨ha, _⟩ | ⟨_, hb', _⟩ | ⟨_, _, hd', _⟩ | ⟨_, _, _, he⟩
    · rw [hb] at hacc; exact absurd hacc ha
    · cases hb'
    · exact absurd hwd hd'
    · rw [hb] at hbuilt
      rw [he] at hbuilt ⊢
      refine ⟨rfl, hbuilt, hw.name, ?_, hmem, fun l => ?_, ?_, ?_⟩
      · exact hdd.trans hw.disc
      · rw [hfilt]
        simp only [hfirst]
        simp only [hdv]
        by_cases hl : omGet u.labels l = Option.some n
        · rw [if_pos hl]
          by_cases hld : l = u.defaultValue
          · subst hld
            have h1 : omHas u.labels u.defaultValue = true := by rw [← omGet_isSome, hl]; rfl
            rw [if_pos (hi.dlab h1), omGet_omSet, if_pos rfl]
          · have hm := (mem_getLabels h n l).mpr ⟨hl, hld⟩
            split
            · rw [omGet_omSet, if_neg (fun e => hld e.symm), hset, if_pos hm]
            · rw [hset, if_pos hm]
        · rw [if_neg hl]
          have hm : l ∉ u.getLabels n := fun e => hl ((mem_getLabels h n l).mp e).1
          split
          · rename_i hd
            rw [omGet_omSet, if_neg, hset, if_neg hm]
            rintro rfl
            rw [← hd] at hl; exact hl hdn
          · rw [hset, if_neg hm]
      · intro m hm hd; exact hfirst
      · intro hall
        have := hall n (by simp)
        rw [hb] at this; cases this

/-- All cases: the union is the same type. -/
theorem Upto.finish {u w : UnionB} (h : u.Built) (hw : Upto u (caseMembers u) w) : w.toTy = u.toTy := by
  obtain ⟨hdv, hiv⟩ := hw.values h
  have hi := built_inv h
  have hl : w.labels = u.labels := by
    refine increasing_eq (built_increasing hw.built) (built_increasing h) fun l => ?_
    rw [hw.labels, caseMembers_names]
    cases hg : omGet u.labels l with
    | none => rfl
    | some n => simp [hi.names l n hg]
  have hd : w.default = u.default := by
    by_cases he : u.default = u.invalidValue
    · rw [he]
      refine hw.none fun n _ => ?_
      simp [isDefault, he]
    · have h1 := hi.dflt he
      rw [← omGet_isSome, Option.isSome_iff_exists] at h1
      obtain ⟨n, hn⟩ := h1
      refine hw.some n ?_ ?_
      · rw [caseMembers_names]; exact hi.names _ _ hn
      · simp [isDefault, he, hn]
  have hc := hw.cases
  unfold caseMembers at hc
  unfold toTy
  rw [hw.name, hw.disc, hc, hl, hdv, hiv, hd]

end Verif.UnionB
