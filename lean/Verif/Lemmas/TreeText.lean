import Verif.Lemmas.TreeDecl
import Verif.Props.DeclOrder
/-!
# The events of the text of a tree, one after the other
-/

namespace Verif.Idl.Syn
open Text Gen
open Dep (Event Node Kind place declared opened EnumeratorConst Uses Before declOf place_open mem_opened mem_declared place_split place_append)

/-! ## Where an event stands -/

theorem place_decl {A : List Event} {c c' : Loc} {n : Node} (h : place c A = some c') (hn : Event.decl n ∈ A) :
    n.loc <:+ c ∨ Event.open n.loc ∈ A := by
  obtain ⟨A1, A2, rfl⟩ := List.append_of_mem hn
  rw [place_append] at h
  cases h1 : place c A1 with
  | none => rw [h1] at h; cases h
  | some d =>
    rw [h1, Option.bind_some, place] at h
    split at h
    · rename_i hl
      by_cases hs : n.loc <:+ c
      · exact .inl hs
      · exact .inr (List.mem_append_left _ (place_open h1 (hl ▸ List.suffix_rfl) hs))
    · cases h

theorem place_sub {A : List Event} {c c' q : Loc} {y : Name} (h : place c A = some c') (hn : Event.open (y :: q) ∈ A) :
    q <:+ c ∨ Event.open q ∈ A := by
  obtain ⟨A1, A2, rfl⟩ := List.append_of_mem hn
  rw [place_append] at h
  cases h1 : place c A1 with
  | none => rw [h1] at h; cases h
  | some d =>
    rw [h1, Option.bind_some, place] at h
    split at h
    · rename_i hl
      by_cases hs : q <:+ c
      · exact .inl hs
      · exact .inr (List.mem_append_left _ (place_open h1 (hl.2 ▸ List.suffix_rfl) hs))
    · cases h

theorem place_here {A : List Event} {c : Loc} (h : place [] A = some c) : c = [] ∨ Event.open c ∈ A := by
  by_cases hc : c = []
  · exact .inl hc
  · exact .inr (place_open h List.suffix_rfl fun hs => hc (List.suffix_nil.mp hs))

theorem noempty_of : ∀ (l : List Event), (∀ A p q B, l ≠ A ++ .open p :: .close q :: B) → NoEmpty l
  | [], _ => trivial
  | e :: l, h => by
    have ih := noempty_of l fun A p q B hl => h (e :: A) p q B (by rw [hl]; rfl)
    cases e with
    | «open» p =>
      cases l with
      | nil => trivial
      | cons e' l =>
        cases e' with
        | close q => exact absurd rfl (h [] p q l)
        | «open» _ => exact ih
        | decl _ => exact ih
    | decl n => exact ih
    | close p => exact ih

/-- The events of a text of the tree. -/
structure Script (root : Mod Decl) (sk : List Event) : Prop where
  once : (declared sk).Nodup
  decls : ∀ n, n ∈ declared sk ↔ (element root n).isSome ∧ ¬ EnumeratorConst (deps root) n
  ones : (opened sk).Nodup
  opens : ∀ p, p ∈ opened sk ↔ p ≠ [] ∧ (root.at p).isSome
  placed : place [] sk = some []

section
variable {r : Reading} {root : Mod Decl} {sk A B : List Event} {T : Mod Item}

theorem declared_append' (a b : List Event) : declared (a ++ b) = declared a ++ declared b := by simp [declared]
theorem opened_append' (a b : List Event) : opened (a ++ b) = opened a ++ opened b := by simp [opened]

theorem Script.about (h : Script root sk) (hs : sk = A ++ B) : About root A := by
  subst hs
  refine ⟨fun n hn => (h.decls n).mp (mem_declared.mpr (List.mem_append_left _ hn)),
    fun p hp => ((h.opens p).mp (mem_opened.mpr (List.mem_append_left _ hp))).2⟩

theorem Script.new_decl (h : Script root sk) {n : Node} (hs : sk = A ++ .decl n :: B) : Event.decl n ∉ A := by
  intro hn
  have h1 := h.once
  rw [hs, declared_append', List.nodup_append] at h1
  exact h1.2.2 n (mem_declared.mpr hn) n (mem_declared.mpr (List.mem_cons_self ..)) rfl

theorem Script.new_open (h : Script root sk) {p : Loc} (hs : sk = A ++ .open p :: B) : Event.open p ∉ A ∧ Event.open p ∉ B := by
  have h1 := h.ones
  rw [hs, opened_append', List.nodup_append] at h1
  refine ⟨fun hn => h1.2.2 p (mem_opened.mpr hn) p (mem_opened.mpr (List.mem_cons_self ..)) rfl, fun hn => ?_⟩
  have h2 : (p :: opened B).Nodup := h1.2.1
  exact (List.nodup_cons.mp h2).1 (mem_opened.mpr hn)

theorem Script.used (h : Script root sk) {n m : Node} (hs : sk = A ++ .decl n :: B) (hb : Before sk m n) : Event.decl m ∈ A := by
  obtain ⟨a, b, h1, h2⟩ := hb
  have h3 := h.once
  have h4 : declared sk = declared A ++ n :: declared B := by rw [hs, declared_append']; rfl
  have hna : n ∉ declared A := fun hn => h.new_decl hs (mem_declared.mp hn)
  have hnb : n ∉ a := by
    rw [h1, List.nodup_append] at h3
    intro hn
    exact h3.2.2 n hn n (List.mem_cons_self ..) rfl
  have : a = declared A := by
    have e : a ++ n :: b = declared A ++ n :: declared B := by rw [← h1, h4]
    clear h1 h4
    rcases List.append_eq_append_iff.mp e with ⟨l, e1, e2⟩ | ⟨l, e1, e2⟩
    · cases l with
      | nil => simpa using e1.symm
      | cons x l =>
        simp only [List.cons_append, List.cons.injEq] at e2
        exact absurd (by rw [e1, ← e2.1]; simp) hna
    · cases l with
      | nil => simpa using e1
      | cons x l =>
        simp only [List.cons_append, List.cons.injEq] at e2
        exact absurd (by rw [e1, ← e2.1]; simp) hnb
  exact mem_declared.mp (this ▸ h2)

theorem Part.at_decl (hP : Part root A T) {c : Loc} (hp : place [] A = some c) {n : Node} (hn : Event.decl n ∈ A) : (T.at n.loc).isSome := by
  rw [hP.mods]
  exact (place_decl hp hn).imp List.suffix_nil.mp id

/-- A module that is not there yet. -/
theorem Part.free_module (hP : Part root A T) (hA : About root A) (hS : Sound root) (hD : Distinct root) {x : Name} {p : Loc}
    (hm : (root.at (x :: p)).isSome) (hnew : Event.open (x :: p) ∉ A) : Unseen T p x := by
  intro q hq hd
  have h0 : Declares root x p := (declares_iff hS.full).mpr (.inr hm)
  have := hD.around x p q h0 (hP.sub hA hS hd) hq
  subst this
  obtain ⟨M, hM, hd⟩ := hd
  rcases symbol_cases hd with ⟨k, i, he⟩ | he
  · obtain ⟨n, d, k1, k2, k3, k4⟩ := (hP.tabs _ _ hM k x i).mp he
    obtain ⟨kd, d', k5, k6, k7⟩ := entry_final hS k2 k3 k4
    have := hD.modules ⟨q, kd, x⟩ (by rw [k6]; rfl)
    simp only at this
    rw [this] at hm; cases hm
  · exact hnew ((hP.inner _ _ hM x).mp he)

/-- All events of the text can happen, and then the tree has all declarations. -/
theorem Script.run (hE : ExpressibleTree r root) (h : Script root sk) (hu : ∀ n m, Uses (deps root) n m → Before sk m n) :
    ∀ (B A : List Event) (T : Mod Item), sk = A ++ B → Part root A T →
    AllOk r (element root) T B ∧ Part root sk (B.foldl (stepEv (element root)) T) := by
  intro B
  induction B with
  | nil => intro A T hs hP; rw [List.append_nil] at hs; subst hs; exact ⟨trivial, hP⟩
  | cons e B ih =>
    intro A T hs hP
    have hS := hE.sound
    have hA := h.about hs
    obtain ⟨c, hc, hc'⟩ := place_split h.placed hs
    have hat : (T.at c).isSome := by rw [hP.mods]; exact place_here hc
    have hs' : sk = (A ++ [e]) ++ B := by rw [hs]; simp
    have key : EvOk r (element root) T e ∧ Part root (A ++ [e]) (stepEv (element root) T e) := by
      cases e with
      | close p => exact ⟨trivial, part_close hP p⟩
      | decl n =>
        rw [place] at hc'
        split at hc'
        · rename_i hl
          subst hl
          obtain ⟨h1, h2⟩ := (h.decls n).mp (mem_declared.mpr (by rw [hs]; simp))
          obtain ⟨d, hd⟩ := Option.isSome_iff_exists.mp h1
          obtain ⟨M, hM⟩ := Option.isSome_iff_exists.mp hat
          have hdec := hP.declarable hA hE (fun m hm => hP.at_decl hc hm) hd h2 (h.new_decl hs) hat
            (fun m hm => h.used hs (hu _ _ hm))
          refine ⟨⟨d, hd, hdec⟩, ?_⟩
          rw [stepEv, hd]
          exact part_decl hP hd hdec hM
        · cases hc'
      | «open» p =>
        rw [place] at hc'
        split at hc'
        · rename_i hl
          obtain ⟨hp0, rfl⟩ := hl
          obtain ⟨x, q, rfl⟩ := List.exists_cons_of_ne_nil hp0
          obtain ⟨M, hM⟩ := Option.isSome_iff_exists.mp hat
          rw [List.tail_cons] at hM hc
          have hm := ((h.opens (x :: q)).mp (mem_opened.mpr (by rw [hs]; simp))).2
          have hnew := (h.new_open hs).1
          refine ⟨⟨hE.names x q ((declares_iff hS.full).mpr (.inr hm)), .inr ?_⟩, ?_⟩
          · rw [List.headD_cons, List.tail_cons]
            exact hP.free_module hA hS hE.distinct hm hnew
          · rw [stepEv, List.headD_cons, List.tail_cons]
            refine part_open hP hM hnew (fun n hn hl => ?_) (fun y hy => ?_)
            · rcases place_decl hc hn with k | k
              · rw [hl] at k; exact absurd (List.suffix_nil.mp k) (by simp)
              · rw [hl] at k; exact hnew k
            · rcases place_sub hc hy with k | k
              · exact absurd (List.suffix_nil.mp k) (by simp)
              · exact hnew k
        · cases hc'
    obtain ⟨k1, k2⟩ := ih _ _ hs' key.2
    exact ⟨⟨key.1, k1⟩, k2⟩

/-! ## No module is empty -/

theorem inhabited_event (hE : ExpressibleTree r root) (h : Script root sk) {p : Loc} (hp : (root.at p).isSome) :
    (∃ n, n.loc = p ∧ Event.decl n ∈ sk) ∨ ∃ y, Event.open (y :: p) ∈ sk := by
  obtain ⟨m, hm, h1⟩ := hE.inhabited p hp
  have elem : ∀ (kd : Kind) (e : Name × Decl), e ∈ m.content.get kd.cat → (element root ⟨p, kd, e.1⟩).isSome := by
    intro kd e he
    unfold element
    simp only [hm, Option.bind_some]
    rw [omGet_isSome, omHas_iff]
    exact List.mem_map_of_mem he
  rcases h1 with h1 | ⟨k, hk, h1⟩ | ⟨e, he, h1⟩
  · obtain ⟨e, he⟩ := List.exists_mem_of_ne_nil _ h1
    have : (root.at (e.1 :: p)).isSome := by
      rw [← no_null hE.sound.full hm, omHas_iff]
      exact List.mem_map_of_mem he
    exact .inr ⟨e.1, mem_opened.mp ((h.opens _).mpr ⟨by simp, this⟩)⟩
  · obtain ⟨e, he⟩ := List.exists_mem_of_ne_nil _ h1
    obtain ⟨kd, rfl⟩ := kind_cat k
    refine .inl ⟨⟨p, kd, e.1⟩, rfl, mem_declared.mp ((h.decls _).mpr ⟨elem kd e he, ?_⟩)⟩
    rintro ⟨h2, _⟩
    have h2 : kd = .const := h2
    subst h2
    exact hk rfl
  · refine .inl ⟨⟨p, .const, e.1⟩, rfl, mem_declared.mp ((h.decls _).mpr ⟨elem .const e he, ?_⟩)⟩
    rw [deps_fake]
    rintro ⟨_, m', h2, h3⟩
    have h2 : root.at p = some m' := h2
    rw [hm, Option.some.injEq] at h2
    subst h2
    exact h1 h3

theorem Script.noempty (hE : ExpressibleTree r root) (h : Script root sk) : NoEmpty sk := by
  refine noempty_of sk fun A p q B hs => ?_
  have hp := (h.opens p).mp (mem_opened.mpr (by rw [hs]; simp))
  obtain ⟨hnA, hnB⟩ := h.new_open hs
  obtain ⟨c, hc, hc'⟩ := place_split h.placed hs
  rw [place] at hc'
  split at hc'
  · rw [place] at hc'
    split at hc'
    · rename_i hq
      obtain ⟨_, rfl⟩ := hq
      obtain ⟨x, r', rfl⟩ := List.exists_cons_of_ne_nil hp.1
      have hsuf : ¬ (x :: r') <:+ r' := fun hh => by have := hh.length_le; simp at this
      have hB : Event.open (x :: r') ∉ B := fun hh => hnB (List.mem_cons_of_mem _ hh)
      have hN : ¬ (x :: r') <:+ [] := fun hh => by cases List.suffix_nil.mp hh
      rcases inhabited_event hE h hp.2 with ⟨n, hn, hd⟩ | ⟨y, hy⟩
      · rw [hs, List.mem_append] at hd
        rcases hd with hd | hd
        · rcases place_decl hc hd with k | k <;> rw [hn] at k
          · exact hN k
          · exact hnA k
        · simp only [List.mem_cons, reduceCtorEq, false_or] at hd
          rcases place_decl hc' hd with k | k <;> rw [hn] at k
          · exact hsuf k
          · exact hB k
      · rw [hs, List.mem_append] at hy
        rcases hy with hy | hy
        · rcases place_sub hc hy with k | k
          · exact hN k
          · exact hnA k
        · simp only [List.mem_cons, reduceCtorEq, false_or, Event.open.injEq] at hy
          rcases hy with hy | hy
          · have := congrArg List.length hy; simp at this
          · rcases place_sub hc' hy with k | k
            · exact hsuf k
            · exact hB k
    · cases hc'
  · cases hc'

theorem Script.nonempty (hE : ExpressibleTree r root) (h : Script root sk) : sk ≠ [] := by
  rintro rfl
  rcases inhabited_event hE h (p := []) rfl with ⟨n, _, hn⟩ | ⟨y, hy⟩
  · cases hn
  · cases hy

/-! ## The tree at the end -/

theorem inc_ext {β : Type} : ∀ {a b : List (Name × β)}, Increasing a → Increasing b → (∀ e, e ∈ a ↔ e ∈ b) → a = b := by
  intro a b ha hb h
  have na : a.Nodup := List.Pairwise.of_map (S := (· ≠ ·)) (f := (·.1)) (fun x y hxy e => hxy (by rw [e])) (inc_nodup ha)
  have nb : b.Nodup := List.Pairwise.of_map (S := (· ≠ ·)) (f := (·.1)) (fun x y hxy e => hxy (by rw [e])) (inc_nodup hb)
  have hp : a.Perm b := (List.perm_ext_iff_of_nodup na nb).mpr h
  exact hp.eq_of_pairwise (fun x y _ _ h1 h2 => absurd (nameTrans _ _ _ h1 h2) (nameIrrefl _)) ha hb

theorem Script.same (hE : ExpressibleTree r root) (h : Script root sk) (hP : Part root sk T) : SameTree (items root) T := by
  have hS := hE.sound
  intro p
  have h1 : (T.at p).isSome = (root.at p).isSome := by
    rw [Bool.eq_iff_iff, hP.mods]
    constructor
    · rintro (rfl | hp)
      · rfl
      · exact ((h.opens p).mp (mem_opened.mpr hp)).2
    · intro hp
      by_cases h0 : p = []
      · exact .inl h0
      · exact .inr (mem_opened.mp ((h.opens p).mpr ⟨h0, hp⟩))
  rw [items, at_root]
  cases hm : root.at p with
  | none =>
    rw [hm] at h1
    cases hM : T.at p with
    | none => trivial
    | some M => rw [hM] at h1; cases h1
  | some m =>
    rw [hm] at h1
    cases hM : T.at p with
    | none => rw [hM] at h1; cases h1
    | some M =>
      simp only [Option.map_some]
      obtain ⟨t1, t2⟩ := hS.tables p m hm
      obtain ⟨i1, i2⟩ := hP.inc p M hM
      refine ⟨fun k => ?_, ?_, fun z => ?_⟩
      · rw [content_mapAt, get_mapAll]
        refine inc_ext (inc_keys (by simp) (t1 k)) (i1 k) ?_
        rintro ⟨x, i⟩
        rw [hP.tabs p M hM]
        obtain ⟨kd, rfl⟩ := kind_cat k
        have hel : (x, i) ∈ (m.content.get kd.cat).map (fun e => (e.1, itemOf p e.2)) ↔
            ∃ d, element root ⟨p, kd, x⟩ = some d ∧ itemOf p d = i := by
          unfold element
          simp only [hm, Option.bind_some, List.mem_map, Prod.mk.injEq]
          constructor
          · rintro ⟨e, he, rfl, rfl⟩
            exact ⟨e.2, omGet_of_mem (inc_nodup (t1 _)) he, rfl⟩
          · rintro ⟨d, hd, rfl⟩
            exact ⟨(x, d), omGet_mem hd, rfl, rfl⟩
        rw [hel]
        constructor
        · rintro ⟨d, hd, rfl⟩
          by_cases hf : EnumeratorConst (deps root) ⟨p, kd, x⟩
          · obtain ⟨hk, m', hm', hx⟩ := (deps_fake root _).mp hf
            have hk : kd = .const := hk
            subst hk
            have hm' : root.at p = some m' := hm'
            rw [hm, Option.some.injEq] at hm'
            subst hm'
            obtain ⟨y, vs, k1, k2⟩ := (hS.marks p m x hm).mp hx
            obtain ⟨e, he, rfl⟩ := List.mem_map.mp k2
            have k3 := hS.values p y vs e k1 he
            rw [hd, Option.some.injEq] at k3
            subst k3
            refine ⟨⟨p, .enum, y.toList⟩, _, mem_declared.mp ((h.decls _).mpr ⟨by rw [k1]; rfl, fun hh => by cases hh.1⟩), k1, rfl, ?_⟩
            exact List.mem_cons_of_mem _ (List.mem_map.mpr ⟨e, he, rfl⟩)
          · refine ⟨⟨p, kd, x⟩, d, mem_declared.mp ((h.decls _).mpr ⟨by rw [hd]; rfl, hf⟩), hd, rfl, ?_⟩
            obtain ⟨k1, k2⟩ := hS.entries _ _ hd
            refine List.mem_cons.mpr (.inl ?_)
            rw [k1, k2]
        · rintro ⟨n, d, k1, k2, k3, k4⟩
          obtain ⟨kd', d', k5, k6, k7⟩ := entry_final hS k2 k3 k4
          have := cat_inj k5
          subst this
          exact ⟨d', k6, k7⟩
      · rw [inner_mapAt, keys_mapInner]
        have e1 : (m.inner.map (·.1)).Pairwise (· < ·) := List.pairwise_map.mpr t2
        have e2 : (M.inner.map (·.1)).Pairwise (· < ·) := List.pairwise_map.mpr i2
        have hp : (m.inner.map (·.1)).Perm (M.inner.map (·.1)) := by
          refine (List.perm_ext_iff_of_nodup (inc_nodup t2) (inc_nodup i2)).mpr fun x => ?_
          rw [← omHas_iff, ← omHas_iff, no_null hS.full hm, hP.inner p M hM, ← mem_opened, h.opens]
          simp
        exact hp.eq_of_pairwise (fun x y _ _ h1 h2 => absurd (nameTrans _ _ _ h1 h2) (nameIrrefl _)) e1 e2
      · rw [content_mapAt]
        show z ∈ m.content.fromEnum ↔ _
        rw [hS.marks p m z hm, hP.marks p M hM]
        constructor
        · rintro ⟨y, vs, k1, k2⟩
          exact ⟨⟨p, .enum, y.toList⟩, _, mem_declared.mp ((h.decls _).mpr ⟨by rw [k1]; rfl, fun hh => by cases hh.1⟩), k1, rfl, k2⟩
        · rintro ⟨n, d, k1, k2, k3, k4⟩
          cases d with
          | enum y vs =>
            obtain ⟨k5, k6⟩ := hS.entries _ _ k2
            obtain ⟨l, kd, nm⟩ := n
            simp only [declKind, declName] at k5 k6 k3
            subst k5 k6 k3
            exact ⟨y, vs, k2, k4⟩
          | _ => cases k4

end

end Verif.Idl.Syn
