import Verif.Lemmas.DepGen
/-!
# What precedes every event of a generated text
-/

namespace Verif.Idl.Dep

/-- The element has been printed, if it prints anything. -/
def Printed (g : Gr) (A : List Event) (n : Node) : Prop := g.fake n = true ∨ n ∈ declared A

/-- The module has been closed, if it prints anything. -/
def Shut (A : List Event) (p : Loc) : Prop := p.headD [] = [] ∨ p ∈ closed A

theorem Printed.mono {g : Gr} {A : List Event} {n : Node} (h : Printed g A n) (B : List Event) : Printed g (A ++ B) n :=
  h.imp id fun h => by rw [declared_append]; exact List.mem_append_left _ h

theorem Shut.mono {A : List Event} {p : Loc} (h : Shut A p) (B : List Event) : Shut (A ++ B) p :=
  h.imp id fun h => by rw [closed_append]; exact List.mem_append_left _ h

/-- What must have been printed before an event. -/
def EvOK (g : Gr) (A : List Event) : Event → Prop
  | .open p => (∀ b ∈ g.modAncOf p, Shut A b) ∧ ∀ n ∈ g.nodes p.tail, g.hasChild n p = true → Printed g A n
  | .decl n => (∃ x, g.hasChild n (x :: n.loc) = true) ∨
    ((∀ n' ∈ g.nodes n.loc, ∀ q ∈ g.parOf n', Shut A q) ∧
      ∃ L n0 R, g.nodes n.loc = L ++ n0 :: R ∧ (∀ l ∈ L, Printed g A l) ∧
        ((n = n0 ∧ ∀ a ∈ g.ancOf n, Printed g A a) ∨ n ∈ g.ancOf n0))
  | .close _ => True

/-- The invariant. -/
structure Ord (g : Gr) (s : St) : Prop where
  iter : ∀ p ∈ s.iter, Shut s.out p
  done : ∀ n ∈ s.done, Printed g s.out n
  good : ∀ A e B, s.out = A ++ e :: B → EvOK g A e

theorem good_snoc {g : Gr} {out : List Event} {e : Event} (h : ∀ A e B, out = A ++ e :: B → EvOK g A e)
    (he : EvOK g out e) : ∀ A e' B, out ++ [e] = A ++ e' :: B → EvOK g A e' := by
  intro A e' B h'
  rcases List.eq_nil_or_concat B with rfl | ⟨B', b, rfl⟩
  · have := List.append_inj' h' rfl
    obtain ⟨rfl, h2⟩ := this
    cases h2; exact he
  · rw [List.concat_eq_append, ← List.cons_append, ← List.append_assoc] at h'
    have := List.append_inj' h' rfl
    exact h _ _ _ this.1

/-- The second state continues the first. -/
def Grows (s s' : St) : Prop := (∀ p ∈ s.iter, p ∈ s'.iter) ∧ (∀ n ∈ s.done, n ∈ s'.done)

theorem Grows.refl (s : St) : Grows s s := ⟨fun _ h => h, fun _ h => h⟩
theorem Grows.trans {s t u : St} (h : Grows s t) (h' : Grows t u) : Grows s u :=
  ⟨fun p hp => h'.1 p (h.1 p hp), fun n hn => h'.2 n (h.2 n hn)⟩

theorem emit_ord {g : Gr} {s : St} {n : Node} (h : Ord g s)
    (he : n ∉ s.done → g.fake n = false → EvOK g s.out (.decl n)) :
    Ord g (emit g s n) ∧ Grows s (emit g s n) ∧ n ∈ (emit g s n).done := by
  unfold emit
  by_cases hn : n ∈ s.done
  · rw [if_pos hn]; exact ⟨h, Grows.refl _, hn⟩
  · rw [if_neg hn]
    refine ⟨?_, ⟨fun p hp => hp, fun m hm => List.mem_cons_of_mem _ hm⟩, List.mem_cons_self ..⟩
    by_cases hf : g.fake n = true
    · simp only [hf, if_true]
      refine ⟨h.iter, ?_, h.good⟩
      intro m hm
      rcases List.mem_cons.mp hm with rfl | hm
      · exact .inl hf
      · exact h.done m hm
    · have hf' : g.fake n = false := by simpa using hf
      simp only [hf', Bool.false_eq_true, if_false]
      refine ⟨fun p hp => (h.iter p hp).mono _, ?_, good_snoc h.good (he hn hf')⟩
      intro m hm
      rcases List.mem_cons.mp hm with rfl | hm
      · exact .inr (by rw [declared_append]; exact List.mem_append_right _ (by simp [declared]))
      · exact (h.done m hm).mono _

/-- A sequence of `emit`s. -/
theorem emits_ord {g : Gr} (l : List Node) {s : St} (h : Ord g s)
    (he : ∀ n ∈ l, ∀ s', Grows s s' → Ord g s' → n ∉ s'.done → g.fake n = false → EvOK g s'.out (.decl n)) :
    Ord g (l.foldl (emit g) s) ∧ Grows s (l.foldl (emit g) s) ∧ ∀ n ∈ l, n ∈ (l.foldl (emit g) s).done := by
  induction l generalizing s with
  | nil => exact ⟨h, Grows.refl _, by simp⟩
  | cons n l ih =>
    obtain ⟨h1, h2, h3⟩ := emit_ord h (he n (List.mem_cons_self ..) s (Grows.refl _) h)
    obtain ⟨h4, h5, h6⟩ := ih h1 (fun m hm s' hg => he m (List.mem_cons_of_mem _ hm) s' (h2.trans hg))
    refine ⟨h4, h2.trans h5, ?_⟩
    intro m hm
    rcases List.mem_cons.mp hm with rfl | hm
    · exact h5.2 _ h3
    · exact h6 m hm

theorem emitModule_ord {g : Gr} (hw : g.WF) {p : Loc} {s : St} (h : Ord g s)
    (hp : ∀ n ∈ g.nodes p, ∀ q ∈ g.parOf n, q ∈ s.iter) :
    Ord g (emitModule g p s) ∧ Grows s (emitModule g p s) := by
  have key : ∀ (R L : List Node) (s : St), g.nodes p = L ++ R → Ord g s → (∀ l ∈ L, l ∈ s.done) →
      (∀ n ∈ g.nodes p, ∀ q ∈ g.parOf n, q ∈ s.iter) →
      Ord g (R.foldl (fun s n => emit g ((g.ancOf n).foldl (emit g) s) n) s) ∧
      Grows s (R.foldl (fun s n => emit g ((g.ancOf n).foldl (emit g) s) n) s) := by
    intro R
    induction R with
    | nil => intro L s _ h _ _; exact ⟨h, Grows.refl _⟩
    | cons n R ih =>
      intro L s e h hL hpar
      have hn : n ∈ g.nodes p := by rw [e]; simp
      have hloc := hw.nodes p n hn
      obtain ⟨h1, h2, h3⟩ := emits_ord (g.ancOf n) h (by
        intro a ha s' hg ho hd hf
        have haloc : a.loc = p := hw.nodes p a (hloc ▸ hw.nodeAnc n a ha)
        refine .inr ⟨?_, L, n, R, ?_, ?_, .inr ha⟩
        · rw [haloc]; intro n' hn' q hq; exact ho.iter q (hg.1 q (hpar n' hn' q hq))
        · rw [haloc]; exact e
        · intro l hl; exact ho.done l (hg.2 l (hL l hl)))
      obtain ⟨h4, h5, h6⟩ := emit_ord (n := n) h1 (by
        intro hd hf
        refine .inr ⟨?_, L, n, R, ?_, ?_, .inl ⟨rfl, ?_⟩⟩
        · rw [hloc]; intro n' hn' q hq; exact h1.iter q (h2.1 q (hpar n' hn' q hq))
        · rw [hloc]; exact e
        · intro l hl; exact h1.done l (h2.2 l (hL l hl))
        · intro a ha; exact h1.done a (h3 a ha))
      obtain ⟨h7, h8⟩ := ih (L ++ [n]) _ (by rw [e]; simp) h4 (by
        intro l hl
        rcases List.mem_append.mp hl with hl | hl
        · exact h5.2 l (h2.2 l (hL l hl))
        · rw [List.mem_singleton.mp hl]; exact h6)
        (fun n' hn' q hq => h5.1 q (h2.1 q (hpar n' hn' q hq)))
      exact ⟨h7, (h2.trans h5).trans h8⟩
  exact key (g.nodes p) [] s rfl h (by simp) hp

theorem emitOuter_ord {g : Gr} (hw : g.WF) {p : Loc} {s : St} (h : Ord g s) :
    Ord g (emitOuter g p s) ∧ Grows s (emitOuter g p s) ∧
    (p ≠ [] → ∀ n ∈ g.nodes p.tail, g.hasChild n p = true → n ∈ (emitOuter g p s).done) := by
  cases p with
  | nil => exact ⟨h, Grows.refl _, fun h => absurd rfl h⟩
  | cons x r =>
    obtain ⟨h1, h2, h3⟩ := emits_ord ((g.nodes r).filter fun n => g.hasChild n (x :: r)) h (by
      intro n hn _ _ _ _ _
      have hl : n.loc = r := hw.nodes r n (List.mem_filter.mp hn).1
      exact .inl ⟨x, by rw [hl]; exact (List.mem_filter.mp hn).2⟩)
    exact ⟨h1, h2, fun _ n hn hc => h3 n (List.mem_filter.mpr ⟨hn, hc⟩)⟩

theorem openMod_ord {g : Gr} {p : Loc} {s : St} (h : Ord g s) (ha : ∀ b ∈ g.modAncOf p, b ∈ s.iter)
    (hc : p ≠ [] → ∀ n ∈ g.nodes p.tail, g.hasChild n p = true → n ∈ s.done) :
    Ord g (openMod p s) ∧ Grows s (openMod p s) := by
  unfold openMod
  by_cases hp : p.headD [] = []
  · rw [if_pos hp]; exact ⟨h, Grows.refl _⟩
  · rw [if_neg hp]
    refine ⟨⟨fun q hq => (h.iter q hq).mono _, fun n hn => (h.done n hn).mono _, good_snoc h.good ⟨?_, ?_⟩⟩,
      fun _ h => h, fun _ h => h⟩
    · exact fun b hb => h.iter b (ha b hb)
    · exact fun n hn hch => h.done n (hc (by rintro rfl; exact hp rfl) n hn hch)

theorem closeMod_ord {g : Gr} {p : Loc} {s : St} (h : Ord g s) :
    Ord g (closeMod p s) ∧ Grows s (closeMod p s) ∧ p ∈ (closeMod p s).iter := by
  unfold closeMod
  refine ⟨?_, ⟨fun q hq => List.mem_cons_of_mem _ hq, fun _ h => h⟩, List.mem_cons_self ..⟩
  by_cases hp : p.headD [] = []
  · simp only [hp, if_true]
    refine ⟨?_, h.done, h.good⟩
    intro q hq
    rcases List.mem_cons.mp hq with rfl | hq
    · exact .inl hp
    · exact h.iter q hq
  · simp only [hp, if_false]
    refine ⟨?_, fun n hn => (h.done n hn).mono _, good_snoc h.good trivial⟩
    intro q hq
    rcases List.mem_cons.mp hq with rfl | hq
    · exact .inr (by rw [closed_append]; exact List.mem_append_right _ (by simp [closed]))
    · exact (h.iter q hq).mono _

theorem gen_ord {g : Gr} (hw : g.WF) : ∀ (f : Nat) (p : Loc) (s s' : St), gen g f p s = some s' → Ord g s →
    Ord g s' ∧ Grows s s' ∧ p ∈ s'.iter := by
  intro f
  induction f with
  | zero => intro p s s' h; cases h
  | succ f ih =>
    intro p s s' h ho
    by_cases hp : p ∈ s.iter
    · rw [gen, if_pos hp] at h; cases h
      exact ⟨ho, Grows.refl _, hp⟩
    · have hfold : ∀ (l : List Loc) (s s' : St), l.foldlM (fun s a => gen g f a s) s = some s' → Ord g s →
          Ord g s' ∧ Grows s s' ∧ ∀ q ∈ l, q ∈ s'.iter := by
        intro l
        induction l with
        | nil => intro s s' h ho; simp at h; cases h; exact ⟨ho, Grows.refl _, by simp⟩
        | cons a l ihl =>
          intro s s' h ho
          obtain ⟨t, h1, h2⟩ := foldlM_cons_some h
          obtain ⟨h3, h4, h5⟩ := ih a s t h1 ho
          obtain ⟨h6, h7, h8⟩ := ihl t s' h2 h3
          refine ⟨h6, h4.trans h7, ?_⟩
          intro q hq
          rcases List.mem_cons.mp hq with rfl | hq
          · exact h7.1 _ h5
          · exact h8 q hq
      obtain ⟨s1, s2, s3, h1, h2, h3, rfl⟩ := gen_cases h hp
      obtain ⟨a1, a2, a3⟩ := hfold _ _ _ h1 ho
      obtain ⟨b1, b2, b3⟩ := emitOuter_ord hw (p := p) a1
      obtain ⟨c1, c2⟩ := openMod_ord b1 (fun b hb => b2.1 b (a3 b hb)) b3
      obtain ⟨d1, d2, d3⟩ := hfold _ _ _ h2 c1
      obtain ⟨e1, e2⟩ := emitModule_ord hw (p := p) d1 (by
        intro n hn q hq
        exact d3 q (List.mem_flatMap.mpr ⟨n, hn, hq⟩))
      obtain ⟨f1, f2, -⟩ := hfold _ _ _ h3 e1
      obtain ⟨k1, k2, k3⟩ := closeMod_ord (p := p) f1
      exact ⟨k1, ((((a2.trans b2).trans c2).trans d2).trans e2).trans (f2.trans k2), k3⟩

/-! ## Texts -/

/-- Being inside a module means having opened it. -/
theorem place_open {A : List Event} : ∀ {c c' a : Loc}, place c A = some c' → a <:+ c' → ¬ a <:+ c → .open a ∈ A := by
  induction A with
  | nil => intro c c' a h h1 h2; simp only [place, Option.some.injEq] at h; subst h; exact absurd h1 h2
  | cons e A ih =>
    intro c c' a h h1 h2
    cases e with
    | «open» p =>
      simp only [place] at h
      split at h
      · rename_i hp
        by_cases hap : a <:+ p
        · cases p with
          | nil => exact absurd rfl hp.1
          | cons x r =>
            rcases List.suffix_cons_iff.mp hap with rfl | hap
            · exact List.mem_cons_self ..
            · exact absurd (hp.2 ▸ hap) h2
        · exact List.mem_cons_of_mem _ (ih h h1 hap)
      · cases h
    | close p =>
      simp only [place] at h
      split at h
      · rename_i hp
        refine List.mem_cons_of_mem _ (ih h h1 fun hc => h2 ?_)
        rw [← hp.2]
        exact hc.trans (List.tail_suffix _)
      · cases h
    | decl n =>
      simp only [place] at h
      split at h
      · exact List.mem_cons_of_mem _ (ih h h1 h2)
      · cases h

theorem mem_opened {A : List Event} {p : Loc} : p ∈ opened A ↔ .open p ∈ A := by
  simp only [opened, List.mem_filterMap]
  constructor
  · rintro ⟨e, he, h⟩
    cases e <;> simp at h
    exact h ▸ he
  · intro h; exact ⟨_, h, rfl⟩

theorem mem_closed {A : List Event} {p : Loc} : p ∈ closed A ↔ .close p ∈ A := by
  simp only [closed, List.mem_filterMap]
  constructor
  · rintro ⟨e, he, h⟩
    cases e <;> simp at h
    exact h ▸ he
  · intro h; exact ⟨_, h, rfl⟩

theorem mem_declared {A : List Event} {n : Node} : n ∈ declared A ↔ .decl n ∈ A := by
  simp only [declared, List.mem_filterMap]
  constructor
  · rintro ⟨e, he, h⟩
    cases e <;> simp at h
    exact h ▸ he
  · intro h; exact ⟨_, h, rfl⟩

/-- What is closed has been opened, unless we started inside. -/
theorem place_close {A : List Event} {c c' b : Loc} (h : place c A = some c') (hb : .close b ∈ A) (hc : ¬ b <:+ c) :
    .open b ∈ A := by
  obtain ⟨A1, A2, rfl⟩ := List.append_of_mem hb
  rw [place_append] at h
  cases h1 : place c A1 with
  | none => rw [h1] at h; cases h
  | some d =>
    rw [h1] at h
    simp only [Option.bind_some, place] at h
    split at h
    · rename_i hp
      exact List.mem_append_left _ (place_open h1 (by rw [← hp.2]; exact List.suffix_refl _) hc)
    · cases h

/-- A text read to the end, split at an event. -/
theorem place_split {text A B : List Event} {e : Event} (h : place [] text = some []) (he : text = A ++ e :: B) :
    ∃ c, place [] A = some c ∧ place c (e :: B) = some [] := by
  rw [he, place_append] at h
  cases h1 : place [] A with
  | none => rw [h1] at h; cases h
  | some c => rw [h1] at h; exact ⟨c, rfl, h⟩

/-- After a module has been closed nothing in it is declared: whatever it contains has been declared before. -/
theorem declared_of_closed {text A B : List Event} (ht : text = A ++ B) (hp : place [] text = some [])
    (ho : (opened text).Nodup) {b : Loc} (hb : b ≠ []) (hc : b ∈ closed A) {m : Node} (hm : m ∈ declared text)
    (hl : b <:+ m.loc) : m ∈ declared A := by
  rw [ht, declared_append] at hm
  rcases List.mem_append.mp hm with h | h
  · exact h
  · exfalso
    obtain ⟨B1, B2, rfl⟩ := List.append_of_mem (mem_declared.mp h)
    -- split A at the closing
    obtain ⟨A1, A2, rfl⟩ := List.append_of_mem (mem_closed.mp hc)
    have hnb : ¬ b <:+ [] := by
      intro h'; exact hb (List.suffix_nil.mp h')
    obtain ⟨c, h1, h2⟩ := place_split (A := A1) (e := .close b) (B := A2 ++ (B1 ++ .decl m :: B2)) hp
      (by rw [ht]; simp)
    simp only [place] at h2
    split at h2
    · rename_i hcl
      have hopen1 : .open b ∈ A1 := place_open h1 (by rw [← hcl.2]; exact List.suffix_refl _) hnb
      rw [← List.append_assoc, place_append] at h2
      cases h3 : place b.tail (A2 ++ B1) with
      | none => rw [h3] at h2; cases h2
      | some d =>
        rw [h3] at h2
        simp only [Option.bind_some, place] at h2
        split at h2
        · rename_i hd
          have hopen2 : .open b ∈ A2 ++ B1 := by
            refine place_open h3 (by rw [← hd]; exact hl) ?_
            intro hs
            have := hs.length_le
            cases b with
            | nil => exact hb rfl
            | cons x r => simp only [List.length_cons, List.tail_cons] at this; omega
          have e : text = A1 ++ (Event.close b :: ((A2 ++ B1) ++ (.decl m :: B2))) := by rw [ht]; simp
          have e2 : opened text = opened A1 ++ (opened (A2 ++ B1) ++ opened (.decl m :: B2)) := by
            rw [e, opened_append, show ∀ X, opened (Event.close b :: X) = opened X from fun _ => rfl, opened_append]
          rw [e2] at ho
          exact (List.nodup_append.mp ho).2.2 b (mem_opened.mpr hopen1) b
            (List.mem_append_left _ (mem_opened.mpr hopen2)) rfl
        · cases h2
    · cases h2

end Verif.Idl.Dep
