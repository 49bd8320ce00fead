import Verif.Model.IdlModule
import Verif.Lemmas.DepGen
/-!
# The text of a module and its skeleton
-/

namespace Verif.Idl.Gen
open Text Dep

/-- The event a piece of the text stands for. -/
def Piece.event : Piece → Option Event
  | .gap => none
  | .open _ p => some (.open p)
  | .decl _ n => some (.decl n)
  | .close _ p => some (.close p)

/-- The skeleton of a text. -/
def skeleton (l : List Piece) : List Event := l.filterMap Piece.event

/-- The state without the white space. -/
def PSt.bare (s : PSt) : St := ⟨s.done, s.iter, skeleton s.out⟩

theorem skeleton_append (a b : List Piece) : skeleton (a ++ b) = skeleton a ++ skeleton b := List.filterMap_append

@[simp] theorem bare_gapIf (b : Bool) (s : PSt) : (gapIf b s).bare = s.bare := by
  unfold gapIf
  split
  · simp [PSt.bare, skeleton, Piece.event]
  · rfl

@[simp] theorem bare_sentence (g : Gr) (t : Nat) (s : PSt) (n : Node) : (sentence g t s n).bare = emit g s.bare n := by
  unfold sentence emit
  show (if n ∈ s.done then _ else _ : PSt).bare = if n ∈ s.done then _ else _
  split
  · rfl
  · simp only [PSt.bare]
    split <;> simp [skeleton, Piece.event]

theorem foldl_bare {α : Type} {f : PSt → α → PSt} {f' : St → α → St} (h : ∀ s a, (f s a).bare = f' s.bare a) (l : List α) :
    ∀ s, (l.foldl f s).bare = l.foldl f' s.bare := by
  induction l with
  | nil => intro s; rfl
  | cons a l ih => intro s; rw [List.foldl_cons, List.foldl_cons, ih, h]

theorem foldlM_bare {α : Type} {f : PSt → α → Option PSt} {f' : St → α → Option St}
    (h : ∀ s a, (f s a).map PSt.bare = f' s.bare a) (l : List α) :
    ∀ s, (l.foldlM f s).map PSt.bare = l.foldlM f' s.bare := by
  induction l with
  | nil => intro s; rfl
  | cons a l ih =>
    intro s
    rw [List.foldlM_cons, List.foldlM_cons, ← h]
    cases f s a with
    | none => rfl
    | some s1 => exact ih s1

theorem bare_moduleText (g : Gr) (t : Nat) (p : Loc) (s : PSt) : (moduleText g t p s).bare = emitModule g p s.bare := by
  unfold moduleText emitModule
  refine foldl_bare (fun s n => ?_) _ s
  unfold elementText
  simp only [bare_gapIf, bare_sentence]
  rw [foldl_bare (f' := emit g) fun s a => by simp]

theorem bare_outerText (g : Gr) (t : Nat) (p : Loc) (s : PSt) : (outerText g t p s).bare = emitOuter g p s.bare := by
  unfold outerText emitOuter
  cases p with
  | nil => rfl
  | cons x r => exact foldl_bare (fun s n => by simp) _ s

theorem bare_openText (t : Nat) (p : Loc) (s : PSt) : (openText t p s).bare = openMod p s.bare := by
  unfold openText openMod
  split
  · rfl
  · simp [PSt.bare, skeleton, Piece.event]

theorem bare_closeText (t : Nat) (p : Loc) (s : PSt) : (closeText t p s).bare = closeMod p s.bare := by
  unfold closeText closeMod
  simp only [PSt.bare]
  split <;> simp [skeleton, Piece.event]

/-- The text has the skeleton that the dependency tree gives. -/
theorem genText_bare (g : Gr) : ∀ (f t : Nat) (p : Loc) (s : PSt), (genText g f t p s).map PSt.bare = gen g f p s.bare := by
  intro f
  induction f with
  | zero => intro t p s; rfl
  | succ f ih =>
    intro t p s
    have hb : ∀ (k : Nat) (l : List Loc) (s : PSt), (l.foldlM (before (genText g f k)) s).map PSt.bare =
        l.foldlM (fun s a => gen g f a s) s.bare := fun k => foldlM_bare fun s q => by
      rw [← ih k, before, Option.map_map]
      congr 1
      funext s'
      simp
    have hi : ∀ (k : Nat) (l : List Loc) (s : PSt),
        (l.foldlM (fun s q => (genText g f k q s).map fun s => gapIf (!allInner g p s) s) s).map PSt.bare =
        l.foldlM (fun s a => gen g f a s) s.bare := fun k => foldlM_bare fun s q => by
      rw [← ih k, Option.map_map]
      congr 1
      funext s'
      simp
    rw [genText, gen]
    by_cases hp : p ∈ s.iter
    · rw [if_pos hp, if_pos (show p ∈ s.bare.iter from hp)]; rfl
    · rw [if_neg hp, if_neg (show p ∉ s.bare.iter from hp)]
      simp only [Option.bind_eq_bind]
      rw [← hb]
      cases h1 : (g.modAncOf p).foldlM (before (genText g f (if p.headD [] = [] then 0 else t))) s with
      | none => rfl
      | some s1 =>
        simp only [Option.bind_some, Option.map_some]
        rw [← bare_outerText g t, ← bare_openText t, ← hb]
        cases h2 : ((g.nodes p).flatMap g.parOf).foldlM (before (genText g f (if p.headD [] = [] then 0 else t + 1)))
            (openText t p (outerText g t p s1)) with
        | none => rfl
        | some s2 =>
          simp only [Option.bind_some, Option.map_some]
          rw [← bare_moduleText g (if p.headD [] = [] then 0 else t + 1), ← hi]
          cases h3 : (g.inners p).foldlM (fun s q => (genText g f (if p.headD [] = [] then 0 else t + 1) q s).map
              fun s => gapIf (!allInner g p s) s) (moduleText g (if p.headD [] = [] then 0 else t + 1) p s2) with
          | none => rfl
          | some s3 =>
            simp only [Option.bind_some, Option.map_some, bare_closeText]

/-! ## Indentation -/

/-- Every line is indented by the depth of its module. -/
def Fits : Piece → Prop
  | .gap => True
  | .open t p => t + 1 = p.length
  | .decl t n => t = n.loc.length
  | .close t p => t + 1 = p.length

/-- The same for the text so far. -/
def Fit (s : PSt) : Prop := ∀ x ∈ s.out, Fits x

theorem fit_gapIf {b : Bool} {s : PSt} (h : Fit s) : Fit (gapIf b s) := by
  unfold gapIf
  split
  · intro x hx
    rcases List.mem_append.mp hx with hx | hx
    · exact h x hx
    · rw [List.mem_singleton] at hx; subst hx; trivial
  · exact h

theorem fit_sentence {g : Gr} {t : Nat} {s : PSt} {n : Node} (h : Fit s) (ht : t = n.loc.length) : Fit (sentence g t s n) := by
  unfold sentence
  split
  · exact h
  · intro x hx
    simp only at hx
    split at hx
    · exact h x hx
    · rcases List.mem_append.mp hx with hx | hx
      · exact h x hx
      · rw [List.mem_singleton] at hx; subst hx; exact ht

theorem foldl_fit {α : Type} {f : PSt → α → PSt} : ∀ (l : List α), (∀ a ∈ l, ∀ s, Fit s → Fit (f s a)) → ∀ s, Fit s → Fit (l.foldl f s)
  | [], _, _, hs => hs
  | a :: l, h, s, hs => by
    rw [List.foldl_cons]
    exact foldl_fit l (fun b hb => h b (List.mem_cons_of_mem _ hb)) _ (h a (List.mem_cons_self ..) s hs)

theorem fit_moduleText {g : Gr} (hg : g.WF) {t : Nat} {p : Loc} {s : PSt} (h : Fit s) (ht : t = p.length) : Fit (moduleText g t p s) := by
  refine foldl_fit _ (fun n hn s hs => ?_) s h
  have hn := hg.nodes p n hn
  refine fit_gapIf (fit_sentence (foldl_fit _ (fun a ha s hs => fit_gapIf (fit_sentence hs ?_)) s hs) (by rw [hn]; exact ht))
  rw [hg.nodes _ a (hg.nodeAnc n a ha), hn]; exact ht

theorem fit_outerText {g : Gr} (hg : g.WF) {t : Nat} {p : Loc} {s : PSt} (h : Fit s) (ht : p ≠ [] → t + 1 = p.length) :
    Fit (outerText g t p s) := by
  cases p with
  | nil => exact h
  | cons x r =>
    refine foldl_fit _ (fun n hn s hs => fit_gapIf (fit_sentence hs ?_)) s h
    rw [hg.nodes r n (List.mem_filter.mp hn).1]
    have := ht (by simp)
    simpa using this

theorem genText_fit {g : Gr} (hg : g.WF) : ∀ (f t : Nat) (p : Loc) (s s' : PSt), (∀ x ∈ p, x ≠ []) → (p = [] → t = 0) →
    (p ≠ [] → t + 1 = p.length) → genText g f t p s = some s' → Fit s → Fit s' := by
  intro f
  induction f with
  | zero => intro t p s s' _ _ _ h; cases h
  | succ f ih =>
    intro t p s s' hx h0 ht h hs
    rw [genText] at h
    by_cases hp : p ∈ s.iter
    · rw [if_pos hp, Option.some.injEq] at h; subst h; exact hs
    · rw [if_neg hp] at h
      have hhd : p.headD [] = [] ↔ p = [] := by
        cases p with
        | nil => simp
        | cons x r => simpa using hx x (List.mem_cons_self ..)
      simp only [Option.bind_eq_bind, Option.bind_eq_some_iff] at h
      obtain ⟨s1, e1, s2, e2, s3, e3, e4⟩ := h
      have hin : (if p.headD [] = [] then 0 else t + 1) = p.length := by
        by_cases hp : p = []
        · rw [if_pos (hhd.mpr hp), hp]; rfl
        · rw [if_neg (mt hhd.mp hp), ht hp]
      rw [hin] at e2 e3
      have hinner : ∀ q ∈ g.inners p, (∀ x ∈ q, x ≠ []) ∧ (q = [] → p.length = 0) ∧ (q ≠ [] → p.length + 1 = q.length) := by
        intro q hq
        obtain ⟨x, hne, rfl⟩ := hg.inners p q hq
        refine ⟨fun y hy => ?_, by simp, by simp⟩
        rcases List.mem_cons.mp hy with rfl | hy
        · exact hne
        · exact hx y hy
      have k1 : Fit s1 := by
        refine foldlM_keep Fit _ _ _ (fun a ha s s' h hs => ?_) e1 hs
        obtain ⟨x, y, r, h1, rfl, rfl⟩ := hg.modAnc p a ha
        obtain ⟨x', hne, h2⟩ := hg.inners r _ h1
        cases h2
        unfold before at h
        rw [Option.map_eq_some_iff] at h
        obtain ⟨s2, h2, rfl⟩ := h
        rw [if_neg (by rw [hhd]; simp)] at h2
        refine fit_gapIf (ih t (y :: r) s s2 (fun z hz => ?_) (by simp) (fun _ => ?_) h2 hs)
        · rcases List.mem_cons.mp hz with rfl | hz
          · exact hne
          · exact hx z (List.mem_cons_of_mem _ hz)
        · rw [ht (by simp)]; rfl
      have k2 : Fit (openText t p (outerText g t p s1)) := by
        have := fit_outerText hg k1 (t := t) (p := p) ht
        unfold openText
        split
        · exact this
        · rename_i hne
          intro x hx
          rcases List.mem_append.mp hx with hx | hx
          · exact this x hx
          · rw [List.mem_singleton] at hx; subst hx; exact ht (mt hhd.mpr hne)
      have k3 : Fit s2 := by
        refine foldlM_keep Fit _ _ _ (fun a ha s s' h hs => ?_) e2 k2
        obtain ⟨n, hn, ha⟩ := List.mem_flatMap.mp ha
        have ha := hg.nodePar n a ha
        rw [hg.nodes p n hn] at ha
        obtain ⟨a1, a2, a3⟩ := hinner a ha
        unfold before at h
        rw [Option.map_eq_some_iff] at h
        obtain ⟨s2, h2, rfl⟩ := h
        exact fit_gapIf (ih _ a s s2 a1 a2 a3 h2 hs)
      have k4 : Fit s3 := by
        refine foldlM_keep Fit _ _ _ (fun a ha s s' h hs => ?_) e3 (fit_moduleText hg k3 rfl)
        obtain ⟨a1, a2, a3⟩ := hinner a ha
        rw [Option.map_eq_some_iff] at h
        obtain ⟨s2, h2, rfl⟩ := h
        exact fit_gapIf (ih _ a s s2 a1 a2 a3 h2 hs)
      rw [Option.some.injEq] at e4
      subst e4
      unfold closeText
      intro x hx
      simp only at hx
      split at hx
      · exact k4 x hx
      · rename_i hne
        rcases List.mem_append.mp hx with hx | hx
        · exact k4 x hx
        · rw [List.mem_singleton] at hx; subst hx; exact ht (mt hhd.mpr hne)

end Verif.Idl.Gen
