import Verif.Lemmas.TypeSteps
/-!
# C66: types are values
-/

namespace Verif.Types

theorem history_ok {P : State → Option Op → Prop} {s s' : State} (hs : s.Ok) (h : History P s s') : s'.Ok := by
  induction h with
  | refl => exact hs
  | step _ _ st ih => exact step_ok ih st

theorem reachable_ok {s : State} (h : Reachable s) : s.Ok := history_ok state_init h

/-! ## Nothing dangles -/

/-- C66: whatever a program does with types, in any order (it may end and change the variables from which other types, pointers and
data were made), all of the type of every variable, pointer and datum is alive. -/
theorem C66_alive (s : State) (h : Reachable s) :
    (∀ v i, s.vars v = some i → ∃ t, Shows s.heap i t) ∧ (∀ p i, s.ptrs p = some i → ∃ t, Shows s.heap i t) ∧
    (∀ d i, s.data d = some i → ∃ t, Shows s.heap i t) := by
  have ok := reachable_ok h
  refine ⟨fun v i e => ?_, fun v i e => ?_, fun v i e => ?_⟩
  · obtain ⟨o, ho, _⟩ := ok.vars v i e; exact ok.heap.whole _ _ ho
  · obtain ⟨o, ho, _⟩ := ok.ptrs v i e; exact ok.heap.whole _ _ ho
  · obtain ⟨o, ho, _⟩ := ok.data v i e; exact ok.heap.whole _ _ ho

/-! ## Copies -/

/-- C66: a pointer made from a type, or copied from another pointer, shows the same type. -/
theorem C66_pointer (s s' : State) (f p src : Nat) (t : Tree) (h : Reachable s) (ht : Shows s.heap src t) :
    (call f s (.point p src) = some s' → ∃ i, s'.ptrs p = some i ∧ Shows s'.heap i t) ∧
    (∀ q, s.ptrs q = some src → call f s (.copy p q) = some s' → ∃ i, s'.ptrs p = some i ∧ Shows s'.heap i t) := by
  have ok := reachable_ok h
  have key : ∀ x, ptrOf f s.heap src = some x → Shows x.1 x.2 t := fun x hx =>
    (ptrOf_run (h' := x.1) (k := x.2) ok.heap hx).2.2 t ht
  constructor
  · intro hc
    dsimp only [call] at hc
    cases h1 : ptrOf f s.heap src with
    | none => rw [h1] at hc; cases hc
    | some x => rw [h1] at hc; cases hc; exact ⟨x.2, put_same, key x h1⟩
  · intro q hq hc
    dsimp only [call] at hc
    rw [hq] at hc
    simp only at hc
    cases h1 : ptrOf f s.heap src with
    | none => rw [h1] at hc; cases hc
    | some x => rw [h1] at hc; cases hc; exact ⟨x.2, put_same, key x h1⟩

/-- C66: a datum has the type that it was made from, behind its aliases. -/
theorem C66_datum (s s' : State) (f d src : Nat) (look : Bool) (t : Tree) (h : Reachable s) (ht : Shows s.heap src t)
    (hc : call f s (.make d src look) = some s') : ∃ i, s'.data d = some i ∧ Shows s'.heap i (if look then t.behind else t) := by
  have ok := reachable_ok h
  dsimp only [call] at hc
  cases h1 : dataType f look s.heap src with
  | none => rw [h1] at hc; cases hc
  | some x =>
    rw [h1] at hc; cases hc
    exact ⟨x.2, put_same, (dataType_run (h' := x.1) (k := x.2) ok.heap h1).2.2 t ht⟩

/-- C66: a part that is added to a type shows the type that it was made from, and the parts that were there show what they did. -/
theorem C66_part (s s' : State) (f : Nat) (x : Target) (own own' : List (String × Nat)) (src i : Nat) (twice : Bool) (k : Kind) (n : String)
    (ts : List Tree) (t : Tree) (h : Reachable s) (hi : s.target x = some i) (hx : Shows s.heap i (.node k n own ts)) (ht : Shows s.heap src t)
    (hc : call f s (.addPart x own' src twice) = some s') :
    s'.target x = some i ∧ Shows s'.heap i (.node k n own' (ts ++ [t])) := by
  have ok := reachable_ok h
  obtain ⟨i', h₁, k₁, h₂, k₂, o, e0, e1, e2, e3, hp, rfl⟩ := call_addPart hc
  rw [hi] at e0; cases e0
  obtain ⟨g, fr, same, hr, hki⟩ := addPart_facts ok hi e1 e2 e3 hp
  refine ⟨by cases x <;> exact hi, ?_⟩
  obtain ⟨u, hu⟩ := (part_run ok.heap e1 e2).2.2 t ht
  obtain ⟨m, hm⟩ := hx
  cases m with
  | zero => cases hm
  | succ m =>
    unfold view at hm
    rw [same] at hm
    simp only [Option.bind_some] at hm
    cases hs : seq (view m s.heap) o.kids with
    | none => rw [hs] at hm; cases hm
    | some us =>
      simp only [hs, Option.map_some, Option.some.injEq, Tree.node.injEq] at hm
      obtain ⟨rfl, rfl, _, rfl⟩ := hm
      have kids : ∀ j ∈ o.kids, view (m + u) (h₂.set i (some { o with own := own', kids := o.kids ++ [k₂] })) j = view (m + u) s.heap j := by
        intro j hj
        obtain ⟨n', hn'⟩ := List.getElem?_of_mem hj
        have hk : kid s.heap i n' = some j := by rw [kid_of same]; exact hn'
        obtain ⟨p, hp', _⟩ := ok.heap.live _ _ _ hk
        have hne : j ≠ i := fun he => by
          subst he
          exact target_root ok hi same hp _ _ hk
        rw [view_set hr (m + u) hne, g.view ok.heap (get_lt hp') (m + u)]
      have hs' : seq (view (m + u) s.heap) o.kids = some us := seq_mono (fun a t ha => view_le (by omega) ha) hs
      have all : ∀ {l : List Nat} {us : List Tree} {g' : Nat → Option Tree}, seq g' l = some us → g' k₂ = some t → seq g' (l ++ [k₂]) = some (us ++ [t]) := by
        intro l
        induction l with
        | nil => intro us g' h1 h2; cases h1; simp [seq, h2]
        | cons a l ih =>
          intro us g' h1 h2
          unfold seq at h1
          cases ha : g' a with
          | none => rw [ha] at h1; cases h1
          | some v =>
            rw [ha] at h1
            cases hl : seq g' l with
            | none => simp [hl] at h1
            | some vs =>
              simp only [hl, Option.map_some, Option.bind_some, Option.some.injEq] at h1
              subst h1
              rw [List.cons_append]
              unfold seq
              rw [ha, ih hl h2]
              rfl
      refine ⟨m + u + 1, ?_⟩
      unfold view
      rw [get_set_self (get_lt e3)]
      simp only [Option.bind_some]
      rw [all (us := us) ((seq_congr kids).trans hs') (by rw [view_set hr (m + u) hki]; exact view_le (by omega) hu)]
      rfl

theorem rget_total : ∀ (f : Nat) (h : Heap) (i : Nat) (t : Tree), view f h i = some t → ∃ j u, rget f h i = some j ∧ view f h j = some u := by
  intro f
  induction f with
  | zero => intro h i t e; cases e
  | succ f ih =>
    intro h i t e
    have e0 := e
    unfold view at e
    unfold rget
    cases ho : h.get i with
    | none => rw [ho] at e; cases e
    | some o =>
      rw [ho] at e
      simp only [Option.bind_some] at e ⊢
      split
      · rename_i k r _ hr
        cases hs : seq (view f h) o.kids with
        | none => rw [hs] at e; cases e
        | some ts =>
          obtain ⟨u, hu⟩ := seq_mem hs k (by rw [hr]; simp)
          obtain ⟨j, w, h1, h2⟩ := ih h k u hu
          exact ⟨j, w, h1, view_succ h2⟩
      · exact ⟨i, t, rfl, e0⟩

/-- C66: a pointer and a datum can be made of any type that is alive. -/
theorem C66_possible (s : State) (h : Reachable s) (src : Nat) (t : Tree) (ht : Shows s.heap src t) :
    (∀ p, ∃ f s', call f s (.point p src) = some s') ∧ ∀ d look, ∃ f s', call f s (.make d src look) = some s' := by
  have ok := reachable_ok h
  obtain ⟨f, hf⟩ := ht
  constructor
  · intro p
    obtain ⟨h', k, e, _⟩ := ptrOf_copies f s.heap src t ok.heap hf
    exact ⟨f, _, by dsimp only [call]; rw [e]; rfl⟩
  · intro d look
    have key : ∀ j u, view f s.heap j = some u → ∃ x, ((s.heap.get j).bind fun o => if o.managed then some (s.heap, j) else clone f s.heap j) = some x := by
      intro j u hu
      cases ho : s.heap.get j with
      | none =>
        cases f with
        | zero => cases hu
        | succ f => unfold view at hu; rw [ho] at hu; cases hu
      | some o =>
        simp only [Option.bind_some]
        split
        · exact ⟨_, rfl⟩
        · obtain ⟨h', k, e, _⟩ := clone_copies f s.heap j u ok.heap hu
          exact ⟨_, e⟩
    have dt : ∃ x, dataType f look s.heap src = some x := by
      unfold dataType
      cases look with
      | false => exact key src t hf
      | true =>
        obtain ⟨j, u, h1, h2⟩ := rget_total f s.heap src t hf
        obtain ⟨x, hx⟩ := key j u h2
        exact ⟨x, by rw [if_pos rfl, h1]; exact hx⟩
    obtain ⟨x, hx⟩ := dt
    exact ⟨f, { s with heap := x.1, data := put s.data d (some x.2) }, by dsimp only [call]; rw [hx]; rfl⟩

/-! ## Independence -/

/-- C66: the type of a datum does not change as long as the datum has it, in any history, unless it is changed through the pointer that
the datum was made from; changes of variables never reach it. (And no primitive type is renamed.) -/
theorem C66_data_partial (s s' : State) (d i : Nat) (t : Tree) (h : Reachable s) (hd : s.data d = some i) (ht : Shows s.heap i t)
    (hh : History (fun s e => ¬Rebinds d e ∧ ¬Renames s e ∧ ∀ p, Changes e = some (.ptr p) → s.ptrs p ≠ s.data d) s s') :
    s'.data d = some i ∧ Shows s'.heap i t := by
  have ok := reachable_ok h
  clear h
  induction hh with
  | refl => exact ⟨hd, ht⟩
  | @step s₁ s₂ e h1 hp st ih =>
    obtain ⟨hd1, ht1⟩ := ih
    have ok1 := history_ok ok h1
    have ok2 := step_ok ok1 st
    obtain ⟨hp1, hp2, hp3⟩ := hp
    have hd2 : s₂.data d = some i := by
      rw [← hd1]
      cases st with
      | free _ => rfl
      | @call _ f op hc =>
        cases op with
        | declare v k n own => dsimp only [call] at hc; split at hc <;> cases hc; rfl
        | leave v => dsimp only [call] at hc; cases hv : s₁.vars v <;> rw [hv] at hc <;> cases hc; rfl
        | edit x n own =>
          dsimp only [call] at hc
          cases hi : s₁.target x with
          | none => rw [hi] at hc; cases hc
          | some j =>
            rw [hi] at hc
            simp only [Option.bind_some] at hc
            cases ho : s₁.heap.get j <;> rw [ho] at hc <;> cases hc
            rfl
        | enumerator x own n =>
          dsimp only [call] at hc
          cases hi : s₁.target x with
          | none => rw [hi] at hc; cases hc
          | some j =>
            rw [hi] at hc
            simp only [Option.bind_some] at hc
            cases ho : s₁.heap.get j with
            | none => rw [ho] at hc; cases hc
            | some o =>
              rw [ho] at hc
              simp only [Option.bind_some] at hc
              cases hn : o.next <;> rw [hn] at hc <;> cases hc
              rfl
        | addPart x own src twice => obtain ⟨_, _, _, _, _, _, _, _, _, _, _, rfl⟩ := call_addPart hc; rfl
        | point p src => dsimp only [call] at hc; cases hx : ptrOf f s₁.heap src <;> rw [hx] at hc <;> cases hc; rfl
        | copy p q =>
          dsimp only [call] at hc
          cases hq : s₁.ptrs q with
          | none => rw [hq] at hc; cases hc; rfl
          | some j => rw [hq] at hc; simp only at hc; cases hx : ptrOf f s₁.heap j <;> rw [hx] at hc <;> cases hc; rfl
        | move p q => cases hc; rfl
        | drop p => cases hc; rfl
        | release p e => cases hc; exact put_ne (Ne.symm hp1)
        | make e src look =>
          dsimp only [call] at hc
          cases hx : dataType f look s₁.heap src <;> rw [hx] at hc <;> cases hc
          exact put_ne (Ne.symm hp1)
        | share e e' => cases hc; exact put_ne (Ne.symm hp1)
        | finish e => cases hc; exact put_ne (Ne.symm hp1)
    refine ⟨hd2, step_shows ok1 st hp2 (fun x hx hxi => ?_) ?_ ht1⟩
    · cases x with
      | ptr p => exact hp3 p hx (by rw [hd1]; exact hxi)
      | var v =>
        obtain ⟨o, ho, hm⟩ := ok1.vars v i hxi
        obtain ⟨o', ho', hm'⟩ := ok1.data d i hd1
        rw [ho] at ho'; cases ho'
        rw [hm] at hm'; cases hm'
    · obtain ⟨o, ho, _⟩ := ok2.data d i hd2
      rw [ho]; simp

theorem step_ptr {s s' : State} {e : Option Op} {p : Nat} (st : Step s e s') (h : ¬Repoints p e) : s'.ptrs p = s.ptrs p := by
  cases st with
  | free _ => rfl
  | @call _ f op hc =>
    cases op with
    | declare v k n own => dsimp only [call] at hc; split at hc <;> cases hc; rfl
    | leave v => dsimp only [call] at hc; cases hv : s.vars v <;> rw [hv] at hc <;> cases hc; rfl
    | edit x n own =>
      dsimp only [call] at hc
      cases hi : s.target x with
      | none => rw [hi] at hc; cases hc
      | some j =>
        rw [hi] at hc
        simp only [Option.bind_some] at hc
        cases ho : s.heap.get j <;> rw [ho] at hc <;> cases hc
        rfl
    | enumerator x own n =>
      dsimp only [call] at hc
      cases hi : s.target x with
      | none => rw [hi] at hc; cases hc
      | some j =>
        rw [hi] at hc
        simp only [Option.bind_some] at hc
        cases ho : s.heap.get j with
        | none => rw [ho] at hc; cases hc
        | some o =>
          rw [ho] at hc
          simp only [Option.bind_some] at hc
          cases hn : o.next <;> rw [hn] at hc <;> cases hc
          rfl
    | addPart x own src twice => obtain ⟨_, _, _, _, _, _, _, _, _, _, _, rfl⟩ := call_addPart hc; rfl
    | point q src =>
      dsimp only [call] at hc
      cases hx : ptrOf f s.heap src <;> rw [hx] at hc <;> cases hc
      exact put_ne (Ne.symm h)
    | copy q r =>
      dsimp only [call] at hc
      cases hq : s.ptrs r with
      | none => rw [hq] at hc; cases hc; exact put_ne (Ne.symm h)
      | some j =>
        rw [hq] at hc
        simp only at hc
        cases hx : ptrOf f s.heap j <;> rw [hx] at hc <;> cases hc
        exact put_ne (Ne.symm h)
    | move q r =>
      cases hc
      have h1 : p ≠ q := fun he => h (.inl he.symm)
      have h2 : p ≠ r := fun he => h (.inr he.symm)
      show put (put s.ptrs r none) q (s.ptrs r) p = s.ptrs p
      rw [put_ne h1, put_ne h2]
    | drop q => cases hc; exact put_ne (Ne.symm h)
    | release q e => cases hc; exact put_ne (Ne.symm h)
    | make e src look => dsimp only [call] at hc; cases hx : dataType f look s.heap src <;> rw [hx] at hc <;> cases hc; rfl
    | share e e' => cases hc; rfl
    | finish e => cases hc; rfl

/-- C66: what a pointer shows (an entry of a module, for example) changes only by a change through this very pointer, in any history:
changes through other pointers, among them its copies, and changes of variables never reach it, nor any part of it. (And no primitive
type is renamed.) -/
theorem C66_pointer_partial (s s' : State) (p i : Nat) (t : Tree) (h : Reachable s) (hp : s.ptrs p = some i) (ht : Shows s.heap i t)
    (hh : History (fun s e => ¬Repoints p e ∧ ¬Renames s e ∧ Changes e ≠ some (.ptr p)) s s') :
    s'.ptrs p = some i ∧ Shows s'.heap i t := by
  have ok := reachable_ok h
  clear h
  induction hh with
  | refl => exact ⟨hp, ht⟩
  | @step s₁ s₂ e h1 hP st ih =>
    obtain ⟨hp1, ht1⟩ := ih
    have ok1 := history_ok ok h1
    have ok2 := step_ok ok1 st
    obtain ⟨hP1, hP2, hP3⟩ := hP
    have hp2 : s₂.ptrs p = some i := by rw [step_ptr st hP1]; exact hp1
    refine ⟨hp2, step_shows ok1 st hP2 (fun x hx hxi => ?_) ?_ ht1⟩
    · obtain ⟨o, ho, hm⟩ := ok1.ptrs p i hp1
      cases x with
      | ptr q =>
        have hpr : o.kind ≠ .primitive := fun hk => hP2 ⟨_, _, _, hx, hxi, ho, hk⟩
        have := ok1.ptrOne p q i hp1 hxi ⟨o, ho, hpr⟩
        subst this
        exact hP3 hx
      | var v =>
        obtain ⟨o', ho', hm'⟩ := ok1.vars v i hxi
        rw [ho] at ho'; cases ho'
        rw [hm] at hm'; cases hm'
    · obtain ⟨o, ho, _⟩ := ok2.ptrs p i hp2
      rw [ho]; simp

theorem step_var {s s' : State} {e : Option Op} {v i : Nat} (st : Step s e s') (h : e ≠ some (.leave v)) (hv : s.vars v = some i) :
    s'.vars v = some i := by
  cases st with
  | free _ => exact hv
  | @call _ f op hc =>
    cases op with
    | declare w k n own =>
      dsimp only [call] at hc
      split at hc
      · rename_i hw
        cases hc
        have : v ≠ w := fun he => by subst he; rw [hw] at hv; cases hv
        show put s.vars w _ v = some i
        rw [put_ne this]; exact hv
      · cases hc
    | leave w =>
      dsimp only [call] at hc
      cases hw : s.vars w with
      | none => rw [hw] at hc; cases hc
      | some j =>
        rw [hw] at hc; cases hc
        have : v ≠ w := fun he => by subst he; exact h rfl
        show put s.vars w none v = some i
        rw [put_ne this]; exact hv
    | edit x n own =>
      dsimp only [call] at hc
      cases hi : s.target x with
      | none => rw [hi] at hc; cases hc
      | some j =>
        rw [hi] at hc
        simp only [Option.bind_some] at hc
        cases ho : s.heap.get j <;> rw [ho] at hc <;> cases hc
        exact hv
    | enumerator x own n =>
      dsimp only [call] at hc
      cases hi : s.target x with
      | none => rw [hi] at hc; cases hc
      | some j =>
        rw [hi] at hc
        simp only [Option.bind_some] at hc
        cases ho : s.heap.get j with
        | none => rw [ho] at hc; cases hc
        | some o =>
          rw [ho] at hc
          simp only [Option.bind_some] at hc
          cases hn : o.next <;> rw [hn] at hc <;> cases hc
          exact hv
    | addPart x own src twice => obtain ⟨_, _, _, _, _, _, _, _, _, _, _, rfl⟩ := call_addPart hc; exact hv
    | point q src => dsimp only [call] at hc; cases hx : ptrOf f s.heap src <;> rw [hx] at hc <;> cases hc; exact hv
    | copy q r =>
      dsimp only [call] at hc
      cases hq : s.ptrs r with
      | none => rw [hq] at hc; cases hc; exact hv
      | some j => rw [hq] at hc; simp only at hc; cases hx : ptrOf f s.heap j <;> rw [hx] at hc <;> cases hc; exact hv
    | move q r => cases hc; exact hv
    | drop q => cases hc; exact hv
    | release q e => cases hc; exact hv
    | make e src look => dsimp only [call] at hc; cases hx : dataType f look s.heap src <;> rw [hx] at hc <;> cases hc; exact hv
    | share e e' => cases hc; exact hv
    | finish e => cases hc; exact hv

/-- C66: a type of a variable changes only by a change through this variable: nothing that is done to types, pointers and data that
were made from it, or that it was made from, reaches it. (And no primitive type is renamed.) -/
theorem C66_variable_partial (s s' : State) (v i : Nat) (t : Tree) (h : Reachable s) (hv : s.vars v = some i) (ht : Shows s.heap i t)
    (hh : History (fun s e => e ≠ some (.leave v) ∧ ¬Renames s e ∧ Changes e ≠ some (.var v)) s s') :
    s'.vars v = some i ∧ Shows s'.heap i t := by
  have ok := reachable_ok h
  clear h
  induction hh with
  | refl => exact ⟨hv, ht⟩
  | @step s₁ s₂ e h1 hP st ih =>
    obtain ⟨hv1, ht1⟩ := ih
    have ok1 := history_ok ok h1
    have ok2 := step_ok ok1 st
    obtain ⟨hP1, hP2, hP3⟩ := hP
    have hv2 := step_var st hP1 hv1
    refine ⟨hv2, step_shows ok1 st hP2 (fun x hx hxi => ?_) ?_ ht1⟩
    · obtain ⟨o, ho, hm⟩ := ok1.vars v i hv1
      cases x with
      | var w =>
        have := ok1.varOne v w i hv1 hxi
        subst this
        exact hP3 hx
      | ptr q =>
        obtain ⟨o', ho', hm'⟩ := ok1.ptrs q i hxi
        rw [ho] at ho'; cases ho'
        rw [hm] at hm'; cases hm'
    · obtain ⟨o, ho, _⟩ := ok2.vars v i hv2
      rw [ho]; simp

/-! ## Where it fails -/

/-- The calls one after the other. -/
def runAll (f : Nat) : State → List Op → Option State
  | s, [] => some s
  | s, op :: l => (call f s op).bind fun s' => runAll f s' l

theorem history_trans {P : State → Option Op → Prop} {s₁ s₂ s₃ : State} (a : History P s₁ s₂) (b : History P s₂ s₃) : History P s₁ s₃ := by
  induction b with
  | refl => exact a
  | step _ hp st ih => exact .step ih hp st

theorem runAll_history {P : State → Option Op → Prop} {f : Nat} : ∀ {l : List Op} {s s' : State}, (∀ op ∈ l, ∀ s, P s (some op)) →
    runAll f s l = some s' → History P s s'
  | [], _, _, _, e => by cases e; exact .refl
  | op :: l, s, s', hp, e => by
    unfold runAll at e
    cases hc : call f s op with
    | none => rw [hc] at e; cases e
    | some s1 =>
      rw [hc] at e
      exact history_trans (.step .refl (hp op (by simp) s) (.call hc)) (runAll_history (fun op ho => hp op (List.mem_cons_of_mem _ ho)) e)

def runGet (f : Nat) (s : State) (l : List Op) : State := (runAll f s l).getD {}

theorem reach {f : Nat} {l : List Op} (h : (runAll f {} l).isSome = true) : Reachable (runGet f {} l) := by
  obtain ⟨s, hs⟩ := Option.isSome_iff_exists.mp h
  unfold runGet
  rw [hs]
  exact runAll_history (fun _ _ _ => trivial) hs

/-- C66, the other way: a datum of the type of a module (or of any pointer) shares this type; when a member is added to it, or it is
renamed, the datum has another type than the one it was made with. Here: a structure without members is put in a module, a datum is
made of the module's structure, and a member is added to the module's structure. -/
theorem C66_data_fails :
    ∃ s s' i, Reachable s ∧ Step s (some (.addPart (.ptr 0) [("x", 0)] 0 true)) s' ∧ s.data 0 = some i ∧ s'.data 0 = some i ∧
      Shows s.heap i (.node .other "S" [] []) ∧ Shows s'.heap i (.node .other "S" [("x", 0)] [.node .primitive "int32_t" [] []]) := by
  let l : List Op := [.declare 9 .primitive "int32_t" [], .declare 0 .other "S" [], .point 0 1, .make 0 2 true]
  exact ⟨runGet 5 {} l, runGet 5 {} (l ++ [.addPart (.ptr 0) [("x", 0)] 0 true]), 2, reach rfl, .call (f := 5) rfl, rfl, rfl, ⟨3, rfl⟩, ⟨3, rfl⟩⟩

/-- C66, the other way: pointers to primitive types share them, also as members: a renaming through one of them is seen by all. -/
theorem C66_primitive_fails :
    ∃ s s' i j, Reachable s ∧ Step s (some (.edit (.ptr 0) "mine" [])) s' ∧ s.ptrs 1 = some i ∧ s'.ptrs 1 = some i ∧
      Shows s.heap i (.node .primitive "int32_t" [] []) ∧ Shows s'.heap i (.node .primitive "mine" [] []) ∧
      s.vars 0 = some j ∧ s'.vars 0 = some j ∧ Shows s.heap j (.node .other "S" [("x", 0)] [.node .primitive "int32_t" [] []]) ∧
      Shows s'.heap j (.node .other "S" [("x", 0)] [.node .primitive "mine" [] []]) := by
  let l : List Op := [.declare 9 .primitive "int32_t" [], .point 0 0, .copy 1 0, .declare 0 .other "S" [], .addPart (.var 0) [("x", 0)] 1 true]
  exact ⟨runGet 5 {} l, runGet 5 {} (l ++ [.edit (.ptr 0) "mine" []]), 1, 2, reach rfl, .call (f := 5) rfl, rfl, rfl, ⟨3, rfl⟩, ⟨3, rfl⟩, rfl, rfl,
    ⟨3, rfl⟩, ⟨3, rfl⟩⟩

/-- What a shared pointer holds has no next value. -/
def NoNext (h : Heap) : Prop := ∀ i o, h.get i = some o → o.managed = true → o.next = none

theorem nonext_append {h : Heap} (hn : NoNext h) {o : Obj} (ho : o.managed = true → o.next = none) : NoNext (h ++ [some o]) := by
  intro i p e hm
  by_cases hi : i < h.length
  · rw [get_append hi] at e; exact hn i p e hm
  · have := get_lt e
    simp only [List.length_append, List.length_singleton] at this
    obtain rfl : i = h.length := by omega
    rw [get_last] at e; cases e
    exact ho hm

theorem nonext_set {h : Heap} (hn : NoNext h) {i : Nat} {o : Option Obj} (ho : ∀ p, o = some p → p.managed = true → p.next = none) :
    NoNext (h.set i o) := by
  intro j p e hm
  by_cases hj : i = j
  · subst hj
    have := get_lt e
    rw [get_set_self (by simpa using this)] at e
    exact ho p e hm
  · rw [get_set_ne hj] at e; exact hn j p e hm

theorem nonext_copyAll {g : Heap → Nat → Option (Heap × Nat)} (hg : ∀ h i r, NoNext h → g h i = some r → NoNext r.1) :
    ∀ (l : List Nat) (h : Heap) (r : Heap × List Nat), NoNext h → copyAll g h l = some r → NoNext r.1
  | [], _, _, hn, e => by cases e; exact hn
  | i :: l, h, r, hn, e => by
    unfold copyAll at e
    cases hi : g h i with
    | none => rw [hi] at e; cases e
    | some x =>
      rw [hi] at e
      simp only [Option.bind_some] at e
      cases hl : copyAll g x.1 l with
      | none => rw [hl] at e; cases e
      | some y => rw [hl] at e; cases e; exact nonext_copyAll hg l x.1 y (hg _ _ _ hn hi) hl

theorem nonext_ptrWith {g : Heap → Nat → Option (Heap × Nat)} (hg : ∀ h i r, NoNext h → g h i = some r → NoNext r.1) (h : Heap) (i : Nat)
    (r : Heap × Nat) (hn : NoNext h) (e : ptrWith g h i = some r) : NoNext r.1 := by
  unfold ptrWith at e
  cases ho : h.get i with
  | none => rw [ho] at e; cases e
  | some o =>
    rw [ho] at e
    simp only [Option.bind_some] at e
    split at e
    · cases e; exact hn
    · exact hg _ _ _ hn e

theorem nonext_clone : ∀ (f : Nat) (h : Heap) (i : Nat) (r : Heap × Nat), NoNext h → clone f h i = some r → NoNext r.1 := by
  intro f
  induction f with
  | zero => intro h i r _ e; cases e
  | succ f ih =>
    intro h i r hn e
    unfold clone at e
    cases ho : h.get i with
    | none => rw [ho] at e; cases e
    | some o =>
      rw [ho] at e
      simp only [Option.bind_some] at e
      cases hc : copyAll (ptrWith (clone f)) h o.kids with
      | none => rw [hc] at e; cases e
      | some x =>
        rw [hc] at e
        cases e
        exact nonext_append (nonext_copyAll (nonext_ptrWith ih) _ _ _ hn hc) fun _ => rfl

theorem nonext_step {s s' : State} {e : Option Op} (ok : s.Ok) (hn : NoNext s.heap) (st : Step s e s') : NoNext s'.heap := by
  cases st with
  | free _ => exact nonext_set hn fun p hp => by cases hp
  | @call _ f op hc =>
    cases op with
    | declare v k n own =>
      dsimp only [call] at hc
      split at hc
      · cases hc; exact nonext_append hn fun h => by cases h
      · cases hc
    | leave v =>
      dsimp only [call] at hc
      cases hv : s.vars v <;> rw [hv] at hc <;> cases hc
      exact nonext_set hn fun p hp => by cases hp
    | edit x n own =>
      dsimp only [call] at hc
      cases hi : s.target x with
      | none => rw [hi] at hc; cases hc
      | some j =>
        rw [hi] at hc
        simp only [Option.bind_some] at hc
        cases ho : s.heap.get j with
        | none => rw [ho] at hc; cases hc
        | some o =>
          rw [ho] at hc; cases hc
          exact nonext_set hn fun p hp hm => by cases hp; exact hn j o ho hm
    | enumerator x own n =>
      dsimp only [call] at hc
      cases hi : s.target x with
      | none => rw [hi] at hc; cases hc
      | some j =>
        rw [hi] at hc
        simp only [Option.bind_some] at hc
        cases ho : s.heap.get j with
        | none => rw [ho] at hc; cases hc
        | some o =>
          rw [ho] at hc
          simp only [Option.bind_some] at hc
          cases hx : o.next with
          | none => rw [hx] at hc; cases hc
          | some y =>
            rw [hx] at hc; cases hc
            refine nonext_set hn fun p hp hm => ?_
            cases hp
            have := hn j o ho hm
            rw [hx] at this; cases this
    | addPart x own src twice =>
      obtain ⟨i, h₁, k₁, h₂, k₂, o, e0, e1, e2, e3, hp, rfl⟩ := call_addPart hc
      have n1 : NoNext h₁ := nonext_ptrWith (nonext_clone f) _ _ _ hn e1
      have n2 : NoNext h₂ := by
        cases twice with
        | false => cases e2; exact n1
        | true => exact nonext_ptrWith (nonext_clone f) _ _ (h₂, k₂) n1 e2
      exact nonext_set n2 fun p hp hm => by cases hp; exact n2 i o e3 hm
    | point q src =>
      dsimp only [call] at hc
      cases hx : ptrOf f s.heap src with
      | none => rw [hx] at hc; cases hc
      | some x => rw [hx] at hc; cases hc; exact nonext_ptrWith (nonext_clone f) _ _ _ hn hx
    | copy q r =>
      dsimp only [call] at hc
      cases hq : s.ptrs r with
      | none => rw [hq] at hc; cases hc; exact hn
      | some j =>
        rw [hq] at hc
        simp only at hc
        cases hx : ptrOf f s.heap j with
        | none => rw [hx] at hc; cases hc
        | some x => rw [hx] at hc; cases hc; exact nonext_ptrWith (nonext_clone f) _ _ _ hn hx
    | move q r => cases hc; exact hn
    | drop q => cases hc; exact hn
    | release q e => cases hc; exact hn
    | make e src look =>
      dsimp only [call] at hc
      cases hx : dataType f look s.heap src with
      | none => rw [hx] at hc; cases hc
      | some x =>
        rw [hx] at hc; cases hc
        unfold dataType at hx
        cases hj : (if look then rget f s.heap src else some src) with
        | none => rw [hj] at hx; cases hx
        | some j =>
          rw [hj] at hx
          simp only [Option.bind_some] at hx
          cases ho : s.heap.get j with
          | none => rw [ho] at hx; cases hx
          | some o =>
            rw [ho] at hx
            simp only [Option.bind_some] at hx
            split at hx
            · cases hx; exact hn
            · exact nonext_clone f _ _ _ hn hx
    | share e e' => cases hc; exact hn
    | finish e => cases hc; exact hn

/-- C66, the other way: the enumeration that a pointer holds (an entry of a module, for example, although `Module::enum_32` returns it as
an `EnumerationType`) is never one to which an enumerator can be added: the copy has no next value, and the call reads one where there
is none. -/
theorem C66_enumerator_fails (s : State) (h : Reachable s) (f p : Nat) (own : List (String × Nat)) (n : Nat) :
    call f s (.enumerator (.ptr p) own n) = none := by
  have hn : NoNext s.heap := by
    unfold Reachable at h
    induction h with
    | refl => exact fun i o e => absurd (get_lt e) (by simp)
    | step h1 _ st ih => exact nonext_step (reachable_ok h1) ih st
  have ok := reachable_ok h
  dsimp only [call, State.target]
  cases hp : s.ptrs p with
  | none => rfl
  | some i =>
    obtain ⟨o, ho, hm⟩ := ok.ptrs p i hp
    simp only [Option.bind_some, ho]
    rw [hn i o ho hm]
    rfl

/-! ## Examples -/

/-- A structure with a member of an alias of another structure, in a module and in a datum; then both variables are changed and end. -/
def sampleOps : List Op :=
  [.declare 9 .primitive "int32_t" [], .declare 0 .other "P" [], .addPart (.var 0) [("x", 0), ("size", 4)] 0 true,
    .declare 1 .alias "A" [], .addPart (.var 1) [] 1 true, .declare 2 .other "S" [], .addPart (.var 2) [("p", 0), ("size", 4)] 3 true,
    .point 0 6, .make 0 3 true, .make 1 6 true]

def sampleState : State := runGet 9 {} sampleOps

theorem sample_reachable : Reachable sampleState := reach rfl

def samplePart : Tree := .node .other "P" [("x", 0), ("size", 4)] [.node .primitive "int32_t" [] []]

/-- The datum 0, made of the alias, has the type behind it. -/
example : (sampleState.data 0).bind (view 5 sampleState.heap) = some samplePart := rfl

example : (sampleState.data 1).bind (view 9 sampleState.heap) =
    some (.node .other "S" [("p", 0), ("size", 4)] [.node .alias "A" [] [samplePart]]) := rfl

def laterOps : List Op :=
  [.edit (.var 2) "T" [], .addPart (.var 2) [("q", 4)] 0 true, .leave 1, .leave 0, .addPart (.ptr 0) [("r", 4)] 0 true, .leave 2, .drop 0]

/-- The changes happen, and the datum keeps its type. -/
example : (runAll 9 sampleState laterOps).isSome = true ∧ (runGet 9 sampleState laterOps).data 1 = sampleState.data 1 ∧
    ((runGet 9 sampleState laterOps).data 1).bind (view 9 (runGet 9 sampleState laterOps).heap) =
      some (.node .other "S" [("p", 0), ("size", 4)] [.node .alias "A" [] [samplePart]]) := ⟨rfl, rfl, rfl⟩

/-- What was made on the way and is held by nobody is destroyed. -/
example : ∃ s, Step sampleState none s ∧ s.heap.get 4 = none := by
  have hh : sampleState.heap.all (fun o => match o with | some o => decide (4 ∉ o.kids) | none => true) = true := by decide
  refine ⟨_, .free (i := 4) ⟨⟨_, rfl, rfl⟩, fun p => ?_, fun d => ?_, fun j n e => ?_⟩, rfl⟩
  · show (if p = 0 then some 13 else none) ≠ some 4
    split <;> simp
  · show (if d = 1 then some 16 else if d = 0 then some 5 else none) ≠ some 4
    split
    · simp
    · split <;> simp
  · obtain ⟨o, ho, hn⟩ := kid_obj e
    have hm : some o ∈ sampleState.heap := by
      unfold Heap.get at ho
      cases hx : sampleState.heap[j]? with
      | none => rw [hx] at ho; cases ho
      | some x =>
        rw [hx] at ho
        simp only [Option.join_some] at ho
        subst ho
        exact List.mem_of_getElem? hx
    have := List.all_eq_true.mp hh _ hm
    exact of_decide_eq_true this (List.mem_of_getElem? hn)

/-- The theorem about data, with this history. -/
example : History (fun s e => ¬Rebinds 1 e ∧ ¬Renames s e ∧ ∀ p, Changes e = some (.ptr p) → s.ptrs p ≠ s.data 1) sampleState
    (runGet 9 sampleState [.edit (.var 2) "T" []]) := by
  refine .step (e := some (.edit (.var 2) "T" [])) .refl ⟨fun h => h, ?_, fun p h => by cases h⟩ (.call (f := 9) rfl)
  rintro ⟨t, i, o, h1, h2, h3, h4⟩
  cases h1
  cases h2
  cases h3
  cases h4

end Verif.Types
