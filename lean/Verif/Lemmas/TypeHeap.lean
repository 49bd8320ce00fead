import Verif.Spec.TypeHeap
/-!
# Copies of types
-/

namespace Verif.Types

theorem get_lt {h : Heap} {i : Nat} {o : Obj} (e : h.get i = some o) : i < h.length := by
  unfold Heap.get at e
  by_cases hi : i < h.length
  · exact hi
  · rw [List.getElem?_eq_none (by omega)] at e; cases e

theorem get_append {h l : Heap} {i : Nat} (hi : i < h.length) : Heap.get (h ++ l) i = h.get i := by
  unfold Heap.get; rw [List.getElem?_append_left hi]

theorem get_last {h : Heap} {o : Obj} : Heap.get (h ++ [some o]) h.length = some o := by
  unfold Heap.get; simp

theorem get_prefix {h h' : Heap} (hp : h <+: h') {i : Nat} (hi : i < h.length) : h'.get i = h.get i := by
  obtain ⟨l, rfl⟩ := hp
  exact get_append hi

theorem get_set_self {h : Heap} {i : Nat} {o : Option Obj} (hi : i < h.length) : Heap.get (h.set i o) i = o := by
  unfold Heap.get; simp [hi]

theorem get_set_ne {h : Heap} {i j : Nat} {o : Option Obj} (hij : i ≠ j) : Heap.get (h.set i o) j = h.get j := by
  unfold Heap.get; rw [List.getElem?_set_ne hij]

theorem kid_of {h : Heap} {i n : Nat} {o : Obj} (e : h.get i = some o) : kid h i n = o.kids[n]? := by
  unfold kid; rw [e]; rfl

theorem kid_obj {h : Heap} {i n : Nat} {k : Nat} (e : kid h i n = some k) : ∃ o, h.get i = some o ∧ o.kids[n]? = some k := by
  unfold kid at e
  cases ho : h.get i with
  | none => rw [ho] at e; cases e
  | some o => rw [ho] at e; exact ⟨o, rfl, e⟩

theorem kid_congr {h h' : Heap} {i n : Nat} (e : h'.get i = h.get i) : kid h' i n = kid h i n := by unfold kid; rw [e]

/-! ## What an object shows -/

theorem seq_congr {α β : Type} {g g' : α → Option β} : ∀ {l : List α}, (∀ a ∈ l, g a = g' a) → seq g l = seq g' l
  | [], _ => rfl
  | a :: l, h => by
    unfold seq
    rw [h a (by simp), seq_congr fun b hb => h b (List.mem_cons_of_mem _ hb)]

theorem seq_mem {α β : Type} {g : α → Option β} : ∀ {l : List α} {ts : List β}, seq g l = some ts → ∀ a ∈ l, ∃ t, g a = some t
  | [], _, _, a, ha => absurd ha (by simp)
  | b :: l, ts, h, a, ha => by
    unfold seq at h
    cases hb : g b with
    | none => rw [hb] at h; cases h
    | some t =>
      rw [hb] at h
      cases hl : seq g l with
      | none => simp [hl] at h
      | some us =>
        rcases List.mem_cons.mp ha with rfl | ha
        · exact ⟨t, hb⟩
        · exact seq_mem hl a ha

theorem seq_some {α β : Type} {g : α → Option β} : ∀ {l : List α}, (∀ a ∈ l, ∃ t, g a = some t) → ∃ ts, seq g l = some ts
  | [], _ => ⟨[], rfl⟩
  | a :: l, h => by
    obtain ⟨t, ht⟩ := h a (by simp)
    obtain ⟨ts, hts⟩ := seq_some fun b hb => h b (List.mem_cons_of_mem _ hb)
    exact ⟨t :: ts, by unfold seq; rw [ht, hts]; rfl⟩

theorem seq_mono {α β : Type} {g g' : α → Option β} (hg : ∀ a t, g a = some t → g' a = some t) :
    ∀ {l : List α} {ts : List β}, seq g l = some ts → seq g' l = some ts
  | [], _, h => h
  | a :: l, ts, h => by
    unfold seq at h ⊢
    cases ha : g a with
    | none => rw [ha] at h; cases h
    | some t =>
      rw [ha] at h
      cases hl : seq g l with
      | none => simp [hl] at h
      | some us =>
        rw [hg _ _ ha]
        simp only [hl, Option.map_some, Option.bind_some] at h ⊢
        rw [seq_mono hg hl]
        exact h

theorem view_succ {f : Nat} {h : Heap} {i : Nat} {t : Tree} : view f h i = some t → view (f + 1) h i = some t := by
  induction f generalizing i t with
  | zero => intro e; cases e
  | succ f ih =>
    intro e
    unfold view at e ⊢
    cases ho : h.get i with
    | none => rw [ho] at e; cases e
    | some o =>
      rw [ho] at e
      simp only [Option.bind_some] at e ⊢
      cases hs : seq (view f h) o.kids with
      | none => rw [hs] at e; cases e
      | some ts =>
        rw [hs] at e
        rw [seq_mono (fun a t ht => ih ht) hs]
        exact e

theorem view_le {f g : Nat} {h : Heap} {i : Nat} {t : Tree} (hfg : f ≤ g) (e : view f h i = some t) : view g h i = some t := by
  induction hfg with
  | refl => exact e
  | step _ ih => exact view_succ ih

theorem shows_one {h : Heap} {i : Nat} {t u : Tree} (h1 : Shows h i t) (h2 : Shows h i u) : t = u := by
  obtain ⟨f, h1⟩ := h1
  obtain ⟨g, h2⟩ := h2
  have a := view_le (Nat.le_max_left f g) h1
  have b := view_le (Nat.le_max_right f g) h2
  rw [a] at b
  exact Option.some.inj b

/-- Objects that did not change, and whose parts did not, show the same. -/
theorem view_congr {S : Nat → Prop} {h h' : Heap} (hs : ∀ i, S i → h'.get i = h.get i) (hk : ∀ i n k, S i → kid h i n = some k → S k) :
    ∀ (f : Nat) (i : Nat), S i → view f h' i = view f h i := by
  intro f
  induction f with
  | zero => intros; rfl
  | succ f ih =>
    intro i hi
    unfold view
    rw [hs i hi]
    cases ho : h.get i with
    | none => rfl
    | some o =>
      simp only [Option.bind_some]
      rw [seq_congr (g' := view f h) fun k hkm => ?_]
      obtain ⟨n, hn⟩ := List.getElem?_of_mem hkm
      exact ih k (hk i n k hi (by rw [kid_of ho]; exact hn))

/-! ## The invariant -/

/-- A living object that is no primitive type. -/
def Solid (h : Heap) (k : Nat) : Prop := ∃ o, h.get k = some o ∧ o.kind ≠ .primitive

structure Ok (h : Heap) : Prop where
  live : ∀ i n k, kid h i n = some k → ∃ o, h.get k = some o ∧ o.managed = true
  leaf : ∀ i o, h.get i = some o → o.kind = .primitive → o.kids = []
  one : ∀ i n j m k, kid h i n = some k → kid h j m = some k → Solid h k → i = j ∧ n = m
  whole : ∀ i o, h.get i = some o → ∃ t, Shows h i t

/-- New objects, which hold no old ones but primitive types. -/
structure Grown (h h' : Heap) : Prop where
  pre : h <+: h'
  ok : Ok h'
  apart : ∀ i n k, h.length ≤ i → kid h' i n = some k → Solid h' k → h.length ≤ k

theorem Grown.refl {h : Heap} (ok : Ok h) : Grown h h :=
  ⟨List.prefix_refl _, ok, fun i n k hi hk => by
    obtain ⟨o, ho, _⟩ := kid_obj hk
    exact absurd (get_lt ho) (by omega)⟩

theorem solid_prefix {h h' : Heap} (hp : h <+: h') {k : Nat} (hk : k < h.length) : Solid h' k ↔ Solid h k := by
  unfold Solid; rw [get_prefix hp hk]

theorem Grown.trans {h₁ h₂ h₃ : Heap} (a : Grown h₁ h₂) (b : Grown h₂ h₃) : Grown h₁ h₃ where
  pre := a.pre.trans b.pre
  ok := b.ok
  apart := by
    intro i n k hi hk hs
    have hl := a.pre.length_le
    by_cases h2 : i < h₂.length
    · rw [kid_congr (get_prefix b.pre h2)] at hk
      obtain ⟨o, ho, _⟩ := a.ok.live _ _ _ hk
      exact a.apart i n k hi hk ((solid_prefix b.pre (get_lt ho)).mp hs)
    · exact Nat.le_trans hl (b.apart i n k (by omega) hk hs)

theorem Grown.view {h h' : Heap} (ok : Ok h) (g : Grown h h') {i : Nat} (hi : i < h.length) (f : Nat) : view f h' i = view f h i :=
  view_congr (S := fun i => i < h.length) (fun _ hj => get_prefix g.pre hj)
    (fun _ _ _ _ hk => (by obtain ⟨o, ho, _⟩ := ok.live _ _ _ hk; exact get_lt ho)) f i hi

/-- What a copy of pointers gives. -/
structure Fresh (h h' : Heap) (k : Nat) : Prop where
  managed : ∃ o, h'.get k = some o ∧ o.managed = true
  free : Solid h' k → h.length ≤ k ∧ ∀ i n, kid h' i n ≠ some k

theorem Fresh.grow {h h₁ h₂ : Heap} {k : Nat} (a : Fresh h h₁ k) (b : Grown h₁ h₂) : Fresh h h₂ k where
  managed := by
    obtain ⟨o, ho, hm⟩ := a.managed
    exact ⟨o, by rw [get_prefix b.pre (get_lt ho)]; exact ho, hm⟩
  free := by
    obtain ⟨o, ho, _⟩ := a.managed
    have hk := get_lt ho
    intro hs
    obtain ⟨h1, h2⟩ := a.free ((solid_prefix b.pre hk).mp hs)
    refine ⟨h1, fun i n e => ?_⟩
    by_cases hi : i < h₁.length
    · rw [kid_congr (get_prefix b.pre hi)] at e
      exact h2 _ _ e
    · exact absurd (b.apart i n k (by omega) e hs) (by omega)

theorem Fresh.lower {h₀ h h' : Heap} {k : Nat} (a : Fresh h h' k) (hl : h₀.length ≤ h.length) : Fresh h₀ h' k :=
  ⟨a.managed, fun hs => ⟨Nat.le_trans hl (a.free hs).1, (a.free hs).2⟩⟩

/-! ## Making an object -/

theorem kid_new {h : Heap} {o : Obj} {i n : Nat} {k : Nat} (e : kid (h ++ [some o]) i n = some k) :
    (i < h.length ∧ kid h i n = some k) ∨ (i = h.length ∧ o.kids[n]? = some k) := by
  obtain ⟨p, hp, hn⟩ := kid_obj e
  have hi := get_lt hp
  simp only [List.length_append, List.length_singleton] at hi
  by_cases h1 : i < h.length
  · rw [get_append h1] at hp
    exact .inl ⟨h1, by rw [kid_of hp]; exact hn⟩
  · obtain rfl : i = h.length := by omega
    rw [get_last] at hp
    cases hp
    exact .inr ⟨rfl, hn⟩

/-- An object with new parts. -/
theorem alloc_ok {h₀ h : Heap} (g : Grown h₀ h) {o : Obj} {f : Nat} {ts : List Tree} (hk : ∀ k ∈ o.kids, Fresh h₀ h k)
    (hd : ∀ (n m k : Nat), o.kids[n]? = some k → o.kids[m]? = some k → Solid h k → n = m) (hp : o.kind = .primitive → o.kids = [])
    (hv : seq (view f h) o.kids = some ts) :
    Grown h₀ (h ++ [some o]) ∧ view (f + 1) (h ++ [some o]) h.length = some (.node o.kind o.name o.own ts) ∧
      ∀ i n, kid (h ++ [some o]) i n ≠ some h.length := by
  have pre : h <+: h ++ [some o] := List.prefix_append _ _
  have lt : ∀ k ∈ o.kids, k < h.length := fun k hkm => by
    obtain ⟨p, hp, _⟩ := (hk k hkm).managed
    exact get_lt hp
  have old : ∀ i n k, i < h.length → kid h i n = some k → k < h.length := fun i n k _ e => by
    obtain ⟨p, hp, _⟩ := g.ok.live _ _ _ e
    exact get_lt hp
  have vo : ∀ f i, i < h.length → view f (h ++ [some o]) i = view f h i :=
    view_congr (S := fun i => i < h.length) (fun _ hi => get_prefix pre hi) old
  have vn : view (f + 1) (h ++ [some o]) h.length = some (.node o.kind o.name o.own ts) := by
    unfold view
    rw [get_last]
    simp only [Option.bind_some]
    rw [seq_congr (g' := view f h) fun k hkm => vo f k (lt k hkm), hv]
    rfl
  have none : ∀ i n, kid (h ++ [some o]) i n ≠ some h.length := by
    intro i n e
    rcases kid_new e with ⟨hi, e⟩ | ⟨_, e⟩
    · exact absurd (old _ _ _ hi e) (by omega)
    · exact absurd (lt _ (List.mem_of_getElem? e)) (by omega)
  refine ⟨⟨g.pre.trans pre, ⟨?_, ?_, ?_, ?_⟩, ?_⟩, vn, none⟩
  · intro i n k e
    rcases kid_new e with ⟨hi, e⟩ | ⟨_, e⟩
    · obtain ⟨p, hp, hm⟩ := g.ok.live _ _ _ e
      exact ⟨p, by rw [get_append (get_lt hp)]; exact hp, hm⟩
    · obtain ⟨p, hp, hm⟩ := (hk _ (List.mem_of_getElem? e)).managed
      exact ⟨p, by rw [get_append (get_lt hp)]; exact hp, hm⟩
  · intro i p e hpr
    by_cases hi : i < h.length
    · rw [get_append hi] at e; exact g.ok.leaf _ _ e hpr
    · have := get_lt e
      simp only [List.length_append, List.length_singleton] at this
      obtain rfl : i = h.length := by omega
      rw [get_last] at e; cases e
      exact hp hpr
  · intro i n j m k e e' hs
    rcases kid_new e with ⟨hi, a⟩ | ⟨hi, a⟩
    · have hkl := old _ _ _ hi a
      have hs' := (solid_prefix pre hkl).mp hs
      rcases kid_new e' with ⟨hj, b⟩ | ⟨hj, b⟩
      · exact g.ok.one _ _ _ _ _ a b hs'
      · exact absurd a (((hk _ (List.mem_of_getElem? b)).free hs').2 _ _)
    · have hkl := lt _ (List.mem_of_getElem? a)
      have hs' := (solid_prefix pre hkl).mp hs
      rcases kid_new e' with ⟨hj, b⟩ | ⟨hj, b⟩
      · exact absurd b (((hk _ (List.mem_of_getElem? a)).free hs').2 _ _)
      · exact ⟨hi.trans hj.symm, hd _ _ _ a b hs'⟩
  · intro i p e
    by_cases hi : i < h.length
    · rw [get_append hi] at e
      obtain ⟨t, f, ht⟩ := g.ok.whole _ _ e
      exact ⟨t, f, by rw [vo f i hi]; exact ht⟩
    · have := get_lt e
      simp only [List.length_append, List.length_singleton] at this
      obtain rfl : i = h.length := by omega
      exact ⟨_, _, vn⟩
  · intro i n k hi e hs
    rcases kid_new e with ⟨hl, a⟩ | ⟨_, a⟩
    · exact g.apart i n k hi a ((solid_prefix pre (old _ _ _ hl a)).mp hs)
    · exact ((hk _ (List.mem_of_getElem? a)).free ((solid_prefix pre (lt _ (List.mem_of_getElem? a))).mp hs)).1

/-! ## Copies -/

/-- What a copying function does for types down to depth `f`. -/
def Copies (f : Nat) (g : Heap → Nat → Option (Heap × Nat)) : Prop :=
  ∀ h i t, Ok h → view f h i = some t →
    ∃ h' k, g h i = some (h', k) ∧ Grown h h' ∧ Fresh h h' k ∧ view f h' k = some t

theorem copyAll_ok {f : Nat} {g : Heap → Nat → Option (Heap × Nat)} (hg : Copies f g) :
    ∀ (l : List Nat) (h : Heap) (ts : List Tree), Ok h → seq (view f h) l = some ts →
      ∃ h' ks, copyAll g h l = some (h', ks) ∧ Grown h h' ∧ (∀ k ∈ ks, Fresh h h' k) ∧ ks.length = l.length ∧
        (∀ (n m k : Nat), ks[n]? = some k → ks[m]? = some k → Solid h' k → n = m) ∧ seq (view f h') ks = some ts
  | [], h, ts, ok, hv => ⟨h, [], rfl, .refl ok, by simp, rfl, by simp, hv⟩
  | i :: l, h, ts, ok, hv => by
    unfold seq at hv
    cases hi : view f h i with
    | none => rw [hi] at hv; cases hv
    | some t =>
      rw [hi] at hv
      cases hl : seq (view f h) l with
      | none => simp [hl] at hv
      | some us =>
        simp only [hl, Option.map_some, Option.bind_some, Option.some.injEq] at hv
        subst hv
        obtain ⟨h₁, k, e1, g1, f1, v1⟩ := hg h i t ok hi
        have hl' : seq (view f h₁) l = some us := by
          rw [seq_congr (g' := view f h) fun j hj => ?_]
          · exact hl
          · obtain ⟨u, hu⟩ := seq_mem hl j hj
            have : j < h.length := by
              cases f with
              | zero => cases hu
              | succ f =>
                unfold view at hu
                cases ho : h.get j with
                | none => rw [ho] at hu; cases hu
                | some o => exact get_lt ho
            exact g1.view ok this f
        obtain ⟨h₂, ks, e2, g2, f2, n2, d2, v2⟩ := copyAll_ok hg l h₁ us g1.ok hl'
        have hk : k < h₁.length := by obtain ⟨o, ho, _⟩ := f1.managed; exact get_lt ho
        have far : ∀ j ∈ ks, Solid h₂ j → k ≠ j := by
          intro j hj hs e
          subst e
          exact absurd ((f2 k hj).free hs).1 (by omega)
        refine ⟨h₂, k :: ks, by simp [copyAll, e1, e2], g1.trans g2, ?_, by simp [n2], ?_, ?_⟩
        · intro j hj
          rcases List.mem_cons.mp hj with rfl | hj
          · exact f1.grow g2
          · exact (f2 j hj).lower g1.pre.length_le
        · intro n m j hn hm hs
          cases n with
          | zero =>
            simp only [List.getElem?_cons_zero, Option.some.injEq] at hn
            subst hn
            cases m with
            | zero => rfl
            | succ m => exact absurd rfl (far k (List.mem_of_getElem? (by simpa using hm)) hs)
          | succ n =>
            simp only [List.getElem?_cons_succ] at hn
            cases m with
            | zero =>
              simp only [List.getElem?_cons_zero, Option.some.injEq] at hm
              subst hm
              exact absurd rfl (far k (List.mem_of_getElem? hn) hs)
            | succ m => rw [d2 n m j hn (by simpa using hm) hs]
        · unfold seq
          rw [g2.view g1.ok hk f, v1, v2]
          rfl

theorem ptrWith_ok {f : Nat} {g : Heap → Nat → Option (Heap × Nat)} (hg : Copies f g) : Copies f (ptrWith g) := by
  intro h i t ok hv
  cases ho : h.get i with
  | none =>
    cases f with
    | zero => cases hv
    | succ f => unfold view at hv; rw [ho] at hv; cases hv
  | some o =>
    unfold ptrWith
    rw [ho]
    simp only [Option.bind_some]
    split
    · rename_i hp
      refine ⟨h, i, rfl, .refl ok, ⟨⟨o, ho, hp.2⟩, ?_⟩, hv⟩
      rintro ⟨o', ho', hn⟩
      rw [ho] at ho'; cases ho'
      exact absurd hp.1 hn
    · exact hg h i t ok hv

theorem clone_strong (f : Nat) (h : Heap) (i : Nat) (t : Tree) (ok : Ok h) (hv : view f h i = some t) :
    ∃ h' k, clone f h i = some (h', k) ∧ Grown h h' ∧ h.length ≤ k ∧ (∃ o, h'.get k = some o ∧ o.managed = true ∧ o.next = none) ∧
      (∀ i n, kid h' i n ≠ some k) ∧ view f h' k = some t := by
  induction f generalizing h i t with
  | zero => cases hv
  | succ f ih =>
    unfold view at hv
    unfold clone
    cases ho : h.get i with
    | none => rw [ho] at hv; cases hv
    | some o =>
      rw [ho] at hv
      simp only [Option.bind_some] at hv ⊢
      cases hs : seq (view f h) o.kids with
      | none => rw [hs] at hv; cases hv
      | some ts =>
        simp only [hs, Option.map_some, Option.some.injEq] at hv
        subst hv
        have hc : Copies f (clone f) := fun h i t ok hv => by
          obtain ⟨h', k, e, g, hl, ⟨o, ho, hm, _⟩, hn, hv⟩ := ih h i t ok hv
          exact ⟨h', k, e, g, ⟨⟨o, ho, hm⟩, fun _ => ⟨hl, hn⟩⟩, hv⟩
        obtain ⟨h₁, ks, e1, g1, f1, n1, d1, v1⟩ := copyAll_ok (ptrWith_ok hc) o.kids h ts ok hs
        obtain ⟨g2, v2, n2⟩ := alloc_ok g1 (o := { o with next := none, kids := ks, managed := true }) (f := f) (ts := ts) f1 d1
          (fun hp => by
            have := ok.leaf _ _ ho hp
            rw [this] at n1
            exact List.length_eq_zero_iff.mp n1) v1
        refine ⟨_, _, by rw [e1]; rfl, g2, ?_, ⟨_, get_last, rfl, rfl⟩, n2, v2⟩
        exact g1.pre.length_le

theorem clone_copies (f : Nat) : Copies f (clone f) := fun h i t ok hv => by
  obtain ⟨h', k, e, g, hl, ⟨o, ho, hm, _⟩, hn, hv⟩ := clone_strong f h i t ok hv
  exact ⟨h', k, e, g, ⟨⟨o, ho, hm⟩, fun _ => ⟨hl, hn⟩⟩, hv⟩

theorem ptrOf_copies (f : Nat) : Copies f (ptrOf f) := ptrWith_ok (clone_copies f)

end Verif.Types
