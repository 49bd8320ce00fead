import Verif.Lemmas.TypeHeap
/-!
# What programs do with types: an invariant
-/

namespace Verif.Types

structure State.Ok (s : State) : Prop where
  heap : Types.Ok s.heap
  vars : ∀ v i, s.vars v = some i → ∃ o, s.heap.get i = some o ∧ o.managed = false
  varOne : ∀ v w i, s.vars v = some i → s.vars w = some i → v = w
  ptrs : ∀ p i, s.ptrs p = some i → ∃ o, s.heap.get i = some o ∧ o.managed = true
  data : ∀ d i, s.data d = some i → ∃ o, s.heap.get i = some o ∧ o.managed = true
  ptrOne : ∀ p q i, s.ptrs p = some i → s.ptrs q = some i → Solid s.heap i → p = q
  ptrKid : ∀ p i j n, s.ptrs p = some i → Solid s.heap i → kid s.heap j n ≠ some i

theorem state_init : State.Ok {} where
  heap := ⟨fun i n k e => by obtain ⟨o, ho, _⟩ := kid_obj e; exact absurd (get_lt ho) (by simp),
    fun i o e => absurd (get_lt e) (by simp), fun i n j m k e => by obtain ⟨o, ho, _⟩ := kid_obj e; exact absurd (get_lt ho) (by simp),
    fun i o e => absurd (get_lt e) (by simp)⟩
  vars := fun _ _ e => by cases e
  varOne := fun _ _ _ e => by cases e
  ptrs := fun _ _ e => by cases e
  data := fun _ _ e => by cases e
  ptrOne := fun _ _ _ e => by cases e
  ptrKid := fun _ _ _ _ e => by cases e

theorem put_same {m : Nat → Option Nat} {k : Nat} {v : Option Nat} : put m k v k = v := by simp [put]

theorem put_ne {m : Nat → Option Nat} {k x : Nat} {v : Option Nat} (h : x ≠ k) : put m k v x = m x := by simp [put, h]

theorem put_some {m : Nat → Option Nat} {k x i : Nat} {v : Option Nat} (h : put m k v x = some i) : (x = k ∧ v = some i) ∨ (x ≠ k ∧ m x = some i) := by
  by_cases hx : x = k
  · subst hx; rw [put_same] at h; exact .inl ⟨rfl, h⟩
  · rw [put_ne hx] at h; exact .inr ⟨hx, h⟩

theorem keep_get {h h' : Heap} (hp : h <+: h') {i : Nat} {b : Bool} :
    (∃ o, h.get i = some o ∧ o.managed = b) → ∃ o, h'.get i = some o ∧ o.managed = b
  | ⟨o, ho, hm⟩ => ⟨o, by rw [get_prefix hp (get_lt ho)]; exact ho, hm⟩

theorem State.Ok.grow {s : State} (ok : s.Ok) {h : Heap} (g : Grown s.heap h) : State.Ok { s with heap := h } where
  heap := g.ok
  vars := fun v i e => keep_get g.pre (ok.vars v i e)
  varOne := ok.varOne
  ptrs := fun p i e => keep_get g.pre (ok.ptrs p i e)
  data := fun p i e => keep_get g.pre (ok.data p i e)
  ptrOne := fun p q i e e' hs => by
    obtain ⟨o, ho, _⟩ := ok.ptrs p i e
    exact ok.ptrOne p q i e e' ((solid_prefix g.pre (get_lt ho)).mp hs)
  ptrKid := fun p i j n e hs hk => by
    obtain ⟨o, ho, _⟩ := ok.ptrs p i e
    have hi := get_lt ho
    by_cases hj : j < s.heap.length
    · rw [show kid h j n = kid s.heap j n from kid_congr (get_prefix g.pre hj)] at hk
      exact ok.ptrKid p i j n e ((solid_prefix g.pre hi).mp hs) hk
    · exact absurd (g.apart j n i (by omega) hk hs) (by omega)

/-- A pointer is set to a new object. -/
theorem State.Ok.point {s : State} (ok : s.Ok) {h : Heap} (g : Grown s.heap h) {p k : Nat} (fr : Fresh s.heap h k) :
    State.Ok { s with heap := h, ptrs := put s.ptrs p (some k) } where
  heap := g.ok
  vars := (ok.grow g).vars
  varOne := ok.varOne
  ptrs := fun q i e => by
    rcases put_some e with ⟨_, e⟩ | ⟨_, e⟩
    · cases e; exact fr.managed
    · exact (ok.grow g).ptrs q i e
  data := (ok.grow g).data
  ptrOne := fun q r i e e' hs => by
    have old : ∀ q i, s.ptrs q = some i → i < s.heap.length := fun q i e => by
      obtain ⟨o, ho, _⟩ := ok.ptrs q i e; exact get_lt ho
    rcases put_some e with ⟨h1, e1⟩ | ⟨h1, e1⟩
    · rcases put_some e' with ⟨h2, e2⟩ | ⟨h2, e2⟩
      · rw [h1, h2]
      · cases e1
        have a := (fr.free hs).1
        have b := old _ _ e2
        omega
    · rcases put_some e' with ⟨h2, e2⟩ | ⟨h2, e2⟩
      · cases e2
        have a := (fr.free hs).1
        have b := old _ _ e1
        omega
      · exact (ok.grow g).ptrOne q r i e1 e2 hs
  ptrKid := fun q i j n e hs => by
    rcases put_some e with ⟨_, e⟩ | ⟨_, e⟩
    · cases e; exact (fr.free hs).2 j n
    · exact (ok.grow g).ptrKid q i j n e hs

/-- A datum gets a type that a shared pointer holds. -/
theorem State.Ok.datum {s : State} (ok : s.Ok) {d : Nat} {v : Option Nat} (hv : ∀ i, v = some i → ∃ o, s.heap.get i = some o ∧ o.managed = true) :
    State.Ok { s with data := put s.data d v } where
  heap := ok.heap
  vars := ok.vars
  varOne := ok.varOne
  ptrs := ok.ptrs
  data := fun e i he => by
    rcases put_some he with ⟨_, he⟩ | ⟨_, he⟩
    · exact hv i he
    · exact ok.data e i he
  ptrOne := ok.ptrOne
  ptrKid := ok.ptrKid

/-- A pointer is emptied. -/
theorem State.Ok.drop {s : State} (ok : s.Ok) (p : Nat) : State.Ok { s with ptrs := put s.ptrs p none } where
  heap := ok.heap
  vars := ok.vars
  varOne := ok.varOne
  ptrs := fun q i e => by
    rcases put_some e with ⟨_, e⟩ | ⟨_, e⟩
    · cases e
    · exact ok.ptrs q i e
  data := ok.data
  ptrOne := fun q r i e e' hs => by
    rcases put_some e with ⟨_, e⟩ | ⟨_, e⟩
    · cases e
    · rcases put_some e' with ⟨_, e'⟩ | ⟨_, e'⟩
      · cases e'
      · exact ok.ptrOne q r i e e' hs
  ptrKid := fun q i j n e => by
    rcases put_some e with ⟨_, e⟩ | ⟨_, e⟩
    · cases e
    · exact ok.ptrKid q i j n e

theorem State.Ok.move {s : State} (ok : s.Ok) (p q : Nat) : State.Ok { s with ptrs := put (put s.ptrs q none) p (s.ptrs q) } where
  heap := ok.heap
  vars := ok.vars
  varOne := ok.varOne
  ptrs := fun r i e => by
    rcases put_some e with ⟨_, e⟩ | ⟨_, e⟩
    · exact ok.ptrs q i e
    · exact (ok.drop q).ptrs r i e
  data := ok.data
  ptrOne := fun r r' i e e' hs => by
    have at_q : ∀ r, put s.ptrs q none r = some i → s.ptrs q = some i → False := fun r h1 h2 => by
      rcases put_some h1 with ⟨_, h1⟩ | ⟨hr, h1⟩
      · cases h1
      · exact hr (ok.ptrOne r q i h1 h2 hs)
    rcases put_some e with ⟨h1, e⟩ | ⟨h1, e⟩
    · rcases put_some e' with ⟨h2, e'⟩ | ⟨h2, e'⟩
      · rw [h1, h2]
      · exact (at_q _ e' e).elim
    · rcases put_some e' with ⟨h2, e'⟩ | ⟨h2, e'⟩
      · exact (at_q _ e e').elim
      · exact (ok.drop q).ptrOne r r' i e e' hs
  ptrKid := fun r i j n e => by
    rcases put_some e with ⟨_, e⟩ | ⟨_, e⟩
    · exact ok.ptrKid q i j n e
    · exact (ok.drop q).ptrKid r i j n e

/-! ## Changes in place -/

/-- The same objects, but for their names. -/
structure Alike (h h' : Heap) : Prop where
  get : ∀ i, (h.get i).map (fun o => (o.kind, o.kids, o.managed)) = (h'.get i).map (fun o => (o.kind, o.kids, o.managed))

theorem Alike.symm {h h' : Heap} (a : Alike h h') : Alike h' h := ⟨fun i => (a.get i).symm⟩

theorem Alike.obj {h h' : Heap} (a : Alike h h') {i : Nat} {o : Obj} (e : h.get i = some o) :
    ∃ o', h'.get i = some o' ∧ o'.kind = o.kind ∧ o'.kids = o.kids ∧ o'.managed = o.managed := by
  have := a.get i
  rw [e] at this
  cases ho : h'.get i with
  | none => rw [ho] at this; cases this
  | some o' =>
    rw [ho] at this
    simp only [Option.map_some, Option.some.injEq, Prod.mk.injEq] at this
    exact ⟨o', rfl, this.1.symm, this.2.1.symm, this.2.2.symm⟩

theorem Alike.kid {h h' : Heap} (a : Alike h h') {i n k : Nat} (e : kid h i n = some k) : kid h' i n = some k := by
  obtain ⟨o, ho, hn⟩ := kid_obj e
  obtain ⟨o', ho', _, hk, _⟩ := a.obj ho
  rw [kid_of ho', hk]; exact hn

theorem Alike.solid {h h' : Heap} (a : Alike h h') {k : Nat} : Solid h k → Solid h' k := fun ⟨o, ho, hk⟩ => by
  obtain ⟨o', ho', h1, _⟩ := a.obj ho
  exact ⟨o', ho', by rw [h1]; exact hk⟩

theorem Alike.view {h h' : Heap} (a : Alike h h') : ∀ (f i : Nat) (t : Tree), view f h i = some t → ∃ u, view f h' i = some u := by
  intro f
  induction f with
  | zero => intro i t e; cases e
  | succ f ih =>
    intro i t e
    unfold Types.view at e ⊢
    cases ho : h.get i with
    | none => rw [ho] at e; cases e
    | some o =>
      obtain ⟨o', ho', h1, h2, h3⟩ := a.obj ho
      rw [ho] at e
      rw [ho']
      simp only [Option.bind_some] at e ⊢
      cases hs : seq (Types.view f h) o.kids with
      | none => rw [hs] at e; cases e
      | some ts =>
        obtain ⟨us, hus⟩ := seq_some (g := Types.view f h') (l := o.kids) fun k hk => by
          obtain ⟨t, ht⟩ := seq_mem hs k hk
          exact ih k t ht
        rw [h2, hus]
        exact ⟨_, rfl⟩

theorem Alike.ok {h h' : Heap} (a : Alike h h') (ok : Types.Ok h) : Types.Ok h' where
  live := fun i n k e => by
    obtain ⟨o, ho, hm⟩ := ok.live _ _ _ (a.symm.kid e)
    obtain ⟨o', ho', _, _, h3⟩ := a.obj ho
    exact ⟨o', ho', h3.trans hm⟩
  leaf := fun i o e hp => by
    obtain ⟨o', ho', h1, h2, _⟩ := a.symm.obj e
    rw [← h2]; exact ok.leaf _ _ ho' (h1.trans hp)
  one := fun i n j m k e e' hs => ok.one _ _ _ _ _ (a.symm.kid e) (a.symm.kid e') (a.symm.solid hs)
  whole := fun i o e => by
    obtain ⟨o', ho', _⟩ := a.symm.obj e
    obtain ⟨t, f, ht⟩ := ok.whole _ _ ho'
    obtain ⟨u, hu⟩ := a.view f i t ht
    exact ⟨u, f, hu⟩

theorem Alike.state {s : State} (ok : s.Ok) {h : Heap} (a : Alike s.heap h) : State.Ok { s with heap := h } where
  heap := a.ok ok.heap
  vars := fun v i e => by
    obtain ⟨o, ho, hm⟩ := ok.vars v i e
    obtain ⟨o', ho', _, _, h3⟩ := a.obj ho
    exact ⟨o', ho', h3.trans hm⟩
  varOne := ok.varOne
  ptrs := fun v i e => by
    obtain ⟨o, ho, hm⟩ := ok.ptrs v i e
    obtain ⟨o', ho', _, _, h3⟩ := a.obj ho
    exact ⟨o', ho', h3.trans hm⟩
  data := fun v i e => by
    obtain ⟨o, ho, hm⟩ := ok.data v i e
    obtain ⟨o', ho', _, _, h3⟩ := a.obj ho
    exact ⟨o', ho', h3.trans hm⟩
  ptrOne := fun p q i e e' hs => ok.ptrOne p q i e e' (a.symm.solid hs)
  ptrKid := fun p i j n e hs hk => ok.ptrKid p i j n e (a.symm.solid hs) (a.symm.kid hk)

theorem alike_set {h : Heap} {i : Nat} {o o' : Obj} (e : h.get i = some o) (h1 : o'.kind = o.kind) (h2 : o'.kids = o.kids)
    (h3 : o'.managed = o.managed) : Alike h (h.set i (some o')) where
  get := fun j => by
    by_cases hj : i = j
    · subst hj
      rw [get_set_self (get_lt e), e]
      simp [h1, h2, h3]
    · rw [get_set_ne hj]

/-- Nobody holds the object as a part. -/
def Root (h : Heap) (i : Nat) : Prop := ∀ j n, kid h j n ≠ some i

/-- An object that nobody holds as a part changes: all others show what they did. -/
theorem view_set {h : Heap} {i : Nat} {o : Option Obj} (hr : Root h i) (f : Nat) {j : Nat} (hj : j ≠ i) : view f (h.set i o) j = view f h j :=
  view_congr (S := fun j => j ≠ i) (fun _ hj => get_set_ne (Ne.symm hj)) (fun _ _ _ _ hk he => by subst he; exact hr _ _ hk) f j hj

theorem kid_set {h : Heap} {i j n k : Nat} {o : Option Obj} (e : kid (h.set i o) j n = some k) :
    (j ≠ i ∧ kid h j n = some k) ∨ (j = i ∧ ∃ o', o = some o' ∧ o'.kids[n]? = some k) := by
  by_cases hj : j = i
  · subst hj
    obtain ⟨o', ho', hn⟩ := kid_obj e
    have : j < h.length := by have := get_lt ho'; simpa using this
    rw [get_set_self this] at ho'
    exact .inr ⟨rfl, o', ho', hn⟩
  · exact .inl ⟨hj, by rw [kid_congr (get_set_ne (Ne.symm hj))] at e; exact e⟩

theorem solid_set {h : Heap} {i k : Nat} {o : Option Obj} (hk : k ≠ i) : Solid (h.set i o) k ↔ Solid h k := by
  unfold Solid; rw [get_set_ne (Ne.symm hk)]

/-- An object that nobody holds is destroyed. -/
theorem destroy_ok {h : Heap} (ok : Types.Ok h) {i : Nat} (hr : Root h i) : Types.Ok (h.set i none) where
  live := fun j n k e => by
    rcases kid_set e with ⟨_, e⟩ | ⟨_, o', ho', _⟩
    · obtain ⟨o, ho, hm⟩ := ok.live _ _ _ e
      have : i ≠ k := fun he => by subst he; exact hr _ _ e
      exact ⟨o, by rw [get_set_ne this]; exact ho, hm⟩
    · cases ho'
  leaf := fun j o e hp => by
    have : i ≠ j := fun he => by
      subst he
      have hl := get_lt e
      rw [get_set_self (by simpa using hl)] at e
      cases e
    rw [get_set_ne this] at e
    exact ok.leaf _ _ e hp
  one := fun j n j' m k e e' hs => by
    rcases kid_set e with ⟨_, a⟩ | ⟨_, o', ho', _⟩
    · rcases kid_set e' with ⟨_, b⟩ | ⟨_, o', ho', _⟩
      · have : k ≠ i := fun he => by subst he; exact hr _ _ a
        exact ok.one _ _ _ _ _ a b ((solid_set this).mp hs)
      · cases ho'
    · cases ho'
  whole := fun j o e => by
    have : i ≠ j := fun he => by
      subst he
      have hl := get_lt e
      rw [get_set_self (by simpa using hl)] at e
      cases e
    rw [get_set_ne this] at e
    obtain ⟨t, f, ht⟩ := ok.whole _ _ e
    exact ⟨t, f, by rw [view_set hr f (Ne.symm this)]; exact ht⟩

/-- A part is added to an object that nobody holds as a part. -/
theorem part_ok {h : Heap} (ok : Types.Ok h) {i k : Nat} {o : Obj} {own : List (String × Nat)} (ho : h.get i = some o) (hp : o.kind ≠ .primitive)
    (hr : Root h i) (hki : k ≠ i) (hm : ∃ p, h.get k = some p ∧ p.managed = true) (hk : Solid h k → Root h k) :
    Types.Ok (h.set i (some { o with own := own, kids := o.kids ++ [k] })) where
  live := fun j n m e => by
    have get : ∀ m, m ≠ i → (∃ p, h.get m = some p ∧ p.managed = true) →
        ∃ p, Heap.get (h.set i (some { o with own := own, kids := o.kids ++ [k] })) m = some p ∧ p.managed = true :=
      fun m hne ⟨p, hp, hm⟩ => ⟨p, by rw [get_set_ne (Ne.symm hne)]; exact hp, hm⟩
    rcases kid_set e with ⟨_, a⟩ | ⟨_, o', ho', a⟩
    · exact get m (fun he => by subst he; exact hr _ _ a) (ok.live _ _ _ a)
    · cases ho'
      rcases List.mem_append.mp (List.mem_of_getElem? a) with hmem | hmem
      · obtain ⟨n', hn'⟩ := List.getElem?_of_mem hmem
        have hkid : kid h i n' = some m := by rw [kid_of ho]; exact hn'
        exact get m (fun he => by subst he; exact hr _ _ hkid) (ok.live _ _ _ hkid)
      · rw [List.mem_singleton.mp hmem]; exact get k hki hm
  leaf := fun j p e hpr => by
    by_cases hj : i = j
    · subst hj
      rw [get_set_self (get_lt ho)] at e
      cases e
      exact absurd hpr hp
    · rw [get_set_ne hj] at e; exact ok.leaf _ _ e hpr
  one := by
    have ti : ∀ m n, (o.kids ++ [k])[n]? = some m → kid h i n = some m ∨ (n = o.kids.length ∧ m = k) := by
      intro m n e
      by_cases hn : n < o.kids.length
      · rw [List.getElem?_append_left hn] at e
        exact .inl (by rw [kid_of ho]; exact e)
      · rw [List.getElem?_append_right (by omega)] at e
        have : n - o.kids.length = 0 := by
          cases hx : n - o.kids.length with
          | zero => rfl
          | succ x => rw [hx] at e; cases e
        rw [this] at e
        simp only [List.getElem?_cons_zero, Option.some.injEq] at e
        exact .inr ⟨by omega, e.symm⟩
    have all : ∀ j n m, kid (h.set i (some { o with own := own, kids := o.kids ++ [k] })) j n = some m →
        kid h j n = some m ∨ (j = i ∧ n = o.kids.length ∧ m = k) := by
      intro j n m e
      rcases kid_set e with ⟨_, e⟩ | ⟨hj, o', ho', e⟩
      · exact .inl e
      · cases ho'
        rcases ti m n e with a | ⟨a, b⟩
        · exact .inl (by rw [hj]; exact a)
        · exact .inr ⟨hj, a, b⟩
    intro j n j' n' m e e' hs
    have hmi : m ≠ i := by
      rcases all _ _ _ e with a | ⟨_, _, a⟩
      · intro he; subst he; exact hr _ _ a
      · rw [a]; exact hki
    have hs' := (solid_set hmi).mp hs
    rcases all _ _ _ e with a | ⟨a, b, c⟩
    · rcases all _ _ _ e' with a' | ⟨a', b', c'⟩
      · exact ok.one _ _ _ _ _ a a' hs'
      · subst c'; exact absurd a (hk hs' _ _)
    · rcases all _ _ _ e' with a' | ⟨a', b', c'⟩
      · subst c; exact absurd a' (hk hs' _ _)
      · exact ⟨a.trans a'.symm, b.trans b'.symm⟩
  whole := fun j p e => by
    have other : ∀ j p, j ≠ i → h.get j = some p → ∃ t, Shows (h.set i (some { o with own := own, kids := o.kids ++ [k] })) j t := fun j p hj e => by
      obtain ⟨t, f, ht⟩ := ok.whole _ _ e
      exact ⟨t, f, by rw [view_set hr f hj]; exact ht⟩
    by_cases hj : j = i
    · subst hj
      obtain ⟨t, f, ht⟩ := ok.whole _ _ ho
      obtain ⟨p, hp, _⟩ := hm
      obtain ⟨u, g, hu⟩ := other k p hki hp
      have key : ∀ m ∈ o.kids ++ [k], ∃ t, view (f + g) (h.set j (some { o with own := own, kids := o.kids ++ [k] })) m = some t := by
        intro m hmem
        rcases List.mem_append.mp hmem with hmem | hmem
        · cases f with
          | zero => cases ht
          | succ f =>
            unfold view at ht
            rw [ho] at ht
            simp only [Option.bind_some] at ht
            cases hs : seq (view f h) o.kids with
            | none => rw [hs] at ht; cases ht
            | some ts =>
              obtain ⟨w, hw⟩ := seq_mem hs m hmem
              obtain ⟨n', hn'⟩ := List.getElem?_of_mem hmem
              have hne : m ≠ j := fun he => by
                subst he
                exact hr m n' (by rw [kid_of ho]; exact hn')
              exact ⟨w, view_le (f := f) (by omega) (by rw [view_set hr f hne]; exact hw)⟩
        · rw [List.mem_singleton.mp hmem]
          exact ⟨u, view_le (f := g) (by omega) hu⟩
      obtain ⟨ts, hts⟩ := seq_some key
      refine ⟨.node o.kind o.name own ts, f + g + 1, ?_⟩
      unfold view
      rw [get_set_self (get_lt ho)]
      simp only [Option.bind_some]
      rw [hts]
      rfl
    · rw [get_set_ne (Ne.symm hj)] at e
      exact other j p hj e

/-! ## Copies, whatever depth was allowed -/

theorem copyAll_mono {g g' : Heap → Nat → Option (Heap × Nat)} (hg : ∀ h i r, g h i = some r → g' h i = some r) :
    ∀ (l : List Nat) (h : Heap) (r : Heap × List Nat), copyAll g h l = some r → copyAll g' h l = some r
  | [], _, _, e => e
  | i :: l, h, r, e => by
    unfold copyAll at e ⊢
    cases hi : g h i with
    | none => rw [hi] at e; cases e
    | some x =>
      rw [hi] at e
      rw [hg _ _ _ hi]
      simp only [Option.bind_some] at e ⊢
      cases hl : copyAll g x.1 l with
      | none => rw [hl] at e; cases e
      | some y =>
        rw [hl] at e
        rw [copyAll_mono hg l _ _ hl]
        exact e

theorem ptrWith_mono {g g' : Heap → Nat → Option (Heap × Nat)} (hg : ∀ h i r, g h i = some r → g' h i = some r) (h : Heap) (i : Nat)
    (r : Heap × Nat) (e : ptrWith g h i = some r) : ptrWith g' h i = some r := by
  unfold ptrWith at e ⊢
  cases ho : h.get i with
  | none => rw [ho] at e; cases e
  | some o =>
    rw [ho] at e
    simp only [Option.bind_some] at e ⊢
    split
    · rename_i hp; rw [if_pos hp] at e; exact e
    · rename_i hp; rw [if_neg hp] at e; exact hg _ _ _ e

theorem clone_succ : ∀ (f : Nat) (h : Heap) (i : Nat) (r : Heap × Nat), clone f h i = some r → clone (f + 1) h i = some r := by
  intro f
  induction f with
  | zero => intro h i r e; cases e
  | succ f ih =>
    intro h i r e
    unfold clone at e ⊢
    cases ho : h.get i with
    | none => rw [ho] at e; cases e
    | some o =>
      rw [ho] at e
      simp only [Option.bind_some] at e ⊢
      cases hc : copyAll (ptrWith (clone f)) h o.kids with
      | none => rw [hc] at e; cases e
      | some x =>
        rw [hc] at e
        rw [copyAll_mono (ptrWith_mono ih) _ _ _ hc]
        exact e

theorem clone_le {f g : Nat} (hfg : f ≤ g) (h : Heap) (i : Nat) (r : Heap × Nat) (e : clone f h i = some r) : clone g h i = some r := by
  induction hfg with
  | refl => exact e
  | step _ ih => exact clone_succ _ _ _ _ ih

theorem clone_run {f : Nat} {h h' : Heap} {i k : Nat} (ok : Types.Ok h) (e : clone f h i = some (h', k)) :
    Grown h h' ∧ Fresh h h' k ∧ (∃ o, h'.get k = some o ∧ o.next = none) ∧ ∀ t, Shows h i t → Shows h' k t := by
  have alive : ∃ o, h.get i = some o := by
    cases f with
    | zero => cases e
    | succ f =>
      unfold clone at e
      cases ho : h.get i with
      | none => rw [ho] at e; cases e
      | some o => exact ⟨o, rfl⟩
  obtain ⟨o, ho⟩ := alive
  obtain ⟨t, g, ht⟩ := ok.whole _ _ ho
  obtain ⟨h'', k', e', gr, hl, ⟨p, hp, hm, hn⟩, hk, hv⟩ := clone_strong (max f g) h i t ok (view_le (Nat.le_max_right f g) ht)
  rw [clone_le (Nat.le_max_left f g) _ _ _ e] at e'
  cases e'
  refine ⟨gr, ⟨⟨p, hp, hm⟩, fun _ => ⟨hl, hk⟩⟩, ⟨p, hp, hn⟩, fun u hu => ?_⟩
  rw [← shows_one ⟨g, ht⟩ hu]
  exact ⟨_, hv⟩

theorem ptrOf_run {f : Nat} {h h' : Heap} {i k : Nat} (ok : Types.Ok h) (e : ptrOf f h i = some (h', k)) :
    Grown h h' ∧ Fresh h h' k ∧ ∀ t, Shows h i t → Shows h' k t := by
  unfold ptrOf ptrWith at e
  cases ho : h.get i with
  | none => rw [ho] at e; cases e
  | some o =>
    rw [ho] at e
    simp only [Option.bind_some] at e
    split at e
    · rename_i hp
      cases e
      refine ⟨.refl ok, ⟨⟨o, ho, hp.2⟩, ?_⟩, fun _ h => h⟩
      rintro ⟨o', ho', hn⟩
      rw [ho] at ho'; cases ho'
      exact absurd hp.1 hn
    · obtain ⟨a, b, _, c⟩ := clone_run ok e
      exact ⟨a, b, c⟩

theorem rget_run : ∀ (f : Nat) {h : Heap} {i j : Nat} {t : Tree}, rget f h i = some j → Shows h i t → Shows h j t.behind := by
  intro f
  induction f with
  | zero => intro h i j t e; cases e
  | succ f ih =>
    intro h i j t e ht
    obtain ⟨g, hg⟩ := ht
    cases g with
    | zero => cases hg
    | succ g =>
      unfold rget at e
      have hg0 := hg
      unfold view at hg
      cases ho : h.get i with
      | none => rw [ho] at e; cases e
      | some o =>
        rw [ho] at e hg
        simp only [Option.bind_some] at e hg
        cases hs : seq (view g h) o.kids with
        | none => rw [hs] at hg; cases hg
        | some ts =>
          rw [hs] at hg
          simp only [Option.map_some, Option.some.injEq] at hg
          split at e
          · rename_i k r hk hr
            rw [hr] at hs
            unfold seq at hs
            cases hv : view g h k with
            | none => rw [hv] at hs; cases hs
            | some u =>
              rw [hv] at hs
              simp only [Option.bind_some] at hs
              cases hl : seq (view g h) r with
              | none => rw [hl] at hs; cases hs
              | some us =>
                rw [hl] at hs
                cases hs
                rw [← hg, hk, Tree.behind]
                exact ih e ⟨g, hv⟩
          · rename_i hno
            cases e
            refine ⟨g + 1, hg0.trans ?_⟩
            rw [← hg]
            cases hk : o.kind with
            | alias =>
              cases hr : o.kids with
              | nil =>
                rw [hr] at hs
                cases hs
                rfl
              | cons k r => exact (hno _ _ hk hr).elim
            | _ => rfl

theorem dataType_run {f : Nat} {look : Bool} {h h' : Heap} {i k : Nat} (ok : Types.Ok h) (e : dataType f look h i = some (h', k)) :
    Grown h h' ∧ (∃ o, h'.get k = some o ∧ o.managed = true) ∧ ∀ t, Shows h i t → Shows h' k (if look then t.behind else t) := by
  unfold dataType at e
  cases hj : (if look then rget f h i else some i) with
  | none => rw [hj] at e; cases e
  | some j =>
    rw [hj] at e
    simp only [Option.bind_some] at e
    have sj : ∀ t, Shows h i t → Shows h j (if look then t.behind else t) := by
      intro t ht
      cases look with
      | true => exact rget_run f hj ht
      | false => cases hj; exact ht
    cases ho : h.get j with
    | none => rw [ho] at e; cases e
    | some o =>
      rw [ho] at e
      simp only [Option.bind_some] at e
      split at e
      · rename_i hm
        cases e
        exact ⟨.refl ok, ⟨o, ho, hm⟩, sj⟩
      · obtain ⟨a, b, _, c⟩ := clone_run ok e
        exact ⟨a, b.managed, fun t ht => c _ (sj t ht)⟩

/-! ## Steps -/

theorem target_root {s : State} (ok : s.Ok) {t : Target} {i : Nat} {o : Obj} (e : s.target t = some i) (ho : s.heap.get i = some o)
    (hp : o.kind ≠ .primitive) : Root s.heap i := by
  intro j n hk
  cases t with
  | var v =>
    obtain ⟨o', ho', hm⟩ := ok.vars v i e
    obtain ⟨o'', ho'', hm'⟩ := ok.heap.live _ _ _ hk
    rw [ho'] at ho''; cases ho''
    rw [hm] at hm'; cases hm'
  | ptr p => exact ok.ptrKid p i j n e ⟨o, ho, hp⟩ hk

theorem target_obj {s : State} (ok : s.Ok) {t : Target} {i : Nat} (e : s.target t = some i) : ∃ o, s.heap.get i = some o := by
  cases t with
  | var v => obtain ⟨o, ho, _⟩ := ok.vars v i e; exact ⟨o, ho⟩
  | ptr p => obtain ⟨o, ho, _⟩ := ok.ptrs p i e; exact ⟨o, ho⟩

theorem var_root {s : State} (ok : s.Ok) {v i : Nat} (e : s.vars v = some i) : Root s.heap i := by
  intro j n hk
  obtain ⟨o', ho', hm⟩ := ok.vars v i e
  obtain ⟨o'', ho'', hm'⟩ := ok.heap.live _ _ _ hk
  rw [ho'] at ho''; cases ho''
  rw [hm] at hm'; cases hm'

/-- The part that `addPart` adds. -/
theorem part_run {f : Nat} {twice : Bool} {h h₁ h₂ : Heap} {src k₁ k₂ : Nat} (ok : Types.Ok h) (e1 : ptrOf f h src = some (h₁, k₁))
    (e2 : (if twice then ptrOf f h₁ k₁ else some (h₁, k₁)) = some (h₂, k₂)) :
    Grown h h₂ ∧ Fresh h h₂ k₂ ∧ ∀ t, Shows h src t → Shows h₂ k₂ t := by
  obtain ⟨g1, f1, v1⟩ := ptrOf_run ok e1
  cases twice with
  | false => cases e2; exact ⟨g1, f1, v1⟩
  | true =>
    obtain ⟨g2, f2, v2⟩ := ptrOf_run g1.ok (show ptrOf f h₁ k₁ = some (h₂, k₂) from e2)
    exact ⟨g1.trans g2, f2.lower g1.pre.length_le, fun t ht => v2 t (v1 t ht)⟩

theorem call_addPart {f : Nat} {s s' : State} {t : Target} {own : List (String × Nat)} {src : Nat} {twice : Bool}
    (e : call f s (.addPart t own src twice) = some s') :
    ∃ i h₁ k₁ h₂ k₂ o, s.target t = some i ∧ ptrOf f s.heap src = some (h₁, k₁) ∧
      (if twice then ptrOf f h₁ k₁ else some (h₁, k₁)) = some (h₂, k₂) ∧ h₂.get i = some o ∧ o.kind ≠ .primitive ∧
      s' = { s with heap := h₂.set i (some { o with own := own, kids := o.kids ++ [k₂] }) } := by
  dsimp only [call] at e
  cases hi : s.target t with
  | none => rw [hi] at e; cases e
  | some i =>
    rw [hi] at e
    simp only [Option.bind_some] at e
    cases h1 : ptrOf f s.heap src with
    | none => rw [h1] at e; cases e
    | some x =>
      rw [h1] at e
      simp only [Option.bind_some] at e
      cases h2 : (if twice then ptrOf f x.1 x.2 else some (x.1, x.2)) with
      | none => rw [h2] at e; cases e
      | some y =>
        rw [h2] at e
        simp only [Option.bind_some] at e
        cases h3 : y.1.get i with
        | none => rw [h3] at e; cases e
        | some o =>
          rw [h3] at e
          simp only [Option.bind_some] at e
          split at e
          · cases e
          · rename_i hp
            exact ⟨i, x.1, x.2, y.1, y.2, o, rfl, rfl, h2, h3, hp, (Option.some.inj e).symm⟩

theorem addPart_facts {f : Nat} {s : State} {t : Target} {src : Nat} {twice : Bool} {i k₁ k₂ : Nat} {h₁ h₂ : Heap} {o : Obj} (ok : s.Ok)
    (e0 : s.target t = some i) (e1 : ptrOf f s.heap src = some (h₁, k₁)) (e2 : (if twice then ptrOf f h₁ k₁ else some (h₁, k₁)) = some (h₂, k₂))
    (e3 : h₂.get i = some o) (hp : o.kind ≠ .primitive) :
    Grown s.heap h₂ ∧ Fresh s.heap h₂ k₂ ∧ s.heap.get i = some o ∧ Root h₂ i ∧ k₂ ≠ i := by
  obtain ⟨g, fr, _⟩ := part_run ok.heap e1 e2
  obtain ⟨o', ho'⟩ := target_obj ok e0
  have hi := get_lt ho'
  have same : s.heap.get i = some o := by rw [← get_prefix g.pre hi]; exact e3
  have hr := target_root ok e0 same hp
  refine ⟨g, fr, same, ?_, ?_⟩
  · intro j n hk
    by_cases hj : j < s.heap.length
    · rw [kid_congr (get_prefix g.pre hj)] at hk
      exact hr _ _ hk
    · exact absurd (g.apart j n i (by omega) hk ⟨o, e3, hp⟩) (by omega)
  · intro hk
    have := (fr.free ⟨o, by rw [hk]; exact e3, hp⟩).1
    omega

theorem alloc_local {h : Heap} (ok : Types.Ok h) (k : Kind) (n : String) (own : List (String × Nat)) (nx : Option Nat) :
    Grown h (h ++ [some ⟨k, n, own, nx, [], false⟩]) :=
  (alloc_ok (.refl ok) (o := ⟨k, n, own, nx, [], false⟩) (f := 0) (ts := []) (by simp) (by simp) (fun _ => rfl) rfl).1

theorem State.Ok.destroy {s : State} (ok : s.Ok) {i : Nat} (hr : Root s.heap i) (hv : ∀ v, s.vars v ≠ some i) (hp : ∀ p, s.ptrs p ≠ some i)
    (hd : ∀ d, s.data d ≠ some i) : State.Ok { s with heap := s.heap.set i none } := by
  have get : ∀ {j : Nat} {b : Bool}, i ≠ j → (∃ o, s.heap.get j = some o ∧ o.managed = b) →
      ∃ o, Heap.get (s.heap.set i none) j = some o ∧ o.managed = b := fun hj ⟨o, ho, hm⟩ => ⟨o, by rw [get_set_ne hj]; exact ho, hm⟩
  exact {
    heap := destroy_ok ok.heap hr
    vars := fun v j e => get (fun he => hv v (by rw [he]; exact e)) (ok.vars v j e)
    varOne := ok.varOne
    ptrs := fun v j e => get (fun he => hp v (by rw [he]; exact e)) (ok.ptrs v j e)
    data := fun v j e => get (fun he => hd v (by rw [he]; exact e)) (ok.data v j e)
    ptrOne := fun p q j e e' hs => ok.ptrOne p q j e e' ((solid_set (fun he => hp p (by rw [← he]; exact e))).mp hs)
    ptrKid := fun p j j' n e hs hk => by
      rcases kid_set hk with ⟨_, a⟩ | ⟨_, o', ho', _⟩
      · exact ok.ptrKid p j j' n e ((solid_set (fun he => hp p (by rw [← he]; exact e))).mp hs) a
      · cases ho' }

theorem step_ok {s s' : State} {e : Option Op} (ok : s.Ok) (st : Step s e s') : s'.Ok := by
  cases st with
  | free hu =>
    obtain ⟨⟨o, ho, hm⟩, hp, hd, hk⟩ := hu
    refine ok.destroy hk (fun v hv => ?_) hp hd
    obtain ⟨o', ho', hm'⟩ := ok.vars v _ hv
    rw [ho] at ho'; cases ho'
    rw [hm] at hm'; cases hm'
  | @call _ f op hc =>
    cases op with
    | declare v k n own =>
      dsimp only [call] at hc
      split at hc
      · rename_i hv
        cases hc
        have g := alloc_local ok.heap k n own (if k = .enumeration then some 0 else none)
        have ok' := ok.grow g
        refine { ok' with vars := fun w i e => ?_, varOne := fun w w' i e e' => ?_ }
        · rcases put_some e with ⟨_, e⟩ | ⟨_, e⟩
          · cases e; exact ⟨_, get_last, rfl⟩
          · exact ok'.vars w i e
        · have old : ∀ w i, s.vars w = some i → i < s.heap.length := fun w i e => by
            obtain ⟨o, ho, _⟩ := ok.vars w i e; exact get_lt ho
          rcases put_some e with ⟨h1, a⟩ | ⟨h1, a⟩
          · rcases put_some e' with ⟨h2, b⟩ | ⟨h2, b⟩
            · rw [h1, h2]
            · cases a
              exact absurd (old _ _ b) (Nat.lt_irrefl s.heap.length)
          · rcases put_some e' with ⟨h2, b⟩ | ⟨h2, b⟩
            · cases b
              exact absurd (old _ _ a) (Nat.lt_irrefl s.heap.length)
            · exact ok.varOne _ _ _ a b
      · cases hc
    | leave v =>
      dsimp only [call] at hc
      cases hv : s.vars v with
      | none => rw [hv] at hc; cases hc
      | some i =>
        rw [hv] at hc
        cases hc
        obtain ⟨o, ho, hm⟩ := ok.vars v i hv
        have nm : ∀ {j : Nat}, (∃ o, s.heap.get j = some o ∧ o.managed = true) → j ≠ i := fun ⟨o', ho', hm'⟩ he => by
          rw [he, ho] at ho'; cases ho'
          rw [hm] at hm'; cases hm'
        have ok0 : State.Ok { s with vars := put s.vars v none } := { ok with
          vars := fun w j e => by
            rcases put_some e with ⟨_, e⟩ | ⟨_, e⟩
            · cases e
            · exact ok.vars w j e
          varOne := fun w w' j e e' => by
            rcases put_some e with ⟨_, e⟩ | ⟨_, e⟩
            · cases e
            · rcases put_some e' with ⟨_, e'⟩ | ⟨_, e'⟩
              · cases e'
              · exact ok.varOne w w' j e e' }
        refine ok0.destroy (i := i) (var_root ok hv) (fun w e => ?_) (fun p e => nm (ok.ptrs p i e) rfl) (fun d e => nm (ok.data d i e) rfl)
        rcases put_some e with ⟨_, e⟩ | ⟨hw, e⟩
        · cases e
        · exact hw (ok.varOne w v i e hv)
    | edit t n own =>
      dsimp only [call] at hc
      cases hi : s.target t with
      | none => rw [hi] at hc; cases hc
      | some i =>
        obtain ⟨o, ho⟩ := target_obj ok hi
        rw [hi] at hc
        simp only [Option.bind_some, ho, Option.map_some, Option.some.injEq] at hc
        subst hc
        exact (alike_set (o' := { o with name := n, own := own }) ho rfl rfl rfl).state ok
    | enumerator t own n =>
      dsimp only [call] at hc
      cases hi : s.target t with
      | none => rw [hi] at hc; cases hc
      | some i =>
        obtain ⟨o, ho⟩ := target_obj ok hi
        rw [hi] at hc
        simp only [Option.bind_some, ho] at hc
        cases hn : o.next with
        | none => rw [hn] at hc; cases hc
        | some x =>
          rw [hn] at hc
          cases hc
          exact (alike_set (o' := { o with own := own, next := some n }) ho rfl rfl rfl).state ok
    | addPart t own src twice =>
      obtain ⟨i, h₁, k₁, h₂, k₂, o, e0, e1, e2, e3, hp, rfl⟩ := call_addPart hc
      obtain ⟨g, fr, same, hr, hki⟩ := addPart_facts ok e0 e1 e2 e3 hp
      have ok' := ok.grow g
      have heap := part_ok (own := own) g.ok e3 hp hr hki fr.managed (fun hs => (fr.free hs).2)
      have get : ∀ {j : Nat} {b : Bool}, (∃ o, Heap.get h₂ j = some o ∧ o.managed = b) →
          ∃ p, Heap.get (h₂.set i (some { o with own := own, kids := o.kids ++ [k₂] })) j = some p ∧ p.managed = b := fun {j b} ⟨p, hp, hm⟩ => by
        by_cases hj : i = j
        · subst hj
          rw [e3] at hp; cases hp
          exact ⟨_, get_set_self (get_lt e3), hm⟩
        · exact ⟨p, by rw [get_set_ne hj]; exact hp, hm⟩
      have sol : ∀ {j : Nat}, Solid (h₂.set i (some { o with own := own, kids := o.kids ++ [k₂] })) j → Solid h₂ j := fun {j} hs => by
        by_cases hj : j = i
        · subst hj; exact ⟨o, e3, hp⟩
        · exact (solid_set hj).mp hs
      exact {
        heap := heap
        vars := fun v j e => get (ok'.vars v j e)
        varOne := ok.varOne
        ptrs := fun v j e => get (ok'.ptrs v j e)
        data := fun v j e => get (ok'.data v j e)
        ptrOne := fun p q j e e' hs => ok'.ptrOne p q j e e' (sol hs)
        ptrKid := fun p j j' n e hs hk => by
          have hs' := sol hs
          rcases kid_set hk with ⟨_, a⟩ | ⟨_, o', ho', a⟩
          · exact ok'.ptrKid p j j' n e hs' a
          · cases ho'
            rcases List.mem_append.mp (List.mem_of_getElem? a) with hm | hm
            · obtain ⟨n', hn'⟩ := List.getElem?_of_mem hm
              exact ok'.ptrKid p j i n' e hs' (by rw [kid_of e3]; exact hn')
            · have he := List.mem_singleton.mp hm
              subst he
              obtain ⟨x, hx, _⟩ := ok.ptrs p j e
              have := get_lt hx
              have := (fr.free hs').1
              omega }
    | point p src =>
      dsimp only [call] at hc
      cases h1 : ptrOf f s.heap src with
      | none => rw [h1] at hc; cases hc
      | some x =>
        rw [h1] at hc
        cases hc
        obtain ⟨g, fr, _⟩ := ptrOf_run (h' := x.1) (k := x.2) ok.heap h1
        exact ok.point g fr
    | copy p q =>
      dsimp only [call] at hc
      cases hq : s.ptrs q with
      | none => rw [hq] at hc; cases hc; exact ok.drop p
      | some i =>
        rw [hq] at hc
        simp only at hc
        cases h1 : ptrOf f s.heap i with
        | none => rw [h1] at hc; cases hc
        | some x =>
          rw [h1] at hc
          cases hc
          obtain ⟨g, fr, _⟩ := ptrOf_run (h' := x.1) (k := x.2) ok.heap h1
          exact ok.point g fr
    | move p q => cases hc; exact ok.move p q
    | drop p => cases hc; exact ok.drop p
    | release p d =>
      cases hc
      exact (ok.datum (d := d) (v := s.ptrs p) fun i e => ok.ptrs p i e).drop p
    | make d src look =>
      dsimp only [call] at hc
      cases h1 : dataType f look s.heap src with
      | none => rw [h1] at hc; cases hc
      | some x =>
        rw [h1] at hc
        cases hc
        obtain ⟨g, hm, _⟩ := dataType_run (h' := x.1) (k := x.2) ok.heap h1
        exact (ok.grow g).datum (d := d) (v := some x.2) fun i e => by cases e; exact hm
    | share d e =>
      cases hc
      exact ok.datum (d := d) (v := s.data e) fun i he => ok.data e i he
    | finish d =>
      cases hc
      exact ok.datum (d := d) (v := none) fun i he => by cases he

/-- What is neither destroyed nor changed by a step shows what it did. -/
theorem step_shows {s s' : State} {e : Option Op} (ok : s.Ok) (st : Step s e s') (hr : ¬Renames s e) {j : Nat} {t : Tree}
    (hc : ∀ x, Changes e = some x → s.target x ≠ some j) (ha : s'.heap.get j ≠ none) (ht : Shows s.heap j t) : Shows s'.heap j t := by
  have hj : j < s.heap.length := by
    obtain ⟨f, hf⟩ := ht
    cases f with
    | zero => cases hf
    | succ f =>
      unfold view at hf
      cases ho : s.heap.get j with
      | none => rw [ho] at hf; cases hf
      | some o => exact get_lt ho
  have grow : ∀ {h : Heap}, Grown s.heap h → Shows h j t := fun g => by
    obtain ⟨f, hf⟩ := ht
    exact ⟨f, by rw [g.view ok.heap hj f]; exact hf⟩
  have set : ∀ {i : Nat} {o : Option Obj}, Root s.heap i → j ≠ i → Shows (s.heap.set i o) j t := fun hr hne => by
    obtain ⟨f, hf⟩ := ht
    exact ⟨f, by rw [view_set hr f hne]; exact hf⟩
  cases st with
  | @free i hu =>
    refine set hu.2.2.2 fun he => ?_
    subst he
    exact ha (get_set_self hj)
  | @call _ f op hop =>
    have nonprim : ∀ x i o, Changes (some op) = some x → s.target x = some i → s.heap.get i = some o → o.kind ≠ .primitive :=
      fun x i o h1 h2 h3 h4 => hr ⟨x, i, o, h1, h2, h3, h4⟩
    cases op with
    | declare v k n own =>
      dsimp only [call] at hop
      split at hop
      · cases hop
        exact grow (alloc_local ok.heap k n own (if k = .enumeration then some 0 else none))
      · cases hop
    | leave v =>
      dsimp only [call] at hop
      cases hv : s.vars v with
      | none => rw [hv] at hop; cases hop
      | some i =>
        rw [hv] at hop
        cases hop
        refine set (var_root ok hv) fun he => ?_
        subst he
        exact ha (get_set_self hj)
    | edit x n own =>
      dsimp only [call] at hop
      cases hi : s.target x with
      | none => rw [hi] at hop; cases hop
      | some i =>
        obtain ⟨o, ho⟩ := target_obj ok hi
        rw [hi] at hop
        simp only [Option.bind_some, ho, Option.map_some, Option.some.injEq] at hop
        subst hop
        exact set (target_root ok hi ho (nonprim x i o rfl hi ho)) fun he => hc x rfl (by rw [he]; exact hi)
    | enumerator x own n =>
      dsimp only [call] at hop
      cases hi : s.target x with
      | none => rw [hi] at hop; cases hop
      | some i =>
        obtain ⟨o, ho⟩ := target_obj ok hi
        rw [hi] at hop
        simp only [Option.bind_some, ho] at hop
        cases hn : o.next with
        | none => rw [hn] at hop; cases hop
        | some y =>
          rw [hn] at hop
          cases hop
          exact set (target_root ok hi ho (nonprim x i o rfl hi ho)) fun he => hc x rfl (by rw [he]; exact hi)
    | addPart x own src twice =>
      obtain ⟨i, h₁, k₁, h₂, k₂, o, e0, e1, e2, e3, hp, rfl⟩ := call_addPart hop
      obtain ⟨g, fr, same, hroot, hki⟩ := addPart_facts ok e0 e1 e2 e3 hp
      obtain ⟨f', hf⟩ := grow g
      exact ⟨f', by rw [view_set hroot f' fun he => hc x rfl (by rw [he]; exact e0)]; exact hf⟩
    | point p src =>
      dsimp only [call] at hop
      cases h1 : ptrOf f s.heap src with
      | none => rw [h1] at hop; cases hop
      | some x =>
        rw [h1] at hop
        cases hop
        exact grow (ptrOf_run (h' := x.1) (k := x.2) ok.heap h1).1
    | copy p q =>
      dsimp only [call] at hop
      cases hq : s.ptrs q with
      | none => rw [hq] at hop; cases hop; exact ht
      | some i =>
        rw [hq] at hop
        simp only at hop
        cases h1 : ptrOf f s.heap i with
        | none => rw [h1] at hop; cases hop
        | some x =>
          rw [h1] at hop
          cases hop
          exact grow (ptrOf_run (h' := x.1) (k := x.2) ok.heap h1).1
    | move p q => cases hop; exact ht
    | drop p => cases hop; exact ht
    | release p d => cases hop; exact ht
    | make d src look =>
      dsimp only [call] at hop
      cases h1 : dataType f look s.heap src with
      | none => rw [h1] at hop; cases hop
      | some x =>
        rw [h1] at hop
        cases hop
        exact grow (dataType_run (h' := x.1) (k := x.2) ok.heap h1).1
    | share d e => cases hop; exact ht
    | finish d => cases hop; exact ht

end Verif.Types
