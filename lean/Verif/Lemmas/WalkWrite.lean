import Verif.Spec.WalkWrite
import Verif.Lemmas.RefVal
import Verif.Lemmas.RefOps
import Verif.Lemmas.Walk
/-! # Walking and writing -/

namespace Verif.Inst

variable {σ : Type}

/-- The part of a walk that ends in the given state. -/
noncomputable def only (f : Nat → WWalk σ) (s s' : σ) (t : Option Throw) : Nat → Mem → M Mem := fun a m =>
  (f a m s).bind fun r => by
    classical
    exact if r.2 = (s', t) then .ok r.1 else .error .outside

theorem only_iff {f : Nat → WWalk σ} {s s' : σ} {t : Option Throw} {a : Nat} {m m' : Mem} :
    only f s s' t a m = .ok m' ↔ f a m s = .ok (m', s', t) := by
  unfold only
  cases h : f a m s with
  | error e => simp [Except.bind]
  | ok r =>
    obtain ⟨x, y⟩ := r
    by_cases hy : y = (s', t) <;> simp [Except.bind, hy]

/-- A walk on an instance with value `v` does what `R` says, changing only the cells of the instance. -/
def EditsW (dec : List Cell → Option Val) (td : List Cell → Prop) (cl : Prop) (f : Nat → WWalk σ)
    (R : Val → σ → Val → σ → Option Throw → Prop) : Prop :=
  ∀ s s' t, Edits dec td cl (only f s s' t) (fun v w => R v s w s' t) (fun _ => False)

theorem editsW_iff {dec : List Cell → Option Val} {td : List Cell → Prop} {cl : Prop} {f : Nat → WWalk σ}
    {R : Val → σ → Val → σ → Option Throw → Prop} : EditsW dec td cl f R ↔
    ∀ (pre old post : List Cell) (lk : Nat) (v : Val), dec old = some v → ∀ s w s' t, R v s w s' t →
      ∃ new d, f pre.length ⟨pre ++ old ++ post, lk⟩ s = .ok (⟨pre ++ new ++ post, lk + d⟩, s', t) ∧
        new.length = old.length ∧ dec new = some w ∧ (cl → td old → d = 0 ∧ td new) := by
  constructor
  · intro h pre old post lk v hv s w s' t hR
    obtain ⟨new, d, h1, h2⟩ := (h s s' t pre old post lk v hv).2 w hR
    exact ⟨new, d, only_iff.mp h1, h2⟩
  · intro h s s' t pre old post lk v hv
    refine ⟨False.elim, fun w hR => ?_⟩
    obtain ⟨new, d, h1, h2⟩ := h pre old post lk v hv s w s' t hR
    exact ⟨new, d, only_iff.mpr h1, h2⟩

theorem editsW_mono {dec : List Cell → Option Val} {td : List Cell → Prop} {cl : Prop} {f : Nat → WWalk σ}
    {R R' : Val → σ → Val → σ → Option Throw → Prop} (h : EditsW dec td cl f R)
    (hr : ∀ cs v s w s' t, dec cs = some v → R' v s w s' t → R v s w s' t) : EditsW dec td cl f R' :=
  editsW_iff.mpr fun pre old post lk v hv s w s' t hR => editsW_iff.mp h pre old post lk v hv s w s' t (hr _ _ _ _ _ _ hv hR)

/-- One after the other, unless something is thrown. -/
def Then (R R' : Val → σ → Val → σ → Option Throw → Prop) (v : Val) (s : σ) (w : Val) (s' : σ) (t : Option Throw) : Prop :=
  (∃ x s1, R v s x s1 none ∧ R' x s1 w s' t) ∨ ∃ t', t = some t' ∧ R v s w s' (some t')

theorem editsW_then {dec : List Cell → Option Val} {td : List Cell → Prop} {cl : Prop} {f g : Nat → WWalk σ}
    {R R' : Val → σ → Val → σ → Option Throw → Prop} (hf : EditsW dec td cl f R) (hg : EditsW dec td cl g R') :
    EditsW dec td cl (fun a => (f a).andThen (g a)) (Then R R') := by
  refine editsW_iff.mpr fun pre old post lk v hv s w s' t hR => ?_
  rcases hR with ⟨x, s1, h1, h2⟩ | ⟨t', rfl, h1⟩
  · obtain ⟨new, d, e1, e2, e3, e4⟩ := editsW_iff.mp hf pre old post lk v hv s x s1 none h1
    obtain ⟨new', d', k1, k2, k3, k4⟩ := editsW_iff.mp hg pre new post (lk + d) x e3 s1 w s' t h2
    refine ⟨new', d + d', ?_, k2.trans e2, k3, fun c ht => ?_⟩
    · simp only [WWalk.andThen, e1, Except.bind, k1, Nat.add_assoc]
    · obtain ⟨z1, z2⟩ := e4 c ht
      obtain ⟨z3, z4⟩ := k4 c z2
      exact ⟨by omega, z4⟩
  · obtain ⟨new, d, e1, e2⟩ := editsW_iff.mp hf pre old post lk v hv s w s' (some t') h1
    exact ⟨new, d, by simp only [WWalk.andThen, e1, Except.bind], e2⟩

theorem editsW_done {dec : List Cell → Option Val} {td : List Cell → Prop} {cl : Prop} {vis : VVisitor σ} {n : TNode} :
    EditsW dec td cl (fun _ => WWalk.done) (EditedParts vis n []) := by
  refine editsW_iff.mpr fun pre old post lk v hv s w s' t hR => ?_
  cases hR
  exact ⟨old, 0, rfl, rfl, hv, fun _ h => ⟨rfl, h⟩⟩

/-- What a walk of a part does to the whole. -/
def PartR (vis : VVisitor σ) (n : TNode) (p : WPart) (v : Val) (s : σ) (w : Val) (s' : σ) (t : Option Throw) : Prop :=
  ∃ u x, v.part p.pos = some u ∧ Edited vis (n.child p.ty.rget p.index p.member) u s x s' t ∧ w = v.setPart p.pos x

theorem editsW_parts {dec : List Cell → Option Val} {td : List Cell → Prop} {cl : Prop} {vis : VVisitor σ} {n : TNode}
    {p : WPart} {r : List WPart} {f g : Nat → WWalk σ} (hf : EditsW dec td cl f (PartR vis n p))
    (hg : EditsW dec td cl g (EditedParts vis n r)) :
    EditsW dec td cl (fun a => (f a).andThen (g a)) (EditedParts vis n (p :: r)) := by
  refine editsW_mono (editsW_then hf hg) ?_
  intro cs v s w s' t _ h
  cases h with
  | next h1 h2 h3 => exact .inl ⟨_, _, ⟨_, _, h1, h2, rfl⟩, h3⟩
  | stop h1 h2 => exact .inr ⟨_, rfl, _, _, h1, h2, rfl⟩

/-- A loop over parts. -/
theorem editsW_times {dec : List Cell → Option Val} {td : List Cell → Prop} {cl : Prop} {vis : VVisitor σ} {n : TNode}
    {f : Nat → Nat → WWalk σ} {g : Nat → WPart} {N : Nat}
    (h : ∀ i, i < N → EditsW dec td cl (f i) (PartR vis n (g i))) : ∀ (k i : Nat), i + k ≤ N →
    EditsW dec td cl (fun a => WWalk.times (fun j => f j a) i k) (EditedParts vis n ((List.range' i k).map g))
  | 0, i, _ => by
    simp only [WWalk.times, List.range'_zero, List.map_nil]
    exact editsW_done
  | k + 1, i, hi => by
    simp only [WWalk.times, List.range'_succ, List.map_cons]
    exact editsW_parts (h i (by omega)) (editsW_times h k (i + 1) (by omega))

/-! ## The visitor -/

theorem writes_edits {T : Ty} (hw : T.WF) {cl : Prop} (hc : cl → T.Tight) : ∀ (l : List (List Step × RefOp)),
    (∀ x ∈ l, ∀ t, typeAt x.1 T = some t → x.2.Ok t) → EditsTo (decode T) (tidy T) cl (writes T · l) (editAll T l)
  | [], _ => by
    intro pre old post lk v hv
    refine ⟨fun h => by simp [editAll] at h, fun w h => ?_⟩
    simp only [editAll, Out.ok.injEq] at h
    subst h
    exact ⟨old, 0, rfl, rfl, hv, fun _ ht => ⟨rfl, ht⟩⟩
  | x :: r, h => by
    intro pre old post lk v hv
    obtain ⟨h1, h2⟩ := edits_clean (write_edits false x.2 x.1 T hw (h x (by simp))) hc pre old post lk v hv
    have ih := writes_edits hw hc r (fun y hy => h y (by simp [hy]))
    simp only [editAll, writes]
    cases he : editAt false x.2.spec x.1 T v with
    | undef => exact ⟨fun h => (by cases h), fun w h => by cases h⟩
    | refused => exact ⟨fun _ => by rw [h1 he]; rfl, fun w h => by cases h⟩
    | ok u =>
      obtain ⟨new, d, e1, e2, e3, e4⟩ := h2 u he
      rw [e1]
      obtain ⟨k1, k2⟩ := ih pre new post (lk + d) u e3
      refine ⟨k1, fun w hw => ?_⟩
      obtain ⟨new', d', g1, g2, g3, g4⟩ := k2 w hw
      refine ⟨new', d + d', ?_, g2.trans e2, g3, fun c ht => ?_⟩
      · simp only [Except.bind, g1, Nat.add_assoc]
      · obtain ⟨z1, z2⟩ := e4 c ht
        obtain ⟨z3, z4⟩ := g4 c z2
        exact ⟨by omega, z4⟩

theorem sliceW_at (pre old post : List Cell) (n : Nat) (h : old.length = n) :
    ((pre ++ old ++ post).drop pre.length).take n = old := by
  rw [List.append_assoc, List.drop_left, List.take_left' h]

theorem call_edits {visit : WVisitor σ} {vis : VVisitor σ} (hf : visit.Follows vis) (ha : vis.Able) {n : TNode}
    (hw : n.self.ty.WF) {cl : Prop} (hc : cl → n.self.ty.Tight) :
    EditsW (decode n.self.ty) (tidy n.self.ty) cl (callW visit n) (Visited vis n) := by
  refine editsW_iff.mpr fun pre old post lk v hv s w s' t hR => ?_
  obtain ⟨h1, h2, _⟩ := hR
  obtain ⟨new, d, e1, e2⟩ := (writes_edits hw hc _ (ha n v s) pre old post lk v hv).2 w h1
  refine ⟨new, d, ?_, e2⟩
  simp only [callW, sliceW_at _ _ _ _ (decode_length _ _ _ hv), hf n old v s hv, e1, Except.map, h2]

theorem node_edits {visit : WVisitor σ} {vis : VVisitor σ} (hf : visit.Follows vis) (ha : vis.Able) {n : TNode}
    (hw : n.self.ty.WF) {cl : Prop} (hc : cl → n.self.ty.Tight) {f : Nat → WWalk σ}
    (h : EditsW (decode n.self.ty) (tidy n.self.ty) cl f fun v => EditedParts vis n (wparts n v) v) :
    EditsW (decode n.self.ty) (tidy n.self.ty) cl (fun a => (callW visit n a).andThen (f a)) (Edited vis n) := by
  refine editsW_mono (editsW_then (call_edits hf ha hw hc) h) ?_
  intro cs v s w s' t _ h
  cases h with
  | throws h => exact .inr ⟨_, rfl, h⟩
  | goes h h' => exact .inl ⟨_, _, h, h'⟩

theorem leaf_edits {visit : WVisitor σ} {vis : VVisitor σ} (hf : visit.Follows vis) (ha : vis.Able) {n : TNode}
    (hw : n.self.ty.WF) {cl : Prop} (hc : cl → n.self.ty.Tight) (hp : ∀ cs v, decode n.self.ty cs = some v → wparts n v = []) :
    EditsW (decode n.self.ty) (tidy n.self.ty) cl (callW visit n) (Edited vis n) := by
  refine editsW_iff.mpr fun pre old post lk v hv s w s' t hR => ?_
  have hcall := editsW_iff.mp (call_edits hf ha hw hc) pre old post lk v hv s
  cases hR with
  | throws h => exact hcall _ _ _ h
  | goes h h' =>
    obtain ⟨new, d, e1, e2, e3, e4⟩ := hcall _ _ _ h
    rw [hp _ _ e3] at h'
    cases h'
    exact ⟨new, d, e1, e2, e3, e4⟩

/-! ## Parts in place and in blocks -/

theorem editsW_focus {dec : List Cell → Option Val} {td : List Cell → Prop} {off : Nat} {dec' : List Cell → Option Val}
    {td' : List Cell → Prop} {sel : Val → Option Val} {upd : Val → Val → Val}
    (h : Focus dec td off dec' td' sel upd) {cl : Prop} {f : Nat → WWalk σ} {R : Val → σ → Val → σ → Option Throw → Prop}
    (hf : EditsW dec' td' cl f R) :
    EditsW dec td cl (fun a => f (a + off)) (fun v s w s' t => ∃ u x, sel v = some u ∧ R u s x s' t ∧ w = upd v x) := by
  intro s s' t
  have := focus_edits h (hf s s' t)
  intro pre old post lk v hv
  exact ⟨False.elim, (this pre old post lk v hv).2⟩

theorem only_block {isMap : Bool} {c : Ty} {f : Nat → WWalk σ} {size i : Nat} {s s' : σ} {t : Option Throw} {a : Nat} {m m' : Mem}
    (h : inBlock isMap c (fun o blk => if i < o.size then only f s s' t (i * size) blk else .error .refused) a m = .ok m') :
    inBlockW isMap c (elemW f size i) a m s = .ok (m', s', t) := by
  unfold inBlock at h
  unfold inBlockW elemW
  cases hp : peekColl isMap m.cells a with
  | error e => rw [hp] at h; cases h
  | ok o =>
    rw [hp] at h
    simp only [Except.bind] at h ⊢
    by_cases hc : o.content = c
    · simp only [hc, if_true] at h ⊢
      by_cases hi : i < o.size
      · simp only [hi, if_true] at h ⊢
        cases ho : only f s s' t (i * size) ⟨o.block, 0⟩ with
        | error e => rw [ho] at h; cases h
        | ok blk =>
          rw [ho] at h
          rw [only_iff.mp ho]
          simp only [] at h ⊢
          cases hs : setColl isMap { content := c, size := o.size, cap := o.cap, block := blk.cells } a m with
          | error e => rw [hs] at h; cases h
          | ok m1 => rw [hs] at h; cases h; rfl
      · simp only [hi, if_false] at h; cases h
    · simp only [hc, if_false] at h; cases h

theorem editsW_block {im : Bool} {c : Ty} {s b : Nat} {dec : List Cell → Option Val} {td : List Cell → Prop}
    {cl : Prop} {f : Nat → WWalk σ} {R : Val → σ → Val → σ → Option Throw → Prop} {L : Prop}
    (hlen : ∀ cs v, dec cs = some v → cs.length = s) (hf : EditsW dec td cl f R) (i : Nat) :
    EditsW (decColl im c s b dec) (tidyColl L td s) cl (inBlockW im c (elemW f s i))
      (fun v st w st' t => ∃ vs u x, v = .coll vs ∧ vs[i]? = some u ∧ R u st x st' t ∧ w = .coll (vs.set i x)) := by
  refine editsW_iff.mpr fun pre old post lk v hv st w st' t hR => ?_
  obtain ⟨new, d, h1, h2⟩ := (edits_block (im := im) (c := c) (s := s) (b := b) (L := L) hlen (hf st st' t) i
    pre old post lk v hv).2 w hR
  exact ⟨new, d, only_block h1, h2⟩

/-! ## Types -/

/-- The node of an instance whose type may be an alias, with what the alias stands for. -/
def TNode.seen (n : TNode) : TNode := ⟨{ n.self with ty := n.self.ty.rget }, n.up⟩

/-- A walk of the type `T` does what it should. -/
def WalksW (vis : VVisitor σ) (T : Ty) (w : Nat → TNode → WWalk σ) : Prop :=
  ∀ (cl : Prop) (n : TNode), (cl → T.Tight) → n.self.ty = T → (∃ (q : TNode) (i : Nat) (m : Option String), n = q.child T i m) ∨ T.rget = T →
    EditsW (decode T) (tidy T) cl (fun a => w a n) (Edited vis n.seen)

theorem TNode.seen_of {n : TNode} (h : n.self.ty.rget = n.self.ty) : n.seen = n := by
  obtain ⟨⟨_, _, _, _⟩, _⟩ := n
  simp only at h
  simp only [TNode.seen, h]

/-- A walk of a part, at its place. -/
theorem WalksW.part {vis : VVisitor σ} {t : Ty} {w : Nat → TNode → WWalk σ} (h : WalksW vis t w) {cl : Prop} (hc : cl → t.Tight)
    (n : TNode) (i : Nat) (m : Option String) {S : Ty} {off pos : Nat} {sel : Val → Option Val} {upd : Val → Val → Val}
    (hF : Focus (decode S) (tidy S) off (decode t) (tidy t) sel upd)
    (hs : ∀ cs v u, decode S cs = some v → v.part pos = some u → sel v = some u ∧ ∀ x, v.setPart pos x = upd v x) :
    EditsW (decode S) (tidy S) cl (fun a => w (a + off) (n.child t i m)) (PartR vis n ⟨pos, t, i, m⟩) := by
  refine editsW_mono (editsW_focus hF (h cl (n.child t i m) hc rfl (.inl ⟨n, i, _, rfl⟩))) ?_
  rintro cs v s w' s' th hv ⟨u, x, h1, h2, rfl⟩
  obtain ⟨h3, h4⟩ := hs cs v u hv h1
  exact ⟨u, x, h3, h2, h4 x⟩

theorem coll_parts {vis : VVisitor σ} {im : Bool} {c C : Ty} {s b : Nat} {dec : List Cell → Option Val} {td : List Cell → Prop}
    {L cl : Prop} {w : Nat → TNode → WWalk σ} {n : TNode} (hlen : ∀ cs v, dec cs = some v → cs.length = s)
    (h : ∀ i, EditsW dec td cl (fun a => w a (n.child C i none)) (Edited vis (n.child C.rget i none)))
    (hp : ∀ vs, wparts n (.coll vs) = elemParts C vs.length) :
    EditsW (decColl im c s b dec) (tidyColl L td s) cl (fun a m st => (peekColl im m.cells a).bind fun o =>
      WWalk.times (fun i => inBlockW im c (elemW (fun b => w b (n.child C i none)) s i) a) 0 o.size m st)
      (fun v => EditedParts vis n (wparts n v) v) := by
  refine editsW_iff.mpr fun pre old post lk v hv st w' st' t hR => ?_
  have hv0 := hv
  obtain ⟨size, cap, blk, vs, rfl, h1, h2, h3, h4, rfl⟩ := decColl_iff.mp hv
  have hsz : (vs.take size).length = size := by rw [List.length_take, decN_length h4]; omega
  have ht := editsW_times (dec := decColl im c s b dec) (td := tidyColl L td s) (cl := cl) (vis := vis) (n := n)
    (f := fun i a => inBlockW im c (elemW (fun b => w b (n.child C i none)) s i) a) (g := fun i => ⟨i, C, i, none⟩) (N := size)
    (fun i _ => by
      refine editsW_mono (editsW_block (L := L) (b := b) hlen (h i) i) ?_
      rintro cs v s w' s' th hv ⟨u, x, e1, e2, rfl⟩
      obtain ⟨_, _, _, _, rfl, _⟩ := decColl_iff.mp hv
      exact ⟨_, u, x, rfl, e1, e2, rfl⟩) size 0 (by omega)
  rw [hp, hsz, elemParts, List.range_eq_range'] at hR
  obtain ⟨new, d, k1, k2⟩ := editsW_iff.mp ht pre _ post lk _ hv0 st w' st' t hR
  refine ⟨new, d, ?_, k2⟩
  rw [peekColl_at]
  exact k1

theorem pair_edits {visit : WVisitor σ} {vis : VVisitor σ} (hf : visit.Follows vis) (ha : vis.Able) {x y : Ty}
    {f g : Nat → TNode → WWalk σ} (h1 : WalksW vis x f) (h2 : WalksW vis y g) (hw : (Ty.pair x y).WF) {cl : Prop}
    (hc : cl → (Ty.pair x y).Tight) {n : TNode} (hn : n.self.ty = .pair x y) :
    EditsW (decode (.pair x y)) (tidy (.pair x y)) cl (fun a => walkPairW visit f g x y a n) (Edited vis n) := by
  have hcx : cl → x.Tight := fun h => by have := hc h; rw [Ty.Tight] at this; exact this.1
  have hcy : cl → y.Tight := fun h => by have := hc h; rw [Ty.Tight] at this; exact this.2
  have hd : decode (.pair x y) = decPair (decode x) (decode y) x.memSize := by funext cs; rw [decode]
  have ht : tidy (.pair x y) = fun cs => tidy x (cs.take x.memSize) ∧ tidy y (cs.drop x.memSize) := by funext cs; rw [tidy]
  have key : EditsW (decode (.pair x y)) (tidy (.pair x y)) cl
      (fun a => (f a (n.child x 0 n.pairMember)).andThen (g (a + x.memSize) (n.child y 1 n.pairMember)))
      (fun v => EditedParts vis n (wparts n v) v) := by
    have e1 := h1.part hcx n 0 n.pairMember (pos := 0) (S := .pair x y) (by rw [hd, ht]; exact focus_fst (decode_length x)) (by
      intro cs v u hv hu
      rw [hd] at hv
      obtain ⟨a, b, rfl, _⟩ := decPair_iff.mp hv
      simp only [Val.part, List.getElem?_cons_zero, Option.some.injEq] at hu
      exact ⟨by rw [hu], fun _ => rfl⟩)
    have e2 := h2.part hcy n 1 n.pairMember (pos := 1) (S := .pair x y) (by rw [hd, ht]; exact focus_snd (decode_length x)) (by
      intro cs v u hv hu
      rw [hd] at hv
      obtain ⟨a, b, rfl, _⟩ := decPair_iff.mp hv
      simp only [Val.part, List.getElem?_cons_succ, List.getElem?_cons_zero, Option.some.injEq] at hu
      exact ⟨by rw [hu], fun _ => rfl⟩)
    have e3 := editsW_parts e1 (editsW_parts e2 (editsW_done (vis := vis) (n := n)))
    refine editsW_iff.mpr fun pre old post lk v hv s w s' t hR => ?_
    have hv' := hv
    rw [hd] at hv'
    obtain ⟨a, b, rfl, _⟩ := decPair_iff.mp hv'
    simp only [wparts, hn] at hR
    obtain ⟨new, d, k1, k2⟩ := editsW_iff.mp e3 pre old post lk _ hv s w s' t hR
    refine ⟨new, d, ?_, k2⟩
    rw [← k1]
    simp only [Nat.add_zero, WWalk.andThen]
    congr 1
    funext r
    obtain ⟨m1, s1, _ | _⟩ := r
    · simp only []
      cases g (pre.length + x.memSize) (n.child y 1 n.pairMember) m1 s1 with
      | error e => rfl
      | ok r =>
        obtain ⟨m2, s2, _ | _⟩ := r <;> rfl
    · rfl
  have := node_edits hf ha (n := n) (by rw [hn]; exact hw) (by rw [hn]; exact hc) (by rw [hn]; exact key)
  rw [hn] at this
  exact this

theorem walkCaseW_eq {visit : WVisitor σ} : {ms : Mems} → {m : String} → {t : Ty} → ms.find? m = some t →
    ∀ a i n, walkCaseW visit ms m a i n = walkW visit t a (n.child t i (some m))
  | .nil, _, _, h => by simp [Mems.find?] at h
  | .cons x t r, m, t', h => by
    intro a i n
    rw [Mems.find?] at h
    rw [walkCaseW]
    split at h
    · rename_i e; cases h; rw [if_pos e, e]
    · rename_i e; rw [if_neg e]; exact walkCaseW_eq h a i n

theorem walkAllW_edits {visit : WVisitor σ} {vis : VVisitor σ} {nm : String} {ms : Mems} {cl : Prop} {n : TNode} :
    ∀ (ms' : Mems) (off i : Nat), (ms'.Forall fun t => WalksW vis t (walkW visit t)) → (cl → ms'.Tight) →
    (∀ j o t, Mems.locateAt ms' j = some (o, t) → Mems.locateAt ms (i + j) = some (off + o, t)) →
    EditsW (decode (.struct nm ms)) (tidy (.struct nm ms)) cl (fun a => walkAllW visit ms' (a + off) i n)
      (EditedParts vis n (memberParts i ms'))
  | .nil, off, i, _, _, _ => by
    simp only [walkAllW, memberParts]
    exact editsW_done
  | .cons x t r, off, i, h, hc, hl => by
    simp only [walkAllW, memberParts]
    have h0 := hl 0 0 t rfl
    simp only [Nat.add_zero] at h0
    have e1 := (h.1).part (fun c => by have := hc c; rw [Mems.Tight] at this; exact this.1) n i (some x) (pos := i)
      (focus_struct (n := nm) h0) (by
      intro cs v u hv hu
      obtain ⟨vs, rfl⟩ := (decode_list hv).1 rfl
      exact ⟨hu, fun _ => rfl⟩)
    have e2 := walkAllW_edits (nm := nm) (n := n) r (off + t.memSize) (i + 1) h.2 (fun c => by have := hc c; rw [Mems.Tight] at this; exact this.2)
      (by
        intro j o t' hj
        have := hl (j + 1) (o + t.memSize) t' (by rw [Mems.locateAt, hj]; rfl)
        rw [show i + (j + 1) = i + 1 + j by omega] at this
        rw [this]
        congr 2
        omega)
    have := editsW_parts e1 e2
    simp only [← Nat.add_assoc] at this
    exact this

theorem walkW_ok {visit : WVisitor σ} {vis : VVisitor σ} (hf : visit.Follows vis) (ha : vis.Able) (T : Ty) :
    T.WF → WalksW vis T (walkW visit T) := by
  induction T using Ty.ind with
  | prim k =>
    intro hw cl n hc hn _
    rw [TNode.seen_of (by rw [hn]; rfl)]
    have := leaf_edits hf ha (n := n) (by rw [hn]; exact hw) (by rw [hn]; exact hc) (by
      intro cs v hv
      rw [hn, decode] at hv
      obtain ⟨bs, rfl, _⟩ := decBytes_iff.mp hv
      rfl)
    rw [hn] at this
    simp only [walkW]
    exact this
  | enum nm w vs =>
    intro hw cl n hc hn _
    rw [TNode.seen_of (by rw [hn]; rfl)]
    have := leaf_edits hf ha (n := n) (by rw [hn]; exact hw) (by rw [hn]; exact hc) (by
      intro cs v hv
      rw [hn, decode] at hv
      obtain ⟨bs, rfl, _⟩ := decBytes_iff.mp hv
      rfl)
    rw [hn] at this
    simp only [walkW]
    exact this
  | str k b =>
    intro hw cl n hc hn _
    rw [TNode.seen_of (by rw [hn]; rfl)]
    have := leaf_edits hf ha (n := n) (by rw [hn]; exact hw) (by rw [hn]; exact hc) (by
      intro cs v hv
      rw [hn, decode] at hv
      obtain ⟨us, _, rfl, _⟩ := decStr_iff.mp hv
      rfl)
    rw [hn] at this
    simp only [walkW]
    exact this
  | seq c b ih =>
    intro hw cl n hc hn _
    rw [TNode.seen_of (by rw [hn]; rfl)]
    have hwc : c.WF := by rw [Ty.WF] at hw; exact hw
    have hcc : cl → c.Tight := fun h => by have := hc h; rw [Ty.Tight] at this; exact this.2
    have k := coll_parts (vis := vis) (im := false) (c := c) (C := c) (s := c.memSize) (b := b) (dec := decode c) (td := tidy c)
      (L := c.Light) (cl := cl) (w := fun a n => walkW visit c a n) (n := n) (decode_length c)
      (fun i => ih hwc cl (n.child c i none) hcc rfl (.inl ⟨n, i, _, rfl⟩))
      (fun vs => by simp only [wparts, hn])
    have hd : decode (.seq c b) = decColl false c c.memSize b (decode c) := by funext cs; rw [decode]
    have ht : tidy (.seq c b) = tidyColl c.Light (tidy c) c.memSize := by funext cs; rw [tidy]
    rw [← hd, ← ht] at k
    have := node_edits hf ha (n := n) (by rw [hn]; exact hw) (by rw [hn]; exact hc) (by rw [hn]; exact k)
    rw [hn] at this
    simp only [walkW]
    exact this
  | arr nm c d ih =>
    intro hw cl n hc hn _
    rw [TNode.seen_of (by rw [hn]; rfl)]
    have hwc : c.WF := by rw [Ty.WF] at hw; exact hw
    have hcc : cl → c.Tight := fun h => by have := hc h; rw [Ty.Tight] at this; exact this
    have k := editsW_times (vis := vis) (n := n) (cl := cl) (dec := decode (.arr nm c d)) (td := tidy (.arr nm c d))
      (f := fun i a => walkW visit c (a + i * c.memSize) (n.child c i none)) (g := fun i => ⟨i, c, i, none⟩) (N := d)
      (fun i hi => (ih hwc).part hcc n i none (focus_array hi) (by
        intro cs v u hv hu
        obtain ⟨vs, rfl, _⟩ := (decode_list hv).2 _ _ _ rfl
        exact ⟨hu, fun _ => rfl⟩)) d 0 (by omega)
    have := node_edits hf ha (n := n) (by rw [hn]; exact hw) (by rw [hn]; exact hc) (by
      rw [hn]
      refine editsW_mono k ?_
      intro cs v s w s' t hv h
      obtain ⟨vs, rfl, hl⟩ := (decode_list hv).2 _ _ _ rfl
      simp only [wparts, hn, elemParts, hl, List.range_eq_range'] at h
      exact h)
    rw [hn] at this
    simp only [walkW]
    exact this
  | map k v b ihk ihv =>
    intro hw cl n hc hn _
    rw [TNode.seen_of (by rw [hn]; rfl)]
    have hwk : k.WF ∧ v.WF := by rw [Ty.WF] at hw; exact hw
    have hct : cl → (Ty.pair k v).Tight := fun h => by have := hc h; rw [Ty.Tight] at this; rw [Ty.Tight]; exact this.2
    have hdp : decode (.pair k v) = decPair (decode k) (decode v) k.memSize := by funext cs; rw [decode]
    have hm : (Ty.pair k v).memSize = k.memSize + v.memSize := by rw [Ty.memSize]
    have htp : tidy (.pair k v) = fun s => tidy k (s.take k.memSize) ∧ tidy v (s.drop k.memSize) := by funext cs; rw [tidy]
    have q := coll_parts (vis := vis) (im := true) (c := .pair k v) (C := .pair k v) (s := k.memSize + v.memSize) (b := b)
      (dec := decode (.pair k v)) (td := tidy (.pair k v))
      (L := k.Light ∧ v.Light) (cl := cl)
      (w := fun a n => walkPairW visit (walkW visit k) (walkW visit v) k v a n) (n := n)
      (by rw [← hm]; exact decode_length _)
      (fun i => pair_edits hf ha (ihk hwk.1) (ihv hwk.2) (by rw [Ty.WF]; exact hwk) hct rfl)
      (fun vs => by simp only [wparts, hn])
    have hd : decode (.map k v b) = decColl true (.pair k v) (k.memSize + v.memSize) b (decode (.pair k v)) := by
      funext cs; rw [decode, hdp]
    have ht : tidy (.map k v b) = tidyColl (k.Light ∧ v.Light) (tidy (.pair k v)) (k.memSize + v.memSize) := by
      funext cs; rw [tidy, htp]
    rw [← hd, ← ht] at q
    have := node_edits hf ha (n := n) (by rw [hn]; exact hw) (by rw [hn]; exact hc) (by rw [hn]; exact q)
    rw [hn] at this
    simp only [walkW]
    exact this
  | pair x y ihx ihy =>
    intro hw cl n hc hn _
    rw [TNode.seen_of (by rw [hn]; rfl)]
    have hwk : x.WF ∧ y.WF := by rw [Ty.WF] at hw; exact hw
    simp only [walkW]
    exact pair_edits hf ha (ihx hwk.1) (ihy hwk.2) hw hc hn
  | als nm t ih =>
    intro hw cl n hc hn hu
    have hwt : t.WF := by rw [Ty.WF] at hw; exact hw
    have hct : cl → t.Tight := fun h => by have := hc h; rw [Ty.Tight] at this; exact this
    have hd : decode (.alias nm t) = decode t := by funext cs; rw [decode]
    have ht : tidy (.alias nm t) = tidy t := by funext cs; rw [tidy]
    rcases hu with ⟨q, i, m, rfl⟩ | h
    · have := ih hwt cl (q.child t i m) hct rfl (.inl ⟨q, i, m, rfl⟩)
      rw [hd, ht]
      simp only [walkW, TNode.child, TNode.seen, Ty.rget] at this ⊢
      exact this
    · have := Ty.rget_not_alias (.alias nm t)
      rw [h] at this
      cases this
  | struct nm ms ih =>
    intro hw cl n hc hn _
    rw [TNode.seen_of (by rw [hn]; rfl)]
    have hwm : ms.WF := by rw [Ty.WF] at hw; exact hw
    have hcm : cl → ms.Tight := fun h => by have := hc h; rw [Ty.Tight] at this; exact this
    have k := walkAllW_edits (visit := visit) (vis := vis) (nm := nm) (ms := ms) (cl := cl) (n := n) ms 0 0
      (forall_imp2 (fun t h1 h2 => h1 h2) ih (Mems.WF.forall hwm)) hcm (by intro j o t h; rw [Nat.zero_add, Nat.zero_add]; exact h)
    have := node_edits hf ha (n := n) (by rw [hn]; exact hw) (by rw [hn]; exact hc) (by
      rw [hn]
      refine editsW_mono k ?_
      intro cs v s w s' t hv h
      obtain ⟨vs, rfl⟩ := (decode_list hv).1 rfl
      simp only [wparts, hn] at h
      exact h)
    rw [hn] at this
    simp only [walkW]
    exact this
  | union nm d ms i ihd ih =>
    intro hw cl n hc hn _
    rw [TNode.seen_of (by rw [hn]; rfl)]
    rw [Ty.WF] at hw
    have hw' := hw
    have hcm : cl → ms.Tight := fun h => by have := hc h; rw [Ty.Tight] at this; exact this
    refine editsW_iff.mpr fun pre old post lk v hv st w st' th hR => ?_
    obtain ⟨bs, rest, l1, l2, rfl, h1⟩ := decode_union_inv hw.1 hv
    rcases h1 with ⟨_, rfl⟩ | ⟨x, t, u, h2, h3, h4, rfl⟩
    · cases hR with
      | throws h => cases h.2.2
      | goes h _ => cases h.2.2
    have hsel : ∀ {cs v}, decSel nm d ms i x cs = some v → decode (.union nm d ms i) cs = some v := fun h => by
      obtain ⟨_, _, _, h⟩ := decSel_iff.mp h; exact h
    have k1 : EditsW (decSel nm d ms i x) (tidy (.union nm d ms i)) cl (callW visit n) (Visited vis n) := by
      have hcall := call_edits hf ha (n := n) (cl := cl) (by rw [hn, Ty.WF]; exact hw') (by rw [hn]; exact hc)
      rw [hn] at hcall
      refine editsW_iff.mpr fun pre old post lk v hv s w s' t hR => ?_
      obtain ⟨new, d', e1, e2, e3, e4⟩ := editsW_iff.mp hcall pre old post lk v (hsel hv) s w s' t hR
      refine ⟨new, d', e1, e2, ?_, e4⟩
      obtain ⟨b, y, rfl, _⟩ := decSel_iff.mp hv
      obtain ⟨z, rfl⟩ := hR.2.2
      exact decSel_iff.mpr ⟨b, z, rfl, e3⟩
    have k2 := editsW_focus (focus_case (n := nm) (i := i) hw.1 h3)
      (ih.find h3 (WF_mem hw.2.2 h3) cl (n.child t (labelOf d.memSize bs % 2 ^ 64).toNat (some x))
        (fun h => Mems.Tight.find (hcm h) h3) rfl (.inl ⟨n, _, _, rfl⟩))
    have k3 : EditsW (decSel nm d ms i x) (tidy (.union nm d ms i)) cl
        (fun a => walkW visit t (a + d.memSize) (n.child t (labelOf d.memSize bs % 2 ^ 64).toNat (some x)))
        (PartR vis n ⟨0, t, (labelOf d.memSize bs % 2 ^ 64).toNat, some x⟩) := by
      refine editsW_mono k2 ?_
      rintro cs v s w s' th hv ⟨u, y, e1, e2, rfl⟩
      obtain ⟨b, z, rfl, _⟩ := decSel_iff.mp hv
      exact ⟨u, y, e1, e2, rfl⟩
    have k4 := editsW_then k1 (editsW_parts k3 (editsW_done (vis := vis) (n := n)))
    have hr : Then (Visited vis n) (EditedParts vis n [⟨0, t, (labelOf d.memSize bs % 2 ^ 64).toNat, some x⟩])
        (.un (.bytes bs) x u) st w st' th := by
      cases hR with
      | throws h => exact .inr ⟨_, rfl, h⟩
      | goes h h' =>
        obtain ⟨z, rfl⟩ := h.2.2
        simp only [wparts, hn, h3] at h'
        exact .inl ⟨_, _, h, h'⟩
    obtain ⟨new, d', e1, e2, e3, e4⟩ := editsW_iff.mp k4 pre _ post lk _ (decSel_iff.mpr ⟨_, _, rfl, hv⟩) st w st' th hr
    refine ⟨new, d', ?_, e2, hsel e3, e4⟩
    rw [← e1]
    have hrl := readLabel_at hw.1 pre (rest ++ post) bs l1
    rw [show pre ++ rawCells bs ++ (rest ++ post) = pre ++ (rawCells bs ++ rest) ++ post by simp only [List.append_assoc]] at hrl
    unfold UInfo.case at h2
    simp only [walkW, hrl, Except.bind, h2, walkCaseW_eq h3, WWalk.andThen]
    generalize callW visit n pre.length _ st = o
    match o with
    | .error e => rfl
    | .ok (m1, s1, some _) => rfl
    | .ok (m1, s1, none) =>
      simp only []
      generalize walkW visit t _ _ m1 s1 = o
      match o with
      | .error e => rfl
      | .ok (m1, s1, some _) => rfl
      | .ok (m1, s1, none) => rfl

mutual
theorem edited_det {vis : VVisitor σ} {n : TNode} {v w w' : Val} {s s' s'' : σ} {t t' : Option Throw} :
    Edited vis n v s w s' t → Edited vis n v s w' s'' t' → w = w' ∧ s' = s'' ∧ t = t'
  | .throws h, h' => by
    cases h' with
    | throws h2 =>
      have e := h.1.symm.trans h2.1
      have e' := h.2.1.symm.trans h2.2.1
      cases e; cases e'
      exact ⟨rfl, rfl, rfl⟩
    | goes h2 _ =>
      have e' := h.2.1.symm.trans h2.2.1
      cases e'
  | .goes h k, h' => by
    cases h' with
    | throws h2 =>
      have e' := h.2.1.symm.trans h2.2.1
      cases e'
    | goes h2 k2 =>
      have e := h.1.symm.trans h2.1
      have e' := h.2.1.symm.trans h2.2.1
      cases e; cases e'
      exact editedParts_det k k2
theorem editedParts_det {vis : VVisitor σ} {n : TNode} {ps : List WPart} {v w w' : Val} {s s' s'' : σ} {t t' : Option Throw} :
    EditedParts vis n ps v s w s' t → EditedParts vis n ps v s w' s'' t' → w = w' ∧ s' = s'' ∧ t = t'
  | .nil, h' => by cases h'; exact ⟨rfl, rfl, rfl⟩
  | .next h k l, h' => by
    cases h' with
    | next h2 k2 l2 =>
      cases h.symm.trans h2
      obtain ⟨rfl, rfl, _⟩ := edited_det k k2
      exact editedParts_det l l2
    | stop h2 k2 =>
      cases h.symm.trans h2
      obtain ⟨_, _, e⟩ := edited_det k k2
      cases e
  | .stop h k, h' => by
    cases h' with
    | next h2 k2 l2 =>
      cases h.symm.trans h2
      obtain ⟨_, _, e⟩ := edited_det k k2
      cases e
    | stop h2 k2 =>
      cases h.symm.trans h2
      obtain ⟨rfl, rfl, e⟩ := edited_det k k2
      exact ⟨rfl, rfl, e⟩
end

end Verif.Inst
