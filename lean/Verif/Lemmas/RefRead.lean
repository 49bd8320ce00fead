import Verif.Lemmas.RefVal
/-! # Reading through references -/

namespace Verif.Inst

/-- `f` finds what `g` says, of type `τ`; when there is nothing to find it is refused. -/
def ReadsTo (dec : List Cell → Option Val) (f : List Cell → Nat → M (Ty × List Cell)) (g : Val → Option Val)
    (τ : Option Ty) : Prop :=
  ∀ (pre cs post : List Cell) (v : Val), dec cs = some v →
    (∀ w, g v = some w → ∃ t x, τ = some t ∧ f (pre ++ cs ++ post) pre.length = .ok (t, x) ∧ decode t x = some w) ∧
    (g v = none → f (pre ++ cs ++ post) pre.length = .error .refused)

theorem reads_refuse {dec : List Cell → Option Val} {f : List Cell → Nat → M (Ty × List Cell)} {g : Val → Option Val}
    {τ : Option Ty} (hf : ∀ cs a, f cs a = .error .refused) (hg : ∀ v, g v = none) : ReadsTo dec f g τ := by
  intro pre cs post v _
  exact ⟨fun w h => (by rw [hg] at h; cases h), fun _ => hf _ _⟩

theorem reads_focus {dec dec' : List Cell → Option Val} {td td' : List Cell → Prop} {off : Nat} {sel : Val → Option Val}
    {upd : Val → Val → Val} (h : Focus dec td off dec' td' sel upd)
    {F : List Cell → Nat → M (Ty × List Cell)} {G G' : Val → Option Val} {τ : Option Ty} (hF : ReadsTo dec' F G τ)
    (hg : ∀ cs v, dec cs = some v → G' v = (sel v).bind G) : ReadsTo dec (fun cs a => F cs (a + off)) G' τ := by
  intro pre cs post v hv
  rw [hg _ _ hv]
  obtain ⟨x, y, z, u, rfl, hx, hy, hs, _⟩ := h _ _ hv
  rw [hs]
  have := hF (pre ++ x) y (z ++ post) u hy
  rw [List.length_append, hx, show pre ++ x ++ y ++ (z ++ post) = pre ++ (x ++ y ++ z) ++ post by simp] at this
  exact this

theorem reads_coll {im : Bool} {c : Ty} {s b i : Nat} {dec : List Cell → Option Val}
    {F : List Cell → Nat → M (Ty × List Cell)} {G G' : Val → Option Val} {τ : Option Ty} (hF : ReadsTo dec F G τ)
    (hg : ∀ vs, G' (.coll vs) = (vs[i]?).bind G) :
    ReadsTo (decColl im c s b dec) (fun cs a => (peekColl im cs a).bind fun o =>
      if o.content = c then if i < o.size then F o.block (i * s) else .error .refused else .error .outside) G' τ := by
  intro pre cs post v hv
  obtain ⟨size, cap, blk, vs, rfl, h1, h2, h3, h4, rfl⟩ := decColl_iff.mp hv
  have hp := peekColl_at im c size cap blk pre post
  have hvl := decN_length h4
  simp only []
  rw [hp, hg]
  simp only [Except.bind, if_true]
  by_cases hi : i < size
  · rw [if_pos hi]
    obtain ⟨x, y, z, u, e1, e2, e3, e4, e5⟩ := decN_slot h3 h4 (i := i) (by omega)
    rw [List.getElem?_take_of_lt hi, e5]
    have := hF x y z u e4
    rw [← e1, e2] at this
    exact this
  · rw [if_neg hi]
    have : (vs.take size)[i]? = none := by simp; omega
    rw [this]
    exact ⟨fun w h => (by cases h), fun _ => rfl⟩

/-- Reading through a path. -/
theorem locate_reads : (p : List Step) → (T : Ty) → T.WF →
    ReadsTo (decode T) (locate p T) (valAt p T) (typeAt p T)
  | [], T, hw => by
    intro pre cs post v hv
    refine ⟨fun w h => ?_, fun h => by cases h⟩
    cases h
    have hl := decode_length _ _ _ hv
    refine ⟨T.rget, cs, rfl, ?_, by rw [decode_rget]; exact hv⟩
    rw [locate, peek_at pre cs post _ hl]; rfl
  | s :: p, T, hw => by
    rw [← decode_rget]
    have hw := WF_rget T hw
    have hna := Ty.rget_not_alias T
    cases hS : T.rget with
    | «alias» n t => rw [hS] at hna; cases hna
    | prim k =>
      refine reads_refuse ?_ ?_
      · intro a m; cases s <;> simp [locate, hS]
      · intro v; rw [valAt_child hS rfl]; cases s <;> simp [child]
    | enum n w vs =>
      refine reads_refuse ?_ ?_
      · intro a m; cases s <;> simp [locate, hS]
      · intro v; rw [valAt_child hS rfl]; cases s <;> simp [child]
    | str k b =>
      cases s with
      | index i =>
        have ih := locate_reads p (.prim (charOf k)) (by rw [Ty.WF]; trivial)
        intro pre cs post v hv
        rw [decode] at hv
        obtain ⟨us, h, rfl, hb, rfl⟩ := decStr_iff.mp hv
        have he : locate (.index i :: p) T (pre ++ objCells (.str k us h) strSize ++ post) pre.length =
            match us[i]? with
            | some u => locate p (.prim (charOf k)) (rawCells (leBytes (charOf k).size u)) 0
            | none => .error .refused := by
          simp only [locate, hS]
          rw [peekStr_at]
          rfl
        rw [he, typeAt_child hS rfl, valAt_child hS rfl]
        simp only [child, Option.bind_some, elem]
        cases hu : us[i]? with
        | none => exact ⟨fun w h => (by cases h), fun _ => rfl⟩
        | some u =>
          have := ih [] (rawCells (leBytes (charOf k).size u)) [] (.bytes (leBytes (charOf k).size u)) (by
            rw [decode]; exact decBytes_iff.mpr ⟨_, rfl, leBytes_length _ _, rfl⟩)
          simp only [List.length_nil, List.nil_append, List.append_nil] at this
          exact this
      | member n =>
        refine reads_refuse ?_ ?_
        · intro a m; simp [locate, hS]
        · intro v; rw [valAt_child hS rfl]; simp [child]
      | key i =>
        refine reads_refuse ?_ ?_
        · intro a m; simp [locate, hS]
        · intro v; rw [valAt_child hS rfl]; simp [child]
    | seq c b =>
      rw [hS, Ty.WF] at hw
      cases s with
      | index i =>
        have he : locate (.index i :: p) T = fun cs a => (peekColl false cs a).bind fun o =>
            if o.content = c then if i < o.size then locate p c o.block (i * c.memSize) else .error .refused
            else .error .outside := by
          funext cs a; simp only [locate, hS]
        rw [he, show decode (.seq c b) = decColl false c c.memSize b (decode c) from by funext cs; rw [decode],
          typeAt_child hS rfl]
        refine reads_coll (locate_reads p c hw) ?_
        intro vs
        rw [valAt_child hS rfl]; simp [child, elem]
      | member n =>
        refine reads_refuse ?_ ?_
        · intro a m; simp [locate, hS]
        · intro v; rw [valAt_child hS rfl]; simp [child]
      | key i =>
        refine reads_refuse ?_ ?_
        · intro a m; simp [locate, hS]
        · intro v; rw [valAt_child hS rfl]; simp [child]
    | arr n c d =>
      rw [hS, Ty.WF] at hw
      cases s with
      | index i =>
        by_cases hi : i < d
        · have he : locate (.index i :: p) T = fun cs a => locate p c cs (a + i * c.memSize) := by
            funext cs a; simp only [locate, hS, if_pos hi]
          rw [he, typeAt_child hS rfl]
          simp only [child, if_pos hi, Option.bind_some]
          refine reads_focus (focus_array hi) (locate_reads p c hw) ?_
          intro cs v hv
          obtain ⟨vs, rfl, _⟩ := (decode_list hv).2 n c d rfl
          rw [valAt_child hS rfl]
          simp only [child, if_pos hi, Option.bind_some, elem]
        · refine reads_refuse ?_ ?_
          · intro a m; simp [locate, hS, hi]
          · intro v; rw [valAt_child hS rfl]; simp [child, hi]
      | member n =>
        refine reads_refuse ?_ ?_
        · intro a m; simp [locate, hS]
        · intro v; rw [valAt_child hS rfl]; simp [child]
      | key i =>
        refine reads_refuse ?_ ?_
        · intro a m; simp [locate, hS]
        · intro v; rw [valAt_child hS rfl]; simp [child]
    | map k v b =>
      rw [hS, Ty.WF] at hw
      cases s with
      | key i =>
        have he : locate (.key i :: p) T = fun cs a => (peekColl true cs a).bind fun o =>
            if o.content = .pair k v then
              if i < o.size then (fun cs a => locate p v cs (a + k.memSize)) o.block (i * (k.memSize + v.memSize))
              else .error .refused
            else .error .outside := by
          funext cs a; simp only [locate, hS]
        rw [he, show decode (.map k v b) = decColl true (.pair k v) (k.memSize + v.memSize) b
          (decPair (decode k) (decode v) k.memSize) from by funext cs; rw [decode], typeAt_child hS rfl]
        refine reads_coll (F := fun cs a => locate p v cs (a + k.memSize)) (i := i) (s := k.memSize + v.memSize)
          (G := fun w => (match w with | .list [_, w] => some w | _ => none).bind (valAt p v)) ?_ ?_
        · exact reads_focus (focus_snd (t1 := tidy k) (t2 := tidy v) (decode_length k)) (locate_reads p v hw.2)
            (fun _ _ _ => rfl)
        · intro vs
          rw [valAt_child hS rfl]
          simp only [child, Option.bind_some, elem]
          cases vs[i]? with
          | none => rfl
          | some w => simp only [Option.bind_some]; split <;> simp_all
      | member n =>
        refine reads_refuse ?_ ?_
        · intro a m; simp [locate, hS]
        · intro v; rw [valAt_child hS rfl]; simp [child]
      | index i =>
        refine reads_refuse ?_ ?_
        · intro a m; simp [locate, hS]
        · intro v; rw [valAt_child hS rfl]; simp [child]
    | pair x y =>
      rw [hS, Ty.WF] at hw
      have hd : decode (.pair x y) = decPair (decode x) (decode y) x.memSize := by funext cs; rw [decode]
      cases s with
      | index i =>
        rcases i with _ | _ | i
        · have he : locate (.index 0 :: p) T = fun cs a => locate p x cs (a + 0) := by
            funext cs a; simp only [locate, hS, Nat.add_zero]
          rw [he, typeAt_child hS rfl, hd]
          refine reads_focus (focus_fst (t1 := tidy x) (t2 := tidy y) (decode_length x)) (locate_reads p x hw.1) ?_
          intro cs v hv
          obtain ⟨u, w, rfl, _, _⟩ := decPair_iff.mp hv
          rw [valAt_child hS rfl]; rfl
        · have he : locate (.index 1 :: p) T = fun cs a => locate p y cs (a + x.memSize) := by
            funext cs a; simp only [locate, hS]
          show ReadsTo _ (locate (.index 1 :: p) T) (valAt (.index 1 :: p) T) (typeAt (.index 1 :: p) T)
          rw [he, typeAt_child hS rfl, hd]
          refine reads_focus (focus_snd (t1 := tidy x) (t2 := tidy y) (decode_length x)) (locate_reads p y hw.2) ?_
          intro cs v hv
          obtain ⟨u, w, rfl, _, _⟩ := decPair_iff.mp hv
          rw [valAt_child hS rfl]; rfl
        · refine reads_refuse ?_ ?_
          · intro a m; simp [locate, hS]
          · intro v; rw [valAt_child hS rfl]; simp [child]
      | member n =>
        refine reads_refuse ?_ ?_
        · intro a m; simp [locate, hS]
        · intro v; rw [valAt_child hS rfl]; simp [child]
      | key i =>
        refine reads_refuse ?_ ?_
        · intro a m; simp [locate, hS]
        · intro v; rw [valAt_child hS rfl]; simp [child]
    | struct n ms =>
      rw [hS, Ty.WF] at hw
      have go : ∀ (i off : Nat) (t : Ty), Mems.locateAt ms i = some (off, t) →
          locate (s :: p) T = (fun cs a => locate p t cs (a + off)) → child (.struct n ms) s = some (i, t) →
          ReadsTo (decode (.struct n ms)) (locate (s :: p) T) (valAt (s :: p) T) (typeAt (s :: p) T) := by
        intro i off t hl he hc
        rw [he, typeAt_child hS rfl, hc]
        refine reads_focus (focus_struct hl) (locate_reads p t (locateAt_WF hw hl)) ?_
        intro cs v hv
        obtain ⟨vs, rfl⟩ := (decode_list hv).1 rfl
        rw [valAt_child hS rfl, hc]
        rfl
      cases s with
      | member nm =>
        cases hp : Mems.posOf ms nm with
        | none =>
          refine reads_refuse ?_ ?_
          · intro cs a; simp only [locate, hS]; rw [locate_posOf, hp]; rfl
          · intro v; rw [valAt_child hS rfl]; simp [child, hp]
        | some q =>
          obtain ⟨off, hl⟩ := posOf_tyAt ms nm q.1 q.2 (by rw [hp])
          refine go q.1 off q.2 hl ?_ hp
          funext cs a; simp only [locate, hS]; rw [locate_posOf, hp]; simp only [Option.bind_some, hl]
      | index i =>
        cases hl : Mems.locateAt ms i with
        | none =>
          refine reads_refuse ?_ ?_
          · intro cs a; simp only [locate, hS, hl]
          · intro v; rw [valAt_child hS rfl]; simp [child, locateAt_tyAt, hl]
        | some q =>
          refine go i q.1 q.2 hl ?_ ?_
          · funext cs a; simp only [locate, hS, hl]
          · simp [child, locateAt_tyAt, hl]
      | key i =>
        refine reads_refuse ?_ ?_
        · intro a m; simp [locate, hS]
        · intro v; rw [valAt_child hS rfl]; simp [child]
    | union n d ms i =>
      rw [hS, Ty.WF] at hw
      cases s with
      | member nm =>
        cases hf : ms.find? nm with
        | none =>
          refine reads_refuse ?_ ?_
          · intro cs a; simp only [locate, hS, hf]
          · intro v; simp only [valAt, hS, hf]; cases v <;> simp
        | some t =>
          intro pre cs post v hv
          obtain ⟨bs, rest, hb, hr, rfl, hcase⟩ := decode_union_inv hw.1 hv
          have hread : readLabel d (pre ++ (rawCells bs ++ rest) ++ post) pre.length = .ok (labelOf d.memSize bs) := by
            have := readLabel_at hw.1 pre (rest ++ post) bs hb
            simpa using this
          simp only [locate, valAt, typeAt, hS, hf]
          rw [hread]
          simp only [Except.bind]
          rcases hcase with ⟨hc, rfl⟩ | ⟨x, t', w', hc, hf', hd', rfl⟩
          · rw [if_neg (by rw [show omGet i.labels (labelOf d.memSize bs) = none from hc]; simp)]
            exact ⟨fun w h => (by cases h), fun _ => rfl⟩
          · rw [show omGet i.labels (labelOf d.memSize bs) = some x from hc]
            by_cases hx : x = nm
            · subst hx
              rw [hf] at hf'; cases hf'
              simp only [if_true, Option.bind_some]
              have ih := locate_reads p t (find_WF hw.2.2 hf) (pre ++ rawCells bs) (rest.take t.memSize)
                (rest.drop t.memSize ++ post) w' hd'
              rw [List.length_append, rawCells_length, hb,
                show pre ++ rawCells bs ++ rest.take t.memSize ++ (rest.drop t.memSize ++ post) =
                  pre ++ (rawCells bs ++ rest) ++ post by
                    rw [← split_at (pre ++ rawCells bs) rest post]; simp] at ih
              exact ih
            · rw [if_neg (by simpa using hx)]
              simp only [if_neg hx]
              exact ⟨fun w h => (by cases h), by first | exact fun _ => rfl | exact fun _ => trivial⟩
      | index j =>
        refine reads_refuse ?_ ?_
        · intro a m; simp [locate, hS]
        · intro v; simp [valAt, hS, child]
      | key j =>
        refine reads_refuse ?_ ?_
        · intro a m; simp [locate, hS]
        · intro v; simp [valAt, hS, child]

end Verif.Inst
