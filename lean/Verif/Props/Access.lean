import Verif.Lemmas.RefDef
import Verif.Props.Data
/-!
# Access paths and unions (C18, C31, C33, C34)

`d.Reads q u`: reading the part of the datum `d` at the end of the path `q` succeeds and gives the value `u`.
`d.write p op`: do `op` at the end of the path `p`.
-/

namespace Verif.Inst

/-- Reading depends only on the value. -/
theorem reads_iff {d : Data} {v : Val} (h : d.ty.WF) (hv : d.Holds v) (q : List Step) :
    (∀ u, d.Reads q u ↔ valAt q d.ty v = some u) ∧ (valAt q d.ty v = none ↔ d.read q = .error .refused) := by
  have hl := locate_reads q d.ty h [] d.cells [] v hv.2
  simp only [List.nil_append, List.append_nil, List.length_nil] at hl
  constructor
  · intro u
    constructor
    · rintro ⟨t, cs, hr, hd⟩
      cases hval : valAt q d.ty v with
      | none => rw [Data.read, hl.2 hval] at hr; cases hr
      | some z =>
        obtain ⟨t1, x1, -, e1, e2⟩ := hl.1 z hval
        rw [Data.read, e1] at hr; cases hr
        rw [hd] at e2; exact e2.symm ▸ rfl
    · intro hu
      obtain ⟨t1, x1, -, e1, e2⟩ := hl.1 u hu
      exact ⟨t1, x1, e1, e2⟩
  · constructor
    · exact hl.2
    · intro hr
      cases hval : valAt q d.ty v with
      | none => rfl
      | some z =>
        obtain ⟨t1, x1, -, e1, _⟩ := hl.1 z hval
        rw [Data.read, e1] at hr; cases hr

/-! ## C18 -/

/-- C18, partial: if the part at the end of `p` can be read, an operation on it gives exactly the value the operation
should give there (`op.spec`), and every part on a diverging path reads as before. Missing: types with unions that are
not well-formed (`C18_fails_narrow_enum`), operations on contents excluded by `RefOp.Ok`. -/
theorem C18_write_read_partial {d : Data} {v u u' : Val} {p : List Step} {t : Ty} {op : RefOp} (h : d.ty.WF)
    (hv : d.Holds v) (hu : d.Reads p u) (ht : typeAt p d.ty = some t) (ho : op.Ok t) (hs : op.spec t u = .ok u') :
    ∃ d' lk, d.write p op = .ok (d', lk) ∧ d'.ty = d.ty ∧ (∃ v', d'.Holds v') ∧ d'.Reads p u' ∧
      ∀ q, Apart p q d.ty → ∀ x, d.Reads q x → d'.Reads q x := by
  have hval := ((reads_iff h hv p).1 u).mp hu
  obtain ⟨v', he⟩ := editAt_defined (ro := false) (g := op.spec) p d.ty h d.cells v u u' t hv.2 hval ht hs
  obtain ⟨d', lk, hw, hty, hh, _⟩ := (write_ok (p := p) (op := op) h
    (fun t' ht' => by rw [ht] at ht'; cases ht'; exact ho) hv).2 v' he
  have h' : d'.ty.WF := hty ▸ h
  refine ⟨d', lk, hw, hty, ⟨v', hh⟩, ?_, ?_⟩
  · obtain ⟨t1, u1, w1, e1, e2, e3, e4⟩ := valAt_editAt (spec_keeps ho) p d.ty v v' he
    rw [ht] at e1; cases e1
    have := e2 u hval; subst this
    rw [hs] at e3; cases e3
    exact ((reads_iff h' hh p).1 u').mpr (hty ▸ e4)
  · intro q hq x hx
    have hx' := ((reads_iff h hv q).1 x).mp hx
    exact ((reads_iff h' hh q).1 x).mpr (hty ▸ valAt_editAt_apart p q d.ty v v' x hq he hx')

/-- C18, partial: in particular for assigning a number of the right kind to a primitive at the end of any path. -/
theorem C18_write_number_partial {d : Data} {v u : Val} {p : List Step} {k : PK} {bs : List Byte} (h : d.ty.WF)
    (hv : d.Holds v) (hu : d.Reads p u) (ht : typeAt p d.ty = some (.prim k)) (hb : bs.length = k.size) :
    ∃ d' lk, d.write p (.value (.num k bs)) = .ok (d', lk) ∧ d'.Reads p (.bytes bs) ∧
      ∀ q, Apart p q d.ty → ∀ x, d.Reads q x → d'.Reads q x := by
  obtain ⟨d', lk, h1, _, _, h2, h3⟩ := C18_write_read_partial (op := .value (.num k bs)) (u' := .bytes bs) h hv hu ht hb
    (by simp [RefOp.spec, Host.fits])
  exact ⟨d', lk, h1, h2, h3⟩

/-- C18, partial: and for assigning a string: what fits into the bound is stored. -/
theorem C18_write_string_partial {d : Data} {v u : Val} {p : List Step} {k : SK} {b : Nat} {us : List Nat} (h : d.ty.WF)
    (hv : d.Holds v) (hu : d.Reads p u) (ht : typeAt p d.ty = some (.str k b)) :
    ∃ d' lk, d.write p (.value (.str k us)) = .ok (d', lk) ∧ d'.Reads p (.str (clip b us)) ∧
      ∀ q, Apart p q d.ty → ∀ x, d.Reads q x → d'.Reads q x := by
  obtain ⟨d', lk, h1, _, _, h2, h3⟩ := C18_write_read_partial (op := .value (.str k us)) (u' := .str (clip b us)) h hv hu ht
    (by simp [RefOp.Ok, Host.WF]) (by simp [RefOp.spec, Host.fits])
  exact ⟨d', lk, h1, h2, h3⟩

/-- C18, partial: and for assigning a character of a string, `s[i] = c`: that character is replaced, nothing else. -/
theorem C18_write_char_partial {d : Data} {v : Val} {p : List Step} {k : SK} {b i : Nat} {us : List Nat} {bs : List Byte}
    (h : d.ty.WF) (hv : d.Holds v) (hu : d.Reads p (.str us)) (ht : typeAt p d.ty = some (.str k b)) (hi : i < us.length)
    (hb : bs.length = (charOf k).size) :
    ∃ d' lk, d.write (p ++ [.index i]) (.value (.num (charOf k) bs)) = .ok (d', lk) ∧
      d'.Reads p (.str (us.set i (leNat bs))) ∧ ∀ q, Apart p q d.ty → ∀ x, d.Reads q x → d'.Reads q x := by
  have hval := ((reads_iff h hv p).1 _).mp hu
  have hg : editAt false (RefOp.spec (.value (.num (charOf k) bs))) [.index i] (.str k b) (.str us) =
      .ok (.str (us.set i (leNat bs))) := by
    rw [editAt_child rfl rfl]
    simp [child, Ty.rget, elem, hi, editAt, RefOp.spec, Host.fits, Out.map, putElem]
  obtain ⟨v', he⟩ := editAt_defined (ro := false) (g := editAt false (RefOp.spec (.value (.num (charOf k) bs))) [.index i])
    p d.ty h d.cells v (.str us) _ _ hv.2 hval ht hg
  have hk : KeepsNum (editAt false (RefOp.spec (.value (.num (charOf k) bs))) [.index i]) := by
    intro k' bs' w _ hw
    rw [editAt_child rfl rfl] at hw
    simp [child, Ty.rget] at hw
  obtain ⟨d', lk, hw, hty, hh, _⟩ := (write_ok (p := p ++ [.index i]) (op := .value (.num (charOf k) bs)) h
    (fun t' _ => hb) hv).2 v' (by rw [editAt_append]; exact he)
  have h' : d'.ty.WF := hty ▸ h
  refine ⟨d', lk, hw, ?_, ?_⟩
  · obtain ⟨t1, u1, w1, e1, e2, e3, e4⟩ := valAt_editAt hk p d.ty v v' he
    rw [ht] at e1; cases e1
    have := e2 _ hval; subst this
    rw [hg] at e3; cases e3
    exact ((reads_iff h' hh p).1 _).mpr (hty ▸ e4)
  · intro q hq x hx
    have hx' := ((reads_iff h hv q).1 x).mp hx
    exact ((reads_iff h' hh q).1 x).mpr (hty ▸ valAt_editAt_apart p q d.ty v v' x hq he hx')

set_option maxRecDepth 4096 in
/-- C18: `s = "abc"; s[1] = 'x'` gives `"axc"`. -/
example : ∃ w d, World.empty.run [.create 0 (.str .s8 0), .write 0 [] (.value (.str .s8 [97, 98, 99])),
      .write 0 [.index 1] (.value (.num .c8 [120]))] = .ok w ∧ w.vars 0 = some d ∧
    d.ty.WF ∧ d.Reads [] (.str [97, 120, 99]) ∧ d.Reads [.index 2] (.bytes [99]) ∧ typeAt [] d.ty = some (.str .s8 0) :=
  ⟨_, _, rfl, rfl, trivial, ⟨_, _, rfl, rfl⟩, ⟨_, _, rfl, rfl⟩, rfl⟩

/-- C18: diverging paths exist at any depth: `s["q"][0]` and `s["q"][1]`, `s["q"]` and `s["s"]`. -/
example : Apart [.member "q", .index 0] [.member "q", .index 1] exS ∧ Apart [.member "q"] [.member "s"] exS :=
  ⟨⟨1, _, 1, _, rfl, rfl, .inr ⟨0, _, 1, _, rfl, rfl, .inl (by decide)⟩⟩, ⟨1, _, 0, _, rfl, rfl, .inl (by decide)⟩⟩

set_option maxRecDepth 4096 in
/-- C18: a datum, paths and values as in the theorem. -/
example : ∃ w d u, World.empty.run [.create 0 exS, .write 0 [.member "q"] (.resize 2)] = .ok w ∧ w.vars 0 = some d ∧
    d.ty.WF ∧ d.Reads [.member "q", .index 0] u ∧ typeAt [.member "q", .index 0] d.ty = some (.str .s8 0) :=
  ⟨_, _, .str [], rfl, rfl, exS_ok.1, ⟨_, _, rfl, rfl⟩, rfl⟩

/-- C18 fails for a union whose discriminator is an enumeration of 8 bits: the label is written as 32 bits, over the
first bytes of the member. The value just written is lost by the next access (even a read-only one, which also writes
the label). -/
theorem C18_fails_narrow_enum :
    ∃ (T : Ty) (d d1 d2 : Data) (l0 l1 l2 : Nat), Data.create T = .ok (d, l0) ∧
      d.write [.member "a"] (.value (.num .u32 [1, 2, 3, 4])) = .ok (d1, l1) ∧ d1.Reads [.member "a"] (.bytes [1, 2, 3, 4]) ∧
      d1.write [.member "a"] .touch = .ok (d2, l2) ∧ d2.Reads [.member "a"] (.bytes [0, 0, 0, 4]) := by
  refine ⟨.union "U" (.enum "E" .w1 [("A", 0)]) (.cons "a" (.prim .u32) .nil) ⟨[(0, "a")], 127, 126, 126⟩, _, _, _, _, _, _,
    rfl, rfl, ⟨_, _, rfl, rfl⟩, rfl, ⟨_, _, rfl, rfl⟩⟩

/-! ## C31 -/

/-- The current label of a union datum, `d()` (UnionType.hpp 748-835). -/
def Data.label (d : Data) : M Int :=
  match d.ty with
  | .union _ t _ _ => readLabel t d.cells 0
  | _ => .error .refused

/-- C31, partial: in every state a program of allowed statements reaches, a union datum has a label; the member it
names (if any) is alive and can be read, and reading any other member is refused. Missing: what `Allowed` excludes:
setting the discriminator of a union without selected member (`C31_fails_disc_first`), unions that are not
well-formed. -/
theorem C31_one_live_member_partial {w : World} {x : Nat} {d : Data} {n : String} {t : Ty} {ms : Mems} {i : UInfo}
    (h : Reach w) (hx : w.vars x = some d) (hi : d.init = true) (ht : d.ty = .union n t ms i) :
    ∃ l, d.label = .ok l ∧
      (∀ m, UInfo.case i l = some m → ∃ u, d.Reads [.member m] u) ∧
      (∀ m, UInfo.case i l ≠ some m → d.read [.member m] = .error .refused) := by
  obtain ⟨hw, _, _, hh, _⟩ := (reach_ok h).2 x d hx
  obtain ⟨⟨v, hv⟩, _⟩ := hh hi
  have hwu := hw
  rw [ht, Ty.WF] at hwu
  have hv2 := hv.2
  rw [ht] at hv2
  obtain ⟨bs, rest, hb, hr, hcs, hcase⟩ := decode_union_inv hwu.1 hv2
  have hread : readLabel t d.cells 0 = .ok (labelOf t.memSize bs) := by
    have := readLabel_at hwu.1 [] rest bs hb
    rw [hcs]; simpa using this
  refine ⟨labelOf t.memSize bs, by simp only [Data.label, ht, hread], ?_, ?_⟩
  · intro m hm
    rcases hcase with ⟨hc, _⟩ | ⟨y, ty, u, hc, hf, _, rfl⟩
    · rw [hc] at hm; cases hm
    · rw [hc] at hm; cases hm
      refine ⟨u, ((reads_iff hw hv _).1 u).mpr ?_⟩
      simp [valAt, ht, Ty.rget, hf]
  · intro m hm
    refine (reads_iff hw hv _).2.mp ?_
    rcases hcase with ⟨hc, rfl⟩ | ⟨y, ty, u, hc, hf, _, rfl⟩
    · simp [valAt, ht, Ty.rget]
    · have : ¬ y = m := by rintro rfl; exact hm hc
      simp [valAt, ht, Ty.rget, this]

/-- C31 fails: `d(label)` on a union without selected member sets the label but constructs nothing; the member it names
is then used as if it were alive. -/
theorem C31_fails_disc_first :
    ∃ T : Ty, T.WF ∧ ∃ w, World.empty.run [.create 0 T, .write 0 [] (.disc 1)] = .ok w ∧
      w.exec (.write 0 [.member "s"] (.value (.str .s8 [65]))) = .error .ub ∧
      w.exec (.dispose 0) = .error .ub := by
  refine ⟨.union "U" (.prim .u8) (.cons "s" (.str .s8 0) .nil) ⟨[(1, "s")], 127, 126, 126⟩, ?_, _, rfl, rfl, rfl⟩
  simp only [Ty.WF, Mems.WF, and_true]
  refine ⟨by simp [discOk, Ty.rget, PK.isFloat], ⟨by decide, ?_, by decide, by decide, by decide⟩⟩
  intro l n h
  have : l = 1 ∧ n = "s" := by
    simp only [UInfo.case, omGet, List.find?] at h
    split at h
    · rename_i hl; simp at hl h; exact ⟨hl.symm, h.symm⟩
    · cases h
  obtain ⟨rfl, rfl⟩ := this
  exact ⟨by decide, rfl⟩

/-! ## C33 -/

/-- C33, partial: with the member `m` selected, `d(l)` for a label of `m` succeeds, stores the label and keeps the content;
a label of another member is refused, and so is, when there is a default, a value that is no label. Missing: a value that is no label of a
union without default is not refused but ignored (second part of the conclusion), and negative values are never
recognised for discriminators of less than 64 bits (`C33_fails_negative_label`). -/
theorem C33_discriminator_partial {d : Data} {db w : Val} {m n : String} {t : Ty} {ms : Mems} {i : UInfo} {l : Int}
    (h : d.ty.WF) (ht : d.ty = .union n t ms i) (hv : d.Holds (.un db m w)) :
    (UInfo.case i l = some m → ∃ d' lk, d.write [] (.disc l) = .ok (d', lk) ∧ d'.Holds (.un (discBytes t.memSize l) m w) ∧
      d'.label = .ok l ∧ ∀ p u, d.Reads (.member m :: p) u → d'.Reads (.member m :: p) u) ∧
    (UInfo.case i l = none → i.default = i.invalidValue → ∃ d' lk, d.write [] (.disc l) = .ok (d', lk) ∧
      d'.Holds (.un db m w)) ∧
    (UInfo.case i l ≠ some m → (UInfo.case i l ≠ none ∨ i.default ≠ i.invalidValue) →
      d.write [] (.disc l) = .error .refused) := by
  have hwr := write_ok (p := []) (op := .disc l) h (fun _ _ => by simp [RefOp.Ok]) hv
  have hspec : editAt false (RefOp.disc l).spec [] d.ty (.un db m w) = discSpec t i l (.un db m w) := by
    simp only [editAt, ht, Ty.rget, RefOp.spec]
  rw [hspec] at hwr
  have hwu := h
  rw [ht, Ty.WF] at hwu
  refine ⟨?_, ?_, ?_⟩
  · intro hc
    obtain ⟨d', lk, h1, h2, h3, _⟩ := hwr.2 (.un (discBytes t.memSize l) m w) (by simp only [discSpec]; exact if_pos hc)
    refine ⟨d', lk, h1, h3, ?_, ?_⟩
    · have h4 := h3.2
      rw [h2, ht] at h4
      obtain ⟨bs, rest, hb, hr, hcs, hcase⟩ := decode_union_inv hwu.1 h4
      have hread : readLabel t d'.cells 0 = .ok (labelOf t.memSize bs) := by
        have := readLabel_at hwu.1 [] rest bs hb
        rw [hcs]; simpa using this
      have hbs : bs = leBytes t.memSize (l % 2 ^ (8 * t.memSize)).toNat := by
        rcases hcase with ⟨_, he⟩ | ⟨_, _, _, _, _, _, he⟩
        · cases he
        · simp only [discBytes, Val.un.injEq, Val.bytes.injEq] at he; exact he.1.symm
      have := labelOf_bytes (discOk_size hwu.1) (hwu.2.1.label l m hc).1
      rw [← hbs] at this
      simp only [Data.label, h2, ht, hread, this]
    · intro p u hu
      have hu' := ((reads_iff h hv _).1 u).mp hu
      refine ((reads_iff (h2 ▸ h) h3 _).1 u).mpr ?_
      rw [h2]
      simpa [valAt, ht, Ty.rget] using hu'
  · intro hc hd
    obtain ⟨d', lk, h1, h2, h3, _⟩ := hwr.2 (.un db m w)
      (by simp only [discSpec]; exact (if_neg (by rw [hc]; simp)).trans (if_pos ⟨hc, hd⟩))
    exact ⟨d', lk, h1, h3⟩
  · intro hc hd
    refine hwr.1 ?_
    simp only [discSpec]
    refine (if_neg hc).trans (if_neg ?_)
    rintro ⟨h1, h2⟩
    rcases hd with hd | hd
    · exact hd h1
    · exact hd h2

/-- C33, non-vacuity: the union `exU` with its string selected; 2147483647 is a label of it, 1 is one of the sequence. -/
example : ∃ d v, Data.create exU.toTy = .ok (d, 0) ∧ d.ty.WF ∧ d.Holds (.un v "s" (.str [])) ∧
    d.write [] (.disc 1) = .error .refused ∧ ∃ d' lk, d.write [] (.disc 2147483647) = .ok (d', lk) :=
  ⟨_, _, rfl, exU_wf, ⟨rfl, rfl⟩, rfl, _, _, rfl⟩

/-- C33 fails for negative labels: a case added with the label -1 is selected, the discriminator reads 4294967295, and
`d(-1)` is silently ignored instead of being accepted (the stored label would be the same, but so is `d(-1)` while
another case is selected: nothing is refused). -/
theorem C33_fails_negative_label :
    ∃ u u0 : UnionB, u0.Built ∧ ((u0.addCase [-1] "a" (.prim .u8) false).1.addCase [1] "b" (.prim .u8) false) = (u, true) ∧
      ∃ w d, World.empty.run [.create 0 u.toTy, .write 0 [.member "b"] .touch, .write 0 [] (.disc (-1))] = .ok w ∧
        w.vars 0 = some d ∧ d.label = .ok 1 := by
  obtain ⟨u0, hu0⟩ : ∃ u0, UnionB.new "U" (.prim .i32) = some u0 := ⟨_, rfl⟩
  cases hu0
  exact ⟨_, _, .new "U" (.prim .i32) rfl, rfl, _, _, rfl, rfl, rfl⟩

/-! ## C34 -/

/-- C34, partial: naming a member that has a label selects it: afterwards the discriminator is its first label, the
member can be read, it has its old content if it was selected before and the default value otherwise; any member
selected before has been destroyed (nothing is lost). Missing: members without a label (`C34_fails_no_label`), unions
that are not well-formed. -/
theorem C34_select_member_partial {d : Data} {v : Val} {m n : String} {t c : Ty} {ms : Mems} {i : UInfo} {l : Int}
    (h : d.ty.WF) (ht : d.ty = .union n t ms i) (hv : d.Holds v) (hc : ms.find? m = some c)
    (hl : firstLabel i m = some l) :
    ∃ d' lk, d.write [.member m] .touch = .ok (d', lk) ∧ d'.ty = d.ty ∧ d'.label = .ok l ∧ UInfo.case i l = some m ∧
      (∀ db u, v = .un db m u → d'.Reads [.member m] u) ∧
      ((∀ db u, v ≠ .un db m u) → d'.Reads [.member m] (defVal c)) ∧
      (∀ m', m' ≠ m → d'.read [.member m'] = .error .refused) ∧
      (d.ty.Tight → d.Tidy → lk = 0 ∧ d'.Tidy) := by
  have hwr := write_ok (p := [.member m]) (op := .touch) h (fun _ _ => by simp [RefOp.Ok]) hv
  have hwu := h
  rw [ht, Ty.WF] at hwu
  have hlc := firstLabel_case hwu.2.1 hl
  have hspec : editAt false RefOp.touch.spec [.member m] d.ty v = .ok (.un (discBytes t.memSize l) m (caseVal c m v)) := by
    simp only [editAt, ht, Ty.rget, hc, hl, Bool.false_and, Bool.false_eq_true, if_false, RefOp.spec, Out.map]
  obtain ⟨d', lk, h1, h2, h3, h4⟩ := hwr.2 _ hspec
  have h' : d'.ty.WF := h2 ▸ h
  have hrd : ∀ u, d'.Reads [.member m] u ↔ caseVal c m v = u := by
    intro u
    rw [(reads_iff h' h3 _).1 u, h2, ht]
    simp [valAt, Ty.rget, hc]
  refine ⟨d', lk, h1, h2, ?_, hlc, ?_, ?_, ?_, h4⟩
  · have h5 := h3.2
    rw [h2, ht] at h5
    obtain ⟨bs, rest, hb, hr, hcs, hcase⟩ := decode_union_inv hwu.1 h5
    have hread : readLabel t d'.cells 0 = .ok (labelOf t.memSize bs) := by
      have := readLabel_at hwu.1 [] rest bs hb
      rw [hcs]; simpa using this
    have hbs : bs = leBytes t.memSize (l % 2 ^ (8 * t.memSize)).toNat := by
      rcases hcase with ⟨_, he⟩ | ⟨_, _, _, _, _, _, he⟩
      · cases he
      · simp only [discBytes, Val.un.injEq, Val.bytes.injEq] at he; exact he.1.symm
    have := labelOf_bytes (discOk_size hwu.1) (hwu.2.1.label l m hlc).1
    rw [← hbs] at this
    simp only [Data.label, h2, ht, hread, this]
  · rintro db u rfl
    exact (hrd u).mpr (by simp [caseVal])
  · intro hne
    refine (hrd _).mpr ?_
    cases v with
    | un db x u =>
      have : ¬ x = m := by rintro rfl; exact hne db u rfl
      simp [caseVal, this]
    | _ => rfl
  · intro m' hm
    refine (reads_iff h' h3 _).2.mp ?_
    rw [h2, ht]
    have : ¬ m = m' := fun e => hm e.symm
    simp [valAt, Ty.rget, this]

/-- C34: every member named by some label has a first label. -/
theorem C34_first_label {i : UInfo} {l : Int} {m : String} (h : UInfo.case i l = some m) : ∃ l', firstLabel i m = some l' :=
  firstLabel_some h

/-- C34, non-vacuity. -/
example : exU.toTy.WF ∧ ∃ n t ms i c l, exU.toTy = .union n t ms i ∧ ms.find? "q" = some c ∧ firstLabel i "q" = some l :=
  ⟨exU_wf, _, _, _, _, _, _, rfl, rfl, rfl⟩

/-- C34 fails for a member without label (left by a refused second default): naming it selects nothing, and what
follows uses memory where nothing was constructed. -/
theorem C34_fails_no_label :
    ∃ u : UnionB, u.Built ∧ "b" ∈ u.caseNames ∧
      ∃ w, World.empty.run [.create 0 u.toTy, .write 0 [.member "b"] .touch] = .ok w ∧
        w.exec (.write 0 [.member "b"] (.value (.str .s8 [65]))) = .error .ub := by
  obtain ⟨u0, hu0⟩ : ∃ u0, UnionB.new "U" (.prim .u8) = some u0 := ⟨_, rfl⟩
  refine ⟨((u0.addCase [1] "a" (.prim .u8) true).1.addCase [] "b" (.str .s8 0) true).1,
    .add _ _ _ _ (.add _ _ _ _ (.new "U" (.prim .u8) hu0)), ?_, ?_⟩
  · cases hu0; decide
  · cases hu0; exact ⟨_, rfl, rfl⟩

end Verif.Inst
