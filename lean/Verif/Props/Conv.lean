import Verif.Props.Access
/-!
# Conversion between compatible types (C26, C27, C28, C29)

`Data.convert T S src` is `DynamicData(other, type)`: a datum of type `T` from a datum of type `S` in the memory
`src`; it is refused when `is_compatible` is `NONE`. `Convertible T S` (`Verif.Spec.Conv`) are the pairs of types the
library gets right, `conv T S v` is the value the result should have.
-/

namespace Verif.Inst

/-! ## C26 -/

/-- C26, partial: for a convertible pair of types the conversion reads and writes only the two blocks and every part of
the new datum is constructed (it holds a value); it loses nothing. Missing: compatible pairs that are not
`Convertible`, see the negative theorems. -/
theorem C26_convert_safe_partial {T S : Ty} {src : List Cell} {v : Val} (h : T.WF) (hc : Convertible T S)
    (hn : compat T.rget S ≠ Cons.none) (hv : decode S src = some v) :
    ∃ d lk, Data.convert T S src = .ok (d, lk) ∧ d.ty = T.rget ∧ (∃ v', d.Holds v') ∧ (T.Tight → lk = 0 ∧ d.Tidy) := by
  obtain ⟨d, lk, h1, h2, h3, h4⟩ := convert_ok h hc hv hn
  exact ⟨d, lk, h1, h2, ⟨_, h3⟩, h4⟩

/-- C26, partial: inside larger blocks the conversion changes only its target, wherever the source is. -/
theorem C26_convert_in_place_partial {T S : Ty} {src : List Cell} {v : Val} (h : T.WF) (hc : Convertible T S)
    (hv : decode S src = some v) (spre spost pre old post : List Cell) (lk : Nat) (ho : old.length = T.memSize) :
    ∃ new lk', copyFrom T S (spre ++ src ++ spost) spre.length pre.length ⟨pre ++ old ++ post, lk⟩ =
        .ok ⟨pre ++ new ++ post, lk'⟩ ∧ new.length = T.memSize ∧ decode T new = some (conv T S v) := by
  obtain ⟨new, d, hr, hl, hd, _⟩ := copyFrom_ok T h S src v hc hv spre spost pre old post lk ho
  exact ⟨new, _, hr, hl, hd⟩

/-- C26: incompatible types are refused. -/
theorem C26_incompatible_refused {T S : Ty} (src : List Cell) (h : compat T.rget S = Cons.none) :
    Data.convert T S src = .error .refused := by rw [Data.convert, if_pos h]

/-- A structure with a 32-bit integer, a string and a sequence. -/
def exA : Ty := .struct "A" (.cons "x" (.prim .i32) (.cons "s" (.str .s8 0) (.cons "q" (.seq (.prim .u16) 0) .nil)))

/-- A structure with a 64-bit integer, a shorter string, a sequence of wider numbers and one more member. -/
def exB : Ty := .struct "B" (.cons "y" (.prim .i64) (.cons "t" (.str .s8 2) (.cons "r" (.seq (.prim .i64) 3)
  (.cons "m" (.map (.prim .u8) (.str .s8 0) 0) .nil))))

/-- C26, non-vacuity. -/
example : exB.WF ∧ Convertible exB exA ∧ compat exB.rget exA ≠ Cons.none ∧ exB.Tight := by
  refine ⟨?_, ?_, ?_, ?_⟩
  · simp [exB, Ty.WF, Mems.WF]
  · simp [exA, exB, Convertible, ConvertibleAll, scalarKind, unwrap, Ty.rget, blockOk, Ty.memSize, PK.size]
  · simp [exA, exB, compat, compatMems, Ty.rget, primFlags, PK.size, PK.unsignedBit, Cons.or, Cons.equals, Cons.none, Cons.width,
      Cons.stringBounds, Cons.seqBounds, Cons.memberNames, Cons.members, Cons.sign]
  · simp [exB, Ty.Tight, Mems.Tight, Ty.Light]

/-- C26 fails: a structure with at least two members more than the source: an iterator is moved past the end. -/
theorem C26_fails_two_more_members :
    ∃ (T S : Ty) (d : Data) (lk : Nat), T.WF ∧ S.WF ∧ compat T.rget S ≠ Cons.none ∧ Data.create S = .ok (d, lk) ∧
      Data.convert T S d.cells = .error .ub := by
  refine ⟨.struct "T" (.cons "a" (.prim .u8) (.cons "b" (.prim .u8) (.cons "c" (.prim .u8) (.cons "e" (.prim .u8) .nil)))),
    .struct "S" (.cons "a" (.prim .u8) (.cons "b" (.prim .u8) .nil)), _, _, by simp [Ty.WF, Mems.WF], by simp [Ty.WF, Mems.WF],
    ?_, rfl, ?_⟩
  · simp [compat, compatMems, Ty.rget, Cons.or, Cons.equals, Cons.none, Cons.members]
  · rw [Data.convert, if_neg (by simp [compat, compatMems, Ty.rget, Cons.or, Cons.equals, Cons.none, Cons.members])]
    rfl

/-- C26 fails: an array that is longer than the source: the elements beyond the common ones are not constructed, the
datum cannot even be destroyed. -/
theorem C26_fails_longer_array :
    ∃ (T S : Ty) (d e : Data) (lk lk' : Nat), T.WF ∧ S.WF ∧ compat T.rget S ≠ Cons.none ∧ Data.create S = .ok (d, lk) ∧
      Data.convert T S d.cells = .ok (e, lk') ∧ (∀ v, ¬ e.Holds v) ∧ e.dispose = .error .ub := by
  have hc : compat (Ty.arr "T" (.str .s8 0) 2).rget (.arr "S" (.str .s8 0) 1) ≠ Cons.none := by
    simp [compat, Ty.rget, Cons.or, Cons.equals, Cons.none, Cons.arrayBounds]
  refine ⟨.arr "T" (.str .s8 0) 2, .arr "S" (.str .s8 0) 1, ⟨.arr "S" (.str .s8 0) 1, objCells (.str .s8 [] false) 32, true⟩,
    ⟨.arr "T" (.str .s8 0) 2, objCells (.str .s8 [] false) 32 ++ List.replicate 32 (.raw 0), true⟩, 0, 0,
    by simp [Ty.WF], by simp [Ty.WF], hc, rfl, ?_, ?_, rfl⟩
  · rw [Data.convert, if_neg hc]; rfl
  · rintro v ⟨_, hv⟩
    exact absurd (show (none : Option Val) = some v from hv) (by simp)

/-- C26 fails: a source enumeration of 8 bits is read as 32 bits, past the end of its block. -/
theorem C26_fails_narrow_enum :
    ∃ (T S : Ty) (d : Data) (lk : Nat), T.WF ∧ S.WF ∧ compat T.rget S ≠ Cons.none ∧ Data.create S = .ok (d, lk) ∧
      Data.convert T S d.cells = .error .ub := by
  have hc : compat (Ty.enum "E" .w1 [("A", 0)]).rget (.enum "E" .w1 [("A", 0)]) ≠ Cons.none := by
    simp [compat, Ty.rget, EW.size, Cons.equals, Cons.none]
  refine ⟨.enum "E" .w1 [("A", 0)], .enum "E" .w1 [("A", 0)], _, _, by simp [Ty.WF], by simp [Ty.WF], hc, rfl, ?_⟩
  rw [Data.convert, if_neg hc]; rfl

/-- C26 fails: a structure member of a union type from one of an alias of that type. -/
theorem C26_fails_alias_of_union :
    ∃ (T S : Ty) (d : Data) (lk : Nat), compat T.rget S = Cons.equals ∧ Data.create S = .ok (d, lk) ∧
      Data.convert T S d.cells = .error .ub := by
  have hc : compat (Ty.struct "T" (.cons "u" exD (.cons "x" (.prim .u8) .nil))).rget
      (.struct "S" (.cons "u" (.alias "A" exD) (.cons "x" (.prim .u8) .nil))) = Cons.equals := by
    simp [exD, compat, compatMems, Ty.rget, Cons.or, Cons.equals, Cons.none]
  refine ⟨.struct "T" (.cons "u" exD (.cons "x" (.prim .u8) .nil)),
    .struct "S" (.cons "u" (.alias "A" exD) (.cons "x" (.prim .u8) .nil)), _, _, hc, rfl, ?_⟩
  rw [Data.convert, if_neg (by rw [hc]; decide)]; rfl

/-! ## C27 -/

/-- C27, partial: the converted datum holds the converted value `conv T S v`. Missing: compatible pairs that are not
`Convertible`. -/
theorem C27_convert_value_partial {T S : Ty} {src : List Cell} {v : Val} (h : T.WF) (hc : Convertible T S)
    (hn : compat T.rget S ≠ Cons.none) (hv : decode S src = some v) :
    ∃ d lk, Data.convert T S src = .ok (d, lk) ∧ d.Holds (conv T S v) := by
  obtain ⟨d, lk, h1, _, h3, _⟩ := convert_ok h hc hv hn
  exact ⟨d, lk, h1, h3⟩

/-- C27: what `conv` keeps: common members of structures by position, prefixes of sequences, arrays and strings, map
entries up to the bound. -/
theorem C27_conv_keeps :
    (∀ n m ms os vs i t u v, conv (.struct n ms) (.struct m os) (.list vs) = .list (convAll ms os vs) ∧
      (vs.length = os.length → Mems.tyAt ms i = some t → Mems.tyAt os i = some u → vs[i]? = some v →
        (convAll ms os vs)[i]? = some (conv t u v))) ∧
    (∀ c oc b ob vs i v, vs[i]? = some v → (b = 0 ∨ i < b) →
      ∃ ws, conv (.seq c b) (.seq oc ob) (.coll vs) = .coll ws ∧ ws[i]? = some (conv c oc v)) ∧
    (∀ n m c oc d od vs i v, vs[i]? = some v → i < d →
      ∃ ws, conv (.arr n c d) (.arr m oc od) (.list vs) = .list ws ∧ ws[i]? = some (conv c oc v)) ∧
    (∀ k b ob us, ∃ r, conv (.str k b) (.str k ob) (.str us) = .str r ∧ r <+: us ∧
      (b = 0 ∨ us.length ≤ b → r = us) ∧ (0 < b → b ≤ us.length → r.length = b)) ∧
    (∀ k w b ob vs, ∃ r, conv (.map k w b) (.map k w ob) (.coll vs) = .coll r ∧ r <+: vs ∧
      (b = 0 ∨ vs.length ≤ b → r = vs)) := by
  refine ⟨?_, ?_, ?_, ?_, ?_⟩
  · intro n m ms os vs i t u v
    refine ⟨by simp [conv, Ty.rget], ?_⟩
    revert ms os vs
    induction i with
    | zero =>
      intro ms os vs hl h1 h2 h3
      cases ms with
      | nil => cases h1
      | cons x a r => cases os with
        | nil => cases h2
        | cons y b s => cases vs with
          | nil => cases h3
          | cons w ws =>
            rw [Mems.tyAt] at h1 h2; cases h1; cases h2
            simp at h3; subst h3
            simp [convAll]
    | succ i ih =>
      intro ms os vs hl h1 h2 h3
      cases ms with
      | nil => cases h1
      | cons x a r => cases os with
        | nil => cases h2
        | cons y b s => cases vs with
          | nil => cases h3
          | cons w ws =>
            rw [Mems.tyAt] at h1 h2
            simp only [List.getElem?_cons_succ] at h3
            simp only [convAll, List.getElem?_cons_succ]
            exact ih r s ws (by simp [Mems.length] at hl; exact hl) h1 h2 h3
  · intro c oc b ob vs i v hv hb
    refine ⟨(clipV b vs).map (conv c oc), by simp [conv, unwrap, unwrapVal], ?_⟩
    have : (clipV b vs)[i]? = some v := by
      unfold clipV
      split
      · rw [List.getElem?_take_of_lt (by omega)]; exact hv
      · exact hv
    simp [this]
  · intro n m c oc d od vs i v hv hb
    refine ⟨(vs.take d).map (conv c oc), by simp [conv, unwrap, unwrapVal], ?_⟩
    simp [List.getElem?_take_of_lt hb, hv]
  · intro k b ob us
    refine ⟨clip b us, by simp [conv, unwrapVal], ?_, ?_, ?_⟩
    · unfold clip; split
      · exact List.take_prefix _ _
      · exact List.prefix_rfl
    · intro h; unfold clip; split
      · exact List.take_of_length_le (by omega)
      · rfl
    · intro h1 h2; unfold clip; rw [if_pos h1]; simp; omega
  · intro k w b ob vs
    refine ⟨clipV b vs, by simp [conv, unwrapVal], ?_, ?_⟩
    · unfold clipV; split
      · exact List.take_prefix _ _
      · exact List.prefix_rfl
    · intro h; unfold clipV; split
      · exact List.take_of_length_le (by omega)
      · rfl

set_option maxRecDepth 4096 in
/-- C27, a concrete conversion: 7, "abcde" and [1, 2] become 7, "ab" and [1, 2], the new map is empty. -/
example : ∃ w d e lk, World.empty.run [.create 0 exA, .write 0 [.member "x"] (.value (.num .i32 [7, 0, 0, 0])),
      .write 0 [.member "s"] (.value (.str .s8 [97, 98, 99, 100, 101])), .write 0 [.member "q"] (.pushHost (.num .u16 [1, 0])),
      .write 0 [.member "q"] (.pushHost (.num .u16 [2, 0]))] = .ok w ∧ w.vars 0 = some d ∧
    newData exB (copyFrom exB exA d.cells 0) = .ok (e, lk) ∧
    e.Holds (.list [.bytes [7, 0, 0, 0, 0, 0, 0, 0], .str [97, 98],
      .coll [.bytes [1, 0, 0, 0, 0, 0, 0, 0], .bytes [2, 0, 0, 0, 0, 0, 0, 0]], .coll []]) :=
  ⟨_, _, _, _, rfl, rfl, rfl, rfl, rfl⟩

/-- C27 fails: the second part of a pair is looked for behind a first part of the *target's* size; here the byte 9
becomes the 0 that is part of the source's first number. -/
theorem C27_fails_pair_of_other_size :
    ∃ (T S : Ty) (d : Data) (e : Data) (lk : Nat), compat T.rget S ≠ Cons.none ∧ d.ty = S ∧
      d.Holds (.list [.bytes [1, 0, 0, 0, 0, 0, 0, 0], .bytes [9]]) ∧ Data.convert T S d.cells = .ok (e, lk) ∧
      e.Holds (.list [.bytes [1, 0, 0, 0], .bytes [0]]) := by
  have hc : compat (Ty.pair (.prim .u32) (.prim .u8)).rget (.pair (.prim .u64) (.prim .u8)) ≠ Cons.none := by
    simp [compat, Ty.rget, primFlags, PK.size, PK.unsignedBit, Cons.or, Cons.equals, Cons.none, Cons.width]
  refine ⟨.pair (.prim .u32) (.prim .u8), .pair (.prim .u64) (.prim .u8),
    ⟨.pair (.prim .u64) (.prim .u8), rawCells [1, 0, 0, 0, 0, 0, 0, 0, 9], true⟩,
    ⟨.pair (.prim .u32) (.prim .u8), rawCells [1, 0, 0, 0, 0], true⟩, 0, hc, rfl, ⟨rfl, rfl⟩, ?_, ⟨rfl, rfl⟩⟩
  rw [Data.convert, if_neg hc]; rfl

/-- C27 fails: elements of primitive types of the same size are copied as bytes: the integer 1 becomes the
denormalised `float` with the bits of 1 (and not 1.0, whose bytes are 0, 0, 128, 63). -/
theorem C27_fails_int_to_float_elements :
    ∃ (T S : Ty) (d e : Data) (lk : Nat), compat T.rget S ≠ Cons.none ∧ d.ty = S ∧
      d.Holds (.list [.bytes [1, 0, 0, 0]]) ∧ Data.convert T S d.cells = .ok (e, lk) ∧
      e.ty = .arr "T" (.prim .f32) 1 ∧ e.Holds (.list [.bytes [1, 0, 0, 0]]) := by
  have hc : compat (Ty.arr "T" (.prim .f32) 1).rget (.arr "S" (.prim .i32) 1) ≠ Cons.none := by
    simp [compat, Ty.rget, primFlags, PK.size, PK.unsignedBit, Cons.or, Cons.equals, Cons.none, Cons.width, Cons.sign]
  refine ⟨.arr "T" (.prim .f32) 1, .arr "S" (.prim .i32) 1, ⟨.arr "S" (.prim .i32) 1, rawCells [1, 0, 0, 0], true⟩,
    ⟨.arr "T" (.prim .f32) 1, rawCells [1, 0, 0, 0], true⟩, 0, hc, rfl, ⟨rfl, rfl⟩, ?_, rfl, ⟨rfl, rfl⟩⟩
  rw [Data.convert, if_neg hc]; rfl

/-! ## C28 -/

theorem intVal_range {k : PK} (hk : k.isFloat = false) {bs : List Byte} (hb : bs.length = k.size) :
    (signedK k = true → -2 ^ (8 * k.size - 1) ≤ intVal k bs ∧ intVal k bs < 2 ^ (8 * k.size - 1)) ∧
    (signedK k = false → 0 ≤ intVal k bs ∧ intVal k bs < 2 ^ (8 * k.size)) := by
  have hlt := leNat_lt bs
  rw [hb] at hlt
  cases k <;> simp only [PK.isFloat, Bool.true_eq_false] at hk <;>
    simp only [intVal, signedK, PK.size, Bool.true_and, Bool.false_and, Bool.false_eq_true, if_false, decide_eq_true_eq] at * <;>
    norm_num at * <;> (try split) <;> omega

theorem convert_mod {k l : PK} (hk : k.isFloat = false) (hl : l.isFloat = false) (hb : l ≠ .bool) {bs : List Byte}
    (hs : bs.length = k.size) :
    (convert k l bs).length = l.size ∧
    (intVal l (convert k l bs) - intVal k bs) % 2 ^ (8 * l.size) = 0 ∧
    (signedK l = true → -2 ^ (8 * l.size - 1) ≤ intVal l (convert k l bs) ∧ intVal l (convert k l bs) < 2 ^ (8 * l.size - 1)) ∧
    (signedK l = false → 0 ≤ intVal l (convert k l bs) ∧ intVal l (convert k l bs) < 2 ^ (8 * l.size)) := by
  have hlen : (convert k l bs).length = l.size := by
    unfold convert
    split
    · rename_i h; rw [← h]; exact hs
    · rw [hk, hl]; simp [intBytes, hb, leBytes_length]
  refine ⟨hlen, ?_, intVal_range hl hlen⟩
  unfold convert
  split
  · rename_i h; subst h; simp
  · rw [hk, hl]
    simp only [Bool.or_self, Bool.false_eq_true, if_false, intBytes, if_neg hb]
    generalize intVal k bs = z
    unfold intVal
    rw [leNat_leBytes]
    cases l <;> simp only [PK.isFloat, Bool.true_eq_false, ne_eq, not_true_eq_false] at hl hb <;>
      simp only [signedK, PK.size, Bool.true_and, Bool.false_and, Bool.false_eq_true, if_false, decide_eq_true_eq] <;>
      norm_num <;> (try split) <;> omega

theorem convert_bool {k : PK} (hk : k.isFloat = false) (hb : k ≠ .bool) (bs : List Byte) :
    convert k .bool bs = if intVal k bs = 0 then [0] else [1] := by
  have e : (k.isFloat || PK.bool.isFloat) = false := by rw [hk]; rfl
  simp only [convert, if_neg hb, e, Bool.false_eq_true, if_false, intBytes, if_true]
  by_cases h0 : intVal k bs = 0
  · rw [if_pos h0, if_pos h0]; rfl
  · rw [if_neg h0, if_neg h0]; rfl

/-- 256 becomes `true` although its low byte is zero. -/
example : convert .u16 .bool [0, 1] = [1] := rfl

theorem number_eq {k : PK} {bs : List Byte} (hs : bs.length = k.size) : number k bs = intVal k bs := by
  have hlt := leNat_lt bs
  rw [hs] at hlt
  cases k <;> simp only [number, intVal, signedK, PK.size, Bool.true_and, Bool.false_and, Bool.false_eq_true, if_false,
      decide_eq_true_eq] at * <;>
    norm_num at * <;> (rw [BitVec.toInt_eq_toNat_cond]; simp only [BitVec.toNat_ofNat]; split <;> split <;> omega)

theorem convert_exact {k l : PK} (hk : k.isFloat = false) (hl : l.isFloat = false) {bs : List Byte}
    (hs : bs.length = k.size) (hf : Fits l (intVal k bs)) : intVal l (convert k l bs) = intVal k bs := by
  by_cases hb : l = .bool
  · subst hb
    simp only [Fits] at hf
    unfold convert
    split
    · rename_i h; rw [h]
    · rw [hk]
      simp only [PK.isFloat, Bool.or_self, Bool.false_eq_true, if_false, intBytes, if_true]
      rcases hf with hf | hf <;> rw [hf] <;> simp [intVal, signedK, leBytes, leNat]
  · obtain ⟨hlen, h1, h2, h3⟩ := convert_mod hk hl hb hs
    generalize intVal l (convert k l bs) = y at *
    generalize intVal k bs = z at *
    cases l <;> simp only [PK.isFloat, Bool.true_eq_false, ne_eq, not_true_eq_false] at hl hb <;>
      simp only [Fits] at hf <;>
      simp only [signedK, PK.size, if_true, Bool.false_eq_true, if_false, forall_true_left, true_implies, false_implies] at * <;>
      norm_num at * <;> omega

theorem convertB_length {k l : PK} {bs : List Byte} (hs : bs.length = k.size) : (convert k l bs).length = l.size := by
  unfold convert
  split
  · rename_i h; rw [← h]; exact hs
  · split
    · simp [fixLen]
    · unfold intBytes; split
      · rename_i h; rw [h, leBytes_length]; rfl
      · rw [leBytes_length]

theorem leNat_inj : {xs ys : List Byte} → xs.length = ys.length → leNat xs = leNat ys → xs = ys
  | [], [], _, _ => rfl
  | [], _ :: _, h, _ => by simp at h
  | _ :: _, [], h, _ => by simp at h
  | x :: xs, y :: ys, hl, h => by
    simp only [leNat] at h
    have h1 := x.isLt
    have h2 := y.isLt
    have e1 : x.toNat = y.toNat := by omega
    have e2 : leNat xs = leNat ys := by omega
    rw [BitVec.eq_of_toNat_eq e1, leNat_inj (by simpa using hl) e2]

theorem intVal_inj {k : PK} {xs ys : List Byte} (h1 : xs.length = k.size) (h2 : ys.length = k.size)
    (h : intVal k xs = intVal k ys) : xs = ys := by
  refine leNat_inj (by rw [h1, h2]) ?_
  have l1 := leNat_lt xs
  have l2 := leNat_lt ys
  rw [h1] at l1; rw [h2] at l2
  unfold intVal at h
  cases k <;> simp only [signedK, PK.size, Bool.true_and, Bool.false_and, Bool.false_eq_true, if_false, decide_eq_true_eq] at * <;>
    norm_num at * <;> (try split at h) <;> (try split at h) <;> omega

theorem fits_self {k : PK} (hk : k.isFloat = false) (hb : k ≠ .bool) {bs : List Byte} (hs : bs.length = k.size) :
    Fits k (intVal k bs) := by
  obtain ⟨h1, h2⟩ := intVal_range hk hs
  cases k <;> simp only [PK.isFloat, Bool.true_eq_false, ne_eq, not_true_eq_false] at hk hb <;>
    simp only [Fits, signedK, PK.size] at * <;> norm_num at * <;> (first | exact h1 | exact h2)

theorem convert_data (k l : PK) {bs : List Byte} (hs : bs.length = k.size) :
    ∃ d, Data.convert (.prim l) (.prim k) (rawCells bs) = .ok (d, 0) ∧ d.ty = .prim l ∧ d.Holds (.bytes (convert k l bs)) := by
  have hc : compat (Ty.prim l).rget (.prim k) ≠ Cons.none := by
    simp only [Ty.rget, compat]
    split
    · decide
    · cases k <;> cases l <;> decide
  have hd : decode (.prim k) (rawCells bs) = some (.bytes bs) := by
    rw [decode]; exact decBytes_iff.mpr ⟨bs, rfl, hs, rfl⟩
  obtain ⟨d, lk, h1, h2, h3, h4⟩ := convert_ok (T := .prim l) (by simp [Ty.WF]) (by simp [Convertible, scalarKind, unwrap]) hd hc
  obtain ⟨rfl, _⟩ := h4 (by simp [Ty.Tight])
  refine ⟨d, h1, h2, ?_⟩
  simpa [conv, scalarKind, unwrap, unwrapVal] using h3

/-- C28: a datum of an integral type converted to another integral type holds the same number when the new type can
represent it; otherwise the number modulo 2^width; as a `bool`, whether the number is not zero (one byte, 0 or 1). -/
theorem C28_convert {k l : PK} (hk : k.isFloat = false) (hl : l.isFloat = false) {bs : List Byte} (hs : bs.length = k.size) :
    ∃ d bs', Data.convert (.prim l) (.prim k) (rawCells bs) = .ok (d, 0) ∧ d.ty = .prim l ∧ d.Holds (.bytes bs') ∧
      bs'.length = l.size ∧
      (Fits l (number k bs) → number l bs' = number k bs) ∧
      (l ≠ .bool → (number l bs' - number k bs) % 2 ^ (8 * l.size) = 0) ∧
      (l = .bool → k ≠ .bool → bs' = if number k bs = 0 then [0] else [1]) := by
  obtain ⟨d, h1, h2, h3⟩ := convert_data k l hs
  have hlen := convertB_length (l := l) hs
  refine ⟨d, _, h1, h2, h3, hlen, ?_, ?_, ?_⟩
  · rw [number_eq hs, number_eq hlen]
    exact convert_exact hk hl hs
  · intro hb
    rw [number_eq hs, number_eq hlen]
    exact (convert_mod hk hl hb hs).2.1
  · rintro rfl hb
    rw [number_eq hs]
    exact convert_bool hk hb bs

/-- C28: every number an integral datum holds fits its own type; `bool` apart, whose byte may be neither 0 nor 1. -/
theorem C28_fits_self {k : PK} (hk : k.isFloat = false) (hb : k ≠ .bool) {bs : List Byte} (hs : bs.length = k.size) :
    Fits k (number k bs) := by rw [number_eq hs]; exact fits_self hk hb hs

/-- C28: converting to a type that can represent the number, and back, gives the bytes one started with. -/
theorem C28_convert_round_trip {k l : PK} (hk : k.isFloat = false) (hl : l.isFloat = false) {bs : List Byte}
    (hs : bs.length = k.size) (hf : Fits l (number k bs)) (hn : Fits k (number k bs)) :
    ∃ d e, Data.convert (.prim l) (.prim k) (rawCells bs) = .ok (d, 0) ∧ Data.convert (.prim k) d.ty d.cells = .ok (e, 0) ∧
      e.Holds (.bytes bs) ∧ e.ty = .prim k := by
  rw [number_eq hs] at hf hn
  obtain ⟨d, h1, h2, h3⟩ := convert_data k l hs
  have hlen := convertB_length (l := l) hs
  obtain ⟨e, e1, e2, e3⟩ := convert_data l k hlen
  have hc : d.cells = rawCells (convert k l bs) := by
    have := h3.2
    rw [h2, decode] at this
    obtain ⟨_, h, _, hh⟩ := decBytes_iff.mp this
    cases h; exact hh
  refine ⟨d, e, h1, by rw [h2, hc]; exact e1, ?_, e2⟩
  have x1 := convert_exact hk hl hs hf
  have x2 := convert_exact hl hk hlen (x1 ▸ hn)
  rw [intVal_inj (convertB_length hlen) hs (x2.trans x1)] at e3
  exact e3

/-- C28: -1 as `int8` becomes 65535 as `uint16`, and back. -/
example : convert .i8 .u16 [255] = [255, 255] ∧ number .i8 [255] = -1 ∧ number .u16 [255, 255] = 65535 ∧
    convert .u16 .i8 [255, 255] = [255] := by decide

/-- C28: cases of the theorems: -1 fits a signed type of any width, not an unsigned one. -/
example : Fits .i64 (number .i8 [255]) ∧ Fits .i8 (number .i8 [255]) ∧ ¬ Fits .u16 (number .i8 [255]) := by
  refine ⟨?_, ?_, ?_⟩ <;> simp only [Fits] <;> decide

/-! ## C29 -/

/-- C29, partial: after any program of allowed statements no string with a bound, wherever it is inside a datum, holds
more units than its bound. Missing: programs with statements that `Allowed` excludes. -/
theorem C29_string_bound_partial {w : World} {x : Nat} {d : Data} {q : List Step} {k : SK} {b : Nat} {us : List Nat}
    (h : Reach w) (hx : w.vars x = some d) (hi : d.init = true) (ht : typeAt q d.ty = some (.str k b)) (hb : 0 < b)
    (hr : d.Reads q (.str us)) : us.length ≤ b := by
  obtain ⟨hw, _, _, hh, _⟩ := (reach_ok h).2 x d hx
  obtain ⟨⟨v, hv⟩, _⟩ := hh hi
  have hu := ((reads_iff hw hv q).1 _).mp hr
  have hl := locate_reads q d.ty hw [] d.cells [] v hv.2
  obtain ⟨t, cs, h1, _, h3⟩ := hl.1 _ hu
  rw [ht] at h1; cases h1
  rw [decode] at h3
  obtain ⟨us', hp, he, hbb, _⟩ := decStr_iff.mp h3
  cases he
  exact hbb hb

/-- C29: assignments store the longest prefix within the bound; so do copies and conversions (`copy_ok`, `conv`). -/
theorem C29_longest_prefix (b : Nat) (us : List Nat) :
    clip b us <+: us ∧ (0 < b → (clip b us).length = min b us.length) ∧ (b = 0 → clip b us = us) := by
  unfold clip
  refine ⟨?_, ?_, ?_⟩
  · split
    · exact List.take_prefix _ _
    · exact List.prefix_rfl
  · intro h; rw [if_pos h, List.length_take]
  · intro h; subst h; rfl

/-- C29: copying a string of any other bound clips it to the own one. -/
theorem C29_convert_clips {k : SK} {b b' : Nat} {us : List Nat} {src : List Cell} (h : decode (.str k b') src = some (.str us)) :
    ∃ d, Data.convert (.str k b) (.str k b') src = .ok (d, 0) ∧ d.Holds (.str (clip b us)) := by
  have hc : compat (Ty.str k b).rget (.str k b') ≠ Cons.none := by
    simp only [Ty.rget, compat]
    rw [if_neg (by simp)]
    split <;> decide
  obtain ⟨d, lk, h1, _, h3, h4⟩ := convert_ok (T := .str k b) (by simp [Ty.WF]) (by simp [Convertible, unwrap]) h hc
  obtain ⟨rfl, _⟩ := h4 (by simp [Ty.Tight])
  exact ⟨d, h1, by simpa [conv, unwrapVal] using h3⟩

/-- C29, non-vacuity: a reachable bounded string, filled to its bound. -/
example : ∃ w d, Reach w ∧ w.vars 0 = some d ∧ d.init = true ∧ typeAt [] d.ty = some (.str .s8 2) ∧ d.Reads [] (.str [1, 2]) := by
  have h1 : Reach _ := .step (.create 0 (.str .s8 2)) .empty ⟨rfl, by simp [Ty.WF], by simp [Ty.Tight]⟩ rfl
  have h2 : Reach _ := .step (.write 0 [] (.value (.str .s8 [1, 2, 3]))) h1
    (by
      refine ⟨_, rfl, rfl, trivial, ?_⟩
      intro op hop; cases hop
      refine ⟨fun t _ => by simp [RefOp.Ok, Host.WF], ?_⟩
      intro v hv; cases hv; exact fun h => by cases h) rfl
  exact ⟨_, _, h2, rfl, rfl, rfl, _, _, rfl, rfl⟩

end Verif.Inst
