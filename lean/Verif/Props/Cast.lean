import Verif.Lemmas.ApiText
import Verif.Props.Api
import Verif.Props.Conv
/-!
# Casts and vectors (C55, C56)

`number k bs` (Verif.Spec.Conv) is the number the bytes `bs` stand for in the C++ type `k`, `scalarOf T` (Verif.Spec.Api)
the C++ type a primitive or an enumeration is stored as.
-/

namespace Verif.Inst

theorem sees_scalar {r : RRef} {v : Val} {k : PK} (h : r.Sees v) (hs : scalarOf r.ty = some k) :
    ∃ bs, v = .bytes bs ∧ bs.length = k.size ∧ peekRaw r.cells r.addr k.size = .ok bs ∧
      (r.ty = .prim k ∨ ∃ n w vs, r.ty = .enum n w vs ∧ EW.kind w = k ∧ w.size = k.size) := by
  obtain ⟨T, cells, addr⟩ := r
  obtain ⟨pre, x, post, e, ha, hd⟩ := h
  simp only at e ha hd hs
  subst e ha
  cases T with
  | prim l =>
    cases hs
    rw [decode] at hd
    obtain ⟨bs, rfl, hl, rfl⟩ := decBytes_iff.mp hd
    exact ⟨bs, rfl, hl, peekRaw_at pre post bs _ hl, .inl rfl⟩
  | enum n w vs =>
    have hk : EW.kind w = k ∧ w.size = k.size := by cases w <;> cases hs <;> exact ⟨rfl, rfl⟩
    rw [decode] at hd
    obtain ⟨bs, rfl, hl, rfl⟩ := decBytes_iff.mp hd
    rw [hk.2] at hl
    exact ⟨bs, rfl, hl, peekRaw_at pre post bs _ hl, .inr ⟨_, _, _, rfl, hk⟩⟩
  | _ => cases hs

theorem cast_eq {r : RRef} {v : Val} {k : PK} (h : r.Sees v) (hs : scalarOf r.ty = some k) (l : PK) :
    ∃ bs, v = .bytes bs ∧ bs.length = k.size ∧ r.cast l = .ok (convert k l bs) := by
  obtain ⟨bs, rfl, hl, hp, hT⟩ := sees_scalar h hs
  refine ⟨bs, rfl, hl, ?_⟩
  rcases hT with hT | ⟨n, w, vs, hT, hw, hz⟩
  · rw [RRef.cast, hT]; simp only []; rw [hp]; rfl
  · rw [RRef.cast, hT]; simp only []; rw [hz, hp, hw]; rfl

/-! ## C55 -/

/-- C55: `cast<T>()` of an integral primitive or an enumeration to an integral type gives the same number when `T` can
represent it; otherwise the number modulo 2^width; as a `bool`, whether the number is not zero. -/
theorem C55_cast {r : RRef} {v : Val} {k l : PK} (h : r.Sees v) (hs : scalarOf r.ty = some k) (hk : k.isFloat = false)
    (hl : l.isFloat = false) :
    ∃ bs out, v = .bytes bs ∧ r.cast l = .ok out ∧ out.length = l.size ∧
      (Fits l (number k bs) → number l out = number k bs) ∧
      (l ≠ .bool → (number l out - number k bs) % 2 ^ (8 * l.size) = 0) ∧
      (l = .bool → k ≠ .bool → out = if number k bs = 0 then [0] else [1]) := by
  obtain ⟨bs, rfl, hb, hc⟩ := cast_eq h hs l
  have hlen := convertB_length (l := l) hb
  refine ⟨bs, _, rfl, hc, hlen, ?_, ?_, ?_⟩
  · rw [number_eq hb, number_eq hlen]; exact convert_exact hk hl hb
  · intro hn
    rw [number_eq hb, number_eq hlen]
    exact (convert_mod hk hl hn hb).2.1
  · rintro rfl hn
    rw [number_eq hb]
    exact convert_bool hk hn bs

/-- C55: casting to the type the datum has gives its bytes, floating point numbers included. -/
theorem C55_cast_self {r : RRef} {v : Val} {k : PK} (h : r.Sees v) (hs : scalarOf r.ty = some k) :
    ∃ bs, v = .bytes bs ∧ r.cast k = .ok bs := by
  obtain ⟨bs, rfl, _, hc⟩ := cast_eq h hs k
  exact ⟨bs, rfl, by rw [hc, convert, if_pos rfl]⟩

/-- C55: a cast agrees with the conversion of a datum to that type (C28). -/
theorem C55_cast_convert {r : RRef} {v : Val} {k : PK} (h : r.Sees v) (hs : scalarOf r.ty = some k) (l : PK) :
    ∃ bs d, v = .bytes bs ∧ Data.convert (.prim l) (.prim k) (rawCells bs) = .ok (d, 0) ∧
      ∃ out, r.cast l = .ok out ∧ d.Holds (.bytes out) := by
  obtain ⟨bs, rfl, hb, hc⟩ := cast_eq h hs l
  obtain ⟨d, h1, _, h3⟩ := convert_data k l hb
  exact ⟨bs, d, rfl, h1, _, hc, h3⟩

/-- C55: anything else is refused. -/
theorem C55_cast_refused {r : RRef} (hs : scalarOf r.ty = none) (l : PK) : r.cast l = .error .refused := by
  rw [RRef.cast]
  cases hT : r.ty with
  | prim k => rw [hT] at hs; cases hs
  | enum n w vs => rw [hT] at hs; cases w <;> cases hs
  | _ => rfl

/-- C55, partial: `cast<std::string>()` of an integral primitive (characters and truth values included) or an enumeration
is the decimal numeral of its number, of a string the string. Missing: floating point numbers, whose text is not
specified, and the two other string types (`C55_cast_string_fails_wide`). -/
theorem C55_cast_string_partial {r : RRef} {v : Val} (h : r.Sees v) :
    (∀ k, scalarOf r.ty = some k → k.isFloat = false →
      ∃ bs, v = .bytes bs ∧ r.castString = .ok (ascii (toString (number k bs)))) ∧
    (∀ b, r.ty = .str .s8 b → ∃ us, v = .str us ∧ r.castString = .ok us) := by
  constructor
  · intro k hs hk
    obtain ⟨bs, rfl, hl, hp, hT⟩ := sees_scalar h hs
    refine ⟨bs, rfl, ?_⟩
    rw [number_eq hl, ← intText_eq]
    rcases hT with hT | ⟨n, w, vs, hT, hw, hz⟩
    · rw [RRef.castString, hT]; simp only []; rw [hp]; simp [Except.map, hk]
    · rw [RRef.castString, hT]; simp only []; rw [hz, hp, hw]; rfl
  · intro b hT
    obtain ⟨T, cells, addr⟩ := r
    obtain ⟨pre, x, post, e, ha, hd⟩ := h
    simp only at e ha hd hT
    subst e ha hT
    rw [decode] at hd
    obtain ⟨us, hp, rfl, _, rfl⟩ := decStr_iff.mp hd
    exact ⟨us, rfl, peekStr_at .s8 us hp pre post⟩

/-- C55: different numbers have different numerals: the text determines the number. -/
theorem C55_numerals_injective {x y : Int} (h : ascii (toString x) = ascii (toString y)) : x = y := by
  rw [← intText_eq, ← intText_eq] at h
  have hd : ∀ {a b : Nat}, Text.dec a = Text.dec b → a = b := by
    intro a b e
    rw [dec_digits, dec_digits] at e
    have h1 : Nat.toDigits 10 a = Nat.toDigits 10 b :=
      List.map_injective_iff.mpr (fun c d h => Char.ext (UInt32.toNat_inj.mp h)) e
    rw [← Nat.ofDigitChars_ten_toDigits (n := a), h1, Nat.ofDigitChars_ten_toDigits]
  have hm : ∀ (n : Nat) (t : List Nat), Text.dec n ≠ 45 :: t := by
    intro n t e
    rw [dec_digits] at e
    have : (45 : Nat) ∈ (Nat.toDigits 10 n).map Char.toNat := by rw [e]; exact List.mem_cons_self
    obtain ⟨c, hc, he⟩ := List.mem_map.mp this
    have := Nat.isDigit_of_mem_toDigits (by omega) (by omega) hc
    simp only [Char.isDigit, Bool.and_eq_true, decide_eq_true_eq] at this
    have h1 : (48 : UInt32) ≤ c.val := this.1
    have : (48 : Nat) ≤ c.toNat := h1
    omega
  unfold intText at h
  split at h <;> split at h
  · injection h with _ h; have := hd h; omega
  · exact absurd h.symm (hm _ _)
  · exact absurd h (hm _ _)
  · have := hd h; omega

/-- C55 fails for the two other string types: the check lets them pass, the cast is refused all the same. -/
theorem C55_cast_string_fails_wide {r : RRef} {k : SK} {b : Nat} (hT : r.ty = .str k b) (hk : k ≠ .s8) :
    r.castString = .error .refused := by
  rw [RRef.castString, hT]
  cases k with
  | s8 => exact absurd rfl hk
  | ws => rfl
  | s16 => rfl

/-- The enumerator 200 of an enumeration of 8 bits. -/
def exE200 : RRef := ⟨.enum "E" .w1 [("A", 200)], rawCells [200], 0⟩

/-- C55: a case of the theorems: 200 as a signed byte is -56, as a string "200". -/
example : exE200.Sees (.bytes [200]) ∧ scalarOf exE200.ty = some .u8 ∧ exE200.cast .i8 = .ok [200] ∧
    number .i8 [200] = -56 ∧ exE200.cast .i64 = .ok [200, 0, 0, 0, 0, 0, 0, 0] ∧
    exE200.castString = .ok (ascii "200") :=
  ⟨⟨[], rawCells [200], [], rfl, rfl, rfl⟩, rfl, rfl, by decide, rfl, by simp [RRef.castString, exE200, peekRaw, peek, rawCells, EW.size, Except.map, Except.bind, rawBytes, intVal, EW.kind, signedK, leNat, intText_eq]; rfl⟩

/-! ## C56 -/

theorem instAt_step {r x y : RRef} {c : Ty} (hc : elemTy r.ty = some c) {i : Nat} (hx : r.instAt i = .ok x) (hy : r.instAt 0 = .ok y) :
    x.cells = y.cells ∧ x.addr = y.addr + i * c.memSize := by
  unfold RRef.instAt at hx hy
  cases hT : r.ty with
  | arr n c' d =>
    rw [hT] at hx hy hc; cases hc; cases hx; cases hy
    simp [RRef.mk']
  | seq c' b =>
    rw [hT] at hx hy hc
    obtain rfl : c' = c := Option.some.inj hc
    cases hp : peekColl false r.cells r.addr with
    | error e => simp only [hp, Except.bind] at hx; cases hx
    | ok o =>
      simp only [hp, Except.bind] at hx hy
      split at hx
      · split at hy
        · cases hx; cases hy; simp [RRef.mk']
        · cases hy
      · cases hx
  | map k v b =>
    rw [hT] at hx hy hc
    obtain rfl : Ty.pair k v = c := Option.some.inj hc
    cases hp : peekColl true r.cells r.addr with
    | error e => simp only [hp, Except.map] at hx; cases hx
    | ok o =>
      simp only [hp, Except.map] at hx hy
      cases hx; cases hy; simp [RRef.mk', Ty.memSize]
  | str k b =>
    rw [hT] at hx hy hc
    obtain rfl : Ty.prim (charOf k) = c := Option.some.inj hc
    cases hp : peekStr k r.cells r.addr with
    | error e => simp only [hp, Except.bind] at hx; cases hx
    | ok us =>
      simp only [hp, Except.bind] at hx hy
      split at hx
      · split at hy
        · cases hx; cases hy; simp [RRef.mk', Ty.memSize, char_eq]
        · cases hy
      · cases hx
  | _ => rw [hT] at hc; cases hc

theorem load_sees {x : RRef} {w : Val} {c : Ty} {h : HK} (hm : h.Matches c) (ht : x.ty = c.rget) (hx : x.Sees w) :
    ∃ g, h.load x.cells x.addr = .ok g ∧ IsHost h w g := by
  obtain ⟨T, cells, addr⟩ := x
  obtain ⟨pre, x, post, e, ha, hd⟩ := hx
  simp only at e ha hd ht
  subst e ha ht
  cases h with
  | num k =>
    cases (show c = .prim k from hm)
    have hd : decode (.prim k) x = some w := hd
    rw [decode] at hd
    obtain ⟨bs, rfl, hl, rfl⟩ := decBytes_iff.mp hd
    exact ⟨.num k bs, by simp only [HK.load]; rw [peekRaw_at pre post bs _ hl]; rfl, bs, rfl, rfl⟩
  | str k =>
    obtain ⟨b, rfl⟩ := (show ∃ b, c = .str k b from hm)
    have hd : decode (.str k b) x = some w := hd
    rw [decode] at hd
    obtain ⟨us, hp, rfl, _, rfl⟩ := decStr_iff.mp hd
    exact ⟨.str k us, by simp only [HK.load]; rw [peekStr_at k us hp pre post]; rfl, us, rfl, rfl⟩

theorem loads_ok {h : HK} {cs : List Cell} {s : Nat} (hsz : h.size = s) : (vs : List Val) → (a : Nat) →
    (∀ (i : Nat) (w : Val), vs[i]? = some w → ∃ g, h.load cs (a + i * s) = .ok g ∧ IsHost h w g) →
    ∃ gs, h.loads cs a vs.length = .ok gs ∧ List.Forall₂ (IsHost h) vs gs
  | [], a, _ => ⟨[], rfl, .nil⟩
  | v :: vs, a, hl => by
    obtain ⟨g, hg, hi⟩ := hl 0 v rfl
    rw [Nat.zero_mul, Nat.add_zero] at hg
    obtain ⟨gs, h1, h2⟩ := loads_ok hsz vs (a + s) (by
      intro i w hw
      obtain ⟨g, hg, hi⟩ := hl (i + 1) w (by simpa using hw)
      rw [Nat.succ_mul, show a + (i * s + s) = a + s + i * s by omega] at hg
      exact ⟨g, hg, hi⟩)
    refine ⟨g :: gs, ?_, .cons hi h2⟩
    rw [List.length_cons, HK.loads, hg]
    simp only [Except.bind]
    rw [hsz, h1]; rfl

theorem isKind_iff {h : HK} {c : Ty} : h.isKind c = true ↔ h.Matches c := by
  cases h with
  | num k => cases c <;> simp [HK.isKind, HK.Matches, eq_comm]
  | str k => cases c <;> simp [HK.isKind, HK.Matches, eq_comm]

theorem content_eq {T c : Ty} (hc : elemTy T = some c) : contentTy T = c ∧ isColl T = true := by
  cases T <;> simp only [elemTy, Option.some.injEq, reduceCtorEq] at hc <;> subst hc <;> simp [contentTy, isColl, char_eq]

/-- C56, partial: `as_vector<T>()` of an array, a sequence or a string whose elements have exactly the type `T` is the
list of the elements. Missing: the empty sequence (`C56_fails_empty_sequence`). -/
theorem C56_as_vector_partial {r : RRef} {v : Val} {c : Ty} {h : HK} (hs : r.Sees v) (hc : elemTy r.ty = some c)
    (hm : h.Matches c) (hne : elems r.ty v = [] → ∀ c b, r.ty ≠ .seq c b) :
    ∃ l, r.asVector h = .ok l ∧ List.Forall₂ (IsHost h) (elems r.ty v) l := by
  obtain ⟨hsz, hi⟩ := instAt_ok hs hc
  have h0 : ∃ y, r.instAt 0 = .ok y := by
    by_cases he : elems r.ty v = []
    · obtain ⟨T, cells, addr⟩ := r
      obtain ⟨pre, x, post, e, ha, hd⟩ := hs
      simp only at e ha hd hc hne he
      subst e ha
      cases T with
      | arr _ _ _ => exact ⟨_, rfl⟩
      | seq c' b => exact absurd rfl (hne he c' b)
      | map k' v' b =>
        obtain rfl : Ty.pair k' v' = c := Option.some.inj hc
        cases h with
        | num _ => cases hm
        | str _ => obtain ⟨_, hm⟩ := hm; cases hm
      | str k b =>
        rw [decode] at hd
        obtain ⟨us, hp, rfl, _, rfl⟩ := decStr_iff.mp hd
        exact ⟨_, by simp only [RRef.instAt]; rw [peekStr_at k us hp pre post]; simp only [Except.bind]; rw [if_pos (Nat.zero_le _)]⟩
      | _ => cases hc
    · obtain ⟨w, hw⟩ : ∃ w, (elems r.ty v)[0]? = some w := by
        cases hv : elems r.ty v with
        | nil => exact absurd hv he
        | cons w _ => exact ⟨w, rfl⟩
      obtain ⟨x, hx, _⟩ := hi 0 w hw
      exact ⟨x, hx⟩
  obtain ⟨y, hy⟩ := h0
  have hcm : h.size = c.memSize := by
    cases h with
    | num k => cases (show c = .prim k from hm); rfl
    | str k => obtain ⟨b, rfl⟩ := (show ∃ b, c = .str k b from hm); rfl
  obtain ⟨l, h1, h2⟩ := loads_ok (cs := y.cells) hcm (elems r.ty v) y.addr (by
    intro i w hw
    obtain ⟨x, hx, ht, hxs⟩ := hi i w hw
    obtain ⟨e1, e2⟩ := instAt_step hc hx hy
    obtain ⟨g, hg, hh⟩ := load_sees hm ht hxs
    rw [e1, e2] at hg
    exact ⟨g, hg, hh⟩)
  obtain ⟨e1, e2⟩ := content_eq hc
  refine ⟨l, ?_, h2⟩
  rw [RRef.asVector, e1, e2, isKind_iff.mpr hm]
  simp only [Bool.and_self, if_true]
  rw [hy, hsz]
  exact h1

/-- C56: `as_vector<T>()` is refused when the type of the elements is anything but `T` itself: an alias of it, an
enumeration, another width; and for data that are no collection. -/
theorem C56_refused {r : RRef} {h : HK} (hn : ∀ c, elemTy r.ty = some c → ¬ h.Matches c) : r.asVector h = .error .refused := by
  rw [RRef.asVector]
  cases he : elemTy r.ty with
  | none =>
    have : isColl r.ty = false := by cases hT : r.ty <;> rw [hT] at he <;> first | rfl | cases he
    rw [this]; rfl
  | some c =>
    obtain ⟨e1, e2⟩ := content_eq he
    have : h.isKind c = false := by
      cases hk : h.isKind c with
      | false => rfl
      | true => exact absurd (isKind_iff.mp hk) (hn c he)
    rw [e1, e2, this]; rfl

/-- C56 fails: of an empty sequence there is no vector, the call ends with a failed assertion. -/
theorem C56_fails_empty_sequence {r : RRef} {c : Ty} {b : Nat} (h : HK) (hT : r.ty = .seq c b) (hs : r.Sees (.coll [])) :
    r.asVector h = .error .refused := by
  obtain ⟨T, cells, addr⟩ := r
  obtain ⟨pre, x, post, e, ha, hd⟩ := hs
  simp only at e ha hd hT
  subst e ha hT
  rw [decode] at hd
  obtain ⟨size, cap, blk, vs, he, h1, h2, h3, h4, rfl⟩ := decColl_iff.mp hd
  have hvl := decN_length h4
  have h0 : size = 0 := by
    have : (vs.take size).length = 0 := by rw [Val.coll.injEq] at he; rw [← he]; rfl
    rw [List.length_take] at this; omega
  subst h0
  rw [RRef.asVector]
  split
  · simp only [RRef.instAt]
    rw [peekColl_at]; rfl
  · rfl

/-- C56 fails: a sequence of an alias of a type is not read as a vector of the type, although its elements one by one
are values of it. -/
theorem C56_fails_alias : ∃ (r : RRef) (v : Val), r.Sees v ∧ elems r.ty v = [.bytes [1]] ∧
    r.asVector (.num .u8) = .error .refused ∧ ∃ x, r.index 0 = .ok x ∧ x.ty = .prim .u8 :=
  ⟨⟨.seq (.alias "A" (.prim .u8)) 0, objCells (.coll false (.alias "A" (.prim .u8)) 1 1 (rawCells [1])) 48, 0⟩, .coll [.bytes [1]],
    ⟨[], _, [], by simp only [List.nil_append, List.append_nil]; rfl, rfl, rfl⟩, rfl, rfl, _, rfl, rfl⟩

/-- A sequence of two 16-bit numbers. -/
def exV : RRef := ⟨.seq (.prim .u16) 0, objCells (.coll false (.prim .u16) 2 4 (rawCells [1, 0, 2, 0, 9, 9, 9, 9])) 48, 0⟩

set_option maxRecDepth 4096 in
/-- C56: a case of the theorem. -/
example : exV.Sees (.coll [.bytes [1, 0], .bytes [2, 0]]) ∧ elemTy exV.ty = some (.prim .u16) ∧ (HK.num .u16).Matches (.prim .u16) ∧
    exV.asVector (.num .u16) = .ok [.num .u16 [1, 0], .num .u16 [2, 0]] :=
  ⟨⟨[], exV.cells, [], by simp, rfl, rfl⟩, rfl, rfl, rfl⟩

end Verif.Inst
