import Verif.Lemmas.ExprText
import Verif.Lemmas.IdlConst
/-!
# Declarations of constants with expressions
-/

namespace Verif.Idl.Syn
open Text Expr

/-! ## Types -/

/-- The second word does not follow. -/
theorem kw2_second {v w : String} (hv : Word v) {b s : Bytes} (hb : Layout b) (hne : b ≠ []) (hs : Clean s) (h : NotAt w s) :
    kw2 v w (bytes v ++ (b ++ s)) = none := by
  unfold kw2
  rw [bind_ok (wsOpt_clean (word_clean hv _)), bind_ok (lit_ok v _), bind_ok (wsReq_ok hb hne hs)]
  cases e : strip (bytes w) s with
  | none => exact bind_no (lit_no e)
  | some r =>
    obtain ⟨c, t, rfl, hc⟩ := h r e
    have : lit w s = some ((), c :: t) := by rw [lit, e]; rfl
    rw [bind_ok this]
    exact bind_no (endKw_no hc)

theorem kw3_second {u v w : String} (hu : Word u) {b s : Bytes} (hb : Layout b) (hne : b ≠ []) (hs : Clean s)
    (h : strip (bytes v) s = none) : kw3 u v w (bytes u ++ (b ++ s)) = none := by
  unfold kw3
  rw [bind_ok (wsOpt_clean (word_clean hu _)), bind_ok (lit_ok u _), bind_ok (wsReq_ok hb hne hs)]
  exact bind_no (lit_no h)

theorem kw3_third {u v w : String} (hu : Word u) (hv : Word v) {b d s : Bytes} (hb : Layout b) (hne : b ≠ []) (hd : Layout d)
    (hdne : d ≠ []) (hs : Clean s) (h : NotAt w s) : kw3 u v w (bytes u ++ (b ++ (bytes v ++ (d ++ s)))) = none := by
  unfold kw3
  rw [bind_ok (wsOpt_clean (word_clean hu _)), bind_ok (lit_ok u _), bind_ok (wsReq_ok hb hne (word_clean hv _)), bind_ok (lit_ok v _),
    bind_ok (wsReq_ok hd hdne hs)]
  cases e : strip (bytes w) s with
  | none => exact bind_no (lit_no e)
  | some r =>
    obtain ⟨c, t, rfl, hc⟩ := h r e
    have : lit w s = some ((), c :: t) := by rw [lit, e]; rfl
    rw [bind_ok this]
    exact bind_no (endKw_no hc)

theorem kw3_ok {u v w : String} (hu : Word u) (hv : Word v) (hw : Word w) {a b d s : Bytes} (ha : Layout a) (hane : a ≠ [])
    (hb : Layout b) (hne : b ≠ []) (hd : Layout d) (hs : Clean s) (he : Head (fun c => idStart c = false) (d ++ s)) :
    kw3 u v w (bytes u ++ (a ++ (bytes v ++ (b ++ (bytes w ++ (d ++ s)))))) = some ((), s) := by
  unfold kw3
  rw [bind_ok (wsOpt_clean (word_clean hu _)), bind_ok (lit_ok u _), bind_ok (wsReq_ok ha hane (word_clean hv _)), bind_ok (lit_ok v _),
    bind_ok (wsReq_ok hb hne (word_clean hw _)), bind_ok (lit_ok w _), bind_ok (endKw_ok he)]
  exact wsOpt_ok hd hs

theorem layout_idStart {b : Bytes} (h : Layout b) (hne : b ≠ []) (s : Bytes) : Head (fun c => idStart c = false) (b ++ s) := by
  have := layout_head h
  cases b with
  | nil => exact absurd rfl hne
  | cons c b => rcases this with rfl | rfl | rfl | rfl | rfl <;> (show idStart _ = false; decide)

theorem layout_idChar {b : Bytes} (h : Layout b) {s : Bytes} (hs : Head (fun c => idChar c = false) s) :
    Head (fun c => idChar c = false) (b ++ s) := by
  have := layout_head h
  cases b with
  | nil => exact hs
  | cons c b => rcases this with rfl | rfl | rfl | rfl | rfl <;> (show idChar _ = false; decide)

/-- The rule for types of constants on a word that is not it. -/
theorem kws_no {v w : String} (hv : Word v) (h : clash (bytes w) (bytes v) = true) (s : Bytes) : kw w (bytes v ++ s) = none :=
  kw_no0 (word_clean hv _) (notAt_none (clash_strip h _))

theorem type_words : ∀ v ∈ "fixed" :: baseWords, Word v ∧ ∀ w ∈ "fixed" :: baseWords, w ≠ v → clash (bytes w) (bytes v) = true := by
  have h : (("fixed" :: baseWords).all fun v => (match bytes v with | c :: _ => idStart c | [] => false) &&
    ("fixed" :: baseWords).all fun w => w == v || clash (bytes w) (bytes v)) = true := by decide +kernel
  intro v hv
  have h1 := List.all_eq_true.mp h v hv
  rw [Bool.and_eq_true] at h1
  refine ⟨word_of h1.1, fun w hw hne => ?_⟩
  have h2 := List.all_eq_true.mp h1.2 w hw
  rw [Bool.or_eq_true] at h2
  rcases h2 with h2 | h2
  · exact absurd (by simpa using h2) hne
  · exact h2

theorem constType_ok {k : PK} {t : Bytes} (ht : TypeText k t) {b s : Bytes} (hb : Layout b) (hne : b ≠ []) (hs : Clean s)
    (hd : NotAt "double" s) (hl : NotAt "long" s) : constType (t ++ (b ++ s)) = some (.prim k, s) := by
  have kw1 : ∀ v ∈ "fixed" :: baseWords, ∀ w ∈ "fixed" :: baseWords, kw w (bytes v ++ (b ++ s)) = if w = v then some ((), s) else none := by
    intro v hv w hw
    split
    · rename_i h; subst h
      exact kw_ok0 (type_words w hw).1 hb hs (layout_idStart hb hne _)
    · rename_i h; exact kws_no (type_words v hv).1 ((type_words v hv).2 w hw h) _
  have no1 : ∀ v ∈ "fixed" :: baseWords, ∀ w ∈ "fixed" :: baseWords, w ≠ v → ∀ s, kw w (bytes v ++ s) = none :=
    fun v hv w hw h s => kws_no (type_words v hv).1 ((type_words v hv).2 w hw h) _
  have no2 : ∀ v ∈ "fixed" :: baseWords, ∀ w ∈ "fixed" :: baseWords, w ≠ v → ∀ x s, kw2 w x (bytes v ++ s) = none :=
    fun v hv w hw h x s => kw2_no0 (word_clean (type_words v hv).1 _) (notAt_none (clash_strip ((type_words v hv).2 w hw h) _))
  have no3 : ∀ v ∈ "fixed" :: baseWords, ∀ w ∈ "fixed" :: baseWords, w ≠ v → ∀ x y s, kw3 w x y (bytes v ++ s) = none :=
    fun v hv w hw h x y s => kw3_no0 (word_clean (type_words v hv).1 _) (notAt_none (clash_strip ((type_words v hv).2 w hw h) _))
  have wl : Word "long" := (type_words "long" (by decide)).1
  have wu : Word "unsigned" := (type_words "unsigned" (by decide)).1
  have ws : Word "short" := (type_words "short" (by decide)).1
  have sd : ∀ s, NotAt "double" (bytes "long" ++ s) := fun s => notAt_none (clash_strip (by decide) _)
  have sl : ∀ s, NotAt "short" (bytes "long" ++ s) := fun s => notAt_none (clash_strip (by decide) _)
  have ls : ∀ s, NotAt "long" (bytes "short" ++ s) := fun s => notAt_none (clash_strip (by decide) _)
  have hst := layout_idStart hb hne s
  have simpleCase : ∀ v ∈ baseWords, v ≠ "long" → v ≠ "unsigned" → v ≠ "float" → v ≠ "double" → v ≠ "any" → v ≠ "octet" →
      constType (bytes v ++ (b ++ s)) =
        (if "short" = v then some (.prim .i16, s) else if "int16" = v then some (.prim .i16, s) else
         if "int64" = v then some (.prim .i64, s) else
         if "int32" = v then some (.prim .i32, s) else if "int8" = v then some (.prim .i8, s) else
         if "uint16" = v then some (.prim .u16, s) else if "uint64" = v then some (.prim .u64, s) else
         if "uint32" = v then some (.prim .u32, s) else if "uint8" = v then some (.prim .u8, s) else
         if "char" = v then some (.prim .c8, s) else if "wchar" = v then some (.prim .wc, s) else
         some (.prim .bool, s)) := by
    intro v hv h1 h2 h3 h4 h5 h6
    have hv' : v ∈ "fixed" :: baseWords := List.mem_cons_of_mem _ hv
    have a := kw1 v hv'
    have l1 : ∀ x, kw2 "long" x (bytes v ++ (b ++ s)) = none := fun x => no2 v hv' "long" (by decide) (Ne.symm h1) _ _
    have l2 : ∀ x, kw2 "unsigned" x (bytes v ++ (b ++ s)) = none := fun x => no2 v hv' "unsigned" (by decide) (Ne.symm h2) _ _
    have l3 : ∀ x y, kw3 "unsigned" x y (bytes v ++ (b ++ s)) = none := fun x y => no3 v hv' "unsigned" (by decide) (Ne.symm h2) _ _ _
    have a0 := a "fixed" (by decide)
    have a1 := a "float" (by decide)
    have a2 := a "double" (by decide)
    have a3 := a "long" (by decide)
    have a4 := a "short" (by decide)
    have a5 := a "int16" (by decide)
    have a6 := a "int64" (by decide)
    have a7 := a "int32" (by decide)
    have a8 := a "int8" (by decide)
    have a9 := a "uint16" (by decide)
    have a10 := a "uint64" (by decide)
    have a11 := a "uint32" (by decide)
    have a12 := a "uint8" (by decide)
    have a13 := a "char" (by decide)
    have a14 := a "wchar" (by decide)
    have a15 := a "boolean" (by decide)
    simp only [baseWords, List.mem_cons, List.not_mem_nil, or_false] at hv
    rcases hv with h | h | h | h | h | h | h | h | h | h | h | h | h | h | h | h | h | h <;>
      first
      | exact absurd h h1
      | exact absurd h h2
      | exact absurd h h3
      | exact absurd h h4
      | exact absurd h h5
      | exact absurd h h6
      | (subst h
         simp only [constType, signedInt, unsignedInt, choice, P.or, bind_run, pure_run, a0, a1, a2, a3, a4, a5, a6, a7,
           a8, a9, a10, a11, a12, a13, a14, a15, l1, l2, l3, Option.bind_none, Option.bind_some, String.reduceEq,
           if_true, if_false])
  have longCase : ∀ s', (∀ w ∈ "fixed" :: baseWords, w ≠ "long" → kw w (bytes "long" ++ s') = none) := fun s' w hw h => no1 "long" (by decide) w hw h _
  have unsCase : ∀ s', (∀ w ∈ "fixed" :: baseWords, w ≠ "unsigned" → kw w (bytes "unsigned" ++ s') = none) := fun s' w hw h => no1 "unsigned" (by decide) w hw h _
  cases ht with
  | int8 => exact simpleCase "int8" (by decide) (by decide) (by decide) (by decide) (by decide) (by decide) (by decide)
  | uint8 => exact simpleCase "uint8" (by decide) (by decide) (by decide) (by decide) (by decide) (by decide) (by decide)
  | int16 => exact simpleCase "int16" (by decide) (by decide) (by decide) (by decide) (by decide) (by decide) (by decide)
  | uint16 => exact simpleCase "uint16" (by decide) (by decide) (by decide) (by decide) (by decide) (by decide) (by decide)
  | int32 => exact simpleCase "int32" (by decide) (by decide) (by decide) (by decide) (by decide) (by decide) (by decide)
  | uint32 => exact simpleCase "uint32" (by decide) (by decide) (by decide) (by decide) (by decide) (by decide) (by decide)
  | int64 => exact simpleCase "int64" (by decide) (by decide) (by decide) (by decide) (by decide) (by decide) (by decide)
  | uint64 => exact simpleCase "uint64" (by decide) (by decide) (by decide) (by decide) (by decide) (by decide) (by decide)
  | short => exact simpleCase "short" (by decide) (by decide) (by decide) (by decide) (by decide) (by decide) (by decide)
  | long =>
    rw [codes_bytes]
    have a := longCase (b ++ s)
    have a0 := a "fixed" (by decide) (by decide)
    have a1 := a "float" (by decide) (by decide)
    have a2 := a "double" (by decide) (by decide)
    have a3 := a "short" (by decide) (by decide)
    have a4 := a "int16" (by decide) (by decide)
    have a5 := a "int64" (by decide) (by decide)
    have b1 := kw2_second (w := "double") wl hb hne hs hd
    have b2 := kw2_second (w := "long") wl hb hne hs hl
    have b3 := kw_ok0 wl hb hs hst
    simp only [constType, signedInt, choice, P.or, bind_run, pure_run, a0, a1, a2, a3, a4, a5, b1, b2, b3, Option.bind_none, Option.bind_some]
  | @longLong w hw hwne =>
    rw [codes_bytes]
    have e : bytes "long" ++ (w ++ bytes "long") ++ (b ++ s) = bytes "long" ++ (w ++ (bytes "long" ++ (b ++ s))) := by simp
    rw [e]
    have a := longCase (w ++ (bytes "long" ++ (b ++ s)))
    have a0 := a "fixed" (by decide) (by decide)
    have a1 := a "float" (by decide) (by decide)
    have a2 := a "double" (by decide) (by decide)
    have a3 := a "short" (by decide) (by decide)
    have a4 := a "int16" (by decide) (by decide)
    have b1 := kw2_second (w := "double") wl hw hwne (word_clean wl (b ++ s)) (sd _)
    have b2 := kw2_ok wl wl (a := []) blanks_nil hw hwne hb hs hst
    rw [List.nil_append] at b2
    simp only [constType, signedInt, choice, P.or, bind_run, pure_run, a0, a1, a2, a3, a4, b1, b2, Option.bind_none, Option.bind_some]
  | @unsignedShort w hw hwne =>
    rw [codes_bytes, codes_bytes]
    have e : bytes "unsigned" ++ (w ++ bytes "short") ++ (b ++ s) = bytes "unsigned" ++ (w ++ (bytes "short" ++ (b ++ s))) := by simp
    rw [e]
    have a := unsCase (w ++ (bytes "short" ++ (b ++ s)))
    have a0 := a "fixed" (by decide) (by decide)
    have a1 := a "float" (by decide) (by decide)
    have a2 := a "double" (by decide) (by decide)
    have a3 := a "short" (by decide) (by decide)
    have a4 := a "int16" (by decide) (by decide)
    have a5 := a "int64" (by decide) (by decide)
    have a6 := a "long" (by decide) (by decide)
    have a7 := a "int32" (by decide) (by decide)
    have a8 := a "int8" (by decide) (by decide)
    have l1 : ∀ x, kw2 "long" x (bytes "unsigned" ++ (w ++ (bytes "short" ++ (b ++ s)))) = none :=
      fun x => no2 "unsigned" (by decide) "long" (by decide) (by decide) _ _
    have b2 := kw2_ok wu ws (a := []) blanks_nil hw hwne hb hs hst
    rw [List.nil_append] at b2
    simp only [constType, signedInt, unsignedInt, choice, P.or, bind_run, pure_run, a0, a1, a2, a3, a4, a5, a6, a7, a8, l1, b2, Option.bind_none, Option.bind_some]
  | @unsignedLong w hw hwne =>
    rw [codes_bytes, codes_bytes]
    have e : bytes "unsigned" ++ (w ++ bytes "long") ++ (b ++ s) = bytes "unsigned" ++ (w ++ (bytes "long" ++ (b ++ s))) := by simp
    rw [e]
    have a := unsCase (w ++ (bytes "long" ++ (b ++ s)))
    have a0 := a "fixed" (by decide) (by decide)
    have a1 := a "float" (by decide) (by decide)
    have a2 := a "double" (by decide) (by decide)
    have a3 := a "short" (by decide) (by decide)
    have a4 := a "int16" (by decide) (by decide)
    have a5 := a "int64" (by decide) (by decide)
    have a6 := a "long" (by decide) (by decide)
    have a7 := a "int32" (by decide) (by decide)
    have a8 := a "int8" (by decide) (by decide)
    have a9 := a "uint16" (by decide) (by decide)
    have a10 := a "uint64" (by decide) (by decide)
    have l1 : ∀ x, kw2 "long" x (bytes "unsigned" ++ (w ++ (bytes "long" ++ (b ++ s)))) = none :=
      fun x => no2 "unsigned" (by decide) "long" (by decide) (by decide) _ _
    have b1 := kw2_second (w := "short") wu hw hwne (word_clean wl (b ++ s)) (sl _)
    have b2 := kw3_third (w := "long") wu wl hw hwne hb hne hs hl
    have b3 := kw2_ok wu wl (a := []) blanks_nil hw hwne hb hs hst
    rw [List.nil_append] at b3
    simp only [constType, signedInt, unsignedInt, choice, P.or, bind_run, pure_run, a0, a1, a2, a3, a4, a5, a6, a7, a8, a9, a10, l1, b1, b2, b3, Option.bind_none, Option.bind_some]
  | @unsignedLongLong w w' hw hwne hw' hwne' =>
    rw [codes_bytes, codes_bytes]
    have e : bytes "unsigned" ++ (w ++ (bytes "long" ++ (w' ++ bytes "long"))) ++ (b ++ s) =
      bytes "unsigned" ++ (w ++ (bytes "long" ++ (w' ++ (bytes "long" ++ (b ++ s))))) := by simp
    rw [e]
    have a := unsCase (w ++ (bytes "long" ++ (w' ++ (bytes "long" ++ (b ++ s)))))
    have a0 := a "fixed" (by decide) (by decide)
    have a1 := a "float" (by decide) (by decide)
    have a2 := a "double" (by decide) (by decide)
    have a3 := a "short" (by decide) (by decide)
    have a4 := a "int16" (by decide) (by decide)
    have a5 := a "int64" (by decide) (by decide)
    have a6 := a "long" (by decide) (by decide)
    have a7 := a "int32" (by decide) (by decide)
    have a8 := a "int8" (by decide) (by decide)
    have a9 := a "uint16" (by decide) (by decide)
    have l1 : ∀ x, kw2 "long" x (bytes "unsigned" ++ (w ++ (bytes "long" ++ (w' ++ (bytes "long" ++ (b ++ s)))))) = none :=
      fun x => no2 "unsigned" (by decide) "long" (by decide) (by decide) _ _
    have b1 := kw2_second (w := "short") wu hw hwne (word_clean wl (w' ++ (bytes "long" ++ (b ++ s)))) (sl _)
    have b2 := kw3_ok wu wl wl hw hwne hw' hwne' hb hs hst
    simp only [constType, signedInt, unsignedInt, choice, P.or, bind_run, pure_run, a0, a1, a2, a3, a4, a5, a6, a7, a8, a9, l1, b1, b2, Option.bind_none, Option.bind_some]

/-! ## Declarations -/

/-- What the grammar makes of a declaration. -/
def Reading (d : Line) (x : Def) : Prop :=
  ∃ s e, Derives 0 s d.tokens ∧ Same (regroup s none) e ∧ x = .const (.prim d.kind) (bytes d.name) e

theorem written_ok {d : Line} {t : Bytes} (h : Written d t) {s : S} (hd : Derives 0 s d.tokens) :
    ∃ x, Reading d x ∧ (∃ c r, t = c :: r ∧ blank c = false ∧ c ≠ 47) ∧
      ∀ f b q, Layout b → Clean q → definition (f + 1) (t ++ (b ++ q)) = some (x, q) := by
  cases h with
  | @mk k n ts b0 t b1 b2 b3 x b4 hn ht hx l0 n0 l1 n1 l2 l3 l4 =>
  obtain ⟨e, he, hr⟩ := expression_ok hd hx
  refine ⟨.const (.prim k) (bytes n) e, ⟨s, e, hd, he, rfl⟩, ⟨99, _, rfl, by decide⟩, fun f b q hb hq => ?_⟩
  have hid := ident_is hn.1
  have e0 : codes "const" ++ (b0 ++ (t ++ (b1 ++ (codes n ++ (b2 ++ 61 :: (b3 ++ (x ++ (b4 ++ [59])))))))) ++ (b ++ q) =
      [] ++ (bytes "const" ++ (b0 ++ (t ++ (b1 ++ (bytes n ++ (b2 ++ 61 :: (b3 ++ (x ++ (b4 ++ 59 :: (b ++ q)))))))))) := by
    rw [codes_bytes, codes_bytes]; simp
  rw [e0]
  obtain ⟨v, hv, h1⟩ := hr b4 (b ++ q) l4
  have hrest : Head (fun c => idChar c = false) (b2 ++ 61 :: (b3 ++ (x ++ (b4 ++ 59 :: (b ++ q))))) :=
    layout_idChar l2 (by exact (by decide : idChar 61 = false))
  have hcn : Clean (bytes n ++ (b2 ++ 61 :: (b3 ++ (x ++ (b4 ++ 59 :: (b ++ q)))))) := isId_clean hid _
  have hty := constType_ok ht l1 n1 hcn (usable_notAt hn (by decide) hrest) (usable_notAt hn (by decide) hrest)
  have hct : Clean (t ++ (b1 ++ (bytes n ++ (b2 ++ 61 :: (b3 ++ (x ++ (b4 ++ 59 :: (b ++ q)))))))) := by
    cases ht <;> exact ⟨by decide, by decide⟩
  have hdcl : constDcl ([] ++ (bytes "const" ++ (b0 ++ (t ++ (b1 ++ (bytes n ++ (b2 ++ 61 :: (b3 ++ (x ++ (b4 ++ 59 :: (b ++ q))))))))))) =
      some (.const (.prim k) (bytes n) e, v ++ 59 :: (b ++ q)) := by
    unfold constDcl
    rw [bind_ok (kw_ok (dkw_words "const" (by decide)).1 blanks_nil l0 hct (layout_idStart l0 n0 _)), bind_ok hty,
      bind_ok (wsOpt_clean hcn), bind_ok (isId_read hid hrest),
      bind_ok (sym_front (w := "=") (c := 61) rfl (by decide) l2 l3 (expr_clean hd hx _)), bind_ok h1]
    rfl
  rw [definition_succ]
  exact definitionWith_ok (choice_next (moduleDcl_no (by decide) (by decide) blanks_nil _ _) (choice_first hdcl))
    (sym_front (w := ";") (c := 59) rfl (by decide) hv hb hq)

theorem lines_chain (f : Nat) : ∀ {l : List Line} {t : Bytes}, Lines l t → (∀ d ∈ l, ∃ s, Derives 0 s d.tokens) →
    ∃ b q ds, t = b ++ q ∧ Layout b ∧ Clean q ∧ List.Forall₂ Reading l ds ∧ Chain (definition (f + 1)) q ds [] := by
  intro l t h
  induction h with
  | @nil e he => exact fun _ => ⟨e, [], [], by simp, he, trivial, .nil, .nil (definition_end f)⟩
  | @cons g d t r u hg hw _ ih =>
    intro hd
    obtain ⟨b, q, ds, rfl, hb, hq, hf, hc⟩ := ih fun d h => hd d (List.mem_cons_of_mem _ h)
    obtain ⟨s, hs⟩ := hd d (by simp)
    obtain ⟨x, hx, ⟨c, r, rfl, hc1⟩, hr⟩ := written_ok hw hs
    refine ⟨g, c :: r ++ (b ++ q), x :: ds, rfl, hg, hc1, .cons hx hf, .cons (hr f b q hb hq) ?_ hc⟩
    simp; omega

theorem lines_read {l : List Line} {t : Bytes} (h : Lines l t) (hne : l ≠ []) (hd : ∀ d ∈ l, ∃ s, Derives 0 s d.tokens) :
    ∃ ds, document t = some ds ∧ List.Forall₂ Reading l ds := by
  obtain ⟨b, q, ds, e, hb, hq, hf, hc⟩ := lines_chain t.length h hd
  refine ⟨ds, ?_, hf⟩
  unfold document
  generalize t.length = f at hc ⊢
  rw [e, bind_ok (wsOpt_ok hb hq)]
  cases hc with
  | nil => cases hf; exact absurd rfl hne
  | cons h1 h2 h3 => rw [bind_ok (plus_chain h1 h3)]; rfl

/-! ## The names of an expression -/

theorem names_regroup {n : Nat} {s : S} {ts : List Tok} (h : Derives n s ts) : ∀ c,
    ∀ x ∈ names (regroup s c), .name x ∈ ts ∨ ∃ o y, c = some (o, y) ∧ x ∈ names y := by
  have fin : ∀ {e : E} {c : Option (Ops.Op × E)} {x : String}, x ∈ names (finish e c) →
      x ∈ names e ∨ ∃ o y, c = some (o, y) ∧ x ∈ names y := by
    intro e c x hx
    cases c with
    | none => exact .inl hx
    | some p =>
      rcases List.mem_append.mp hx with h | h
      · exact .inl h
      · exact .inr ⟨_, _, rfl, h⟩
  induction h with
  | lit m =>
    intro c x hx
    rcases fin hx with h | h
    · cases h
    · exact .inr h
  | name m =>
    intro c x hx
    rcases fin hx with h | h
    · rw [names, List.mem_singleton] at h; subst h; exact .inl (by simp)
    · exact .inr h
  | paren hd ih =>
    intro c x hx
    rcases fin hx with h | h
    · rcases ih none x h with h | ⟨_, _, h, _⟩
      · exact .inl (by simp [h])
      · cases h
    · exact .inr h
  | un u hd ih =>
    intro c x hx
    rcases fin hx with h | h
    · rcases ih none x h with h | ⟨_, _, h, _⟩
      · exact .inl (by simp [h])
      · cases h
    · exact .inr h
  | weaken _ _ ih => exact ih
  | @bin l r tl tr o hl hr ihl ihr =>
    intro c x hx
    have right : ∀ {x}, x ∈ names (regroup r none) → Tok.name x ∈ tl ++ .op o :: tr := by
      intro x h
      rcases ihr none x h with h | ⟨_, _, h, _⟩
      · simp [h]
      · cases h
    have left : ∀ {x}, x ∈ names (regroup l (some (o, regroup r none))) → Tok.name x ∈ tl ++ .op o :: tr := by
      intro x h
      rcases ihl _ x h with h | ⟨_, _, h, h2⟩
      · simp [h]
      · cases h; exact right h2
    cases c with
    | none => rw [regroup] at hx; exact .inl (left hx)
    | some p =>
      obtain ⟨o2, y⟩ := p
      rw [regroup] at hx
      split at hx
      · rcases ihl _ x hx with h | ⟨_, _, h, h2⟩
        · exact .inl (by simp [h])
        · cases h
          rcases List.mem_append.mp h2 with h | h
          · exact .inl (right h)
          · exact .inr ⟨_, _, rfl, h⟩
      · rcases List.mem_append.mp hx with h | h
        · exact .inl (left h)
        · exact .inr ⟨_, _, rfl, h⟩

end Verif.Idl.Syn
