import Verif.Lemmas.IdlGrammar
import Verif.Model.IdlText
import Verif.Spec.Idl
/-!
# Reading the types the generator prints
-/

namespace Verif.Idl.Syn
open Text

theorem kw_no0 {w : String} {s : Bytes} (hs : Clean s) (h : NotAt w s) : kw w s = none := by
  have e := kw_no blanks_nil hs h
  rwa [List.nil_append] at e
theorem kw2_no0 {v w : String} {s : Bytes} (hs : Clean s) (h : NotAt v s) : kw2 v w s = none := by
  have e := kw2_no (w := w) blanks_nil hs h
  rwa [List.nil_append] at e
theorem kw3_no0 {u v w : String} {s : Bytes} (hs : Clean s) (h : NotAt u s) : kw3 u v w s = none := by
  have e := kw3_no (v := v) (w := w) blanks_nil hs h
  rwa [List.nil_append] at e
theorem kw_ok0 {w : String} (hw : Word w) {b s : Bytes} (hb : Layout b) (hs : Clean s)
    (he : Head (fun c => idStart c = false) (b ++ s)) : kw w (bytes w ++ (b ++ s)) = some ((), s) := by
  have e := kw_ok hw blanks_nil hb hs he
  rwa [List.nil_append] at e

/-- Two texts differ at a place both have. -/
def clash : Bytes → Bytes → Bool
  | a :: r, b :: t => if a = b then clash r t else true
  | _, _ => false

theorem clash_strip {w v : Bytes} (h : clash w v = true) (s : Bytes) : strip w (v ++ s) = none := by
  induction w generalizing v with
  | nil => simp [clash] at h
  | cons a r ih =>
    cases v with
    | nil => simp [clash] at h
    | cons b t =>
      rw [clash] at h
      rw [List.cons_append, strip]
      split at h
      · rename_i hab; rw [if_pos hab]; exact ih h
      · rename_i hab; rw [if_neg hab]

theorem word_of {w : String} (h : (match bytes w with | c :: _ => idStart c | [] => false) = true) : Word w := by
  unfold Word
  cases e : bytes w with
  | nil => rw [e] at h; cases h
  | cons c t => rw [e] at h; exact ⟨h, by simp⟩

theorem notAt_none {w : String} {s : Bytes} (h : strip (bytes w) s = none) : NotAt w s := by
  intro r hr; rw [h] at hr; cases hr

/-- The words that begin a template type. -/
def templateWords : List String := ["map", "sequence", "string", "wstring", "fixed"]

/-- The words that begin a basic type. -/
def baseWords : List String := ["float", "double", "long", "short", "int16", "int64", "int32", "int8", "unsigned", "uint16",
  "uint64", "uint32", "uint8", "char", "wchar", "boolean", "octet", "any"]

theorem template_no {s : Bytes} (hs : Clean s) (h : ∀ w ∈ templateWords, NotAt w s) (inner : P TSpec) :
    templateType inner s = none := by
  have k : ∀ w ∈ templateWords, kw w s = none := fun w hw => kw_no0 hs (h w hw)
  have k1 := k "map" (by decide)
  have k2 := k "sequence" (by decide)
  have k3 := k "string" (by decide)
  have k4 := k "wstring" (by decide)
  have k5 := k "fixed" (by decide)
  simp only [templateType, choice, P.or, stringType, wstringType, fixedType, bind_run, k1, k2, k3, k4, k5, Option.bind_none]

theorem base_no {s : Bytes} (hs : Clean s) (h : ∀ w ∈ baseWords, NotAt w s) : baseType s = none := by
  have k : ∀ w ∈ baseWords, kw w s = none := fun w hw => kw_no0 hs (h w hw)
  have k1 := k "float" (by decide)
  have k2 := k "double" (by decide)
  have k3 := k "long" (by decide)
  have k4 := k "short" (by decide)
  have k5 := k "int16" (by decide)
  have k6 := k "int64" (by decide)
  have k7 := k "int32" (by decide)
  have k8 := k "int8" (by decide)
  have k9 := k "uint16" (by decide)
  have k10 := k "uint64" (by decide)
  have k11 := k "uint32" (by decide)
  have k12 := k "uint8" (by decide)
  have k13 := k "char" (by decide)
  have k14 := k "wchar" (by decide)
  have k15 := k "boolean" (by decide)
  have k16 := k "octet" (by decide)
  have k17 := k "any" (by decide)
  have l1 := kw2_no0 (w := "double") hs (h "long" (by decide))
  have l2 := kw2_no0 (w := "long") hs (h "long" (by decide))
  have l3 := kw2_no0 (w := "short") hs (h "unsigned" (by decide))
  have l4 := kw2_no0 (w := "long") hs (h "unsigned" (by decide))
  have l5 := kw3_no0 (v := "long") (w := "long") hs (h "unsigned" (by decide))
  simp only [baseType, signedInt, unsignedInt, choice, P.or, bind_run, k1, k2, k3, k4, k5, k6, k7, k8, k9, k10, k11, k12, k13,
    k14, k15, k16, k17, l1, l2, l3, l4, l5, Option.bind_none]

/-- The type a basic type is read as: `char16_t` and `wchar_t` have the same name. -/
def readPK : PK → PK
  | .c16 => .wc
  | k => k


theorem prim_ok (k : PK) (inner : P TSpec) {b s : Bytes} (hb : Layout b) (hs : Clean s)
    (he : Head (fun c => idChar c = false) (b ++ s)) :
    ((templateType inner).or simpleType) (bytes (primText k) ++ (b ++ s)) = some (.prim (readPK k), s) := by
  have he' : Head (fun c => idStart c = false) (b ++ s) := by
    cases hh : b ++ s with
    | nil => trivial
    | cons c r => rw [hh] at he; simp only [Head, idChar, Bool.or_eq_false_iff] at he; exact he.1
  have words : ∀ v ∈ templateWords ++ baseWords, Word v ∧
      ∀ w ∈ templateWords ++ baseWords, w ≠ v → clash (bytes w) (bytes v) = true := by
    have h : ((templateWords ++ baseWords).all fun v => (match bytes v with | c :: _ => idStart c | [] => false) &&
      (templateWords ++ baseWords).all fun w => w == v || clash (bytes w) (bytes v)) = true := by decide +kernel
    intro v hv
    have h1 := List.all_eq_true.mp h v hv
    rw [Bool.and_eq_true] at h1
    refine ⟨word_of h1.1, fun w hw hne => ?_⟩
    have h2 := List.all_eq_true.mp h1.2 w hw
    simpa [hne] using h2
  have kws : ∀ v ∈ templateWords ++ baseWords, ∀ w ∈ templateWords ++ baseWords,
      kw w (bytes v ++ (b ++ s)) = if w = v then some ((), s) else none := by
    intro v hv w hw
    split
    · rename_i h; subst h; exact kw_ok0 (words w hw).1 hb hs he'
    · rename_i h; exact kw_no0 (word_clean (words v hv).1 _) (notAt_none (clash_strip ((words v hv).2 w hw h) _))
  have kw2s : ∀ v ∈ templateWords ++ baseWords, ∀ w ∈ templateWords ++ baseWords, w ≠ v → ∀ x,
      kw2 w x (bytes v ++ (b ++ s)) = none := by
    intro v hv w hw h x
    exact kw2_no0 (word_clean (words v hv).1 _) (notAt_none (clash_strip ((words v hv).2 w hw h) _))
  have kw3s : ∀ v ∈ templateWords ++ baseWords, ∀ w ∈ templateWords ++ baseWords, w ≠ v → ∀ x y,
      kw3 w x y (bytes v ++ (b ++ s)) = none := by
    intro v hv w hw h x y
    exact kw3_no0 (word_clean (words v hv).1 _) (notAt_none (clash_strip ((words v hv).2 w hw h) _))
  have key : ∀ v ∈ baseWords, v ≠ "long" → v ≠ "unsigned" →
      ((templateType inner).or simpleType) (bytes v ++ (b ++ s)) =
        (if "float" = v then some (.prim .f32, s) else if "double" = v then some (.prim .f64, s) else
         if "short" = v then some (.prim .i16, s) else if "int16" = v then some (.prim .i16, s) else
         if "int64" = v then some (.prim .i64, s) else
         if "int32" = v then some (.prim .i32, s) else if "int8" = v then some (.prim .i8, s) else
         if "uint16" = v then some (.prim .u16, s) else if "uint64" = v then some (.prim .u64, s) else
         if "uint32" = v then some (.prim .u32, s) else if "uint8" = v then some (.prim .u8, s) else
         if "char" = v then some (.prim .c8, s) else if "wchar" = v then some (.prim .wc, s) else
         if "boolean" = v then some (.prim .bool, s) else if "octet" = v then some (.prim .u8, s) else
         some (.any, s)) := by
    intro v hv hl hu
    have hv' : v ∈ templateWords ++ baseWords := List.mem_append_right _ hv
    rw [or_second (template_no (word_clean (words v hv').1 _) (fun w hw => notAt_none (clash_strip ((words v hv').2 w
      (List.mem_append_left _ hw) (by
        have : (templateWords.all fun w => baseWords.all fun v => w ≠ v) = true := by decide +kernel
        have := List.all_eq_true.mp (List.all_eq_true.mp this w hw) v hv
        simpa using this)) _)) _)]
    have a := kws v hv'
    have l1 := kw2s v hv' "long" (by decide) (Ne.symm hl)
    have l2 := kw2s v hv' "unsigned" (by decide) (Ne.symm hu)
    have l3 := kw3s v hv' "unsigned" (by decide) (Ne.symm hu)
    have a1 := a "float" (by decide)
    have a2 := a "double" (by decide)
    have a3 := a "long" (by decide)
    have a4 := a "short" (by decide)
    have a5 := a "int16" (by decide)
    have a6 := a "int64" (by decide)
    have a7 := a "int32" (by decide)
    have a8 := a "int8" (by decide)
    have a9 := a "uint16" (by decide)
    have a10 := a "uint64" (by decide)
    have a11 := a "uint32" (by decide)
    have a12 := a "uint8" (by decide)
    have a13 := a "char" (by decide)
    have a14 := a "wchar" (by decide)
    have a15 := a "boolean" (by decide)
    have a16 := a "octet" (by decide)
    have a17 := a "any" (by decide)
    have hall : v ∈ baseWords := hv
    simp only [baseWords, List.mem_cons, List.not_mem_nil, or_false] at hall
    rcases hall with h | h | h | h | h | h | h | h | h | h | h | h | h | h | h | h | h | h <;>
      first
      | exact absurd h hl
      | exact absurd h hu
      | (subst h
         simp only [simpleType, baseType, signedInt, unsignedInt, choice, P.or, bind_run, pure_run, a1, a2, a3, a4, a5, a6, a7,
           a8, a9, a10, a11, a12, a13, a14, a15, a16, a17, l1, l2, l3, Option.bind_none, Option.bind_some, String.reduceEq,
           if_true, if_false])
  cases k with
  | f128 => 
    have hv : "long" ∈ templateWords ++ baseWords := by decide
    have e : bytes (primText .f128) ++ (b ++ s) = bytes "long" ++ ([32] ++ (bytes "double" ++ (b ++ s))) := rfl
    have hc : Clean (bytes "long" ++ ([32] ++ (bytes "double" ++ (b ++ s)))) := word_clean (words _ hv).1 _
    rw [e, or_second (template_no hc (fun w hw => notAt_none (clash_strip ((words "long" hv).2 w
      (List.mem_append_left _ hw) (by
        have : (templateWords.all fun w => w ≠ "long") = true := by decide +kernel
        have := List.all_eq_true.mp this w hw
        simpa using this)) _)) _)]
    have n : ∀ w ∈ templateWords ++ baseWords, w ≠ "long" → kw w (bytes "long" ++ ([32] ++ (bytes "double" ++ (b ++ s)))) = none :=
      fun w hw hne => kw_no0 hc (notAt_none (clash_strip ((words "long" hv).2 w hw hne) _))
    have a1 := n "float" (by decide) (by decide)
    have a2 := n "double" (by decide) (by decide)
    have a3 : kw2 "long" "double" (bytes "long" ++ ([32] ++ (bytes "double" ++ (b ++ s)))) = some ((), s) := by
      have e := kw2_ok (v := "long") (w := "double") (a := []) (b := [32]) (words _ hv).1 (words "double" (by decide)).1 blanks_nil
        (.space (by simp)) (by simp) hb hs he'
      rwa [List.nil_append] at e
    simp only [simpleType, baseType, choice, P.or, bind_run, pure_run, a1, a2, a3, Option.bind_none, Option.bind_some, readPK]
  | bool => exact key "boolean" (by decide) (by decide) (by decide)
  | i8 => exact key "int8" (by decide) (by decide) (by decide)
  | u8 => exact key "uint8" (by decide) (by decide) (by decide)
  | i16 => exact key "int16" (by decide) (by decide) (by decide)
  | u16 => exact key "uint16" (by decide) (by decide) (by decide)
  | i32 => exact key "int32" (by decide) (by decide) (by decide)
  | u32 => exact key "uint32" (by decide) (by decide) (by decide)
  | i64 => exact key "int64" (by decide) (by decide) (by decide)
  | u64 => exact key "uint64" (by decide) (by decide) (by decide)
  | f32 => exact key "float" (by decide) (by decide) (by decide)
  | f64 => exact key "double" (by decide) (by decide) (by decide)
  | c8 => exact key "char" (by decide) (by decide) (by decide)
  | c16 => exact key "wchar" (by decide) (by decide) (by decide)
  | wc => exact key "wchar" (by decide) (by decide) (by decide)
end Verif.Idl.Syn
