import Verif.Lemmas.IdlNames
import Verif.Lemmas.Inst
/-!
# Reading a type the generator prints
-/

namespace Verif.Idl.Syn
open Text

/-- The names in the text of a type can be read, and it has no pair. -/
def Named : Ty → Prop
  | .prim _ => True
  | .str _ _ => True
  | .seq c _ => Named c
  | .map k v _ => Named k ∧ Named v
  | .arr _ c _ => Named c
  | .pair _ _ => False
  | .alias n _ => TypeName n
  | .enum n _ _ => TypeName n
  | .struct n _ => TypeName n
  | .union n _ _ _ => TypeName n

/-- A bound as the generator writes it. -/
def boundText (b : Nat) : Option Dim := if b = 0 then none else some (.literal (dec b))

/-- What is read in the text of a type. -/
def specOf : Ty → TSpec
  | .prim k => .prim (readPK k)
  | .str k b => let t := if b = 0 then none else some (dec b); if k = .s8 then .string t else .wstring t
  | .seq c b => .seq (specOf c) (boundText b)
  | .map k v b => .map (specOf k) (specOf v) (boundText b)
  | .arr _ c _ => specOf c
  | .pair _ _ => .any
  | .alias n _ => .name (bytes n)
  | .enum n _ _ => .name (bytes n)
  | .struct n _ => .name (bytes n)
  | .union n _ _ _ => .name (bytes n)

/-- What follows the text of a type. -/
structure After (b s : Bytes) : Prop where
  blanks : Layout b
  clean : Clean s
  sep : Head (fun c => idChar c = false) (b ++ s)
  next : Head (fun c => c ≠ 60 ∧ c ≠ 58) s

theorem After.idStart {b s : Bytes} (h : After b s) : Head (fun c => idStart c = false) (b ++ s) := by
  have he := h.sep
  cases hh : b ++ s with
  | nil => trivial
  | cons c r => rw [hh] at he; simp only [Head, idChar, Bool.or_eq_false_iff] at he; exact he.1

theorem After.word {b s : Bytes} (h : After b s) : Head (fun c => idChar c = false ∧ c ≠ 58) (b ++ s) := by
  cases b with
  | nil =>
    have h1 := h.sep
    have h2 := h.next
    rw [List.nil_append] at *
    cases s with
    | nil => trivial
    | cons c s => exact ⟨h1, h2.2⟩
  | cons c b =>
    have h1 := h.sep
    refine ⟨h1, ?_⟩
    have hb := layout_head h.blanks
    simp only [Head] at hb
    omega

theorem wsOpt_then {k : P α} {s : Bytes} (hs : Clean s) : (wsOpt >>= fun _ => k) s = k s := bind_ok (wsOpt_clean hs)

theorem template_keyword_subset : ∀ w ∈ templateWords ++ baseWords, w ∈ keywords := by
  have h : ((templateWords ++ baseWords).all fun w => w ∈ keywords) = true := by decide +kernel
  intro w hw; simpa using List.all_eq_true.mp h w hw

theorem name_ok (n : String) (hn : TypeName n) (inner : P TSpec) {b s : Bytes} (h : After b s) :
    ((templateType inner).or simpleType) (bytes n ++ (b ++ s)) = some (.name (bytes n), b ++ s) := by
  have hc := typeName_clean hn (b ++ s)
  rw [or_second (template_no hc (fun w hw => typeName_notAt hn (template_keyword_subset w (List.mem_append_left _ hw)) h.sep) _)]
  unfold simpleType
  rw [or_second (base_no hc (fun w hw => typeName_notAt hn (template_keyword_subset w (List.mem_append_right _ hw)) h.sep))]
  rw [bind_ok (scoped_ok h.word hn)]
  rfl

theorem template_words : ∀ v ∈ templateWords, Word v ∧ ∀ w ∈ templateWords, w ≠ v → clash (bytes w) (bytes v) = true := by
  have h : (templateWords.all fun v => (match bytes v with | c :: _ => idStart c | [] => false) &&
    templateWords.all fun w => w == v || clash (bytes w) (bytes v)) = true := by decide +kernel
  intro v hv
  have h1 := List.all_eq_true.mp h v hv
  rw [Bool.and_eq_true] at h1
  refine ⟨word_of h1.1, fun w hw hne => ?_⟩
  have h2 := List.all_eq_true.mp h1.2 w hw
  simpa [hne] using h2

theorem tkw_no {v w : String} (hv : v ∈ templateWords) (hw : w ∈ templateWords) (h : w ≠ v) (s : Bytes) :
    kw w (bytes v ++ s) = none :=
  kw_no0 (word_clean (template_words v hv).1 _) (notAt_none (clash_strip ((template_words v hv).2 w hw h) _))

theorem tkw_ok {v : String} (hv : v ∈ templateWords) {b s : Bytes} (hb : Layout b) (hs : Clean s)
    (he : Head (fun c => idStart c = false) (b ++ s)) : kw v (bytes v ++ (b ++ s)) = some ((), s) :=
  kw_ok0 (template_words v hv).1 hb hs he

theorem tkw_ok' {v : String} (hv : v ∈ templateWords) {s : Bytes} (hs : Clean s)
    (he : Head (fun c => idStart c = false) s) : kw v (bytes v ++ s) = some ((), s) := by
  have := tkw_ok hv blanks_nil hs (by rwa [List.nil_append])
  rwa [List.nil_append] at this

theorem strip_head {w : String} {c : Nat} {t : Bytes} (hw : bytes w = c :: t) {s : Bytes} (h : Head (fun x => x ≠ c) s) :
    strip (bytes w) s = none := by
  rw [hw]
  cases s with
  | nil => rfl
  | cons d s => simp only [Head] at h; rw [strip, if_neg (fun x => h x.symm)]

theorem sym_no' {w : String} {c : Nat} {t : Bytes} (hw : bytes w = c :: t) {s : Bytes} (hs : Clean s)
    (h : Head (fun x => x ≠ c) s) : sym w s = none := by
  have e := sym_no (w := w) blanks_nil hs (strip_head hw h)
  rwa [List.nil_append] at e

theorem sym_at {w : String} {c : Nat} {t : Bytes} (hw : bytes w = c :: t) (hc : blank c = false ∧ c ≠ 47) {a b s : Bytes}
    (ha : Layout a) (hb : Layout b) (hs : Clean s) : sym w (a ++ (bytes w ++ (b ++ s))) = some ((), s) :=
  sym_ok (by rw [hw]; exact hc) (by rw [hw]; simp) ha hb hs

theorem blank_space : Layout [32] := .space (by simp)

theorem gt_ok {b s : Bytes} (hb : Layout b) (hs : Clean s) : sym ">" (62 :: (b ++ s)) = some ((), s) := by
  have e := sym_at (w := ">") rfl (by decide) blanks_nil hb hs
  rw [List.nil_append] at e
  have e1 : bytes ">" = [62] := rfl
  rw [e1, List.cons_append, List.nil_append] at e
  exact e

theorem lt_ok {s : Bytes} (hs : Clean s) : sym "<" (60 :: s) = some ((), s) := by
  have e := sym_at (w := "<") rfl (by decide) blanks_nil blanks_nil hs
  have e1 : bytes "<" = [60] := rfl
  rw [List.nil_append, List.nil_append, e1, List.cons_append, List.nil_append] at e
  exact e

theorem comma_ok {s : Bytes} (hs : Clean s) : sym "," (44 :: 32 :: s) = some ((), s) := by
  have e := sym_at (w := ",") rfl (by decide) blanks_nil blank_space hs
  have e1 : bytes "," = [44] := rfl
  rw [List.nil_append, e1, List.cons_append, List.nil_append, List.cons_append, List.nil_append] at e
  exact e

theorem size_ok {n : Nat} {b s : Bytes} (hb : Layout b) (hs : Clean s) :
    stringSize (60 :: (dec n ++ (62 :: (b ++ s)))) = some (dec n, s) := by
  unfold stringSize sizeText
  rw [bind_ok (lt_ok (dec_clean n _)),
    bind_ok (by rw [bind_ok (positive_ok n (by exact (by decide : idChar 62 = false)))]; rfl),
    bind_ok (gt_ok hb hs)]
  rfl

theorem string_ok {v : String} (hv : v ∈ templateWords) (n : Nat) {b s : Bytes} (h : After b s) :
    ∃ q, kw v (bytes v ++ ((if n = 0 then [] else bytes "<" ++ dec n ++ bytes ">") ++ (b ++ s))) = some ((), q) ∧
      stringSize.opt q = some (if n = 0 then none else some (dec n), s) := by
  by_cases hn : n = 0
  · refine ⟨s, ?_, ?_⟩
    · rw [if_pos hn, List.nil_append]; exact tkw_ok hv h.blanks h.clean h.idStart
    · rw [if_pos hn]
      refine opt_none (bind_no (sym_no' (w := "<") rfl h.clean ?_))
      have := h.next
      cases s with
      | nil => trivial
      | cons c s => exact this.1
  · refine ⟨60 :: (dec n ++ (62 :: (b ++ s))), ?_, ?_⟩
    · rw [if_neg hn]
      have e : (bytes "<" ++ dec n ++ bytes ">") ++ (b ++ s) = 60 :: (dec n ++ (62 :: (b ++ s))) := by
        have e1 : bytes "<" = [60] := rfl
        have e2 : bytes ">" = [62] := rfl
        rw [e1, e2]; simp
      rw [e]
      exact tkw_ok' hv (show Clean (60 :: _) from by exact (by decide : blank 60 = false ∧ 60 ≠ 47)) (show Head _ (60 :: _) from by exact (by decide : idStart 60 = false))
    · rw [if_neg hn]; exact opt_some (size_ok h.blanks h.clean)

theorem collection_ok (n : Nat) {b s : Bytes} (hb : Layout b) (hs : Clean s) :
    ∃ q, collectionSize.opt ((if n = 0 then [] else bytes ", " ++ dec n) ++ (62 :: (b ++ s))) = some (boundText n, q) ∧
      sym ">" q = some ((), s) := by
  refine ⟨62 :: (b ++ s), ?_, gt_ok hb hs⟩
  unfold boundText
  by_cases hn : n = 0
  · rw [if_pos hn, if_pos hn, List.nil_append]
    refine opt_none (bind_no (sym_no' (w := ",") rfl ?_ ?_))
    · exact (by decide : blank 62 = false ∧ 62 ≠ 47)
    · exact (by decide : 62 ≠ 44)
  · rw [if_neg hn, if_neg hn]
    refine opt_some ?_
    unfold collectionSize
    have e : (bytes ", " ++ dec n) ++ (62 :: (b ++ s)) = 44 :: 32 :: (dec n ++ (62 :: (b ++ s))) := by
      have e1 : bytes ", " = [44, 32] := rfl
      rw [e1]; simp
    rw [e, bind_ok (comma_ok (dec_clean n _))]
    exact positive_ok n (by exact (by decide : idChar 62 = false))

theorem after_bound (n : Nat) (b s : Bytes) : After [] ((if n = 0 then [] else bytes ", " ++ dec n) ++ (62 :: (b ++ s))) := by
  by_cases hn : n = 0
  · rw [if_pos hn, List.nil_append]
    exact ⟨blanks_nil, (by decide : blank 62 = false ∧ 62 ≠ 47), (by decide : idChar 62 = false), (by decide : 62 ≠ 60 ∧ 62 ≠ 58)⟩
  · rw [if_neg hn]
    exact ⟨blanks_nil, (by decide : blank 44 = false ∧ 44 ≠ 47), (by decide : idChar 44 = false), (by decide : 44 ≠ 60 ∧ 44 ≠ 58)⟩

theorem after_comma (s : Bytes) : After [] (44 :: s) :=
  ⟨blanks_nil, (by decide : blank 44 = false ∧ 44 ≠ 47), (by decide : idChar 44 = false), (by decide : 44 ≠ 60 ∧ 44 ≠ 58)⟩

theorem prim_clean (k : PK) (s : Bytes) : Clean (bytes (primText k) ++ s) := by
  cases k <;> exact ⟨by decide, by decide⟩

theorem text_clean (T : Ty) (h : Named T) (s : Bytes) : Clean (typeName T ++ s) := by
  induction T using Ty.ind generalizing s with
  | prim k => rw [typeName]; exact prim_clean k s
  | enum n w vs => rw [typeName]; exact typeName_clean h s
  | str k b =>
    rw [typeName]
    split <;> exact ⟨by decide, by decide⟩
  | seq c b ih => rw [typeName]; exact ⟨by decide, by decide⟩
  | arr n c d ih => rw [typeName]; exact ih h s
  | map k v b ih1 ih2 => rw [typeName]; exact ⟨by decide, by decide⟩
  | pair x y ih1 ih2 => exact absurd h id
  | als n t ih => rw [typeName]; exact typeName_clean h s
  | struct n ms ih => rw [typeName]; exact typeName_clean h s
  | union n d ms i ih1 ih2 => rw [typeName]; exact typeName_clean h s

theorem typeSpecFrom_succ (f : Nat) : typeSpecFrom (f + 1) =
    (do wsOpt; let t ← (templateType (typeSpecFrom f)).or simpleType; wsOpt; pure t) := rfl

/-- The part of a rule for types without the white space around it. -/
theorem spec_ok (T : Ty) (h : Named T) : ∀ (f : Nat), (typeName T).length ≤ f → ∀ {b s : Bytes}, After b s →
    ∃ q, ((templateType (typeSpecFrom f)).or simpleType) (typeName T ++ (b ++ s)) = some (specOf T, q) ∧
      wsOpt q = some ((), s) := by
  induction T using Ty.ind with
  | prim k =>
    intro f _ b s ha
    exact ⟨s, by rw [typeName]; exact prim_ok k _ ha.blanks ha.clean ha.sep, wsOpt_clean ha.clean⟩
  | enum n w vs => intro f _ b s ha; exact ⟨b ++ s, by rw [typeName]; exact name_ok n h _ ha, wsOpt_ok ha.blanks ha.clean⟩
  | als n t ih => intro f _ b s ha; exact ⟨b ++ s, by rw [typeName]; exact name_ok n h _ ha, wsOpt_ok ha.blanks ha.clean⟩
  | struct n ms ih => intro f _ b s ha; exact ⟨b ++ s, by rw [typeName]; exact name_ok n h _ ha, wsOpt_ok ha.blanks ha.clean⟩
  | union n d ms i ih1 ih2 =>
    intro f _ b s ha; exact ⟨b ++ s, by rw [typeName]; exact name_ok n h _ ha, wsOpt_ok ha.blanks ha.clean⟩
  | pair x y ih1 ih2 => exact absurd h id
  | arr n c d ih => intro f hf b s ha; rw [typeName] at *; exact ih h f hf ha
  | str k n =>
    intro f _ b s ha
    refine ⟨s, ?_, wsOpt_clean ha.clean⟩
    refine or_first ?_
    rw [typeName]
    unfold templateType choice
    by_cases hk : k = .s8
    · rw [if_pos hk, List.append_assoc]
      have hv : "string" ∈ templateWords := by decide
      obtain ⟨q, e1, e2⟩ := string_ok hv n ha
      have k1 := tkw_no hv (w := "map") (by decide) (by decide) ((if n = 0 then [] else bytes "<" ++ dec n ++ bytes ">") ++ (b ++ s))
      have k2 := tkw_no hv (w := "sequence") (by decide) (by decide) ((if n = 0 then [] else bytes "<" ++ dec n ++ bytes ">") ++ (b ++ s))
      simp only [choice, P.or, stringType, bind_run, k1, k2, e1, e2, Option.bind_none, Option.bind_some, pure_run, specOf, if_pos hk]
    · rw [if_neg hk, List.append_assoc]
      have hv : "wstring" ∈ templateWords := by decide
      obtain ⟨q, e1, e2⟩ := string_ok hv n ha
      have k1 := tkw_no hv (w := "map") (by decide) (by decide) ((if n = 0 then [] else bytes "<" ++ dec n ++ bytes ">") ++ (b ++ s))
      have k2 := tkw_no hv (w := "sequence") (by decide) (by decide) ((if n = 0 then [] else bytes "<" ++ dec n ++ bytes ">") ++ (b ++ s))
      have k3 := tkw_no hv (w := "string") (by decide) (by decide) ((if n = 0 then [] else bytes "<" ++ dec n ++ bytes ">") ++ (b ++ s))
      simp only [choice, P.or, stringType, wstringType, bind_run, k1, k2, k3, e1, e2, Option.bind_none, Option.bind_some, pure_run, specOf, if_neg hk]
  | seq c n ih =>
    intro f hf b s ha
    rw [typeName] at hf ⊢
    have hlen : (bytes "sequence<").length = 9 := rfl
    simp only [List.length_append, hlen] at hf
    cases f with
    | zero => omega
    | succ f =>
    refine ⟨s, ?_, wsOpt_clean ha.clean⟩
    refine or_first ?_
    have hv : "sequence" ∈ templateWords := by decide
    have e : (bytes "sequence<" ++ typeName c ++ (if n = 0 then [] else bytes ", " ++ dec n) ++ bytes ">") ++ (b ++ s) =
        bytes "sequence" ++ (60 :: (typeName c ++ ([] ++ ((if n = 0 then [] else bytes ", " ++ dec n) ++ (62 :: (b ++ s)))))) := by
      have e1 : bytes "sequence<" = bytes "sequence" ++ [60] := rfl
      have e2 : bytes ">" = [62] := rfl
      rw [e1, e2]; simp only [List.append_assoc, List.cons_append, List.nil_append]
    rw [e]
    obtain ⟨q, e1, e2⟩ := ih h f (by omega) (after_bound n b s)
    obtain ⟨r, e3, e4⟩ := collection_ok n ha.blanks ha.clean
    have k1 := tkw_no hv (w := "map") (by decide) (by decide)
      (60 :: (typeName c ++ ([] ++ ((if n = 0 then [] else bytes ", " ++ dec n) ++ (62 :: (b ++ s))))))
    have k2 := tkw_ok' hv
      (show Clean (60 :: (typeName c ++ ([] ++ ((if n = 0 then [] else bytes ", " ++ dec n) ++ (62 :: (b ++ s))))))
        from (by decide : blank 60 = false ∧ 60 ≠ 47)) (by decide : idStart 60 = false)
    have k3 := lt_ok (text_clean c h ([] ++ ((if n = 0 then [] else bytes ", " ++ dec n) ++ (62 :: (b ++ s)))))
    have k4 := wsOpt_clean (text_clean c h ([] ++ ((if n = 0 then [] else bytes ", " ++ dec n) ++ (62 :: (b ++ s)))))
    unfold templateType choice
    simp only [choice, P.or, typeSpecFrom_succ, bind_run, k1, k2, k3, k4, Option.bind_none, Option.bind_some, pure_run, specOf]
    rw [P.or] at e1
    simp only [e1, e2, e3, e4, Option.bind_some]
  | map k v n ih1 ih2 =>
    intro f hf b s ha
    rw [typeName] at hf ⊢
    have hlen : (bytes "map<").length = 4 := rfl
    simp only [List.length_append, hlen] at hf
    cases f with
    | zero => omega
    | succ f =>
    refine ⟨s, ?_, wsOpt_clean ha.clean⟩
    refine or_first ?_
    have hv : "map" ∈ templateWords := by decide
    have e : (bytes "map<" ++ typeName k ++ bytes ", " ++ typeName v ++ (if n = 0 then [] else bytes ", " ++ dec n) ++ bytes ">")
        ++ (b ++ s) = bytes "map" ++ (60 :: (typeName k ++ ([] ++ (44 :: 32 :: (typeName v ++ ([] ++
          ((if n = 0 then [] else bytes ", " ++ dec n) ++ (62 :: (b ++ s))))))))) := by
      have e1 : bytes "map<" = bytes "map" ++ [60] := rfl
      have e2 : bytes ">" = [62] := rfl
      have e3 : bytes ", " = [44, 32] := rfl
      rw [e1, e2, e3]; simp only [List.append_assoc, List.cons_append, List.nil_append]
    rw [e]
    obtain ⟨q1, e1, e2⟩ := ih1 h.1 f (by omega) (after_comma (32 :: (typeName v ++ ([] ++
          ((if n = 0 then [] else bytes ", " ++ dec n) ++ (62 :: (b ++ s)))))))
    obtain ⟨q2, e3, e4⟩ := ih2 h.2 f (by omega) (after_bound n b s)
    obtain ⟨r, e5, e6⟩ := collection_ok n ha.blanks ha.clean
    have k2 := tkw_ok' hv
      (show Clean (60 :: (typeName k ++ ([] ++ (44 :: 32 :: (typeName v ++ ([] ++
          ((if n = 0 then [] else bytes ", " ++ dec n) ++ (62 :: (b ++ s)))))))))
        from (by decide : blank 60 = false ∧ 60 ≠ 47)) (by decide : idStart 60 = false)
    have k3 := lt_ok (text_clean k h.1 ([] ++ (44 :: 32 :: (typeName v ++ ([] ++
          ((if n = 0 then [] else bytes ", " ++ dec n) ++ (62 :: (b ++ s))))))))
    have k4 := wsOpt_clean (text_clean k h.1 ([] ++ (44 :: 32 :: (typeName v ++ ([] ++
          ((if n = 0 then [] else bytes ", " ++ dec n) ++ (62 :: (b ++ s))))))))
    have k5 := comma_ok (text_clean v h.2 ([] ++ ((if n = 0 then [] else bytes ", " ++ dec n) ++ (62 :: (b ++ s)))))
    have k6 := wsOpt_clean (text_clean v h.2 ([] ++ ((if n = 0 then [] else bytes ", " ++ dec n) ++ (62 :: (b ++ s)))))
    unfold templateType choice
    rw [P.or] at e1 e3
    simp only [P.or, typeSpecFrom_succ, bind_run, k2, k3, k4, Option.bind_some, pure_run, specOf, e1]
    simp only [e2, Option.bind_some, k5, k6, e3, e4, e5, e6]

/-- The rule for types reads the text of a type. -/
theorem typeSpec_ok (T : Ty) (h : Named T) {b s : Bytes} (ha : After b s) :
    typeSpec (typeName T ++ (b ++ s)) = some (specOf T, s) := by
  unfold typeSpec
  rw [typeSpecFrom_succ]
  obtain ⟨q, e1, e2⟩ := spec_ok T h (typeName T ++ (b ++ s)).length (by simp) ha
  rw [bind_ok (wsOpt_clean (text_clean T h _)), bind_ok e1, bind_ok e2]
  rfl

end Verif.Idl.Syn
