import Verif.Lemmas.WriteWords
/-!
# Reading types
-/

namespace Verif.Idl.Syn
open Text Expr

/-- The words with which a type begins. -/
def typeWords : List String := templateWords ++ baseWords

theorem type_pieces : ∀ v ∈ typeWords, Word v ∧ ∀ w ∈ typeWords, w ≠ v → clash (bytes w) (bytes v) = true := by
  have h : (typeWords.all fun v => (match bytes v with | c :: _ => idStart c | [] => false) &&
    typeWords.all fun w => w == v || clash (bytes w) (bytes v)) = true := by decide +kernel
  intro v hv
  have h1 := List.all_eq_true.mp h v hv
  rw [Bool.and_eq_true] at h1
  refine ⟨word_of h1.1, fun w hw hne => ?_⟩
  have h2 := List.all_eq_true.mp h1.2 w hw
  simpa [hne] using h2

/-- What follows a type in a text: no keyword, no `<` and no colon. -/
def Goes (rest : List Piece) : Prop :=
  ∃ p ps, rest = p :: ps ∧ (∀ w ∈ keywords, Avoids w p) ∧ first rest ≠ some 60 ∧ first rest ≠ some 58

theorem goes_sign {c : Nat} {ps : List Piece} (h1 : c ≠ 60) (h2 : c ≠ 58) : Goes (.sign c :: ps) :=
  ⟨_, _, rfl, fun _ _ => trivial, fun e => h1 (Option.some.inj e), fun e => h2 (Option.some.inj e)⟩

theorem id_first {n : Bytes} (h : IsId n) (ps : List Piece) : ∃ c, first (.word n :: ps) = some c ∧ idStart c = true := by
  obtain ⟨c, r, rfl, hc, _⟩ := h
  exact ⟨c, rfl, hc⟩

theorem id_first_ne {n : Bytes} (h : IsId n) (ps : List Piece) {c : Nat} (hc : idStart c = false) : first (.word n :: ps) ≠ some c := by
  obtain ⟨x, e, hx⟩ := id_first h ps
  rw [e]
  rintro ⟨⟩
  rw [hc] at hx; cases hx

theorem goes_name {n : String} (hn : Usable n) (ps : List Piece) : Goes (.word (bytes n) :: ps) :=
  ⟨_, _, rfl, fun _ hw => avoids_usable hn hw, id_first_ne (ident_is hn.1) _ (by decide), id_first_ne (ident_is hn.1) _ (by decide)⟩

theorem pick {p : P Unit} {a : α} {s s' : Bytes} (h : p s = some ((), s')) : (do p; pure a : P α) s = some (a, s') := by
  rw [bind_ok h]; rfl

theorem pass {p : P Unit} {k : Unit → P α} {s : Bytes} (h : p s = none) : (p >>= k) s = none := bind_no h

theorem both {p q : P α} {s : Bytes} (h : p s = none) (h' : q s = none) : (p.or q) s = none := (or_second h).trans h'

theorem then_ {p q : P α} {s : Bytes} {x : Option (α × Bytes)} (h : p s = none) (h' : q s = x) : (p.or q) s = x := (or_second h).trans h'

section
variable {v : String} {ps : List Piece} {s : Bytes}

theorem kw_other (hv : v ∈ typeWords) (h : Pos (kword v :: ps) s) {w : String} (hw : w ∈ typeWords) (hne : w ≠ v) : kw w s = none :=
  p_kw_no (type_pieces w hw).1 h (avoids_kword ((type_pieces v hv).2 w hw hne))
theorem kw2_other (hv : v ∈ typeWords) (h : Pos (kword v :: ps) s) {w : String} (hw : w ∈ typeWords) (hne : w ≠ v) (x : String) :
    kw2 w x s = none := p_kw2_no (type_pieces w hw).1 h (avoids_kword ((type_pieces v hv).2 w hw hne))
theorem kw3_other (hv : v ∈ typeWords) (h : Pos (kword v :: ps) s) {w : String} (hw : w ∈ typeWords) (hne : w ≠ v) (x y : String) :
    kw3 w x y s = none := p_kw3_no (type_pieces w hw).1 h (avoids_kword ((type_pieces v hv).2 w hw hne))
end

/-- The words with which an integer type begins. -/
def intWords : List String := ["short", "int16", "long", "int64", "int32", "int8", "unsigned", "uint16", "uint64", "uint32", "uint8"]

theorem ints_no {p : Piece} {ps : List Piece} {s : Bytes} (h : Pos (p :: ps) s) (ha : ∀ w ∈ intWords, Avoids w p) :
    (signedInt.or unsignedInt) s = none := by
  have hw : ∀ w ∈ intWords, w ∈ typeWords := by decide
  have k : ∀ w ∈ intWords, kw w s = none := fun w h' => p_kw_no (type_pieces w (hw w h')).1 h (ha w h')
  have k2 : ∀ w ∈ intWords, ∀ x, kw2 w x s = none := fun w h' x => p_kw2_no (type_pieces w (hw w h')).1 h (ha w h')
  have k3 : ∀ w ∈ intWords, ∀ x y, kw3 w x y s = none := fun w h' x y => p_kw3_no (type_pieces w (hw w h')).1 h (ha w h')
  refine both ?_ ?_
  · exact choice_next (pass (both (k "short" (by decide)) (k "int16" (by decide)))) (choice_next (pass (both (k2 "long" (by decide) _)
      (k "int64" (by decide)))) (choice_next (pass (both (k "long" (by decide)) (k "int32" (by decide)))) (choice_next (pass
      (k "int8" (by decide))) rfl)))
  · exact choice_next (pass (both (k2 "unsigned" (by decide) _) (k "uint16" (by decide)))) (choice_next (pass (both
      (k3 "unsigned" (by decide) _ _) (k "uint64" (by decide)))) (choice_next (pass (both (k2 "unsigned" (by decide) _)
      (k "uint32" (by decide)))) (choice_next (pass (k "uint8" (by decide))) rfl)))

theorem signed_no {v : String} (hv : v ∈ ["uint16", "uint64", "uint32", "uint8", "unsigned"]) {ps : List Piece} {s : Bytes}
    (h : Pos (kword v :: ps) s) : signedInt s = none := by
  have hv' : v ∈ typeWords := (by decide : ∀ v ∈ ["uint16", "uint64", "uint32", "uint8", "unsigned"], v ∈ typeWords) v hv
  have hne : ∀ w ∈ ["short", "int16", "long", "int64", "int32", "int8"], w ∈ typeWords ∧ w ≠ v :=
    fun w hw => (by decide : ∀ v ∈ ["uint16", "uint64", "uint32", "uint8", "unsigned"],
      ∀ w ∈ ["short", "int16", "long", "int64", "int32", "int8"], w ∈ typeWords ∧ w ≠ v) v hv w hw
  have k : ∀ w ∈ ["short", "int16", "long", "int64", "int32", "int8"], kw w s = none := fun w hw =>
    kw_other hv' h (hne w hw).1 (hne w hw).2
  have k2 : ∀ x, kw2 "long" x s = none := fun x => kw2_other hv' h (hne "long" (by decide)).1 (hne "long" (by decide)).2 x
  exact choice_next (pass (both (k "short" (by decide)) (k "int16" (by decide)))) (choice_next (pass (both (k2 _)
      (k "int64" (by decide)))) (choice_next (pass (both (k "long" (by decide)) (k "int32" (by decide)))) (choice_next (pass
      (k "int8" (by decide))) rfl)))

/-- The spellings of integer types. -/
def intSpellings : List (PK × List String) := [(.i16, ["short"]), (.i16, ["int16"]), (.i64, ["long", "long"]), (.i64, ["int64"]),
  (.i32, ["long"]), (.i32, ["int32"]), (.i8, ["int8"]), (.u16, ["unsigned", "short"]), (.u16, ["uint16"]),
  (.u64, ["unsigned", "long", "long"]), (.u64, ["uint64"]), (.u32, ["unsigned", "long"]), (.u32, ["uint32"]), (.u8, ["uint8"])]

theorem ints_ok {k : PK} {ws : List String} (hk : (k, ws) ∈ intSpellings) {rest : List Piece} (hr : Goes rest) {s : Bytes}
    (h : Spaced (ws.map kword ++ rest) s) : ∃ s', (signedInt.or unsignedInt) s = some (.prim k, s') ∧ Spaced rest s' := by
  obtain ⟨p, ps, rfl, ha, _, _⟩ := hr
  have wd : ∀ w ∈ typeWords, Word w := fun w hw => (type_pieces w hw).1
  have hl : ∀ {w : String}, w ∈ keywords → Avoids w p := fun hw => ha _ hw
  simp only [intSpellings, List.mem_cons, List.not_mem_nil, or_false, Prod.mk.injEq] at hk
  have one : ∀ v ∈ typeWords, Spaced ([v].map kword ++ p :: ps) s → Pos (kword v :: p :: ps) s ∧
      ∃ s', kw v s = some ((), s') ∧ Spaced (p :: ps) s' := by
    intro v hv h
    have h : Spaced (kword v :: p :: ps) s := h
    exact ⟨.of h, p_kw (wd v hv) (.of h)⟩
  rcases hk with ⟨rfl, rfl⟩ | ⟨rfl, rfl⟩ | ⟨rfl, rfl⟩ | ⟨rfl, rfl⟩ | ⟨rfl, rfl⟩ | ⟨rfl, rfl⟩ | ⟨rfl, rfl⟩ | ⟨rfl, rfl⟩ |
    ⟨rfl, rfl⟩ | ⟨rfl, rfl⟩ | ⟨rfl, rfl⟩ | ⟨rfl, rfl⟩ | ⟨rfl, rfl⟩ | ⟨rfl, rfl⟩
  · obtain ⟨hp, s', e, hs⟩ := one "short" (by decide) h
    exact ⟨s', or_first (choice_first (pick (or_first e))), hs⟩
  · obtain ⟨hp, s', e, hs⟩ := one "int16" (by decide) h
    have n := fun {w} (hw : w ∈ typeWords) (hne : w ≠ "int16") => kw_other (by decide) hp hw hne
    exact ⟨s', or_first (choice_first (pick (then_ (n (w := "short") (by decide) (by decide)) e))), hs⟩
  · have h : Spaced (kword "long" :: kword "long" :: p :: ps) s := h
    have n := fun {w} (hw : w ∈ typeWords) (hne : w ≠ "long") => kw_other (by decide) (.of h) hw hne
    obtain ⟨s', e, hs⟩ := p_kw2 (wd "long" (by decide)) (wd "long" (by decide)) (.of h)
    exact ⟨s', or_first (choice_next (pass (both (n (w := "short") (by decide) (by decide)) (n (w := "int16") (by decide) (by decide))))
      (choice_first (pick (or_first e)))), hs⟩
  · obtain ⟨hp, s', e, hs⟩ := one "int64" (by decide) h
    have n := fun {w} (hw : w ∈ typeWords) (hne : w ≠ "int64") => kw_other (by decide) hp hw hne
    have l := kw2_other (by decide) hp (w := "long") (by decide) (by decide)
    exact ⟨s', or_first (choice_next (pass (both (n (w := "short") (by decide) (by decide)) (n (w := "int16") (by decide) (by decide))))
      (choice_first (pick (then_ (l _) e)))), hs⟩
  · obtain ⟨hp, s', e, hs⟩ := one "long" (by decide) h
    have h : Spaced (kword "long" :: p :: ps) s := h
    have n := fun {w} (hw : w ∈ typeWords) (hne : w ≠ "long") => kw_other (by decide) hp hw hne
    have l := p_kw2_second (w := "long") (wd "long" (by decide)) (wd "long" (by decide)) h (hl (by decide))
    exact ⟨s', or_first (choice_next (pass (both (n (w := "short") (by decide) (by decide)) (n (w := "int16") (by decide) (by decide))))
      (choice_next (pass (both l (n (w := "int64") (by decide) (by decide)))) (choice_first (pick (or_first e))))), hs⟩
  · obtain ⟨hp, s', e, hs⟩ := one "int32" (by decide) h
    have n := fun {w} (hw : w ∈ typeWords) (hne : w ≠ "int32") => kw_other (by decide) hp hw hne
    have l := kw2_other (by decide) hp (w := "long") (by decide) (by decide)
    exact ⟨s', or_first (choice_next (pass (both (n (w := "short") (by decide) (by decide)) (n (w := "int16") (by decide) (by decide))))
      (choice_next (pass (both (l _) (n (w := "int64") (by decide) (by decide)))) (choice_first (pick (then_ (n (w := "long")
      (by decide) (by decide)) e))))), hs⟩
  · obtain ⟨hp, s', e, hs⟩ := one "int8" (by decide) h
    have n := fun {w} (hw : w ∈ typeWords) (hne : w ≠ "int8") => kw_other (by decide) hp hw hne
    have l := kw2_other (by decide) hp (w := "long") (by decide) (by decide)
    exact ⟨s', or_first (choice_next (pass (both (n (w := "short") (by decide) (by decide)) (n (w := "int16") (by decide) (by decide))))
      (choice_next (pass (both (l _) (n (w := "int64") (by decide) (by decide)))) (choice_next (pass (both (n (w := "long")
      (by decide) (by decide)) (n (w := "int32") (by decide) (by decide)))) (choice_first (pick e))))), hs⟩
  · have h : Spaced (kword "unsigned" :: kword "short" :: p :: ps) s := h
    obtain ⟨s', e, hs⟩ := p_kw2 (wd "unsigned" (by decide)) (wd "short" (by decide)) (.of h)
    exact ⟨s', then_ (signed_no (by decide) (.of h)) (choice_first (pick (or_first e))), hs⟩
  · obtain ⟨hp, s', e, hs⟩ := one "uint16" (by decide) h
    have l := kw2_other (by decide) hp (w := "unsigned") (by decide) (by decide)
    exact ⟨s', then_ (signed_no (by decide) hp) (choice_first (pick (then_ (l _) e))), hs⟩
  · have h : Spaced (kword "unsigned" :: kword "long" :: kword "long" :: p :: ps) s := h
    have n := fun {w} (hw : w ∈ typeWords) (hne : w ≠ "unsigned") => kw_other (by decide) (.of h) hw hne
    have l := p_kw2_second (w := "short") (wd "unsigned" (by decide)) (wd "short" (by decide)) h (avoids_kword (by decide))
    obtain ⟨s', e, hs⟩ := p_kw3 (wd "unsigned" (by decide)) (wd "long" (by decide)) (wd "long" (by decide)) h
    exact ⟨s', then_ (signed_no (by decide) (.of h)) (choice_next (pass (both l (n (w := "uint16") (by decide) (by decide))))
      (choice_first (pick (or_first e)))), hs⟩
  · obtain ⟨hp, s', e, hs⟩ := one "uint64" (by decide) h
    have n := fun {w} (hw : w ∈ typeWords) (hne : w ≠ "uint64") => kw_other (by decide) hp hw hne
    have l := kw2_other (by decide) hp (w := "unsigned") (by decide) (by decide)
    have l3 := kw3_other (by decide) hp (w := "unsigned") (by decide) (by decide)
    exact ⟨s', then_ (signed_no (by decide) hp) (choice_next (pass (both (l _) (n (w := "uint16") (by decide) (by decide))))
      (choice_first (pick (then_ (l3 _ _) e)))), hs⟩
  · have h : Spaced (kword "unsigned" :: kword "long" :: p :: ps) s := h
    have n := fun {w} (hw : w ∈ typeWords) (hne : w ≠ "unsigned") => kw_other (by decide) (.of h) hw hne
    have l := p_kw2_second (w := "short") (wd "unsigned" (by decide)) (wd "short" (by decide)) h (avoids_kword (by decide))
    have l3 := p_kw3_third (w := "long") (wd "unsigned" (by decide)) (wd "long" (by decide)) (wd "long" (by decide)) h (hl (by decide))
    obtain ⟨s', e, hs⟩ := p_kw2 (wd "unsigned" (by decide)) (wd "long" (by decide)) (.of h)
    exact ⟨s', then_ (signed_no (by decide) (.of h)) (choice_next (pass (both l (n (w := "uint16") (by decide) (by decide))))
      (choice_next (pass (both l3 (n (w := "uint64") (by decide) (by decide)))) (choice_first (pick (or_first e))))), hs⟩
  · obtain ⟨hp, s', e, hs⟩ := one "uint32" (by decide) h
    have n := fun {w} (hw : w ∈ typeWords) (hne : w ≠ "uint32") => kw_other (by decide) hp hw hne
    have l := kw2_other (by decide) hp (w := "unsigned") (by decide) (by decide)
    have l3 := kw3_other (by decide) hp (w := "unsigned") (by decide) (by decide)
    exact ⟨s', then_ (signed_no (by decide) hp) (choice_next (pass (both (l _) (n (w := "uint16") (by decide) (by decide))))
      (choice_next (pass (both (l3 _ _) (n (w := "uint64") (by decide) (by decide)))) (choice_first (pick (then_ (l _) e))))), hs⟩
  · obtain ⟨hp, s', e, hs⟩ := one "uint8" (by decide) h
    have n := fun {w} (hw : w ∈ typeWords) (hne : w ≠ "uint8") => kw_other (by decide) hp hw hne
    have l := kw2_other (by decide) hp (w := "unsigned") (by decide) (by decide)
    have l3 := kw3_other (by decide) hp (w := "unsigned") (by decide) (by decide)
    exact ⟨s', then_ (signed_no (by decide) hp) (choice_next (pass (both (l _) (n (w := "uint16") (by decide) (by decide))))
      (choice_next (pass (both (l3 _ _) (n (w := "uint64") (by decide) (by decide)))) (choice_next (pass (both (l _)
      (n (w := "uint32") (by decide) (by decide)))) (choice_first (pick e))))), hs⟩

/-- The spellings of the other basic types. -/
def otherSpellings : List (PK × List String) := [(.f32, ["float"]), (.f64, ["double"]), (.f128, ["long", "double"]), (.u8, ["octet"]),
  (.c8, ["char"]), (.wc, ["wchar"]), (.bool, ["boolean"])]

theorem spelling_cases {k : PK} {ws : List String} (h : ws ∈ spellings k) : (k, ws) ∈ intSpellings ∨ (k, ws) ∈ otherSpellings := by
  cases k <;> simp only [spellings, List.mem_cons, List.not_mem_nil, or_false] at h
  all_goals
    first
    | (subst h; decide)
    | (rcases h with rfl | rfl <;> decide)

/-- The first word of a basic type is no other word of a type, and no integer type is read at another one. -/
theorem single_no {v : String} (hv : v ∈ typeWords) (hn : v ∉ intWords) {ps : List Piece} {s : Bytes} (h : Pos (kword v :: ps) s) :
    (signedInt.or unsignedInt) s = none := by
  refine ints_no h fun w hw => avoids_kword ((type_pieces v hv).2 w ((by decide : ∀ w ∈ intWords, w ∈ typeWords) w hw) ?_)
  rintro rfl
  exact hn hw

/-- An integer type is not `long double`, nor one of the single words. -/
theorem int_front {k : PK} {ws : List String} (hk : (k, ws) ∈ intSpellings) {rest : List Piece} (hr : Goes rest) {s : Bytes}
    (h : Spaced (ws.map kword ++ rest) s) :
    (∃ v ∈ intWords, ∃ ps, Pos (kword v :: ps) s) ∧ kw2 "long" "double" s = none := by
  obtain ⟨p, ps, rfl, ha, _, _⟩ := hr
  have wd : ∀ w ∈ typeWords, Word w := fun w hw => (type_pieces w hw).1
  cases ws with
  | nil => exact absurd hk (by cases k <;> decide)
  | cons v ws =>
    have hv : v ∈ intWords := by
      have : ∀ x ∈ intSpellings, ∀ v ws, x.2 = v :: ws → v ∈ intWords := by
        have : (intSpellings.all fun x => match x.2 with | v :: _ => v ∈ intWords | [] => true) = true := by decide
        intro x hx v ws e
        have := List.all_eq_true.mp this x hx
        rw [e] at this
        simpa using this
      exact this _ hk v ws rfl
    have h' : Pos (kword v :: (ws.map kword ++ p :: ps)) s := .of h
    refine ⟨⟨v, hv, _, h'⟩, ?_⟩
    by_cases hl : v = "long"
    · subst hl
      have hws : ws = [] ∨ ws = ["long"] := by
        have : ∀ x ∈ intSpellings, ∀ ws, x.2 = "long" :: ws → ws = [] ∨ ws = ["long"] := by
          have : (intSpellings.all fun x => match x.2 with | v :: r => v != "long" || r == [] || r == ["long"] | [] => true) = true := by
            decide
          intro x hx ws e
          have := List.all_eq_true.mp this x hx
          rw [e] at this
          simpa using this
        exact this _ hk ws rfl
      rcases hws with rfl | rfl
      · have h : Spaced (kword "long" :: p :: ps) s := h
        exact p_kw2_second (wd "long" (by decide)) (wd "double" (by decide)) h (ha _ (by decide))
      · have h : Spaced (kword "long" :: kword "long" :: p :: ps) s := h
        exact p_kw2_second (wd "long" (by decide)) (wd "double" (by decide)) h (avoids_kword (by decide))
    · exact kw2_other ((by decide : ∀ w ∈ intWords, w ∈ typeWords) v hv) h' (by decide) (Ne.symm hl) _

theorem base_ok {k : PK} {ws : List String} (hk : ws ∈ spellings k) {rest : List Piece} (hr : Goes rest) {s : Bytes}
    (h : Spaced (ws.map kword ++ rest) s) : ∃ s', baseType s = some (.prim k, s') ∧ Spaced rest s' := by
  rcases spelling_cases hk with hi | ho
  · obtain ⟨⟨v, hv, ps, hp⟩, hd⟩ := int_front hi hr h
    have hv' : v ∈ typeWords := (by decide : ∀ w ∈ intWords, w ∈ typeWords) v hv
    have ne : ∀ w ∈ ["float", "double"], w ≠ v := fun w hw => (by decide : ∀ v ∈ intWords, ∀ w ∈ ["float", "double"], w ≠ v) v hv w hw
    obtain ⟨s', e, hs⟩ := ints_ok hi hr h
    exact ⟨s', choice_next (pass (kw_other hv' hp (by decide) (ne "float" (by decide)))) (choice_next (pass (kw_other hv' hp
      (by decide) (ne "double" (by decide)))) (choice_next (pass hd) (choice_first e))), hs⟩
  · have wd : ∀ w ∈ typeWords, Word w := fun w hw => (type_pieces w hw).1
    have one : ∀ v ∈ typeWords, Spaced ([v].map kword ++ rest) s → Pos (kword v :: rest) s ∧
        ∃ s', kw v s = some ((), s') ∧ Spaced rest s' := by
      intro v hv h
      have h : Spaced (kword v :: rest) s := h
      exact ⟨.of h, p_kw (wd v hv) (.of h)⟩
    simp only [otherSpellings, List.mem_cons, List.not_mem_nil, or_false, Prod.mk.injEq] at ho
    rcases ho with ⟨rfl, rfl⟩ | ⟨rfl, rfl⟩ | ⟨rfl, rfl⟩ | ⟨rfl, rfl⟩ | ⟨rfl, rfl⟩ | ⟨rfl, rfl⟩ | ⟨rfl, rfl⟩
    · obtain ⟨hp, s', e, hs⟩ := one "float" (by decide) h
      exact ⟨s', choice_first (pick e), hs⟩
    · obtain ⟨hp, s', e, hs⟩ := one "double" (by decide) h
      have n := fun {w} (hw : w ∈ typeWords) (hne : w ≠ "double") => kw_other (by decide) hp hw hne
      exact ⟨s', choice_next (pass (n (w := "float") (by decide) (by decide))) (choice_first (pick e)), hs⟩
    · have h : Spaced (kword "long" :: kword "double" :: rest) s := h
      have n := fun {w} (hw : w ∈ typeWords) (hne : w ≠ "long") => kw_other (by decide) (.of h) hw hne
      obtain ⟨s', e, hs⟩ := p_kw2 (wd "long" (by decide)) (wd "double" (by decide)) (.of h)
      exact ⟨s', choice_next (pass (n (w := "float") (by decide) (by decide))) (choice_next (pass (n (w := "double")
        (by decide) (by decide))) (choice_first (pick e))), hs⟩
    all_goals
      obtain ⟨hp, s', e, hs⟩ := one _ (by decide) h
      refine ⟨s', choice_next (pass (kw_other (by decide) hp (by decide) (by decide))) (choice_next (pass (kw_other
        (by decide) hp (by decide) (by decide))) (choice_next (pass (kw2_other (by decide) hp (w := "long")
        (by decide) (by decide) _)) (choice_next (single_no (by decide) (by decide) hp) ?_))), hs⟩
    · exact choice_next (pass (kw_other (by decide) hp (by decide) (by decide))) (choice_next (pass (kw_other (by decide) hp
        (by decide) (by decide))) (choice_next (pass (kw_other (by decide) hp (by decide) (by decide))) (choice_first (pick e))))
    · exact choice_first (pick e)
    · exact choice_next (pass (kw_other (by decide) hp (by decide) (by decide))) (choice_first (pick e))
    · exact choice_next (pass (kw_other (by decide) hp (by decide) (by decide))) (choice_next (pass (kw_other (by decide) hp
        (by decide) (by decide))) (choice_first (pick e)))

/-- The words of a basic type. -/
theorem spelling_front {k : PK} {ws : List String} (hk : ws ∈ spellings k) : ∃ v r, ws = v :: r ∧ v ∈ baseWords := by
  have : (∀ x ∈ intSpellings ++ otherSpellings, ∃ v r, x.2 = v :: r ∧ v ∈ baseWords) := by
    have : ((intSpellings ++ otherSpellings).all fun x => match x.2 with | v :: _ => v ∈ baseWords | [] => false) = true := by decide
    intro x hx
    have := List.all_eq_true.mp this x hx
    cases e : x.2 with
    | nil => rw [e] at this; cases this
    | cons v r => rw [e] at this; exact ⟨v, r, rfl, by simpa using this⟩
  exact this (k, ws) (List.mem_append.mpr (spelling_cases hk))

/-- The first piece of a type: a name or a word for types. -/
theorem type_front {T : TSpec} {ps : List Piece} (h : TypePieces T ps) : ∃ p r, ps = p :: r ∧
    ((∃ v ∈ typeWords, p = kword v) ∨ ∃ n, TypeName n ∧ p = .word (bytes n)) := by
  cases h with
  | prim h =>
    obtain ⟨v, r, rfl, hv⟩ := spelling_front h
    exact ⟨_, _, rfl, .inl ⟨v, List.mem_append_right _ hv, rfl⟩⟩
  | name h => exact ⟨_, _, rfl, .inr ⟨_, h, rfl⟩⟩
  | string => exact ⟨_, _, rfl, .inl ⟨"string", by decide, rfl⟩⟩
  | stringSize _ => exact ⟨_, _, rfl, .inl ⟨"string", by decide, rfl⟩⟩
  | wstring => exact ⟨_, _, rfl, .inl ⟨"wstring", by decide, rfl⟩⟩
  | wstringSize _ => exact ⟨_, _, rfl, .inl ⟨"wstring", by decide, rfl⟩⟩
  | seq _ _ => exact ⟨_, _, rfl, .inl ⟨"sequence", by decide, rfl⟩⟩
  | map _ _ _ => exact ⟨_, _, rfl, .inl ⟨"map", by decide, rfl⟩⟩

theorem maybeSize_ok {d : Option Dim} {qs : List Piece} (h : MaybeSize d qs) {rest : List Piece} {s : Bytes}
    (hs : Pos (qs ++ .sign 62 :: rest) s) : ∃ s', collectionSize.opt s = some (d, s') ∧ Pos (.sign 62 :: rest) s' := by
  cases h with
  | none =>
    refine ⟨s, opt_none (bind_no (p_sym_no (w := ",") (c := 44) rfl hs ?_)), hs⟩
    exact (by decide : some 62 ≠ some 44)
  | some hd =>
    obtain ⟨s1, e1, h1⟩ := p_sym (w := ",") (c := 44) rfl hs
    obtain ⟨s2, e2, h2⟩ := p_size hd h1 (by decide)
    exact ⟨s2, opt_some (by unfold collectionSize; rw [bind_ok e1, e2]), h2⟩

theorem stringSize_ok {t : Bytes} (ht : TextSize t) {rest : List Piece} {s : Bytes}
    (h : Pos (.sign 60 :: .word t :: .sign 62 :: rest) s) : ∃ s', stringSize s = some (t, s') ∧ Spaced rest s' := by
  obtain ⟨s1, e1, h1⟩ := p_sym (w := "<") (c := 60) rfl h
  obtain ⟨s2, e2, h2⟩ := p_sizeText ht h1 (by decide)
  obtain ⟨s3, e3, h3⟩ := p_sym (w := ">") (c := 62) rfl h2
  refine ⟨s3, ?_, h3⟩
  unfold stringSize
  rw [bind_ok e1, bind_ok e2, bind_ok e3]
  rfl

theorem stringType_ok {v : String} (hw : v ∈ typeWords) {o : Option Bytes} {qs : List Piece}
    (hq : o = none ∧ qs = [] ∨ ∃ t, o = some t ∧ TextSize t ∧ qs = [.sign 60, .word t, .sign 62]) {rest : List Piece} (hr : Goes rest)
    {s : Bytes} (h : Pos (kword v :: (qs ++ rest)) s) (f : Option Bytes → TSpec) :
    ∃ s', (do kw v; let t ← stringSize.opt; pure (f t) : P TSpec) s = some (f o, s') ∧ Spaced rest s' := by
  obtain ⟨s1, e1, h1⟩ := p_kw (type_pieces v hw).1 h
  rcases hq with ⟨rfl, rfl⟩ | ⟨t, rfl, ht, rfl⟩
  · obtain ⟨p, ps, rfl, _, h60, _⟩ := hr
    refine ⟨s1, ?_, h1⟩
    have e2 : stringSize s1 = none := bind_no (p_sym_no (w := "<") (c := 60) rfl (.of h1) h60)
    rw [bind_ok e1, bind_ok (opt_none e2)]
    rfl
  · obtain ⟨s2, e2, h2⟩ := stringSize_ok ht (.of h1)
    refine ⟨s2, ?_, h2⟩
    rw [bind_ok e1, bind_ok (opt_some e2)]
    rfl

theorem typeSpec_of {f : Nat} {T : TSpec} {rest : List Piece} {s : Bytes} {ps : List Piece}
    (ih : ∀ {s : Bytes}, Spaced (ps ++ rest) s → ∃ s', ((templateType (typeSpecFrom f)).or simpleType) s = some (T, s') ∧ Pos rest s')
    (h : Pos (ps ++ rest) s) : ∃ s', typeSpecFrom (f + 1) s = some (T, s') ∧ Spaced rest s' := by
  obtain ⟨s1, e1, h1⟩ := pos_ws h
  obtain ⟨s2, e2, h2⟩ := ih h1
  obtain ⟨s3, e3, h3⟩ := pos_ws h2
  refine ⟨s3, ?_, h3⟩
  rw [typeSpecFrom_succ, bind_ok e1, bind_ok e2, bind_ok e3]
  rfl

/-- A type is read, whatever follows. -/
theorem type_ok {T : TSpec} {ps : List Piece} (hT : TypePieces T ps) : ∀ {rest : List Piece}, Goes rest → ∀ (f : Nat), ps.length ≤ f + 1 →
    ∀ {s : Bytes}, Spaced (ps ++ rest) s →
    ∃ s', ((templateType (typeSpecFrom f)).or simpleType) s = some (T, s') ∧ Pos rest s' := by
  induction hT with
  | @prim k ws hk =>
    intro rest hr f hf s h
    obtain ⟨s', e, hs⟩ := base_ok hk hr h
    refine ⟨s', ?_, .of hs⟩
    obtain ⟨v, r, rfl, hv⟩ := spelling_front hk
    have hv' : v ∈ typeWords := List.mem_append_right _ hv
    have hne : ∀ w ∈ templateWords, w ≠ v := fun w hw => (by decide : ∀ v ∈ baseWords, ∀ w ∈ templateWords, w ≠ v) v hv w hw
    have h' : Spaced (kword v :: (r.map kword ++ rest)) s := h
    refine then_ (template_no (spaced_clean h) (fun w hw => avoid_piece (template_words w hw).1 h' (avoids_kword
      ((type_pieces v hv').2 w (List.mem_append_left _ hw) (hne w hw)))) _) ?_
    exact or_first e
  | @name n hn =>
    intro rest hr f hf s h
    have h : Spaced (.word (bytes n) :: rest) s := h
    obtain ⟨p, ps, rfl, _, _, h58⟩ := hr
    obtain ⟨s', e, hs⟩ := p_scoped hn h h58
    refine ⟨s', ?_, hs⟩
    refine then_ (template_no (spaced_clean h) (fun w hw => avoid_piece (template_words w hw).1 h (avoids_name hn
      (template_keyword_subset w (List.mem_append_left _ hw)))) _) ?_
    refine then_ (base_no (spaced_clean h) (fun w hw => avoid_piece (type_pieces w (List.mem_append_right _ hw)).1 h (avoids_name hn
      (template_keyword_subset w (List.mem_append_right _ hw))))) ?_
    rw [bind_ok e]; rfl
  | string =>
    intro rest hr f hf s h
    have hp : Pos (kword "string" :: ([] ++ rest)) s := .of h
    obtain ⟨s', e, hs⟩ := stringType_ok (by decide) (.inl ⟨rfl, rfl⟩) hr hp .string
    exact ⟨s', or_first (choice_next (bind_no (kw_other (by decide) hp (by decide) (by decide))) (choice_next (bind_no (kw_other (by decide) hp
      (by decide) (by decide))) (choice_first e))), .of hs⟩
  | @stringSize t ht =>
    intro rest hr f hf s h
    have hp : Pos (kword "string" :: ([.sign 60, .word t, .sign 62] ++ rest)) s := .of h
    obtain ⟨s', e, hs⟩ := stringType_ok (by decide) (.inr ⟨t, rfl, ht, rfl⟩) hr hp .string
    exact ⟨s', or_first (choice_next (bind_no (kw_other (by decide) hp (by decide) (by decide))) (choice_next (bind_no (kw_other (by decide) hp
      (by decide) (by decide))) (choice_first e))), .of hs⟩
  | wstring =>
    intro rest hr f hf s h
    have hp : Pos (kword "wstring" :: ([] ++ rest)) s := .of h
    obtain ⟨s', e, hs⟩ := stringType_ok (by decide) (.inl ⟨rfl, rfl⟩) hr hp .wstring
    exact ⟨s', or_first (choice_next (bind_no (kw_other (by decide) hp (by decide) (by decide))) (choice_next (bind_no (kw_other (by decide) hp
      (by decide) (by decide))) (choice_next (bind_no (kw_other (by decide) hp (by decide) (by decide))) (choice_first e)))), .of hs⟩
  | @wstringSize t ht =>
    intro rest hr f hf s h
    have hp : Pos (kword "wstring" :: ([.sign 60, .word t, .sign 62] ++ rest)) s := .of h
    obtain ⟨s', e, hs⟩ := stringType_ok (by decide) (.inr ⟨t, rfl, ht, rfl⟩) hr hp .wstring
    exact ⟨s', or_first (choice_next (bind_no (kw_other (by decide) hp (by decide) (by decide))) (choice_next (bind_no (kw_other (by decide) hp
      (by decide) (by decide))) (choice_next (bind_no (kw_other (by decide) hp (by decide) (by decide))) (choice_first e)))), .of hs⟩
  | @seq t ps d qs hT hd ih =>
    intro rest hr f hf s h
    have e0 : (kword "sequence" :: .sign 60 :: (ps ++ (qs ++ [.sign 62]))) ++ rest =
        kword "sequence" :: .sign 60 :: (ps ++ (qs ++ .sign 62 :: rest)) := by simp
    rw [e0] at h
    have hp : Pos _ s := .of h
    obtain ⟨s1, e1, h1⟩ := p_kw (type_pieces "sequence" (by decide)).1 hp
    obtain ⟨s2, e2, h2⟩ := p_sym (w := "<") (c := 60) rfl (.of h1)
    have hg : Goes (qs ++ .sign 62 :: rest) := by
      cases hd with
      | none => exact goes_sign (by decide) (by decide)
      | some _ => exact goes_sign (by decide) (by decide)
    simp only [List.length_cons, List.length_append] at hf
    obtain ⟨f, rfl⟩ : ∃ g, f = g + 1 := ⟨f - 1, by omega⟩
    obtain ⟨s3, e3, h3⟩ := typeSpec_of (f := f) (ih hg f (by omega)) (.of h2)
    obtain ⟨s4, e4, h4⟩ := maybeSize_ok hd (.of h3)
    obtain ⟨s5, e5, h5⟩ := p_sym (w := ">") (c := 62) rfl h4
    refine ⟨s5, or_first (choice_next (bind_no (kw_other (by decide) hp (by decide) (by decide))) (choice_first ?_)), .of h5⟩
    rw [bind_ok e1, bind_ok e2, bind_ok e3, bind_ok e4, bind_ok e5]
    rfl
  | @map k ps v rs d qs hK hV hd ih1 ih2 =>
    intro rest hr f hf s h
    have e0 : (kword "map" :: .sign 60 :: (ps ++ .sign 44 :: (rs ++ (qs ++ [.sign 62])))) ++ rest =
        kword "map" :: .sign 60 :: (ps ++ .sign 44 :: (rs ++ (qs ++ .sign 62 :: rest))) := by simp
    rw [e0] at h
    obtain ⟨s1, e1, h1⟩ := p_kw (type_pieces "map" (by decide)).1 (.of h)
    obtain ⟨s2, e2, h2⟩ := p_sym (w := "<") (c := 60) rfl (.of h1)
    have hg : Goes (qs ++ .sign 62 :: rest) := by
      cases hd with
      | none => exact goes_sign (by decide) (by decide)
      | some _ => exact goes_sign (by decide) (by decide)
    simp only [List.length_cons, List.length_append] at hf
    obtain ⟨f, rfl⟩ : ∃ g, f = g + 1 := ⟨f - 1, by omega⟩
    obtain ⟨s3, e3, h3⟩ := typeSpec_of (f := f) (ih1 (goes_sign (by decide) (by decide)) f (by omega)) (.of h2)
    obtain ⟨s4, e4, h4⟩ := p_sym (w := ",") (c := 44) rfl (.of h3)
    obtain ⟨s5, e5, h5⟩ := typeSpec_of (f := f) (ih2 hg f (by omega)) (.of h4)
    obtain ⟨s6, e6, h6⟩ := maybeSize_ok hd (.of h5)
    obtain ⟨s7, e7, h7⟩ := p_sym (w := ">") (c := 62) rfl h6
    refine ⟨s7, or_first (choice_first ?_), .of h7⟩
    rw [bind_ok e1, bind_ok e2, bind_ok e3, bind_ok e4, bind_ok e5, bind_ok e6, bind_ok e7]
    rfl

theorem typeSpec_written {T : TSpec} {ps : List Piece} (hT : TypePieces T ps) {rest : List Piece} (hr : Goes rest) {s : Bytes}
    (h : Pos (ps ++ rest) s) : ∃ s', typeSpec s = some (T, s') ∧ Spaced rest s' := by
  have hl := pos_length h
  rw [List.length_append] at hl
  exact typeSpec_of (type_ok hT hr s.length (by omega)) h

end Verif.Idl.Syn
