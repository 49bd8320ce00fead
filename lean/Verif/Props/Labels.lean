import Verif.Spec.Labels
import Verif.Lemmas.Text
import Verif.Lemmas.UnionWF
/-!
# Union labels and their text (C48)
-/

namespace Verif.Text

open Inst

theorem bytes_inj {a b : String} (h : bytes a = bytes b) : a = b := by
  unfold bytes at h
  have hc : ∀ x y : Char, x.toNat = y.toNat → x = y := fun x y h => Char.ext (UInt32.toNat_inj.mp h)
  have : ∀ l l' : List Char, l.map Char.toNat = l'.map Char.toNat → l = l' := by
    intro l
    induction l with
    | nil => intro l' h; cases l' with
      | nil => rfl
      | cons c r => cases h
    | cons c r ih => intro l' h; cases l' with
      | nil => cases h
      | cons c' r' =>
        simp only [List.map_cons, List.cons.injEq] at h
        rw [hc _ _ h.1, ih _ h.2]
  exact String.toList_injective (this _ _ h)

/-- The label as `size_t` when it is not negative. -/
theorem toNat_label {v : Int} (h1 : 0 ≤ v) (h2 : v < 2 ^ 64) : ((v % 2 ^ 64).toNat : Int) = v := by
  rw [Int.emod_eq_of_lt h1 h2]; exact Int.toNat_of_nonneg h1

theorem dec_ne_default (n : Nat) : dec n ≠ bytes "default" := by
  obtain ⟨d, t, h, hd, -⟩ := dec_head n
  rw [h, show bytes "default" = 100 :: bytes "efault" by decide]
  intro e
  simp only [List.cons.injEq] at e
  omega

theorem quoted_append (a : List Nat) (h : ∀ c ∈ a, c ≠ 39) (r : List Nat) : quoted (a ++ 39 :: r) = r.headD 0 := by
  unfold quoted
  have : (a ++ 39 :: r).dropWhile (· ≠ 39) = 39 :: r := by
    induction a with
    | nil => rfl
    | cons c a ih =>
      rw [List.cons_append, List.dropWhile_cons, if_pos (by simpa using h c (by simp))]
      exact ih (fun c hc => h c (List.mem_cons_of_mem _ hc))
  rw [this]

/-- A character that can be printed comes back. -/
theorem wide_roundtrip {n : Nat} {b : Bytes} (hn : n < 2 ^ 16) (h : utf8 n = some b) :
    (utf16 (bytes "L'" ++ b ++ bytes "'")).map
      (fun u => ((if (bytes "L'" ++ b ++ bytes "'").length = 1 then u.headD 0 else quoted u : Nat) : Int)) = some (n : Int) := by
  have e1 : bytes "L'" = [76, 39] := by decide
  have e2 : bytes "'" = [39] := by decide
  have e3 : utf16 (bytes "L'" ++ b ++ bytes "'") = some [76, 39, n, 39] := by
    rw [e1, e2, List.append_assoc]
    show utf16 (76 :: 39 :: (b ++ [39])) = _
    have h39 : utf16 [39] = some [39] := by decide
    have hb := utf16_utf8 hn h [39]
    rw [h39] at hb
    conv => lhs; unfold utf16
    rw [if_pos (by omega)]
    conv => lhs; unfold utf16
    rw [if_pos (by omega), hb]
    rfl
  have hlen : ¬ (bytes "L'" ++ b ++ bytes "'").length = 1 := by rw [e1, e2]; simp
  simp only [e3, if_neg hlen, Option.map_some]
  have := quoted_append [76] (by simp) [n, 39]
  rw [show ([76, 39, n, 39] : List Nat) = [76] ++ 39 :: [n, 39] from rfl, this]
  rfl

theorem utf8_none {u : Nat} (hu : u < 2 ^ 16) : utf8 u = none ↔ (0xD800 ≤ u ∧ u ≤ 0xDFFF) := by
  unfold utf8
  split
  · simp; omega
  · split
    · simp; omega
    · split
      · simp; assumption
      · simp; omega

/-- What printing and parsing one label gives. -/
def reparsed (disc : Ty) (v : Int) : Option Int :=
  (labelValue v disc).bind fun s => if s = bytes "default" then none else (parseLabel disc s).map (kept disc)

theorem roundTrip_single (disc : Ty) (v : Int) : RoundTrip disc [v] ↔ reparsed disc v = some v := by
  unfold RoundTrip reparsed
  constructor
  · rintro ⟨ss, ws, h1, h2, h3⟩
    simp only [List.mapM_cons, List.mapM_nil, Option.bind_eq_bind, Option.pure_def, Option.bind_some] at h1
    cases hl : labelValue v disc with
    | none => rw [hl] at h1; cases h1
    | some s =>
      rw [hl] at h1
      cases h1
      rw [Option.bind_some]
      simp only [parseLabels] at h2
      split at h2
      · simp [parseLabels] at h2
      · rename_i hd
        rw [if_neg hd]
        cases hp : parseLabel disc s with
        | none => rw [hp] at h2; cases h2
        | some w =>
          rw [hp] at h2
          simp only [parseLabels, List.nil_append, Option.some.injEq, Prod.mk.injEq, true_and] at h2
          subst h2
          simpa using h3
  · intro h
    cases hl : labelValue v disc with
    | none => rw [hl] at h; cases h
    | some s =>
      rw [hl, Option.bind_some] at h
      split at h
      · cases h
      · rename_i hd
        cases hp : parseLabel disc s with
        | none => rw [hp] at h; cases h
        | some w =>
          rw [hp, Option.map_some, Option.some.injEq] at h
          refine ⟨[s], [w], ?_, ?_, ?_⟩
          · simp [hl]
          · simp [parseLabels, hd, hp]
          · simp [h]

theorem c8_quoted (n : Nat) : quoted (bytes "'" ++ [n] ++ bytes "'") = n := by
  have e2 : bytes "'" = [39] := by decide
  rw [e2]; exact quoted_append [] (by simp) [n, 39]

theorem kept_narrow {disc : Ty} {k : PK} (hd : disc.rget = .prim k) {s : Nat} (hk : k.size = s) (hs : s = 1 ∨ s = 2 ∨ s = 4)
    (v : Int) : kept disc v = v % 2 ^ (8 * s) := by
  unfold kept
  rw [← Ty.rget_memSize, hd]
  show shrinkLabel v k.size = _
  rw [hk]
  exact shrinkLabel_narrow v s hs

theorem kept_wide {disc : Ty} {k : PK} (hd : disc.rget = .prim k) (hk : k.size = 8) {v : Int} (h1 : -2 ^ 63 ≤ v)
    (h2 : v < 2 ^ 63) : kept disc v = v := by
  unfold kept
  rw [← Ty.rget_memSize, hd]
  show shrinkLabel v k.size = _
  rw [hk, shrinkLabel_wide]
  split <;> omega

/-- What printing and parsing makes of the labels of a primitive discriminator. -/
theorem reparsed_prim {disc : Ty} {k : PK} (hd : disc.rget = .prim k) {v : Int} (hl : IsLabel disc v) :
    reparsed disc v = some v ↔ Survives disc v := by
  have hndef : ∀ n, ¬ dec n = bytes "default" := dec_ne_default
  have hq : ∀ b : Bytes, ¬ bytes "L'" ++ b ++ bytes "'" = bytes "default" := by
    intro b h
    rw [show bytes "L'" = [76, 39] by decide, show bytes "default" = 100 :: bytes "efault" by decide] at h
    simp at h
  unfold reparsed labelValue parseLabel
  unfold IsLabel at hl
  unfold Survives
  rw [hd] at hl ⊢
  have hwide : ∀ v : Int, 0 ≤ v → v < 2 ^ 32 → ∀ f : Int → Int, (∀ n : Int, 0 ≤ n → n < 2 ^ 16 → f n = n) →
      ((((utf8 ((v % 2 ^ 64).toNat % 2 ^ 16)).map fun u => bytes "L'" ++ u ++ bytes "'").bind fun s =>
        if s = bytes "default" then none else
          ((utf16 s).map fun u => ((if s.length = 1 then u.headD 0 else quoted u : Nat) : Int)).map f) = some v ↔
      v < 2 ^ 16 ∧ ¬ (0xD800 ≤ v ∧ v ≤ 0xDFFF)) := by
    intro v h1 h2 f hf
    cases hu : utf8 ((v % 2 ^ 64).toNat % 2 ^ 16) with
    | none =>
      rw [utf8_none (by omega)] at hu
      simp only [Option.map_none, Option.bind_none, false_iff, reduceCtorEq]
      omega
    | some b =>
      have hs : ¬ (0xD800 ≤ (v % 2 ^ 64).toNat % 2 ^ 16 ∧ (v % 2 ^ 64).toNat % 2 ^ 16 ≤ 0xDFFF) := by
        rw [← utf8_none (by omega), hu]; simp
      rw [Option.map_some, Option.bind_some, if_neg (hq b), wide_roundtrip (by omega) hu, Option.map_some,
        hf _ (by omega) (by omega), Option.some.injEq]
      omega
  have hn : 0 ≤ v → v < 2 ^ 63 → ((v % 2 ^ 64).toNat : Int) = v := fun h1 h2 => toNat_label h1 (by omega)
  cases k <;> simp only at hl ⊢
  case bool =>
    have hk := kept_narrow hd (s := 1) rfl (.inl rfl)
    rw [Option.bind_some]
    split
    · rw [if_neg (by decide), if_neg (by decide), if_pos rfl, Option.map_some, hk, Option.some.injEq]
      omega
    · rw [if_neg (by decide), if_pos rfl, Option.map_some, hk, Option.some.injEq]
      omega
  case i8 =>
    rw [Option.bind_some, if_neg (hndef _), Option.map_some, Option.some.injEq, strtoll_dec, if_neg (by omega),
      kept_narrow hd (s := 1) rfl (.inl rfl), signed, Int.bmod_def, iff_true]
    omega
  case u8 =>
    rw [Option.bind_some, if_neg (hndef _), Option.map_some, Option.some.injEq, strtoull_dec (by omega),
      kept_narrow hd (s := 1) rfl (.inl rfl), iff_true]
    omega
  case i16 =>
    rw [Option.bind_some, if_neg (hndef _), Option.map_some, Option.some.injEq, strtoll_dec, if_neg (by omega),
      kept_narrow hd (s := 2) rfl (.inr (.inl rfl)), signed, Int.bmod_def, iff_true]
    omega
  case u16 =>
    rw [Option.bind_some, if_neg (hndef _), Option.map_some, Option.some.injEq, strtoull_dec (by omega),
      kept_narrow hd (s := 2) rfl (.inr (.inl rfl)), iff_true]
    omega
  case i32 =>
    rw [Option.bind_some, if_neg (hndef _), Option.map_some, Option.some.injEq, strtoll_dec, if_neg (by omega),
      kept_narrow hd (s := 4) rfl (.inr (.inr rfl)), signed, Int.bmod_def, iff_true]
    omega
  case u32 =>
    rw [Option.bind_some, if_neg (hndef _), Option.map_some, Option.some.injEq, strtoull_dec (by omega),
      kept_narrow hd (s := 4) rfl (.inr (.inr rfl)), iff_true]
    omega
  case i64 =>
    rw [Option.bind_some, if_neg (hndef _), Option.map_some, strtoll_dec, Option.some.injEq]
    split
    · rw [kept_wide hd rfl (by omega) (by omega)]; omega
    · rw [kept_wide hd rfl (by omega) (by omega)]; omega
  case u64 =>
    have : signed 64 ((v % 2 ^ 64).toNat : Int) = v := by
      unfold signed
      rw [Int.bmod_def]
      omega
    rw [Option.bind_some, if_neg (hndef _), Option.map_some, strtoull_dec (by omega), Option.some.injEq, this,
      kept_wide hd rfl hl.1 hl.2]
    simp
  case c8 =>
    rw [Option.bind_some, if_neg, Option.map_some, if_neg, c8_quoted, Option.some.injEq,
      kept_narrow hd (s := 1) rfl (.inl rfl), signed, Int.bmod_def, iff_true]
    · omega
    · simp [show bytes "'" = [39] by decide]
    · intro h
      rw [show bytes "'" = [39] by decide, show bytes "default" = 100 :: bytes "efault" by decide] at h
      simp at h
  case c16 =>
    refine hwide v hl.1 (by omega) _ fun n h1 h2 => ?_
    rw [kept_narrow hd (s := 2) rfl (.inr (.inl rfl))]; omega
  case wc =>
    refine hwide v hl.1 (by omega) _ fun n h1 h2 => ?_
    rw [kept_narrow hd (s := 4) rfl (.inr (.inr rfl))]; omega

/-- C48, partial: for a primitive discriminator (or an alias of one) exactly the labels in `Survives` come back when they
are printed and parsed again: all labels of `char` and the integer types except the negative ones of `int64_t`, the labels 0
and 1 of a Boolean, and the wide characters of 16 bits that are not half of a pair.
Missing: the other labels, for which the claim is false. -/
theorem C48_roundtrip_iff_partial {disc : Ty} {k : PK} (hd : disc.rget = .prim k) {v : Int} (hl : IsLabel disc v) :
    RoundTrip disc [v] ↔ Survives disc v := by
  rw [roundTrip_single, reparsed_prim hd hl]

/-- The label 251 of an `int8_t` discriminator, which stands for -5, comes back, also through an alias; the label 2 of a
Boolean does not. -/
example : RoundTrip (.alias "D" (.prim .i8)) [251] ∧ ¬ RoundTrip (.prim .bool) [2] :=
  ⟨(C48_roundtrip_iff_partial (disc := .alias "D" (.prim .i8)) (k := .i8) (v := 251) rfl ⟨by decide, by decide⟩).mpr trivial,
   fun h => absurd ((C48_roundtrip_iff_partial (disc := .prim .bool) (k := .bool) (v := 2) rfl ⟨by decide, by decide⟩).mp h)
      (show ¬ ((2 : Int) = 0 ∨ (2 : Int) = 1) by decide)⟩

/-- C48 does not hold: a negative label of an `int64_t` discriminator is printed as a huge number, which is read as the
largest number; that is the value reserved for the default case, and adding the case is refused. -/
theorem C48_violated_negative {disc : Ty} {v : Int} (h : v < 0) (hl : IsLabel disc v) (hd : disc.rget = .prim .i64) :
    reparsed disc v = some (2 ^ 63 - 1) ∧ ¬ RoundTrip disc [v] ∧
    ∀ u : UnionB, u.Built → u.disc = disc → ∀ ls, labelValue v disc = some ls →
      ∀ (m : String) (t : Ty), u.addCaseText [ls] m t = some (u, false) := by
  have hr : reparsed disc v = some (2 ^ 63 - 1) := by
    unfold IsLabel at hl
    unfold reparsed labelValue parseLabel
    rw [hd] at hl ⊢
    simp only at hl ⊢
    rw [Option.bind_some, if_neg (dec_ne_default _), strtoll_dec, if_pos (by omega), Option.map_some,
      kept_wide hd rfl (by omega) (by omega)]
  refine ⟨hr, ?_, ?_⟩
  · rw [roundTrip_single, hr, Option.some.injEq]; omega
  · intro u hu hud ls hls m t
    have hp : parseLabel disc ls = some (2 ^ 63 - 1) := by
      unfold IsLabel at hl
      unfold labelValue at hls
      unfold parseLabel
      rw [hd] at hl hls ⊢
      simp only [Option.some.injEq] at hl hls ⊢
      subst hls
      rw [strtoll_dec, if_pos (by omega)]
    have hnd : ls ≠ bytes "default" := by
      unfold labelValue at hls
      rw [hd] at hls
      simp only [Option.some.injEq] at hls
      subst hls
      exact dec_ne_default _
    have hpl : parseLabels u.disc [ls] false [] = some (false, [2 ^ 63 - 1]) := by
      rw [hud, parseLabels, if_neg hnd, hp]; rfl
    unfold UnionB.addCaseText
    rw [hpl, Option.map_some, Option.some.injEq]
    have hms : u.disc.memSize = 8 := by rw [hud, ← Ty.rget_memSize, hd]; rfl
    have hdv : u.defaultValue = 2 ^ 63 - 1 := by
      rw [(UnionB.built_inv hu).dv, hms]; decide
    rcases UnionB.addCase_cases u [2 ^ 63 - 1] m t false with ⟨_, he⟩ | ⟨ha, _⟩ | ⟨_, hb, _⟩ | ⟨_, hb, _⟩
    · exact he
    · exfalso
      have := (ha.2.2.1 _ (List.mem_singleton.mpr rfl)).1
      rw [hms, show shrinkLabel (2 ^ 63 - 1) 8 = 2 ^ 63 - 1 by decide, UnionB.labelAllowed, hdv] at this
      simp at this
    · cases hb
    · cases hb

/-- The label -5 of an `int64_t` discriminator. -/
example : reparsed (.prim .i64) (-5) = some (2 ^ 63 - 1) :=
  (C48_violated_negative (disc := .prim .i64) (v := -5) (by decide) ⟨by decide, by decide⟩ rfl).1

theorem nodup_key {l : List (String × Nat)} (h : (l.map (·.1)).Nodup) {a b : String × Nat} (ha : a ∈ l) (hb : b ∈ l)
    (e : a.1 = b.1) : a = b := by
  induction l with
  | nil => cases ha
  | cons c l ih =>
    rw [List.map_cons, List.nodup_cons] at h
    rcases List.mem_cons.mp ha with rfl | ha' <;> rcases List.mem_cons.mp hb with rfl | hb'
    · rfl
    · exact absurd (List.mem_map.mpr ⟨b, hb', e.symm⟩) h.1
    · exact absurd (List.mem_map.mpr ⟨a, ha', e⟩) h.1
    · exact ih h.2 ha' hb'

theorem ident_bytes {s : String} (h : Identifier s) : ∃ c r, bytes s = c :: r ∧ bytes s ≠ bytes "default" ∧
    (c = 95 ∨ (65 ≤ c ∧ c ≤ 90) ∨ (97 ≤ c ∧ c ≤ 122)) := by
  obtain ⟨h1, c, r, h2, h3⟩ := h
  exact ⟨c.toNat, r.map Char.toNat, by rw [bytes, h2]; rfl, fun e => h1 (bytes_inj e), h3⟩

theorem strtoull_ident {c : Nat} {r : Bytes} (h : c = 95 ∨ (65 ≤ c ∧ c ≤ 90) ∨ (97 ≤ c ∧ c ≤ 122)) :
    strtoull (labelBase (c :: r)) (c :: r) = 0 := by
  have hb : labelBase (c :: r) = 10 := by
    unfold labelBase
    have hne : (48 == c) = false := by simp; omega
    rw [show bytes "0" = [48] by decide, show bytes "0x" = [48, 120] by decide, show bytes "0X" = [48, 88] by decide]
    simp only [List.isPrefixOf, hne, Bool.false_and, Bool.false_eq_true, or_self, if_false]
  have hs : space c = false := by
    unfold space
    simp only [Bool.or_eq_false_iff, decide_eq_false_iff_not, Bool.and_eq_false_imp, decide_eq_true_eq]
    omega
  have hd : ¬ digit c < 10 := by
    unfold digit
    split
    · omega
    · split
      · omega
      · split <;> omega
  have hm : magnitude 10 (c :: r) = (false, 0) := by
    unfold magnitude
    rw [List.dropWhile_cons, hs]
    simp only [Bool.false_eq_true, if_false]
    rw [sign, if_neg (by omega), if_neg (by omega)]
    simp only [scan, if_neg hd, if_neg (show ¬ (10 : Nat) = 16 by decide)]
  unfold strtoull
  rw [hb, hm]
  rfl

/-- C48, partial: the labels of an enumeration of 32 bits whose enumerators are named by identifiers come back.
Missing: discriminators that are an alias of an enumeration (`C48_violated_alias`) or enumerations of 8 or 16 bits, which
are cast to a type they do not have, and enumerators with other names. -/
theorem C48_enum_partial {n : String} {vals : List (String × Nat)} {v : Int} (hl : IsLabel (.enum n .w4 vals) v)
    (hs : Survives (.enum n .w4 vals) v) : RoundTrip (.enum n .w4 vals) [v] := by
  rw [roundTrip_single]
  obtain ⟨m, k, hm, rfl, hk⟩ := hl
  obtain ⟨-, hnd, hid⟩ := hs
  unfold reparsed labelValue parseLabel
  simp only [Ty.rget]
  have hkn : ((k : Int) % 2 ^ 64).toNat % 2 ^ 32 = k := by omega
  rw [hkn]
  cases hf : vals.find? (fun e => e.2 = k) with
  | none =>
    have := List.find?_eq_none.mp hf _ hm
    simp at this
  | some e =>
    have he := List.mem_of_find?_eq_some hf
    have hek : e.2 = k := by simpa using List.find?_some hf
    simp only [Option.map_some, Option.getD_some, Option.bind_some]
    obtain ⟨c, r, hb, hdef, hc⟩ := ident_bytes (hid e he (by rw [hek]))
    rw [if_neg hdef]
    have h0 : strtoull (labelBase (bytes e.1)) (bytes e.1) = 0 := by rw [hb]; exact strtoull_ident hc
    have hany : (bytes e.1).any (fun c => c = 95 || (65 ≤ c && c ≤ 90) || (97 ≤ c && c ≤ 122) || c = 42) = true := by
      rw [hb, List.any_cons]
      have : (decide (c = 95) || (decide (65 ≤ c) && decide (c ≤ 90)) || (decide (97 ≤ c) && decide (c ≤ 122)) ||
          decide (c = 42)) = true := by
        simp only [Bool.or_eq_true, Bool.and_eq_true, decide_eq_true_eq]; omega
      rw [this]; rfl
    rw [h0, if_pos ⟨rfl, hany⟩]
    cases hf' : vals.find? (fun e' => bytes e'.1 = bytes e.1) with
    | none =>
      have := List.find?_eq_none.mp hf' _ he
      simp at this
    | some e' =>
      have he' := List.mem_of_find?_eq_some hf'
      have hee : bytes e'.1 = bytes e.1 := by simpa using List.find?_some hf'
      have hname := bytes_inj hee
      have : e' = e := nodup_key hnd he' he hname
      rw [this, Option.map_some, Option.map_some, hek, Option.some.injEq]
      show shrinkLabel (k : Int) 4 = k
      rw [shrinkLabel_narrow _ 4 (by simp)]
      omega

/-- An enumeration with two enumerators. -/
example : RoundTrip (.enum "E" .w4 [("A", 3), ("B", 7)]) [7] :=
  C48_enum_partial ⟨"B", 7, by decide, rfl, by decide⟩
    ⟨⟨_, _, rfl⟩, by decide, by
      intro e he hv
      simp only [List.mem_cons, List.not_mem_nil, or_false] at he
      rcases he with rfl | rfl
      · exact absurd hv (by decide)
      · exact ⟨by decide, 'B', [], by decide, by decide⟩⟩

/-- C48 does not hold: the labels of a discriminator that is an alias of an enumeration have no text; the generator casts
the alias to an enumeration type. -/
theorem C48_violated_alias (n m : String) (vals : List (String × Nat)) (v : Int) :
    ¬ RoundTrip (.alias n (.enum m .w4 vals)) [v] := by
  rw [roundTrip_single]
  simp [reparsed, labelValue, Ty.rget]

theorem parse_printed {disc : Ty} {vs : List Int} (h : ∀ v ∈ vs, RoundTrip disc [v]) :
    ∃ ss ws, vs.mapM (fun v => labelValue v disc) = some ss ∧ ws.map (kept disc) = vs ∧
      ∀ l d r, parseLabels disc (ss ++ l) d r = parseLabels disc l d (r ++ ws) := by
  induction vs with
  | nil => exact ⟨[], [], rfl, rfl, fun l d r => by simp⟩
  | cons v vs ih =>
    obtain ⟨ss, ws, h1, h0, h2⟩ := ih fun w hw => h w (List.mem_cons_of_mem _ hw)
    have hv := (roundTrip_single disc v).mp (h v (List.mem_cons_self ..))
    unfold reparsed at hv
    cases hl : labelValue v disc with
    | none => rw [hl] at hv; cases hv
    | some s =>
      rw [hl, Option.bind_some] at hv
      split at hv
      · cases hv
      · rename_i hd
        cases hp : parseLabel disc s with
        | none => rw [hp] at hv; cases hv
        | some w =>
          rw [hp, Option.map_some, Option.some.injEq] at hv
          refine ⟨s :: ss, w :: ws, by simp [hl, h1], by rw [List.map_cons, hv, h0], fun l d r => ?_⟩
          rw [List.cons_append, parseLabels, if_neg hd, hp]
          simp only
          rw [h2]
          simp

/-- C48 for all labels of a case at once: they come back if each of them does. -/
theorem C48_list (disc : Ty) (vs : List Int) (h : ∀ v ∈ vs, RoundTrip disc [v]) : RoundTrip disc vs := by
  obtain ⟨ss, ws, h1, h0, h2⟩ := parse_printed h
  refine ⟨ss, ws, h1, ?_, h0⟩
  have := h2 [] false []
  rw [List.append_nil] at this
  rw [this]; rfl

/-- C48 for a whole case: the labels and whether it is the default case come back. -/
theorem C48_case (disc : Ty) (isDefault : Bool) (vs : List Int) (h : ∀ v ∈ vs, RoundTrip disc [v]) :
    RoundTripCase disc isDefault vs := by
  obtain ⟨ss, ws, h1, h0, h2⟩ := parse_printed h
  cases isDefault with
  | false =>
    refine ⟨ss, ws, by simp [caseLabels, h1], ?_, h0⟩
    have := h2 [] false []
    rw [List.append_nil] at this
    rw [this]; rfl
  | true =>
    refine ⟨ss ++ [bytes "default"], ws, by simp [caseLabels, h1], ?_, h0⟩
    rw [h2, parseLabels, if_pos rfl, if_neg (by simp)]
    rfl

theorem setLabels_congr (n : String) (dv : Int) (ds : Nat) : ∀ (ls ls' : List Int),
    ls.map (shrinkLabel · ds) = ls'.map (shrinkLabel · ds) → ∀ m f,
    UnionB.setLabels n dv ds ls m f = UnionB.setLabels n dv ds ls' m f
  | [], [], _, _, _ => rfl
  | [], _ :: _, h, _, _ => by cases h
  | _ :: _, [], h, _, _ => by cases h
  | v :: ls, w :: ls', h, m, f => by
    simp only [List.map_cons, List.cons.injEq] at h
    have ih := setLabels_congr n dv ds ls ls' h.2
    simp only [UnionB.setLabels, h.1, ih]

/-- `add_case_member` sees of a label what the union keeps of it. -/
theorem addCase_congr (u : UnionB) {ls ls' : List Int} (h : ls.map (kept u.disc) = ls'.map (kept u.disc)) (n : String) (t : Ty)
    (b : Bool) : u.addCase ls n t b = u.addCase ls' n t b := by
  have he : ls.isEmpty = ls'.isEmpty := by
    have := congrArg List.length h
    simp only [List.length_map] at this
    cases ls <;> cases ls' <;> simp_all
  have ha : ∀ p : Int → Bool, (ls.any fun v => p (kept u.disc v)) = ls'.any fun v => p (kept u.disc v) := by
    intro p
    have := congrArg (List.any · p) h
    simpa [List.any_map, Function.comp_def] using this
  have h1 := ha fun l => !(u.labelAllowed l) || omHas u.labels l
  have h2 := setLabels_congr n u.defaultValue u.disc.memSize ls ls' h
  unfold UnionB.addCase
  simp only [he, h2]
  unfold kept at h1
  simp only [h1]

/-- The labels of every union that can be built are those of `IsLabel`. -/
theorem C48_labels_of_unions {u : UnionB} (h : u.Built) (hk : (∃ k, u.disc.rget = .prim k) ∨ ∃ n vs, u.disc = .enum n .w4 vs)
    (n : String) : ∀ l ∈ u.getLabels n, IsLabel u.disc l := by
  intro l hl
  obtain ⟨p, hp, rfl⟩ := List.mem_map.mp hl
  obtain ⟨hp1, hp2⟩ := List.mem_filter.mp hp
  simp only [decide_eq_true_eq] at hp2
  have hi := UnionB.built_inv h
  have hg : omGet u.labels p.1 = some p.2 := omGet_of_mem hi.nodup hp1
  have hs : shrinkLabel p.1 u.disc.memSize = p.1 := (UnionB.built_labels h _ _ hg).resolve_right hp2.2
  unfold IsLabel
  rcases hk with ⟨k, hk⟩ | ⟨m, vs, hd⟩
  · have hc := hi.check
    unfold checkDisc at hc
    rw [hk] at hc
    rw [← Ty.rget_memSize, hk] at hs
    rw [hk]
    cases k <;> simp only [PK.isFloat, Bool.not_true, Bool.not_false, Bool.false_eq_true] at hc ⊢ <;>
      simp only [Ty.memSize, PK.size] at hs <;>
      first
      | (rw [shrinkLabel_narrow _ _ (by simp)] at hs; omega)
      | (rw [shrinkLabel_wide] at hs; split at hs <;> omega)
  · have ha := UnionB.built_allowed h _ _ hg hp2.2
    rw [hd] at hs ⊢
    simp only [Ty.memSize, EW.size] at hs
    rw [shrinkLabel_narrow _ 4 (by simp)] at hs
    unfold UnionB.labelAllowed at ha
    rw [hd] at ha
    simp only [Ty.rget, Bool.and_eq_true, List.any_eq_true, beq_iff_eq] at ha ⊢
    obtain ⟨-, e, he, hv⟩ := ha
    exact ⟨e.1, e.2, he, by omega, by omega⟩

/-- C48 for the cases of a union: the labels printed for a member of a union that was built, given as text to
`add_case_member` of any union with the same discriminator, have the effect of the labels themselves. -/
theorem C48_member_partial {u : UnionB} (h : u.Built)
    (hk : (∃ k, u.disc.rget = .prim k) ∨ ∃ n vs, u.disc = .enum n .w4 vs) (n : String)
    (hs : ∀ l ∈ u.getLabels n, Survives u.disc l) :
    ∃ ss, caseLabels u.disc (u.isDefault n) (u.getLabels n) = some ss ∧
      ∀ u' : UnionB, u'.disc = u.disc → ∀ m t,
        u'.addCaseText ss m t = some (u'.addCase (u.getLabels n) m t (u.isDefault n)) := by
  have hl := C48_labels_of_unions h hk n
  have hr : ∀ l ∈ u.getLabels n, RoundTrip u.disc [l] := by
    intro l hm
    rcases hk with ⟨k, hk⟩ | ⟨m, vs, hd⟩
    · exact (C48_roundtrip_iff_partial hk (hl l hm)).mpr (hs l hm)
    · have h1 := hl l hm
      have h2 := hs l hm
      rw [hd] at h1 h2 ⊢
      exact C48_enum_partial h1 h2
  obtain ⟨ss, ws, h1, h2, h3⟩ := C48_case u.disc (u.isDefault n) (u.getLabels n) hr
  refine ⟨ss, h1, fun u' hd m t => ?_⟩
  unfold UnionB.addCaseText
  rw [hd, h2, Option.map_some, Option.some.injEq]
  refine addCase_congr u' ?_ m t _
  rw [hd, h3]
  have hi := UnionB.built_inv h
  conv => lhs; rw [← List.map_id (u.getLabels n)]
  refine List.map_congr_left fun l hm => ?_
  obtain ⟨p, hp, rfl⟩ := List.mem_map.mp hm
  obtain ⟨hp1, hp2⟩ := List.mem_filter.mp hp
  simp only [decide_eq_true_eq] at hp2
  exact ((UnionB.built_labels h _ _ (omGet_of_mem hi.nodup hp1)).resolve_right hp2.2).symm

/-- A union with an `int32_t` discriminator and a default member with the labels -5 and 7. -/
def exUnion : UnionB := (((UnionB.new "U" (.prim .i32)).get (by decide)).addCase [-5, 7] "a" (.prim .f64) true).1

/-- Its labels 7 and 2^32 - 5 are printed, with `default` after them, and have the effect of themselves. -/
example : ∃ ss, caseLabels exUnion.disc (exUnion.isDefault "a") (exUnion.getLabels "a") = some ss ∧
    exUnion.getLabels "a" = [7, 2 ^ 32 - 5] ∧ ss.length = 3 ∧
    ∀ u' : UnionB, u'.disc = exUnion.disc → ∀ m t,
      u'.addCaseText ss m t = some (u'.addCase (exUnion.getLabels "a") m t (exUnion.isDefault "a")) := by
  obtain ⟨ss, h1, h2⟩ := C48_member_partial (u := exUnion) (.add _ _ _ _ (.new _ _ (Option.some_get _).symm)) (.inl ⟨.i32, rfl⟩)
    "a" (fun _ _ => trivial)
  refine ⟨ss, h1, by decide, ?_, h2⟩
  rw [show exUnion.getLabels "a" = [7, 2 ^ 32 - 5] by decide, show exUnion.isDefault "a" = true by decide] at h1
  have := Option.some.inj h1
  rw [← this]; rfl

/-- A second `default` of a case is refused. -/
theorem C48_default_once (disc : Ty) (a b c : List Bytes) :
    parseLabels disc (a ++ bytes "default" :: b ++ bytes "default" :: c) false [] = none := by
  have two : ∀ (b : List Bytes) (r : List Int), parseLabels disc (b ++ bytes "default" :: c) true r = none := by
    intro b
    induction b with
    | nil => intro r; simp [parseLabels]
    | cons s b ih =>
      intro r
      rw [List.cons_append, parseLabels]
      split
      · rfl
      · split
        · exact ih _
        · rfl
  have one : ∀ (a : List Bytes) (d : Bool) (r : List Int),
      parseLabels disc (a ++ bytes "default" :: b ++ bytes "default" :: c) d r = none := by
    intro a
    induction a with
    | nil =>
      intro d r
      rw [List.nil_append, List.cons_append, parseLabels, if_pos rfl]
      split
      · rfl
      · exact two b r
    | cons s a ih =>
      intro d r
      rw [List.cons_append, List.cons_append, parseLabels]
      split
      · split
        · rfl
        · exact ih _ _
      · split
        · exact ih _ _
        · rfl
  exact one a false []

/-- Three labels of one case. -/
example : RoundTrip (.prim .u64) [5, -1, 0] :=
  C48_list _ _ fun v hv => (C48_roundtrip_iff_partial (disc := .prim .u64) (k := .u64) rfl (by
    simp only [List.mem_cons, List.not_mem_nil, or_false] at hv
    rcases hv with rfl | rfl | rfl <;> exact ⟨by decide, by decide⟩)).mpr trivial

/-- The default case, with a label of its own. -/
example : RoundTripCase (.prim .i32) true [9] :=
  C48_case _ _ _ fun v hv => (C48_roundtrip_iff_partial (disc := .prim .i32) (k := .i32) rfl (by
    simp only [List.mem_cons, List.not_mem_nil, or_false] at hv
    subst hv; exact ⟨by decide, by decide⟩)).mpr trivial

end Verif.Text
