import Verif.Lemmas.WriteDefs
import Verif.Props.IdlSound
/-!
# C64: layout, comments, annotations and ignored declarations do not change what is read
-/

namespace Verif.Idl
open Syn Gen Text

/-! ## The same declarations, written differently -/

theorem reads_written {ds : List Def} {text : Bytes} (h : Writes ds text) {c : Ctx} {root : Mod Item} {o : Out} :
    Reads c root text o ↔ ∃ n, ∀ f, n ≤ f → buildAll c f [] root ds = o := by
  unfold Reads parse
  rw [document_written h]
  simp only [Parsed.built.injEq]

/-- C64: a text that writes declarations, with any white space and comments between its words, and any annotations where they are
allowed, is never rejected by the grammar: in every context, for every module tree and whatever the number of steps, the
declarations are entered. -/
theorem C64_accepted (ds : List Def) (text : Bytes) (h : Writes ds text) (c : Ctx) (f : Nat) (root : Mod Item) :
    ∃ o, parse c f root text = .built o := by
  unfold parse
  rw [document_written h]
  exact ⟨_, rfl⟩

/-- C64: a text can be understood in one way only. -/
theorem C64_unambiguous (ds ds' : List Def) (text : Bytes) (h : Writes ds text) (h' : Writes ds' text) : ds = ds' :=
  Option.some.inj ((document_written h).symm.trans (document_written h'))

/-- C64: two texts that write the same declarations, with different white space, comments, annotations, and other words for the
same basic types, have the same effect, in every context and on every module tree. -/
theorem C64_same (ds : List Def) (text text' : Bytes) (h : Writes ds text) (h' : Writes ds text') (c : Ctx) (root : Mod Item) (o : Out) :
    Reads c root text o ↔ Reads c root text' o :=
  (reads_written h).trans (reads_written h').symm

/-! ## Ignored declarations -/

/-- The declarations without some of those that are ignored: lines for the preprocessor, declarations of annotations, bit sets
and bit masks, in any module. -/
inductive Without : List Def → List Def → Prop
  | nil : Without [] []
  | keep {d r r'} : Without r r' → Without (d :: r) (d :: r')
  | skip {r r'} : Without r r' → Without (.skip :: r) r'
  | ignored {n r r'} : Usable n → Without r r' → Without (.ignored (bytes n) :: r) r'
  | module {n l l' r r'} : Without l l' → Without r r' → Without (.module n l :: r) (.module n l' :: r')

theorem without_build {ds ds' : List Def} (h : Without ds ds') (c : Ctx) (f : Nat) :
    ∀ p root, buildAll c f p root ds = buildAll c f p root ds' := by
  induction h with
  | nil => exact fun _ _ => rfl
  | keep _ ih =>
    intro p root
    simp only [buildAll, ih]
  | skip _ ih =>
    intro p root
    simp only [buildAll, build, ih]
  | ignored hn _ ih =>
    intro p root
    simp only [buildAll, build, resolveId_own c root p hn, orStop, ih]
  | module _ _ ih1 ih2 =>
    intro p root
    simp only [buildAll, build, ih1, ih2]

/-- C64: a text with declarations of annotations, bit sets, bit masks and lines for the preprocessor has the same effect as one
without them. -/
theorem C64_ignored (ds ds' : List Def) (text text' : Bytes) (h : Writes ds text) (h' : Writes ds' text') (hw : Without ds ds')
    (c : Ctx) (root : Mod Item) (o : Out) : Reads c root text o ↔ Reads c root text' o := by
  rw [reads_written h, reads_written h']
  simp only [without_build hw]

/-! ## Texts one after the other -/

theorem getLast_end {a : List Piece} {x : Piece} {t : List Piece} (h : t.getLast? = some x) : (a ++ t).getLast? = some x := by
  rw [List.getLast?_append, h]; rfl

theorem defPieces_last {d : Def} {ps : List Piece} (h : DefPieces d ps) : ps.getLast? = some (.sign 59) ∨ ∃ t, ps = [.line t] := by
  cases h
  case line => exact .inr ⟨_, rfl⟩
  all_goals exact .inl (by simp [List.getLast?_append, List.getLast?_cons])

theorem spaced_append {ps qs : List Piece} {s s' : Bytes} (h : Spaced ps s) (h' : Spaced qs s')
    (hb : ∀ p, ps.getLast? = some p → ∀ l, Between p l qs.head?) : Spaced (ps ++ qs) (s ++ s') := by
  induction h with
  | nil => exact h'
  | @cons p ps l s h1 h2 h3 h4 ih =>
    rw [List.append_assoc, List.append_assoc]
    cases ps with
    | nil => cases h4; exact .cons h1 h2 (hb p rfl l) h'
    | cons q r =>
      exact .cons h1 h2 h3 (ih fun p hp => hb p (by rw [List.getLast?_cons_cons]; exact hp))

theorem writes_append {ds ds' : List Def} {t t' : Bytes} (h : Writes ds t) (h' : Writes ds' t')
    (hs : ∃ c r, t' = c :: r ∧ c ∉ [32, 9, 13, 10, 47, 64]) : Writes (ds ++ ds') (t ++ t') := by
  obtain ⟨l, hne, hl, rfl, l0, s, hl0, rfl, h⟩ := h
  obtain ⟨l', hne', hl', rfl, l1, s', hl1, rfl, h'⟩ := h'
  obtain ⟨c, r, e, hc⟩ := hs
  obtain rfl : l1 = [] := by
    cases l1 with
    | nil => rfl
    | cons x y =>
      have := layout_head hl1
      rw [List.cons_append] at e
      injection e with e1 _
      subst e1
      have : x = 32 ∨ x = 9 ∨ x = 13 ∨ x = 10 ∨ x = 47 := this
      simp only [List.mem_cons, List.not_mem_nil, or_false, not_or] at hc
      omega
  rw [List.nil_append] at e ⊢
  refine ⟨l ++ l', by simp [hne], fun d hd => (List.mem_append.mp hd).elim (hl d) (hl' d), by simp, l0, s ++ s', hl0, by simp, ?_⟩
  rw [List.flatMap_append]
  refine spaced_append h h' fun p hp b => ?_
  have hlast : p = .sign 59 ∨ ∃ t, p = .line t := by
    obtain ⟨l2, d, rfl⟩ : ∃ a b, l = a ++ [b] := ⟨l.dropLast, l.getLast hne, (List.dropLast_append_getLast hne).symm⟩
    rw [List.flatMap_append, List.flatMap_singleton] at hp
    rcases defPieces_last (hl d (by simp)) with e | ⟨t, e⟩
    · rw [getLast_end e] at hp; injection hp with hp; exact .inl hp.symm
    · rw [e, getLast_end (x := .line t) rfl] at hp; injection hp with hp; exact .inr ⟨t, hp.symm⟩
  rcases hlast with rfl | ⟨t, rfl⟩
  · unfold Between
    cases (l'.flatMap (·.2)).head? <;> trivial
  · cases hq : (l'.flatMap (·.2)) with
    | nil => trivial
    | cons q r' =>
      rw [hq] at h'
      obtain ⟨b', s'', rfl, -⟩ := spaced_cons h'
      cases q with
      | mark u =>
        refine absurd ?_ hc
        have : 64 :: u ++ (b' ++ s'') = c :: r := e
        injection this with e1 _
        rw [← e1]; decide
      | _ => trivial

/-- C64: reading a text that begins with a word, after another text, is the same as reading the two as one text: the second part is
read into what the first part left, unless the first part was refused half-way. -/
theorem C64_parts (ds ds' : List Def) (t t' : Bytes) (h : Writes ds t) (h' : Writes ds' t')
    (hs : ∃ c r, t' = c :: r ∧ c ∉ [32, 9, 13, 10, 47, 64]) (c : Ctx) (root : Mod Item) (o : Out) (ho : o.2 ≠ some .unfinished) :
    Reads c root (t ++ t') o ↔
      (∃ root', Reads c root t (root', none) ∧ Reads c root' t' o) ∨ (∃ root' e, Reads c root t (root', some e) ∧ o = (root', some e)) := by
  have happ : ∀ f, ∀ (a b : List Def) (p : Loc) (root : Mod Item), buildAll c f p root (a ++ b) =
      match buildAll c f p root a with
      | (root, none) => buildAll c f p root b
      | (root, some e) => (root, some e) := by
    intro f a
    induction a with
    | nil => intro b p root; rfl
    | cons d a ih =>
      intro b p root
      simp only [List.cons_append, buildAll]
      cases hd : build c f p root d with
      | mk r e =>
        cases e with
        | none => exact ih b p r
        | some e => rfl
  constructor
  · intro hr
    obtain ⟨n, hn⟩ := (reads_written (writes_append h h' hs)).mp hr
    have h1 := hn n (le_refl _)
    rw [happ] at h1
    have hd := document_written h
    cases hb : buildAll c n [] root ds with
    | mk r e =>
      rw [hb] at h1
      have hp : parse c n root t = .built (r, e) := by rw [parse, hd, ← hb]
      cases e with
      | none =>
        refine .inl ⟨r, reads_of n hp (by simp), reads_of n ?_ ho⟩
        rw [parse, document_written h']
        exact congrArg _ h1
      | some e => exact .inr ⟨r, e, reads_of n hp (by rw [← h1] at ho; exact ho), h1.symm⟩
  · rw [reads_written (writes_append h h' hs)]
    rintro (⟨r, h1, h2⟩ | ⟨r, e, h1, rfl⟩)
    · obtain ⟨n, hn⟩ := (reads_written h).mp h1
      obtain ⟨m, hm⟩ := (reads_written h').mp h2
      refine ⟨max n m, fun f hf => ?_⟩
      rw [happ, hn f (by omega)]
      exact hm f (by omega)
    · obtain ⟨n, hn⟩ := (reads_written h).mp h1
      refine ⟨n, fun f hf => ?_⟩
      rw [happ, hn f hf]

/-! ## The theorems are about real texts -/

/-- White space and comments for the examples. -/
def sampleLayouts : List Bytes := [[], [32], [10], [9, 13, 10], bytes " // note; {\n", bytes "/* @key */ ", bytes "\n /* a */ // b\n  "]

theorem sample_layout : ∀ l ∈ sampleLayouts, Layout l := by
  have hline : Layout (bytes " // note; {\n") :=
    .line (b := [32]) (t := bytes " note; {") (e := [10]) (r := []) (by intro c hc; simp at hc; simp [hc]) (by decide) (by decide) (.inl rfl) blanks_nil
  have nostar : ∀ {t : Bytes}, 47 ∉ t → ∀ x y, t ≠ x ++ 42 :: 47 :: y := fun h x y e => h (by rw [e]; simp)
  have hblock : Layout (bytes "/* @key */ ") :=
    .block (b := []) (t := bytes " @key ") (r := [32]) blanks_none (nostar (by decide)) blank_space
  have hboth : Layout (bytes "\n /* a */ // b\n  ") :=
    .block (b := [10, 32]) (t := bytes " a ") (r := bytes " // b\n  ") (by intro c hc; simp at hc; omega) (nostar (by decide))
      (.line (b := [32]) (t := bytes " b") (e := [10]) (r := [32, 32]) (by intro c hc; simp at hc; simp [hc]) (by decide) (by decide) (.inl rfl)
        (blanks_of (by decide)))
  intro l hl
  simp only [sampleLayouts, List.mem_cons, List.not_mem_nil, or_false] at hl
  rcases hl with rfl | rfl | rfl | rfl | rfl | rfl | rfl
  · exact blanks_nil
  · exact blank_space
  · exact blanks_of (by decide)
  · exact .space (by decide)
  · exact hline
  · exact hblock
  · exact hboth

def proper? : Piece → Bool
  | .word (c :: _) => !([32, 9, 13, 10, 47].contains c)
  | .word [] => false
  | .sign c => signs.contains c
  | .mark _ => true
  | .line t => t.getLast? = some 10 ∧ (t.dropLast.all fun c => c != 10 && c != 13) ∧ t.dropLast.getLast? ≠ some 92

theorem proper_of {p : Piece} (h : proper? p = true) : p.Proper := by
  cases p with
  | word t =>
    cases t with
    | nil => cases h
    | cons c r =>
      refine ⟨c, r, rfl, ?_⟩
      simp only [proper?, Bool.not_eq_true'] at h
      intro hc
      rw [List.contains_iff_mem.mpr hc] at h
      cases h
  | sign c => exact List.contains_iff_mem.mp h
  | mark _ => trivial
  | line t =>
    simp only [proper?, decide_eq_true_eq] at h
    obtain ⟨h1, h2, h3⟩ := h
    refine ⟨t.dropLast, [10], ?_, fun c hc => ?_, h3, .inl rfl⟩
    · have hne : t ≠ [] := by rintro rfl; cases h1
      rw [List.getLast?_eq_some_getLast hne, Option.some.injEq] at h1
      rw [← h1, List.dropLast_append_getLast hne]
    · have := List.all_eq_true.mp h2 c hc
      simpa using this

def between? (p : Piece) (l : Bytes) (q : Option Piece) : Bool :=
  match p, q with
  | .word _, some (.word _) => !l.isEmpty
  | .mark _, some (.word _) => !l.isEmpty
  | .mark _, some (.mark _) => l.isEmpty
  | .line _, some (.mark _) => l.isEmpty
  | .word t, some (.sign c) => decide (t = bytes "default" → c = 58 → l = [])
  | _, _ => true

theorem between_of {p : Piece} {l : Bytes} {q : Option Piece} (h : between? p l q = true) : Between p l q := by
  unfold between? at h
  unfold Between
  split at h <;> simp_all
  tauto

/-- The text of pieces, each with what comes after it. -/
def render (l : List (Piece × Bytes)) : Bytes := l.flatMap fun x => x.1.text ++ x.2

def spaced? : List (Piece × Bytes) → Bool
  | [] => true
  | (p, l) :: r => proper? p && sampleLayouts.contains l && between? p l (r.map (·.1)).head? && spaced? r

theorem spaced_of : ∀ {l : List (Piece × Bytes)}, spaced? l = true → Spaced (l.map (·.1)) (render l)
  | [], _ => .nil
  | (p, l) :: r, h => by
    simp only [spaced?, Bool.and_eq_true] at h
    obtain ⟨⟨⟨h1, h2⟩, h3⟩, h4⟩ := h
    have := Spaced.cons (proper_of h1) (sample_layout l (List.contains_iff_mem.mp h2)) (between_of h3) (spaced_of h4)
    have e : render ((p, l) :: r) = p.text ++ (l ++ render r) := by
      simp only [render, List.flatMap_cons, List.append_assoc]
    rw [e]
    exact this

/-- `struct S { long x; };` -/
def plainPieces : List (Piece × Bytes) :=
  [(kword "struct", [32]), (.word (bytes "S"), [32]), (.sign 123, [32]), (kword "long", [32]), (.word (bytes "x"), []), (.sign 59, [32]),
    (.sign 125, []), (.sign 59, [])]

/-- The same structure, with comments and annotations:
```
#pragma once
@annotation note{ string text default "a";};
@nested
/* @key */ struct // note; {
S{@id(3) @key@range(min=-1,max=9) int32/* @key */ x
 /* a */ // b
  ;
};bitmask M{ @position(2) A,B};
``` -/
def richPieces : List (Piece × Bytes) :=
  [(.line (bytes "pragma once\n"), []),
    (.mark (bytes "annotation"), [32]), (.word (bytes "note"), []), (.sign 123, [32]), (kword "string", [32]), (.word (bytes "text"), [32]),
    (kword "default", [32]), (.word (bytes "\"a\""), []), (.sign 59, []), (.sign 125, []), (.sign 59, [10]),
    (.mark (bytes "nested"), bytes "/* @key */ "), (kword "struct", bytes " // note; {\n"), (.word (bytes "S"), []), (.sign 123, []),
    (.mark (bytes "id"), []), (.sign 40, []), (.word (bytes "3"), []), (.sign 41, [32]), (.mark (bytes "key"), []),
    (.mark (bytes "range"), []), (.sign 40, []), (.word (bytes "min"), []), (.sign 61, []), (.word (bytes "-1"), []), (.sign 44, []),
    (.word (bytes "max"), []), (.sign 61, []), (.word (bytes "9"), []), (.sign 41, [32]),
    (kword "int32", bytes "/* @key */ "), (.word (bytes "x"), bytes "\n /* a */ // b\n  "), (.sign 59, [10]), (.sign 125, []), (.sign 59, []),
    (kword "bitmask", [32]), (.word (bytes "M"), []), (.sign 123, [32]), (.mark (bytes "position"), []), (.sign 40, []), (.word (bytes "2"), []),
    (.sign 41, [32]), (.word (bytes "A"), []), (.sign 44, []), (.word (bytes "B"), []), (.sign 125, []), (.sign 59, [9, 13, 10])]

def sampleStruct : Def := .struct (bytes "S") none [(.prim .i32, [⟨bytes "x", []⟩])]

theorem plain_pieces : DefPieces sampleStruct (plainPieces.map (·.1)) := by
  refine DefPieces.struct (a := []) (p := none) (ps := []) (l := [((.prim .i32, [⟨bytes "x", []⟩]), [kword "long", .word (bytes "x"), .sign 59])])
    ⟨[], rfl, by simp⟩ (usable_of (by decide)) .none fun m hm => ?_
  rw [List.mem_singleton.mp hm]
  exact MemberPieces.mk (a := []) (ps := [kword "long"]) (l := [(⟨bytes "x", []⟩, [.word (bytes "x")])]) ⟨[], rfl, by simp⟩
    (.prim (ws := ["long"]) (by decide)) (by simp) fun d hd => by
      rw [List.mem_singleton.mp hd]
      exact DeclrPieces.mk (l := []) (usable_of (by decide)) (by simp)

theorem plain_writes : Writes [sampleStruct] (render plainPieces) := by
  refine ⟨[(sampleStruct, plainPieces.map (·.1))], by simp, fun d hd => ?_, rfl, [], _, blanks_nil, rfl, ?_⟩
  · rw [List.mem_singleton.mp hd]; exact plain_pieces
  · exact spaced_of (l := plainPieces) (by decide)

theorem digit_number {d : Nat} (h1 : 1 ≤ d) (h2 : d < 10) : Number [48 + d] :=
  ⟨_, .dec (d := d) (ds := []) h1 (by intro x hx; rw [List.mem_singleton.mp hx]; exact h2)⟩

/-- The pieces of this text. -/
def rich : List Piece := richPieces.map (·.1)

theorem rich_annotation : DefPieces .skip (rich.drop 1 |>.take 10) := by
  refine DefPieces.annotation (n := "note") (l := [[kword "string", .word (bytes "text"), kword "default", .word (bytes "\"a\""), .sign 59]])
    (usable_of (by decide)) fun m hm => ?_
  rw [List.mem_singleton.mp hm]
  exact .default (ps := [kword "string"]) .string (usable_of (by decide)) (.string (t := bytes "a") (by decide))

theorem rich_member : MemberPieces (.prim .i32, [⟨bytes "x", []⟩]) (rich.drop 15 |>.take 18) := by
  refine MemberPieces.mk (a := rich.drop 15 |>.take 15) (ps := [kword "int32"]) (l := [(⟨bytes "x", []⟩, [.word (bytes "x")])])
    ⟨[[.mark (bytes "id"), .sign 40, .word (bytes "3"), .sign 41], [.mark (bytes "key")],
      [.mark (bytes "range"), .sign 40, .word (bytes "min"), .sign 61, .word (bytes "-1"), .sign 44, .word (bytes "max"), .sign 61,
        .word (bytes "9"), .sign 41]], rfl, fun a ha => ?_⟩ (.prim (k := .i32) (ws := ["int32"]) (by decide)) (by simp) fun d hd => by
        rw [List.mem_singleton.mp hd]
        exact DeclrPieces.mk (l := []) (usable_of (by decide)) (by simp)
  simp only [List.mem_cons, List.not_mem_nil, or_false] at ha
  rcases ha with rfl | rfl | rfl
  · refine .params (n := "id") (l := [[.word (bytes "3")]]) (typeName_of (by decide)) (by simp) fun p hp => ?_
    rw [List.mem_singleton.mp hp]
    exact .value (.number (digit_number (d := 3) (by decide) (by decide)))
  · exact .plain (typeName_of (by decide))
  · refine .params (n := "range") (l := [[.word (bytes "min"), .sign 61, .word (bytes "-1")], [.word (bytes "max"), .sign 61, .word (bytes "9")]])
      (typeName_of (by decide)) (by simp) fun p hp => ?_
    simp only [List.mem_cons, List.not_mem_nil, or_false] at hp
    rcases hp with rfl | rfl
    · exact .named (usable_of (by decide)).1 (.negative (digit_number (d := 1) (by decide) (by decide)))
    · exact .named (usable_of (by decide)).1 (.number (digit_number (d := 9) (by decide) (by decide)))

theorem rich_struct : DefPieces sampleStruct (rich.drop 11 |>.take 24) := by
  refine DefPieces.struct (a := [.mark (bytes "nested")]) (n := "S") (p := none) (ps := [])
    (l := [((.prim .i32, [⟨bytes "x", []⟩]), rich.drop 15 |>.take 18)])
    ⟨[[.mark (bytes "nested")]], rfl, fun a ha => ?_⟩ (usable_of (by decide)) .none fun m hm => ?_
  · rw [List.mem_singleton.mp ha]; exact .plain (typeName_of (by decide))
  · rw [List.mem_singleton.mp hm]; exact rich_member

theorem rich_bitmask : DefPieces (.ignored (bytes "M")) (rich.drop 35) := by
  refine DefPieces.bitmask (a := []) (n := "M") (l := [([.mark (bytes "position"), .sign 40, .word (bytes "2"), .sign 41], "A"), ([], "B")])
    ⟨[], rfl, by simp⟩ (usable_of (by decide)) (by simp) fun x hx => ?_
  simp only [List.mem_cons, List.not_mem_nil, or_false] at hx
  rcases hx with rfl | rfl
  · refine ⟨⟨[[.mark (bytes "position"), .sign 40, .word (bytes "2"), .sign 41]], rfl, fun a ha => ?_⟩, (usable_of (by decide)).1⟩
    rw [List.mem_singleton.mp ha]
    refine .params (n := "position") (l := [[.word (bytes "2")]]) (typeName_of (by decide)) (by simp) fun p hp => ?_
    rw [List.mem_singleton.mp hp]
    exact .value (.number (digit_number (d := 2) (by decide) (by decide)))
  · exact ⟨⟨[], rfl, by simp⟩, (usable_of (by decide)).1⟩

def richDefs : List Def := [.skip, .skip, sampleStruct, .ignored (bytes "M")]

theorem rich_writes : Writes richDefs (bytes "\n /* a */ // b\n  " ++ render richPieces) := by
  refine ⟨([(.skip, rich.take 1), (.skip, (rich.drop 1).take 10),
    (sampleStruct, (rich.drop 11).take 24), (.ignored (bytes "M"), rich.drop 35)] : List (Def × List Piece)),
    by simp,
    fun d hd => ?_, rfl, _, _, sample_layout _ (by decide), rfl, spaced_of (l := richPieces) (by decide)⟩
  simp only [List.mem_cons, List.not_mem_nil, or_false] at hd
  rcases hd with rfl | rfl | rfl | rfl
  · exact .line
  · exact rich_annotation
  · exact rich_struct
  · exact rich_bitmask

theorem rich_without : Without richDefs [sampleStruct] := .skip (.skip (.keep (.ignored (usable_of (by decide)) .nil)))

/-- The two texts of the examples. -/
example : render plainPieces = bytes "struct S { long x; };" ∧
    render (richPieces.drop 11 |>.take 24) =
      bytes "@nested/* @key */ struct // note; {\nS{@id(3) @key@range(min=-1,max=9) int32/* @key */ x\n /* a */ // b\n  ;\n};" := by decide

/-- Both are read as the same structure. -/
example (c : Ctx) (root : Mod Item) (o : Out) :
    Reads c root (bytes "\n /* a */ // b\n  " ++ render richPieces) o ↔ Reads c root (render plainPieces) o :=
  C64_ignored _ _ _ _ rich_writes plain_writes rich_without c root o

/-- And one text after the other. -/
example : Writes (richDefs ++ [sampleStruct]) ((bytes "\n /* a */ // b\n  " ++ render richPieces) ++ render plainPieces) :=
  writes_append rich_writes plain_writes ⟨115, _, rfl, by decide⟩

/-! ## Where it fails -/

/-- C64, the other way: an annotation before an enumerator takes its name away: the text is read, and the enumerator has an empty
name. With two such enumerators the text is refused, and with an annotation without parameters it is rejected. -/
theorem C64_enumerator_fails :
    (∃ root', Reads {} .empty (bytes "enum E { @value(3) A, B };") (root', none) ∧
      omGet (root'.content.get .enum) "E".toList = some (.ty (.enum "E" .w4 [("", 0), ("B", 1)]))) ∧
    (∃ root', Reads {} .empty (bytes "enum E { @value(3) A, @value(4) B };") (root', some .refused)) ∧
    Rejects (bytes "enum E { @default A, B };") := by
  refine ⟨?_, ?_, rejects_of (by decide +kernel)⟩
  · exact reads_entry (text := bytes "enum E { @value(3) A, B };") .enum "E" (by decide) (by decide +kernel)
  · obtain ⟨r, h, _⟩ := reads_entry (text := bytes "enum E { @value(3) A, @value(4) B };") .enum "E" (e := some .refused) (v := none)
      (by decide) (by decide +kernel)
    exact ⟨r, h⟩

/-- C64, the other way: annotations are not allowed before `typedef` and `const`; white space between two annotations is allowed
only if the first one has parameters; and after a line for the preprocessor there is no white space before an annotation. -/
theorem C64_annotation_fails :
    Rejects (bytes "@nested typedef long T;") ∧ Rejects (bytes "@unit(1) const long N = 1;") ∧
    Rejects (bytes "struct S { @key @id(3) long x; };") ∧ Rejects (bytes "#pragma once\n\n@nested struct S { long x; };") :=
  ⟨rejects_of (by decide +kernel), rejects_of (by decide +kernel), rejects_of (by decide +kernel), rejects_of (by decide +kernel)⟩

/-- The labels of the union `U`. -/
def unionLabels (o : Out) : Option (List (Int × String)) :=
  match omGet (o.1.content.get .union) "U".toList with
  | some (.ty (.union _ _ _ i)) => some i.labels
  | _ => none

/-- C64, the other way: a blank between `default` and its colon changes the union: the label is the number 0, for a `long`, and
the letter `d`, for a `char`. -/
theorem C64_default_blank_fails :
    (∃ o, Reads {} .empty (bytes "union U switch (long) { case 1: long a; default: long b; };") o ∧
      (o.2, unionLabels o) = (none, some [(1, "a"), (2147483647, "b")])) ∧
    (∃ o, Reads {} .empty (bytes "union U switch (long) { case 1: long a; default : long b; };") o ∧
      (o.2, unionLabels o) = (none, some [(0, "b"), (1, "a")])) ∧
    (∃ o, Reads {} .empty (bytes "union U switch (char) { case 'a': long a; default : long b; };") o ∧
      (o.2, unionLabels o) = (none, some [(97, "a"), (100, "b")])) := by
  have ne : ∀ {l} (o : Out), (o.2, unionLabels o) = (none, l) → o.2 ≠ some .unfinished := by
    intro l o h
    rw [Prod.mk.injEq] at h
    rw [h.1]; simp
  exact ⟨reads_obs (fun o => (o.2, unionLabels o)) (by decide +kernel) ne, reads_obs (fun o => (o.2, unionLabels o)) (by decide +kernel) ne,
    reads_obs (fun o => (o.2, unionLabels o)) (by decide +kernel) ne⟩

/-- C64, the other way: not every declaration that has no counterpart in the library is ignored. `native X;` and an empty bit set
make a structure without members. -/
theorem C64_native_fails :
    (∃ root', Reads {} .empty (bytes "native X;") (root', none) ∧
      omGet (root'.content.get .struct) "X".toList = some (.ty (.struct "X" .nil))) ∧
    (∃ root', Reads {} .empty (bytes "bitset X {};") (root', none) ∧
      omGet (root'.content.get .struct) "X".toList = some (.ty (.struct "X" .nil))) :=
  ⟨reads_entry (text := bytes "native X;") .struct "X" (by decide) (by decide +kernel),
    reads_entry (text := bytes "bitset X {};") .struct "X" (by decide) (by decide +kernel)⟩

/-- C64, the other way: a typedef of several names makes none of them, but an alias whose name is empty. -/
theorem C64_typedef_fails :
    (∃ root', Reads {} .empty (bytes "typedef long A, B;") (root', none) ∧ omGet (root'.content.get .alias) "".toList = some (.ty (.alias "" (.prim .i32)))) ∧
    (∃ root', Reads {} .empty (bytes "typedef long A, B;") (root', none) ∧ omGet (root'.content.get .alias) "A".toList = none) ∧
    ∃ root', Reads {} .empty (bytes "typedef long A, B;") (root', none) ∧ omGet (root'.content.get .alias) "B".toList = none :=
  ⟨reads_entry (text := bytes "typedef long A, B;") .alias "" (by decide) (by decide +kernel),
    reads_entry (text := bytes "typedef long A, B;") .alias "A" (by decide) (by decide +kernel),
    reads_entry (text := bytes "typedef long A, B;") .alias "B" (by decide) (by decide +kernel)⟩

end Verif.Idl
