import Verif.Lemmas.IdlDocs
/-!
# C60: what the generator prints, the parser reads

The text of structures, unions, enumerations and aliases, as `idl::generate` prints it, and what `idl::parse` makes of it.
-/

namespace Verif.Idl
open Syn Gen Text

/-! ## Names, checked -/

/-- A test for `Usable`. -/
def usable? (s : String) : Bool :=
  (match s.toList with
    | [] => false
    | c :: r => c.isAlpha && r.all fun x => x.isAlphanum || x == '_') &&
  keywords.all fun w => !(w.toList.isPrefixOf s.toList) ||
    (match s.toList.drop w.toList.length with | c :: _ => !c.isDigit | [] => false)

theorem usable_of {s : String} (h : usable? s = true) : Usable s := by
  unfold usable? at h
  rw [Bool.and_eq_true] at h
  obtain ⟨h1, h2⟩ := h
  refine ⟨?_, fun w hw r hr => ?_⟩
  · cases hs : s.toList with
    | nil => rw [hs] at h1; cases h1
    | cons c r =>
      rw [hs] at h1
      simp only [Bool.and_eq_true, List.all_eq_true, Bool.or_eq_true, beq_iff_eq] at h1
      exact ⟨c, r, hs, h1.1, h1.2⟩
  · have := List.all_eq_true.mp h2 w hw
    rw [hr] at this
    have hp : w.toList.isPrefixOf (w.toList ++ r) = true := List.isPrefixOf_iff_prefix.mpr ⟨r, rfl⟩
    rw [hp, List.drop_left] at this
    cases r with
    | nil => simp at this
    | cons c t => exact ⟨c, t, rfl, by simpa using this⟩

/-- A test for `Unseen`. -/
theorem unseen_of {root : Mod Item} {p : Loc} {x : Name} (h : symbolCount root p x = 0) : Unseen root p x := symbolCount_zero.mp h

/-- A test for `Layout` without comments. -/
theorem blanks_of {b : Bytes} (h : (b.all fun c => c == 32 || c == 10) = true) : Layout b := by
  refine blanks_layout fun c hc => ?_
  have := List.all_eq_true.mp h c hc
  simpa only [Bool.or_eq_true, beq_iff_eq] using this

theorem typeName_of {s : String} (h : usable? s = true) : TypeName s :=
  ⟨[s], by simp, rfl, by intro a ha; rw [List.mem_singleton] at ha; subst ha; exact usable_of h⟩

/-! ## The round trip -/

/-- C60: a text of structures (with or without a parent), unions, enumerations, aliases and constants, and of modules of such
declarations in each other to any depth, printed one after the other as the generator prints them, with white space between
them, is accepted by the parser. Afterwards the name of each type stands, in its module, for exactly the type that was printed,
and so does the full name in the root module; each constant and each enumerator is, in the same two ways, a constant of its type
and its value; and what a name stood for before it still stands for. The declarations must be such that each can be added to its
module after those before it (`DocsDeclarable`). -/
theorem C60_round_trip (c : Ctx) (root : Mod Item) (hp : Proper root) (ds : List Doc) (hne : ds ≠ [])
    (hd : DocsDeclarable ⟨c.char, c.wide16⟩ [] root ds) (e : Bytes) (he : Layout e) :
    ∃ root', Reads c root (docsText [] ds ++ e) (root', none) ∧
      (∀ x ∈ docsDecls [] ds, ∀ T, declTy x.1 x.2 = some T → Means root' x.1 (declName x.2) T ∧
        Means root' [] (scopedStr x.1 (declName x.2)) T) ∧
      (∀ x ∈ docsDecls [] ds, ∀ v ∈ declConsts x.2, Constant root' x.1 v.1.toList v.2 ∧
        Constant root' [] (scopedStr x.1 v.1).toList v.2) ∧
      (∀ q y T, Means root q y T → Means root' q y T) ∧
      ∀ q y i, Constant root q y i → Constant root' q y i := by
  obtain ⟨h1, h2, h3⟩ := docs_enter ds [] root hp rfl hd
  have hn := docs_names ds [] root (fun a ha => absurd ha List.not_mem_nil) hd
  refine ⟨_, parse_docs c hp hne hd he, fun x hx T hT => ?_, fun x hx v hv => ?_, fun q y T h => Means.ext h2 h,
    fun q y i h => Constant.ext h2 h⟩
  · obtain ⟨n1, n2, _⟩ := hn x hx
    exact Found.means (h3 x hx) n1 n2 hT
  · obtain ⟨n1, _, n3⟩ := hn x hx
    exact Found.constant (h3 x hx) n1 n3 hv

/-- C60: the tree of modules afterwards, exactly: the declarations added in order, each to its module, and nothing else. -/
theorem C60_module (c : Ctx) (root : Mod Item) (hp : Proper root) (ds : List Doc) (hne : ds ≠ [])
    (hd : DocsDeclarable ⟨c.char, c.wide16⟩ [] root ds) (e : Bytes) (he : Layout e) :
    ∀ o, Reads c root (docsText [] ds ++ e) o ↔ o = (enterDocs [] root ds, none) := by
  have h := parse_docs c hp hne hd he
  exact fun o => ⟨fun ho => reads_unique ho h, fun ho => ho ▸ h⟩

/-- C60: `idl::generate` of one structure, read into a module that has the types its members name, gives a structure equal to
the first. -/
theorem C60_struct (c : Ctx) (root : Mod Item) (hp : Proper root) (n : String) (p : Option (String × Nat)) (ms : List (String × Ty))
    (hd : Declarable ⟨c.char, c.wide16⟩ root [] (.struct n p ms)) :
    ∃ root', Reads c root (structText n p ms 0) (root', none) ∧ Means root' [] n (.struct n (Mems.ofList ms)) := by
  refine ⟨_, parse_decl c hp hd 0, ?_⟩
  have := (found_enter hp (show root.at [] = some root from rfl) hd).type _ rfl
  rw [scopedStr_root] at this
  exact ⟨_, _, this⟩

/-! ### A document that meets the hypotheses -/

/-- An enumeration, an alias of an array, a structure, a structure that inherits from it. -/
def exDocument : List Doc := [
  .decl [] 0 (.enum "Colour" [("blue", 2), ("green", 1), ("red", 0)]),
  .decl [10] 1 (.alias "Matrix" (Ty.array (Ty.array (.prim .f64) 3) 2)),
  .decl [] 0 (.struct "Point" none [("x", .prim .f64), ("y", .prim .f64)]),
  .decl (bytes " // a line\r\n /* with\n * ends */ \t") 0 (.struct "Line" (some ("Point", 2)) [("x", .prim .f64), ("y", .prim .f64),
    ("colours", .seq (.enum "Colour" .w4 [("blue", 2), ("green", 1), ("red", 0)]) 5), ("label", .str .s8 20)])]

/-- White space with two comments. -/
theorem exLayout : Layout (bytes " // a line\r\n /* with\n * ends */ \t") := by
  have e : bytes " // a line\r\n /* with\n * ends */ \t" =
      [32] ++ (47 :: 47 :: (bytes " a line" ++ ([13, 10] ++ ([32] ++ (47 :: 42 :: (bytes " with\n * ends " ++ (42 :: 47 :: bytes " \t"))))))) := by
    decide +kernel
  rw [e]
  have hb : Blanks [32] := by intro c hc; simp at hc; omega
  refine .line hb (by decide +kernel) (by decide +kernel) (.inr rfl) (.block hb ?_ (.space (by decide +kernel)))
  intro x y h
  have h47 : (47 : Nat) ∉ bytes " with\n * ends " := by decide +kernel
  exact h47 (by rw [h]; simp)

example : DocsDeclarable ⟨.c8, false⟩ [] .empty exDocument ∧ Proper .empty := by
  unfold exDocument
  simp only [DocsDeclarable, DocDeclarable, enterDoc]
  refine ⟨⟨⟨blanks_of rfl, ?_⟩, ⟨blanks_of rfl, ?_⟩, ⟨blanks_of rfl, ?_⟩, ⟨exLayout, ?_⟩, trivial⟩, proper_empty⟩
  · refine ⟨⟨usable_of (by decide +kernel), unseen_of (by decide +kernel)⟩, by decide, by decide, by decide, by decide, ?_⟩
    intro e he
    simp only [List.mem_cons, List.not_mem_nil, or_false] at he
    rcases he with rfl | rfl | rfl <;> exact ⟨⟨usable_of (by decide +kernel), unseen_of (by decide +kernel)⟩, by decide⟩
  · refine ⟨⟨usable_of (by decide +kernel), unseen_of (by decide +kernel)⟩, ⟨rfl, rfl, trivial⟩, ⟨by decide, by decide, trivial⟩, ?_⟩
    simp [Ty.array, innermost, Writable]
  · refine ⟨⟨usable_of (by decide +kernel), unseen_of (by decide +kernel)⟩, by decide, by simp, ?_⟩
    intro e he
    simp only [Option.map_none, Option.getD_none, List.drop_zero, List.mem_cons, List.not_mem_nil, or_false] at he
    rcases he with rfl | rfl <;>
      exact ⟨⟨usable_of (by decide +kernel), unseen_of (by decide +kernel)⟩, by decide, trivial, trivial, by simp [innermost, Writable]⟩
  · refine ⟨⟨usable_of (by decide +kernel), unseen_of (by decide +kernel)⟩, by decide, ?_, ?_⟩
    · intro x hx
      rw [Option.some.injEq] at hx
      subst hx
      exact ⟨typeName_of (by decide +kernel), by decide, [], "Point".toList, "Point", Mems.ofList [("x", .prim .f64), ("y", .prim .f64)], ⟨1, by decide +kernel⟩, by decide +kernel, rfl⟩
    · intro e he
      simp only [Option.map_some, Option.getD_some, List.drop_succ_cons, List.drop_zero, List.mem_cons, List.not_mem_nil, or_false] at he
      rcases he with rfl | rfl
      · refine ⟨⟨usable_of (by decide +kernel), unseen_of (by decide +kernel)⟩, by decide, trivial, trivial, ?_⟩
        simp only [innermost, Writable]
        exact ⟨⟨typeName_of (by decide +kernel), [], "Colour".toList, ⟨1, by decide +kernel⟩, by decide +kernel⟩, by decide⟩
      · exact ⟨⟨usable_of (by decide +kernel), unseen_of (by decide +kernel)⟩, by decide, trivial, trivial, by simp [innermost, Writable]⟩

/-- The text of the document. -/
example : docsText [] exDocument = bytes "enum Colour
{
    red,
    green,
    blue
};

    typedef double Matrix[2][3];
struct Point
{
    double x;
    double y;
};
 // a line\r
 /* with
 * ends */ \tstruct Line : Point
{
    sequence<Colour, 5> colours;
    string<20> label;
};
" := by decide +kernel

/-! ## Where the round trip fails -/

/-- What the default context makes of a text in an empty module, within nine steps per lookup. -/
def outcome (text : Bytes) : Option Out :=
  match parse {} 9 .empty text with
  | .rejected => none
  | .built o => some o

theorem reads_obs {text : Bytes} {δ : Type} (obs : Out → δ) {v : δ} (h : (outcome text).map obs = some v)
    (hne : ∀ o, obs o = v → o.2 ≠ some .unfinished) : ∃ o, Reads {} .empty text o ∧ obs o = v := by
  unfold outcome at h
  cases hp : parse {} 9 .empty text with
  | rejected => rw [hp] at h; cases h
  | built o =>
    rw [hp] at h
    simp only [Option.map_some, Option.some.injEq] at h
    exact ⟨o, reads_of 9 hp (hne o h), h⟩

/-- A table of a module has this entry. -/
theorem reads_entry {text : Bytes} (k : Cat) (x : String) {v : Option Item} {e : Option Stop} (he : e ≠ some .unfinished)
    (h : ((outcome text).map fun o => (o.2, omGet (o.1.content.get k) x.toList)) = some (e, v)) :
    ∃ root', Reads {} .empty text (root', e) ∧ omGet (root'.content.get k) x.toList = v := by
  obtain ⟨⟨r, e'⟩, h1, h2⟩ := reads_obs (fun o => (o.2, omGet (o.1.content.get k) x.toList)) h (fun o ho => by
    rw [Prod.mk.injEq] at ho; rw [ho.1]; exact he)
  rw [Prod.mk.injEq] at h2
  obtain ⟨h2, h3⟩ := h2
  have h2 : e' = e := h2
  subst h2
  exact ⟨r, h1, h3⟩

/-- C60, the other way: the names `float3` and `Particle` are identifiers and no keywords, and each of the two structures can
be printed; but the text is rejected as a whole, because in `float3 position` the grammar reads the keyword `float`. (After
a keyword only a letter or an underscore would keep it from being read as one.) -/
theorem C60_keyword_digit_fails :
    Identifier "float3" ∧ "float3" ∉ keywords ∧
    (∃ root', Reads {} .empty (structText "float3" none [("x", .prim .f32)] 0) (root', none)) ∧
    Rejects (structText "float3" none [("x", .prim .f32)] 0 ++
      structText "Particle" none [("position", .struct "float3" (.ofList [("x", .prim .f32)]))] 0) := by
  refine ⟨⟨'f', "loat3".toList, rfl, by decide, by decide⟩, by decide, ?_, rejects_of (by decide +kernel)⟩
  obtain ⟨r, h, _⟩ := reads_entry .struct "float3" (v := some (.ty (.struct "float3" (.ofList [("x", .prim .f32)])))) (e := none)
    (text := structText "float3" none [("x", .prim .f32)] 0) (by decide) (by decide +kernel)
  exact ⟨r, h⟩

/-- C60, the other way: a leading underscore is lost. -/
theorem C60_underscore_fails :
    (∃ root', Reads {} .empty (structText "_A" none [("_x", .prim .i32)] 0) (root', none) ∧
      omGet (root'.content.get .struct) "_A".toList = none) ∧
    ∃ root', Reads {} .empty (structText "_A" none [("_x", .prim .i32)] 0) (root', none) ∧
      omGet (root'.content.get .struct) "A".toList = some (.ty (.struct "A" (.ofList [("x", .prim .i32)]))) :=
  ⟨reads_entry .struct "_A" (by decide) (by decide +kernel), reads_entry .struct "A" (by decide) (by decide +kernel)⟩

/-- C60, the other way: a member with the name of a type, or of an enumerator, that is visible is refused, although names of
members and of types have nothing to do with each other in a structure; and the structure stays in the module, empty. -/
theorem C60_member_name_fails :
    (∃ root', Reads {} .empty (structText "A" none [("A", .prim .i32)] 0) (root', some .refused) ∧
      omGet (root'.content.get .struct) "A".toList = some (.ty (.struct "A" .nil))) ∧
    ∃ root', Reads {} .empty (enumText "E" [("on", 0)] 0 ++ structText "A" none [("x", .prim .i32), ("on", .prim .bool)] 0)
        (root', some .refused) ∧
      omGet (root'.content.get .struct) "A".toList = some (.ty (.struct "A" .nil)) :=
  ⟨reads_entry .struct "A" (by decide) (by decide +kernel), reads_entry .struct "A" (by decide) (by decide +kernel)⟩

/-- C60, the other way: an array inside of a sequence, or of a map, is printed without its dimensions. -/
theorem C60_inner_array_fails :
    ∃ root', Reads {} .empty (structText "A" none [("x", .seq (Ty.array (.prim .i32) 3) 0)] 0) (root', none) ∧
      omGet (root'.content.get .struct) "A".toList = some (.ty (.struct "A" (.ofList [("x", .seq (.prim .i32) 0)]))) :=
  reads_entry .struct "A" (by decide) (by decide +kernel)

/-- C60, the other way: in the default context `char16_t` comes back as `wchar_t`, and a string of `char16_t` as one of
`wchar_t`. -/
theorem C60_char16_fails :
    ∃ root', Reads {} .empty (structText "A" none [("x", .prim .c16), ("y", .str .s16 0)] 0) (root', none) ∧
      omGet (root'.content.get .struct) "A".toList = some (.ty (.struct "A" (.ofList [("x", .prim .wc), ("y", .str .ws 0)]))) :=
  reads_entry .struct "A" (by decide) (by decide +kernel)

/-- C60, the other way: the values of enumerators are not printed; a gap is closed by reading the text. -/
theorem C60_enum_values_fail :
    ∃ root', Reads {} .empty (enumText "E" [("a", 1), ("b", 5)] 0) (root', none) ∧
      omGet (root'.content.get .enum) "E".toList = some (.ty (.enum "E" .w4 [("a", 0), ("b", 1)])) :=
  reads_entry .enum "E" (by decide) (by decide +kernel)

/-- C60: a `typedef` of two names creates one alias, whose name is empty. -/
theorem C60_typedef_list_fails :
    ∃ root', Reads {} .empty (bytes "typedef long A, B;") (root', none) ∧
      omGet (root'.content.get .alias) "A".toList = none ∧ omGet (root'.content.get .alias) "B".toList = none ∧
      omGet (root'.content.get .alias) [] = some (.ty (.alias "" (.prim .i32))) := by
  obtain ⟨⟨r, e⟩, h1, h2⟩ := reads_obs (text := bytes "typedef long A, B;")
    (fun o => (o.2, omGet (o.1.content.get .alias) "A".toList, omGet (o.1.content.get .alias) "B".toList,
      omGet (o.1.content.get .alias) [])) (v := (none, none, none, some (.ty (.alias "" (.prim .i32))))) (by decide +kernel)
      (fun o ho => by rw [Prod.mk.injEq] at ho; rw [ho.1]; decide)
  simp only [Prod.mk.injEq] at h2
  obtain ⟨rfl, h2, h3, h4⟩ := h2
  exact ⟨r, h1, h2, h3, h4⟩

/-- C60: a bound written in octal is read as a decimal number, one written in hexadecimal as 0, no bound at all. -/
theorem C60_radix_fails :
    ∃ root', Reads {} .empty (bytes "struct A { string<0x10> x; sequence<long, 010> y; long z[0x10]; };") (root', none) ∧
      omGet (root'.content.get .struct) "A".toList =
        some (.ty (.struct "A" (.ofList [("x", .str .s8 0), ("y", .seq (.prim .i32) 10), ("z", Ty.array (.prim .i32) 0)]))) :=
  reads_entry .struct "A" (by decide) (by decide +kernel)

/-- C60: the name of a constant is understood as bound of a `string` and of a member, but read as 0 as bound of a `wstring`
and as dimension of an alias. -/
theorem C60_constant_bound_fails :
    (∃ root', Reads {} .empty (bytes "enum E { zero, one, two }; struct A { string<two> x; wstring<two> y; long z[two]; };") (root', none) ∧
      omGet (root'.content.get .struct) "A".toList =
        some (.ty (.struct "A" (.ofList [("x", .str .s8 2), ("y", .str .ws 0), ("z", Ty.array (.prim .i32) 2)])))) ∧
    ∃ root', Reads {} .empty (bytes "enum E { zero, one, two }; typedef long A[two];") (root', none) ∧
      omGet (root'.content.get .alias) "A".toList = some (.ty (.alias "A" (Ty.array (.prim .i32) 0))) :=
  ⟨reads_entry .struct "A" (by decide) (by decide +kernel), reads_entry .alias "A" (by decide) (by decide +kernel)⟩

/-- C60: a member of type `any` or `fixed` makes the parser call itself without end. -/
theorem C60_any_diverges :
    (∃ root', Reads {} .empty (bytes "struct A { any x; };") (root', some .diverges)) ∧
    ∃ root', Reads {} .empty (bytes "struct A { fixed<4, 2> x; };") (root', some .diverges) := by
  refine ⟨?_, ?_⟩
  · obtain ⟨r, h, _⟩ := reads_entry (text := bytes "struct A { any x; };") .struct "A" (e := some .diverges)
      (v := some (.ty (.struct "A" .nil))) (by decide) (by decide +kernel)
    exact ⟨r, h⟩
  · obtain ⟨r, h, _⟩ := reads_entry (text := bytes "struct A { fixed<4, 2> x; };") .struct "A" (e := some .diverges)
      (v := some (.ty (.struct "A" .nil))) (by decide) (by decide +kernel)
    exact ⟨r, h⟩

/-- C60: comments one after the other with tabs before them are not accepted (if the preprocessor has not removed them), and
neither are comments with empty lines between them if lines end as Windows ends them; with blanks and new lines they are. -/
theorem C60_comment_fails :
    Rejects (bytes "struct A { long x; };\n\t// one\n\t// two\nstruct B { long y; };\n") ∧
    Rejects (bytes "struct A { long x; };\r\n\r\n// one\r\n\r\n// two\r\nstruct B { long y; };\r\n") ∧
    (∃ root', Reads {} .empty (bytes "struct A { long x; };\n    // one\n    // two\nstruct B { long y; };\n") (root', none)) ∧
    ∃ root', Reads {} .empty (bytes "struct A { long x; };\n\n// one\n\n// two\nstruct B { long y; };\n") (root', none) := by
  refine ⟨rejects_of (by decide +kernel), rejects_of (by decide +kernel), ?_, ?_⟩
  · obtain ⟨r, h, _⟩ := reads_entry (text := bytes "struct A { long x; };\n    // one\n    // two\nstruct B { long y; };\n") .struct "B"
      (e := none) (v := some (.ty (.struct "B" (.ofList [("y", .prim .i32)])))) (by decide) (by decide +kernel)
    exact ⟨r, h⟩
  · obtain ⟨r, h, _⟩ := reads_entry (text := bytes "struct A { long x; };\n\n// one\n\n// two\nstruct B { long y; };\n") .struct "B"
      (e := none) (v := some (.ty (.struct "B" (.ofList [("y", .prim .i32)])))) (by decide) (by decide +kernel)
    exact ⟨r, h⟩

/-- C60: a bound of a string that is no `int` is converted with undefined behaviour. -/
theorem C60_string_bound_ub : ∃ root', Reads {} .empty (structText "A" none [("x", .str .s8 (2 ^ 31))] 0) (root', some .ub) := by
  obtain ⟨r, h, _⟩ := reads_entry (text := structText "A" none [("x", .str .s8 (2 ^ 31))] 0) .struct "A" (e := some .ub)
    (v := some (.ty (.struct "A" .nil))) (by decide) (by decide +kernel)
  exact ⟨r, h⟩

end Verif.Idl
