import Verif.Lemmas.AnyEnds
import Verif.Props.Idl
/-!
# C62: the parser on any text

What can be said of `idl::parse` when nothing is known of the text: it ends, and it destroys nothing.
-/

namespace Verif.Idl
open Syn Gen Text

/-- C62: the parser ends on every text that has no four colons in a row, whatever the module holds: the text does not match the
grammar, or it is read with some outcome, which no limit on the steps of a lookup is the reason of. -/
theorem C62_total (c : Ctx) (root : Mod Item) (text : Bytes) (hq : NoQuad text) :
    Rejects text ∨ ∃ o, Reads c root text o ∧ o.2 ≠ some .unfinished := by
  cases hd : document text with
  | none => exact .inl (rejects_of hd)
  | some ds =>
    obtain ⟨o, h1, _, n, h2⟩ := buildAll_settles (A := True) (c := c) [] ds root (document_plain ⟨hq, .inl trivial⟩ hd) (.inl trivial)
    exact .inr ⟨o, ⟨n, fun f hf => by rw [parse, hd]; exact congrArg Parsed.built (h2 f hf)⟩, h1⟩

theorem whole_of {root : Mod Item} (hn : WellNamed root)
    (hw : ∀ p x v, entry root p .const x = some (.const .c16 v) → v < 0xD800 ∨ 0xDFFF < v) : All WholeAt root := by
  intro p k x i he v hv
  subst hv
  by_cases hk : k = .const
  · subst hk
    rcases hw p x v he with h | h <;> omega
  · obtain ⟨h1, h2, h3, h4⟩ := hn
    cases k with
    | struct => obtain ⟨_, e⟩ := h1 p x _ he; cases e
    | union => obtain ⟨_, _, _, e⟩ := h2 p x _ he; cases e
    | «alias» => obtain ⟨_, e⟩ := h4 p x _ he; cases e
    | enum => obtain ⟨_, _, e⟩ := h3 p x _ he; cases e
    | const => exact absurd rfl hk

/-- C62: and it does not call itself without end either, if `any` and `fixed` are nowhere in the text, no type is defined inside of
a `typedef`, and no constant of the module is of type `char16_t` with half of a surrogate pair as value. (In a module filled by texts alone, there is no such constant:
`C62_no_half`.) -/
theorem C62_ends (c : Ctx) (root : Mod Item) (text : Bytes) (hq : NoQuad text) (ha : ¬ bytes "any" <:+: text) (hf : ¬ bytes "fixed" <:+: text)
    (hi : NoInline text) (hw : ∀ p x v, entry root p .const x = some (.const .c16 v) → v < 0xD800 ∨ 0xDFFF < v)
    (hn : WellNamed root) :
    Rejects text ∨ ∃ o, Reads c root text o ∧ o.2 ≠ some .unfinished ∧ o.2 ≠ some .diverges := by
  cases hd : document text with
  | none => exact .inl (rejects_of hd)
  | some ds =>
    have hall := whole_of hn hw
    obtain ⟨o, h1, h3, n, h2⟩ := buildAll_settles (A := False) (c := c) [] ds root (document_plain ⟨hq, .inr ⟨ha, hf, hi⟩⟩ hd) (.inr hall)
    exact .inr ⟨o, ⟨n, fun f hf => by rw [parse, hd]; exact congrArg Parsed.built (h2 f hf)⟩, h1, h3.resolve_left id⟩

/-- C62: no text makes a constant of half of a surrogate pair where there was none (`wchar` meaning `char16_t`). -/
theorem C62_no_half (c : Ctx) (root root' : Mod Item) (e : Option Stop) (text : Bytes) (hq : NoQuad text) (hn : WellNamed root)
    (hw : ∀ p x v, entry root p .const x = some (.const .c16 v) → v < 0xD800 ∨ 0xDFFF < v) (h : Reads c root text (root', e)) :
    ∀ p x v, entry root' p .const x = some (.const .c16 v) → v < 0xD800 ∨ 0xDFFF < v := by
  obtain ⟨n, h⟩ := h
  have h := h n (le_refl _)
  unfold parse at h
  cases hd : document text with
  | none => rw [hd] at h; cases h
  | some ds =>
    rw [hd] at h
    simp only [Parsed.built.injEq] at h
    have := buildAll_steps (E := PlainE) (c := c) n ds [] root (fun d hm => exprs_plain (document_plain (A := True) ⟨hq, .inl trivial⟩ hd d hm))
    rw [h] at this
    intro p x v he
    have := steps_whole this (whole_of hn hw) p .const x _ he v rfl
    omega

/-- C62: nothing is lost by reading a text, whatever the text is and however the reading ends: every type and every constant the
module tree holds before is there afterwards, the same; except that a structure or a union without members, as a declaration in
advance leaves it, may have got some. -/
theorem C62_keeps (c : Ctx) (root root' : Mod Item) (e : Option Stop) (text : Bytes) (hn : WellNamed root) (h : Reads c root text (root', e)) :
    Keeps root root' ∧ WellNamed root' := by
  obtain ⟨n, h⟩ := h
  have h := h n (le_refl _)
  unfold parse at h
  cases hd : document text with
  | none => rw [hd] at h; cases h
  | some ds =>
    rw [hd] at h
    simp only [Parsed.built.injEq] at h
    have := buildAll_steps (E := fun _ => True) (c := c) n ds [] root (fun d _ => exprs_all d)
    rw [h] at this
    obtain ⟨h1, h2⟩ := steps_keep this (wellNamed_iff.mp hn)
    exact ⟨h2, wellNamed_iff.mpr h1⟩

/-- C62: and so for texts one after the other. -/
inductive ReadsAll (c : Ctx) : Mod Item → List Bytes → Mod Item → Prop
  | nil (root) : ReadsAll c root [] root
  | read {root mid root' text texts} (e : Option Stop) : Reads c root text (mid, e) → ReadsAll c mid texts root' → ReadsAll c root (text :: texts) root'
  | rejected {root root' text texts} : Rejects text → ReadsAll c root texts root' → ReadsAll c root (text :: texts) root'

theorem C62_keeps_all (c : Ctx) (root root' : Mod Item) (texts : List Bytes) (hn : WellNamed root) (h : ReadsAll c root texts root') :
    Keeps root root' ∧ WellNamed root' := by
  induction h with
  | nil => exact ⟨Keeps.refl _, hn⟩
  | read e h _ ih =>
    obtain ⟨h1, h2⟩ := C62_keeps c _ _ e _ hn h
    obtain ⟨h3, h4⟩ := ih h2
    exact ⟨Keeps.trans h1 h3, h4⟩
  | rejected _ _ ih => exact ih hn

/-! ## Four colons -/

/-- A module and a name with four colons in a row. -/
def quadText : Bytes := bytes "module a { struct S; }; struct T { a::::S s; };"

/-- The declarations of `quadText`. -/
def quadDefs : List Def := [.module (bytes "a") [.forward (bytes "S")], .struct (bytes "T") none [(.name (bytes "a::::S"), [⟨bytes "s", []⟩])]]

/-- The names in declarations of this shape. -/
def quadParts : List Def → Option (List Bytes)
  | [.module a [.forward b], .struct t none [(.name x, [⟨s, []⟩])]] => some [a, b, t, x, s]
  | _ => none

theorem quad_document : document quadText = some quadDefs := by
  have h : (document quadText).bind quadParts = some [bytes "a", bytes "S", bytes "T", bytes "a::::S", bytes "s"] := by decide +kernel
  cases hd : document quadText with
  | none => rw [hd] at h; cases h
  | some ds =>
    rw [hd] at h
    simp only [Option.bind_some] at h
    unfold quadParts at h
    split at h
    · simp only [Option.some.injEq, List.cons.injEq, and_true] at h
      obtain ⟨rfl, rfl, rfl, rfl, rfl⟩ := h
      rfl
    · cases h

/-- The module tree after `module a { struct S; };`. -/
def quadRoot : Mod Item := (build {} 0 [] .empty (.module (bytes "a") [.forward (bytes "S")])).1

/-- C62, the other way: on this text the parser never ends; with any number of steps, it has read the module `a` and the name `T`,
and is looking for `a::::S`. -/
theorem C62_quad_diverges : ¬ NoQuad quadText ∧ ¬ Rejects quadText ∧ ∀ o, Reads {} .empty quadText o → o.2 = some .unfinished := by
  have key : ∀ f, ∃ r, parse {} f .empty quadText = .built (r, some .unfinished) := by
    intro f
    unfold parse
    rw [quad_document]
    have h1 : build {} f [] .empty (.module (bytes "a") [.forward (bytes "S")]) = (quadRoot, none) := by
      have h : ∀ f, build {} f [] .empty (.module (bytes "a") [.forward (bytes "S")]) = build {} 0 [] .empty (.module (bytes "a") [.forward (bytes "S")]) := by
        intro f
        simp only [build, buildAll]
      have h2 : (build {} 0 [] .empty (.module (bytes "a") [.forward (bytes "S")])).2 = none := by decide +kernel
      rw [h, quadRoot, ← h2]
    have h2 : buildAll {} f [] .empty quadDefs = ((register quadRoot [] .struct (nm (bytes "T")) (.ty (.struct (String.ofList (scopedName [] (nm (bytes "T")))) .nil))).1, some .unfinished) := by
      simp only [quadDefs, buildAll]
      rw [h1]
      have h3 : resolveId {} quadRoot [] (bytes "T") true = .ok (bytes "T") := by rfl
      have h4 : ∀ root : Mod Item, (root.at ["a".toList]).isSome → members {} root [] f [] [(.name (bytes "a::::S"), [⟨bytes "s", []⟩])] = .error .unfinished := by
        intro root hr
        have : look root [] f (nm (bytes "a::::S")) = .error .unfinished := by
          unfold look
          cases he : resolve root f [] (nm (bytes "a::::S")) (nm (bytes "a::::S")) true with
          | none => rfl
          | some r => exact absurd ⟨f, he⟩ (C40_empty_component_diverges root "a".toList "S".toList ⟨by decide, by decide⟩ hr r)
        simp only [members, evalType, typeByName]
        rw [this]
        rfl
      simp only [build, buildStruct]
      rw [h3]
      simp only [orStop, parentMembers]
      rw [h4 _ (by decide +kernel)]
    exact ⟨_, congrArg Parsed.built h2⟩
  refine ⟨fun h => h ?_, fun h => ?_, fun o ⟨n, ho⟩ => ?_⟩
  · decide +kernel
  · obtain ⟨r, hr⟩ := key 0
    rw [h] at hr; cases hr
  · obtain ⟨r, hr⟩ := key n
    rw [ho n (le_refl _)] at hr
    cases hr; rfl

/-! ## Further cases -/

theorem entry_empty (p : Loc) (k : Cat) (x : Name) : entry (.empty : Mod Item) p k x = none := by
  cases p with
  | nil => cases k <;> rfl
  | cons a p =>
    have : (Mod.empty : Mod Item).at (a :: p) = none := by
      induction p generalizing a with
      | nil => rfl
      | cons b p ih => rw [Mod.at, ih]; rfl
    rw [entry, this]; rfl

theorem wellNamed_empty : WellNamed (.empty : Mod Item) := by
  have h := entry_empty
  refine ⟨?_, ?_, ?_, ?_⟩ <;> intro p x i he <;> rw [h] at he <;> cases he

/-- A text with a module, a constant, an enumeration, structures, a union and an error at the end. -/
def anyText : Bytes := bytes "module a { const char w = 'x'; enum E { on, off }; struct S; };
  typedef sequence<a::E> L;
  @final struct T { @key a::E e; sequence<long, a::on> s; };
  union U switch (char) { case 'a': long x; default: T y; };
  module a { struct S { ::T t[2]; }; };
  struct V { a::S s; Missing m; };"

/-- After blanks, no comment follows and none of the words that begin the definition of a type. -/
def begun : Bytes → Bool
  | [] => true
  | c :: r => if c ∈ [32, 9, 13, 10] then begun r
    else c ≠ 47 && ["struct", "union", "enum", "bitset", "bitmask", "@"].all fun w => !(bytes w).isPrefixOf (c :: r)

theorem begun_of {l : Bytes} (hl : Filler l) {w : String} (hw : w ∈ ["struct", "union", "enum", "bitset", "bitmask", "@"]) (t : Bytes) :
    begun (l ++ (bytes w ++ t)) = false := by
  induction hl with
  | nil =>
    have key : ∀ (c : Nat) (r : Bytes), bytes w = c :: r → ¬ c ∈ [32, 9, 13, 10] → begun (bytes w ++ t) = false := by
      intro c r h1 h2
      have h3 : ["struct", "union", "enum", "bitset", "bitmask", "@"].all (fun w => !(bytes w).isPrefixOf (c :: (r ++ t))) = false := by
        rw [List.all_eq_false]
        refine ⟨w, hw, ?_⟩
        rw [Bool.not_eq_true, Bool.not_eq_false', List.isPrefixOf_iff_prefix, h1]
        exact ⟨t, rfl⟩
      rw [h1, List.cons_append, begun, if_neg h2, h3, Bool.and_false]
    rw [List.nil_append]
    simp only [List.mem_cons, List.not_mem_nil, or_false] at hw
    rcases hw with rfl | rfl | rfl | rfl | rfl | rfl <;> exact key _ _ (by rfl) (by decide)
  | blank h _ ih => rw [List.cons_append, begun, if_pos h, ih]
  | line => simp [begun]
  | block => simp [begun]

/-- So it is after each `typedef`. -/
def allBegun : Bytes → Bool
  | [] => true
  | c :: r => ((strip (bytes "typedef") (c :: r)).map begun).getD true && allBegun r

/-- A way to see that no type is defined inside of a `typedef`. -/
theorem noInline_of : ∀ {text : Bytes}, allBegun text = true → NoInline text
  | [], _, l, hl, w, hw, h => by
    have := (List.append_eq_nil_iff.mp (List.infix_nil.mp h)).1
    exact absurd this (by decide)
  | c :: r, h, l, hl, w, hw, hi => by
    rw [allBegun, Bool.and_eq_true] at h
    obtain ⟨h1, h2⟩ := h
    rcases List.infix_cons_iff.mp hi with ⟨b, hb⟩ | hi
    · rw [List.append_assoc, List.append_assoc] at hb
      rw [← hb, strip_append, Option.map_some, Option.getD_some, begun_of hl hw] at h1
      cases h1
    · exact noInline_of h2 l hl w hw hi

theorem any_plain : NoQuad anyText := by unfold NoQuad; decide +kernel
theorem any_inline : NoInline anyText := noInline_of (by decide +kernel)
theorem any_words : ¬ bytes "any" <:+: anyText ∧ ¬ bytes "fixed" <:+: anyText ∧ bytes "typedef" <:+: anyText := by decide +kernel
theorem any_read : ¬ Rejects anyText := by
  intro h
  obtain ⟨o, ⟨n, h1⟩, _⟩ := reads_obs (text := anyText) (fun o => o.2) (v := some .refused) (by decide +kernel) (fun o ho => by rw [ho]; decide)
  have := h1 n (le_refl _)
  rw [h] at this; cases this
example : NoQuad anyText ∧ ¬ bytes "any" <:+: anyText ∧ ¬ bytes "fixed" <:+: anyText ∧ NoInline anyText ∧ ¬ Rejects anyText :=
  ⟨any_plain, any_words.1, any_words.2.1, any_inline, any_read⟩

/-- What it leaves: all but the last declaration, of which the name. -/
example : ∃ root', Reads {} .empty anyText (root', some .refused) ∧
    (entry root' ["a".toList] .const "off".toList).isSome ∧ (entry root' [] .union "U".toList).isSome ∧
    entry root' [] .struct "V".toList = some (.ty (.struct "V" .nil)) := by
  obtain ⟨⟨r, e⟩, h1, h2⟩ := reads_obs (text := anyText) (fun o => (o.2, (entry o.1 ["a".toList] .const "off".toList).isSome,
    (entry o.1 [] .union "U".toList).isSome, entry o.1 [] .struct "V".toList)) (v := (some .refused, true, true, some (.ty (.struct "V" .nil))))
    (by decide +kernel) (fun o ho => by rw [Prod.mk.injEq] at ho; rw [ho.1]; decide)
  simp only [Prod.mk.injEq] at h2
  obtain ⟨rfl, h2, h3, h4⟩ := h2
  exact ⟨r, h1, h2, h3, h4⟩

/-- The hypotheses of `C62_keeps` with a module tree that is not empty. -/
example : ∃ root' root'', Reads {} .empty anyText (root', some .refused) ∧ WellNamed root' ∧ (entry root' [] .union "U".toList).isSome ∧
    Reads {} root' (bytes "struct V { long x; };") (root'', none) ∧ entry root'' [] .struct "V".toList = some (.ty (.struct "V" (.ofList [("x", .prim .i32)]))) := by
  obtain ⟨⟨r, e⟩, h1, h2⟩ := reads_obs (text := anyText) (fun o => (o.2, (entry o.1 [] .union "U".toList).isSome,
      match parse {} 9 o.1 (bytes "struct V { long x; };") with
      | .rejected => none
      | .built o => some (o.2, entry o.1 [] .struct "V".toList)))
    (v := (some .refused, true, some (none, some (.ty (.struct "V" (.ofList [("x", .prim .i32)]))))))
    (by decide +kernel) (fun o ho => by rw [Prod.mk.injEq] at ho; rw [ho.1]; decide)
  simp only [Prod.mk.injEq] at h2
  obtain ⟨rfl, h2, h3⟩ := h2
  cases hp : parse {} 9 r (bytes "struct V { long x; };") with
  | rejected => rw [hp] at h3; cases h3
  | built o =>
    rw [hp] at h3
    simp only [Option.some.injEq, Prod.mk.injEq] at h3
    obtain ⟨r', e'⟩ := o
    obtain ⟨rfl, h4⟩ := h3
    exact ⟨r, r', h1, (C62_keeps {} .empty r _ _ wellNamed_empty h1).2, h2, reads_of 9 hp (by simp), h4⟩

/-- A module with half of a surrogate pair as constant. -/
def halfRoot : Mod Item := (register .empty [] .const "H".toList (.const .c16 0xD800)).1

/-- C62, the other way: half of a surrogate pair in the module, a constant defined by it: the parser does not return from printing
the value in its log. -/
theorem C62_half_diverges : ∃ root root' : Mod Item, WellNamed root ∧ Reads { wide16 := true } root (bytes "const wchar B = H;") (root', some .diverges) := by
  have h : ∃ r, parse { wide16 := true } 9 halfRoot (bytes "const wchar B = H;") = .built (r, some .diverges) := by
    have h : (match parse { wide16 := true } 9 halfRoot (bytes "const wchar B = H;") with | .rejected => none | .built o => o.2) = some .diverges := by
      decide +kernel
    split at h
    · cases h
    · rename_i o ho
      exact ⟨o.1, by rw [ho, ← h]⟩
  obtain ⟨r, h⟩ := h
  refine ⟨halfRoot, r, wellNamed_iff.mpr (All.register (wellNamed_iff.mp wellNamed_empty) _ _ _ _ _ fun _ _ => ?_), reads_of _ h (by simp)⟩
  trivial

/-- C62, the other way: a type that is defined inside of a `typedef`. The parser calls itself without end. -/
theorem C62_inline_diverges : ∃ root', Reads {} .empty (bytes "typedef struct S { long x; } T;") (root', some .diverges) := by
  obtain ⟨⟨r, e⟩, h1, h2⟩ := reads_obs (text := bytes "typedef struct S { long x; } T;") (fun o => o.2) (v := some .diverges) (by decide +kernel)
    (fun o ho => by rw [ho]; decide)
  cases h2
  exact ⟨r, h1⟩

/-- C62, as it is: a structure may be its own member; the member is the structure without members, and stays so. -/
theorem C62_self_member :
    ∃ root', Reads {} .empty (bytes "struct A { A a; };") (root', none) ∧
      omGet (root'.content.get .struct) "A".toList = some (.ty (.struct "A" (.ofList [("a", .struct "A" .nil)]))) :=
  reads_entry .struct "A" (by decide) (by decide +kernel)

/-- C62, as it is: a member whose type is declared in advance keeps the type without members, when the type gets them. -/
theorem C62_forward_member :
    ∃ root', Reads {} .empty (bytes "struct A; struct B { A a; }; struct A { long x; };") (root', none) ∧
      omGet (root'.content.get .struct) "A".toList = some (.ty (.struct "A" (.ofList [("x", .prim .i32)]))) ∧
      omGet (root'.content.get .struct) "B".toList = some (.ty (.struct "B" (.ofList [("a", .struct "A" .nil)]))) := by
  obtain ⟨⟨r, e⟩, h1, h2⟩ := reads_obs (text := bytes "struct A; struct B { A a; }; struct A { long x; };")
    (fun o => (o.2, omGet (o.1.content.get .struct) "A".toList, omGet (o.1.content.get .struct) "B".toList))
    (v := (none, some (.ty (.struct "A" (.ofList [("x", .prim .i32)]))), some (.ty (.struct "B" (.ofList [("a", .struct "A" .nil)])))))
    (by decide +kernel) (fun o ho => by rw [Prod.mk.injEq] at ho; rw [ho.1]; decide)
  simp only [Prod.mk.injEq] at h2
  obtain ⟨rfl, h2, h3⟩ := h2
  exact ⟨r, h1, h2, h3⟩

set_option synthInstance.maxSize 4096 in
/-- C62, as it is: entries stay, but a name may come to mean something else: a union is accepted under the name of a structure of
the same module, and is what the name stands for from then on. -/
theorem C62_meaning_fails :
    ∃ root root', Reads {} .empty (bytes "struct A { long x; };") (root, none) ∧
      Reads {} root (bytes "union A switch (long) { case 1: long a; case 2: long b; };") (root', none) ∧
      Means root [] "A" (.struct "A" (.ofList [("x", .prim .i32)])) ∧
      (∃ d ms u, Means root' [] "A" (.union "A" d ms u)) ∧
      entry root' [] .struct "A".toList = some (.ty (.struct "A" (.ofList [("x", .prim .i32)]))) := by
  have h : ((outcome (bytes "struct A { long x; };")).bind fun o =>
      match o.2, parse {} 9 o.1 (bytes "union A switch (long) { case 1: long a; case 2: long b; };") with
      | none, .built o' => some (o'.2, resolve o.1 9 [] "A".toList "A".toList true, typeOf o.1 false (.found [] "A".toList),
          resolve o'.1 9 [] "A".toList "A".toList true,
          (match typeOf o'.1 false (.found [] "A".toList) with | some (some (.ty (.union n _ _ _))) => some n | _ => none),
          entry o'.1 [] .struct "A".toList)
      | _, _ => none) = some (none, some (.found [] "A".toList), some (some (.ty (.struct "A" (.ofList [("x", .prim .i32)])))),
        some (.found [] "A".toList), some "A", some (.ty (.struct "A" (.ofList [("x", .prim .i32)])))) := by
    decide +kernel
  unfold outcome at h
  cases hp : parse {} 9 .empty (bytes "struct A { long x; };") with
  | rejected => rw [hp] at h; cases h
  | built o =>
    rw [hp] at h
    simp only [Option.bind_some] at h
    obtain ⟨r, e⟩ := o
    cases e with
    | some e => cases h
    | none =>
      cases hq : parse {} 9 r (bytes "union A switch (long) { case 1: long a; case 2: long b; };") with
      | rejected => simp only [hq] at h; cases h
      | built o' =>
        obtain ⟨r', e'⟩ := o'
        simp only [hq, Option.some.injEq, Prod.mk.injEq] at h
        obtain ⟨rfl, h2, h3, h4, h5, h6⟩ := h
        refine ⟨r, r', reads_of 9 hp (by simp), reads_of 9 hq (by simp), ⟨[], "A".toList, ⟨9, h2⟩, h3⟩, ?_, h6⟩
        split at h5
        · rename_i n d ms u he
          cases h5
          exact ⟨d, ms, u, [], "A".toList, ⟨9, h4⟩, he⟩
        · cases h5

/-- C62, as it is: a second constant of a name is accepted, and forgotten. -/
theorem C62_second_constant :
    ∃ root', Reads {} .empty (bytes "const long A = 3; const long A = 4;") (root', none) ∧
      omGet (root'.content.get .const) "A".toList = some (.const .i32 3) :=
  reads_entry .const "A" (by decide) (by decide +kernel)

end Verif.Idl
