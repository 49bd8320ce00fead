import Verif.Props.IdlModules
/-!
# C60 for constants

A text with constants that meets the hypotheses of C60_round_trip, and the constants that do not come back.
-/

namespace Verif.Idl
open Syn Gen Text

/-! ### A text that meets the hypotheses -/

/-- Constants of several types, also in a module, and a structure that follows them. -/
def exConstants : List Doc := [
  .decl [] 0 (.const "lowest" (.const .i8 (-128))),
  .decl [] 0 (.const "zero" (.const .i32 0)),
  .decl [] 0 (.const "big" (.const .u64 18446744073709551615)),
  .module [10] 0 "limits" [
    .decl [] 1 (.const "depth" (.const .i64 (-9223372036854775807))),
    .decl [] 1 (.const "strict" (.const .bool 0)),
    .decl [] 1 (.const "motto" (.text 12 (bytes "it's 'fine'")))] [],
  .decl [10] 0 (.struct "Point" none [("x", .prim .f64)])]

example : DocsDeclarable ⟨.c8, false⟩ [] .empty exConstants ∧ Proper .empty := by
  refine ⟨?_, proper_empty⟩
  unfold exConstants
  simp only [DocsDeclarable, DocDeclarable, enterDoc, enterDocs]
  refine ⟨⟨blanks_nil, ?_⟩, ⟨blanks_nil, ?_⟩, ⟨blanks_nil, ?_⟩,
    ⟨blanks_of rfl, blanks_nil, usable_of (by decide +kernel), by simp, .inr (unseen_of (by decide +kernel)),
      ⟨blanks_nil, ?_⟩, ⟨blanks_nil, ?_⟩, ⟨blanks_nil, ?_⟩, trivial⟩, ⟨blanks_of rfl, ?_⟩, trivial⟩
  · exact ⟨⟨usable_of (by decide +kernel), unseen_of (by decide +kernel)⟩, by decide, by decide⟩
  · exact ⟨⟨usable_of (by decide +kernel), unseen_of (by decide +kernel)⟩, by decide, by decide⟩
  · exact ⟨⟨usable_of (by decide +kernel), unseen_of (by decide +kernel)⟩, by decide, by decide⟩
  · exact ⟨⟨usable_of (by decide +kernel), unseen_of (by decide +kernel)⟩, by decide, by decide⟩
  · exact ⟨⟨usable_of (by decide +kernel), unseen_of (by decide +kernel)⟩, rfl⟩
  · exact ⟨⟨usable_of (by decide +kernel), unseen_of (by decide +kernel)⟩, by decide, by decide, by decide⟩
  · refine ⟨⟨usable_of (by decide +kernel), unseen_of (by decide +kernel)⟩, by decide, by simp, ?_⟩
    intro e he
    simp only [Option.map_none, Option.getD_none, List.drop_zero, List.mem_cons, List.not_mem_nil, or_false] at he
    subst he
    exact ⟨⟨usable_of (by decide +kernel), unseen_of (by decide +kernel)⟩, by decide, trivial, trivial, by simp [innermost, Writable]⟩

/-- The text of the document. -/
example : docsText [] exConstants = bytes "const int8 lowest = -128;
const int32 zero = 0;
const uint64 big = 18446744073709551615;

module limits
{
    const int64 depth = -9223372036854775807;
    const boolean strict = 0;
    const string<12> motto = \"it's 'fine'\";
};

struct Point
{
    double x;
};
" := by decide +kernel

/-- The constants of `exConstants`. -/
example : (docsDecls [] exConstants).flatMap (fun x => (declConsts x.2).map fun v => (scopedStr x.1 v.1, v.2)) =
    [("lowest", .const .i8 (-128)), ("zero", .const .i32 0), ("big", .const .u64 18446744073709551615),
     ("limits::depth", .const .i64 (-9223372036854775807)), ("limits::strict", .const .bool 0),
     ("limits::motto", .text 12 (bytes "it's 'fine'"))] := by decide +kernel

/-! ## Boolean literals -/

/-- C60, reading: the literals `TRUE` and `FALSE` give a Boolean constant its value (in any context, into any module that has
no such name). -/
theorem C60_boolean_constant (c : Ctx) {root : Mod Item} (hp : Proper root) {n : String} (hn : Free root [] n) (v : Bool) :
    Reads c root (bytes "const boolean " ++ (bytes n ++ (bytes " = " ++ (bytes (if v then "TRUE" else "FALSE") ++ bytes ";\n"))))
      (enter [] (.const n (.const .bool (if v then 1 else 0))) root, none) := by
  have hid := ident_is hn.1.1
  have hat : Atom (bytes (if v then "TRUE" else "FALSE")) (.lit (.text (bytes (if v then "TRUE" else "FALSE")))) := by
    cases v
    · exact bool_label (.inr rfl)
    · exact bool_label (.inl rfl)
  have hval : literalValue (.prim .bool) (.text (bytes (if v then "TRUE" else "FALSE"))) = .ok (.const .bool (if v then 1 else 0)) := by
    cases v <;> decide +kernel
  generalize bytes (if v then "TRUE" else "FALSE") = t at hat hval ⊢
  have e0 : bytes "const boolean " ++ (bytes n ++ (bytes " = " ++ (t ++ bytes ";\n"))) =
      [] ++ (bytes "const" ++ ([32] ++ (bytes "boolean" ++ ([32] ++ (bytes n ++ ([32] ++ 61 :: ([32] ++ (t ++ 59 :: [10])))))))) := by
    have e1 : bytes "const boolean " = bytes "const" ++ ([32] ++ (bytes "boolean" ++ [32])) := by decide
    have e2 : bytes " = " = [32] ++ ([61] ++ [32]) := rfl
    have e3 : bytes ";\n" = 59 :: [10] := rfl
    rw [e1, e2, e3]
    simp only [List.append_assoc, List.nil_append, List.cons_append]
  have hcn : Clean (bytes n ++ ([32] ++ 61 :: ([32] ++ (t ++ 59 :: [10])))) := isId_clean hid _
  have h1 : expression (t ++ 59 :: [10]) = some (.lit (.text t), 59 :: [10]) := constExpr_ok hat (.inr rfl) _
  have hty : constType (bytes "boolean" ++ ([32] ++ (bytes n ++ ([32] ++ 61 :: ([32] ++ (t ++ 59 :: [10])))))) = some (.prim .bool, _) :=
    const_prim (k := .bool) (.inr rfl) hcn
  have hdcl : constDcl ([] ++ (bytes "const" ++ ([32] ++ (bytes "boolean" ++ ([32] ++ (bytes n ++ ([32] ++ 61 :: ([32] ++ (t ++ 59 :: [10]))))))))) =
      some (.const (.prim .bool) (bytes n) (.lit (.text t)), 59 :: [10]) := by
    unfold constDcl
    rw [bind_ok (dkw_ok (by decide) blanks_nil (word_clean (w := "boolean") (word_of (by decide)) _)), bind_ok hty,
      bind_ok (wsOpt_clean hcn), bind_ok (isId_read hid (by exact (by decide : idChar 32 = false))),
      bind_ok (sym_front (w := "=") (c := 61) rfl (by decide) blank_space blank_space (hat.clean _)), bind_ok h1]
    rfl
  have hdef : ∀ f, definition (f + 1) (bytes "const boolean " ++ (bytes n ++ (bytes " = " ++ (t ++ bytes ";\n")))) =
      some (.const (.prim .bool) (bytes n) (.lit (.text t)), []) := fun f => by
    rw [e0, definition_succ]
    have h3 := sym_front0 (w := ";") (c := 59) (b := [10]) (s := []) rfl (by decide) (blanks_of rfl) trivial
    rw [List.append_nil] at h3
    exact definitionWith_ok (choice_next (moduleDcl_no (by decide) (by decide) blanks_nil _ _) (choice_first hdcl)) h3
  have hdoc : document (bytes "const boolean " ++ (bytes n ++ (bytes " = " ++ (t ++ bytes ";\n")))) =
      some [.const (.prim .bool) (bytes n) (.lit (.text t))] := by
    unfold document
    generalize (bytes "const boolean " ++ (bytes n ++ (bytes " = " ++ (t ++ bytes ";\n")))).length = f
    rw [bind_ok (wsOpt_clean (s := bytes "const boolean " ++ _) ⟨by decide, by decide⟩), bind_ok (plus_chain (hdef f) (.nil (definition_end f)))]
    rfl
  have hco := ident_colon hn.1.1
  have hm : root.at [] = some root := rfl
  have hs := hasSymbol_false (free_symbol hm hn.2)
  refine reads_of 1 ?_ (by simp)
  rw [parse, hdoc]
  refine congrArg Parsed.built ?_
  have hb : buildConst c root [] 1 (.prim .bool) (bytes n) (.lit (.text t)) =
      (enter [] (.const n (.const .bool (if v then 1 else 0))) root, none) := by
    unfold buildConst
    have e1 : evalType c root [] 1 (.prim .bool) = .ok (.prim .bool) := rfl
    have e2 : solveExpr root [] 1 (.prim .bool) (.lit (.text t)) = .ok (.const .bool (if v then 1 else 0)) := hval
    have e3 : constKind (.prim .bool) = .ok (.prim .bool) := rfl
    have e4 : ∀ z, logged (.const .bool z) = .ok () := fun z => rfl
    rw [e1]
    simp only [orStop, e3, e2, e4, nm_bytes]
    rw [register_put hm hco (hs.1 .const), enter_at hm]
    cases root with
    | mk cc ii => rfl
  simp only [buildAll, build, hb]

example : Proper .empty ∧ Free .empty [] "on" := ⟨proper_empty, usable_of (by decide +kernel), unseen_of (by decide +kernel)⟩

/-! ## Where the round trip fails -/

/-- C60, the other way: a Boolean constant that is `TRUE` comes back as `FALSE`: it is printed as `1`. -/
theorem C60_true_constant_fails :
    ∃ root', Reads {} .empty (constLine "on" (.const .bool 1)) (root', none) ∧
      omGet (root'.content.get .const) "on".toList = some (.const .bool 0) :=
  reads_entry .const "on" (by decide) (by decide +kernel)

/-- C60, the other way: every constant of type `char` comes back as the quotation mark: it is printed as a number in quotation
marks, and what is read is the first character, quotation mark included; the same from a text written by hand. -/
theorem C60_char_constant_fails :
    (∃ root', Reads {} .empty (constLine "c" (.const .c8 65)) (root', none) ∧
      omGet (root'.content.get .const) "c".toList = some (.const .c8 39)) ∧
    ∃ root', Reads {} .empty (bytes "const char c = 'A';") (root', none) ∧
      omGet (root'.content.get .const) "c".toList = some (.const .c8 39) :=
  ⟨reads_entry .const "c" (by decide) (by decide +kernel), reads_entry .const "c" (by decide) (by decide +kernel)⟩

/-- C60, the other way: a constant of type `wchar` is refused. -/
theorem C60_wide_constant_fails :
    (∃ root', Reads {} .empty (constLine "c" (.const .wc 65)) (root', some .refused) ∧
      omGet (root'.content.get .const) "c".toList = none) ∧
    ∃ root', Reads {} .empty (bytes "const wchar c = L'A';") (root', some .refused) ∧
      omGet (root'.content.get .const) "c".toList = none :=
  ⟨reads_entry .const "c" (by decide) (by decide +kernel), reads_entry .const "c" (by decide) (by decide +kernel)⟩

/-- C60, the other way: reading the least `int32` is undefined (the literal wraps to a negative number, whose negation
overflows); the least `int64` comes back as the next one (the literal is cut down to the greatest). -/
theorem C60_least_constant_fails :
    (∃ root', Reads {} .empty (constLine "c" (.const .i32 (-2 ^ 31))) (root', some .ub) ∧
      omGet (root'.content.get .const) "c".toList = none) ∧
    ∃ root', Reads {} .empty (constLine "c" (.const .i64 (-2 ^ 63))) (root', none) ∧
      omGet (root'.content.get .const) "c".toList = some (.const .i64 (-2 ^ 63 + 1)) :=
  ⟨reads_entry .const "c" (by decide) (by decide +kernel), reads_entry .const "c" (by decide) (by decide +kernel)⟩

/-- C60, the other way: a quotation mark in a string constant is not escaped, and the text is rejected. -/
theorem C60_quoted_constant_fails : Rejects (constLine "c" (.text 0 (bytes "a\"b"))) := rejects_of (by decide +kernel)

/-- C60: the name of no constant is refused as value of an integer constant, but is `FALSE` as value of a Boolean one. -/
theorem C60_unknown_constant_fails :
    (∃ root', Reads {} .empty (bytes "const long b = missing;") (root', some .refused) ∧
      omGet (root'.content.get .const) "b".toList = none) ∧
    ∃ root', Reads {} .empty (bytes "const boolean b = missing;") (root', none) ∧
      omGet (root'.content.get .const) "b".toList = some (.const .bool 0) :=
  ⟨reads_entry .const "b" (by decide) (by decide +kernel), reads_entry .const "b" (by decide) (by decide +kernel)⟩

/-- C60: a second constant of the same name is accepted and ignored, even of another type; and a constant may have the name of a
type. -/
theorem C60_same_constant_fails :
    (∃ root', Reads {} .empty (bytes "const long b = 1; const string b = \"two\";") (root', none) ∧
      omGet (root'.content.get .const) "b".toList = some (.const .i32 1)) ∧
    ∃ root', Reads {} .empty (bytes "struct A { long x; }; const long A = 1;") (root', none) ∧
      omGet (root'.content.get .const) "A".toList = some (.const .i32 1) :=
  ⟨reads_entry .const "b" (by decide) (by decide +kernel), reads_entry .const "A" (by decide) (by decide +kernel)⟩

/-- C60: there are no constants of type `octet`: it is read as the name of a type. -/
theorem C60_octet_constant_fails :
    ∃ root', Reads {} .empty (bytes "const octet c = 1;") (root', some .refused) ∧
      omGet (root'.content.get .const) "c".toList = none :=
  reads_entry .const "c" (by decide) (by decide +kernel)

/-- C60: a literal of another type is accepted: what is no number at its beginning is 0, and the rest is ignored; a number too
great for its type wraps. -/
theorem C60_wrong_literal_fails :
    (∃ root', Reads {} .empty (bytes "const long c = \"5\";") (root', none) ∧
      omGet (root'.content.get .const) "c".toList = some (.const .i32 0)) ∧
    (∃ root', Reads {} .empty (bytes "const long c = 1.5;") (root', none) ∧
      omGet (root'.content.get .const) "c".toList = some (.const .i32 1)) ∧
    (∃ root', Reads {} .empty (bytes "const unsigned short c = 65537;") (root', none) ∧
      omGet (root'.content.get .const) "c".toList = some (.const .u16 1)) ∧
    ∃ root', Reads {} .empty (bytes "const boolean c = 1;") (root', none) ∧
      omGet (root'.content.get .const) "c".toList = some (.const .bool 0) :=
  ⟨reads_entry .const "c" (by decide) (by decide +kernel), reads_entry .const "c" (by decide) (by decide +kernel),
   reads_entry .const "c" (by decide) (by decide +kernel), reads_entry .const "c" (by decide) (by decide +kernel)⟩

/-- C60: a string constant longer than the bound of its type is cut. -/
theorem C60_bounded_constant_fails :
    ∃ root', Reads {} .empty (bytes "const string<3> c = \"abcdef\";") (root', none) ∧
      omGet (root'.content.get .const) "c".toList = some (.text 3 (bytes "abc")) :=
  reads_entry .const "c" (by decide) (by decide +kernel)

/-- C60: adjacent string literals are joined in a string constant, and are read through a null pointer in an integer constant. -/
theorem C60_joined_constant :
    (∃ root', Reads {} .empty (bytes "const string c = \"ab\" /* and */ \"cd\";") (root', none) ∧
      omGet (root'.content.get .const) "c".toList = some (.text 0 (bytes "abcd"))) ∧
    (∃ root', Reads {} .empty (bytes "const string<3> c = \"ab\" \"cd\";") (root', none) ∧
      omGet (root'.content.get .const) "c".toList = some (.text 3 (bytes "abc"))) ∧
    ∃ root', Reads {} .empty (bytes "const long c = \"1\" \"2\";") (root', some .ub) ∧
      omGet (root'.content.get .const) "c".toList = none :=
  ⟨reads_entry .const "c" (by decide) (by decide +kernel), reads_entry .const "c" (by decide) (by decide +kernel),
   reads_entry .const "c" (by decide) (by decide +kernel)⟩

/-- C60: a constant whose type is an alias has the type the alias stands for. -/
theorem C60_alias_constant :
    (∃ root', Reads {} .empty (bytes "typedef long T; typedef T U; const U x = 5;") (root', none) ∧
      omGet (root'.content.get .const) "x".toList = some (.const .i32 5)) ∧
    ∃ root', Reads {} .empty (bytes "typedef string<3> T; const T x = \"abcdef\";") (root', none) ∧
      omGet (root'.content.get .const) "x".toList = some (.text 3 (bytes "abc")) :=
  ⟨reads_entry .const "x" (by decide) (by decide +kernel), reads_entry .const "x" (by decide) (by decide +kernel)⟩

/-- C60: a constant can only be given the value of a constant of the same type; the IDL rules ask no more than that the value
fits. -/
theorem C60_other_type_constant_fails :
    (∃ root', Reads {} .empty (bytes "const long a = 1; const long b = a;") (root', none) ∧
      omGet (root'.content.get .const) "b".toList = some (.const .i32 1)) ∧
    ∃ root', Reads {} .empty (bytes "const short a = 1; const long b = a;") (root', some .refused) ∧
      omGet (root'.content.get .const) "b".toList = none :=
  ⟨reads_entry .const "b" (by decide) (by decide +kernel), reads_entry .const "b" (by decide) (by decide +kernel)⟩

end Verif.Idl
