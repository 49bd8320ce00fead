import Verif.Lemmas.Preprocess
import Verif.Model.ParseString
import Verif.Props.IdlWrite
/-!
# C65: the text reaches the preprocessor as it is, and nothing in it is executed
-/

namespace Verif.Pre
open Verif.Idl.Syn (Item)

/-! ## The quotation -/

/-- C65: for which texts the quotation of the library is right. Between the two quotation marks that `preprocess_string` writes,
the shell reads exactly the text, and the quotation ends at the mark that was written to end it, if and only if the text has no `$`
and no back quote, no backslash at its end or before a backslash or an end of line, and no `\"` before its first other quotation
mark. (On a machine on which the character read outside of the text, see `C65_undefined`, is no backslash.) -/
theorem C65_quoted_iff (b : Nat) (hb : b ≠ 92) (text rest : Bytes) :
    ∃ e, replaceAll (some b) (text.length + 1) text [34] [92, 34] = .ok e ∧ (inside (e ++ 34 :: rest) = some (text, rest) ↔ Passes false text) :=
  ⟨esc false 0 text, replaceAll_ok hb (by omega) 0,
    fun h => inside_passes _ text false 0 rest (Nat.le_refl _) h, fun h => passes_inside _ text false 0 rest (Nat.le_refl _) (by decide) h⟩

theorem tokens_intended {c : Config} {ws : List Bytes} (hc : c.Plain ws) (cur : Bytes) :
    tokens .plain (some cur) (bytes " | " ++ c.exec ++ [32] ++ c.args ++ c.redirect) = some (.word cur :: .op 124 :: preprocessor c ws []) := by
  have e : bytes " | " ++ c.exec ++ [32] ++ c.args ++ c.redirect =
      32 :: 124 :: 32 :: (joinWords ws ++ 32 :: (c.paths.flatMap (fun p => c.includeFlag ++ p ++ [32]) ++ bytes " 2>/dev/null")) := by
    rw [hc.exec, hc.redirect, show bytes " | " = [32, 124, 32] from by decide]
    simp [Config.args]
  rw [e, tokens_blank, tokens_op (by decide), tokens_blank, tokens_words hc.some hc.words, tokens_paths hc.flag hc.paths, tokens_redirect]
  simp [flush, preprocessor]

/-- C65: for those texts, without a zero in them, and if the names of the preprocessor and of its directories need no quotes, the
command that is executed is `echo` with the text as its only argument, into the preprocessor with its directories. -/
theorem C65_command_partial (b : Nat) (hb : b ≠ 92) (c : Config) (ws : List Bytes) (hc : c.Plain ws) (text : Bytes)
    (ht : Passes false text) (h0 : 0 ∉ text) :
    ∃ cmd, stringCommand (some b) (text.length + 1) c text = .ok cmd ∧ shell (cString cmd) = some (intended c ws text) := by
  have hr := replaceAll_ok hb (f := text.length + 1) (t := text) (by omega) 0
  refine ⟨bytes "echo \"" ++ esc false 0 text ++ bytes "\" | " ++ c.exec ++ [32] ++ c.args ++ c.redirect, by rw [stringCommand, hr], ?_⟩
  have hz : ∀ {w : Bytes}, Safe w → 0 ∉ w := fun h hm => absurd (h.2 0 hm) (by decide)
  have e0 : ∀ seen prev (t : Bytes), 0 ∉ t → 0 ∉ esc seen prev t := by
    intro seen prev t
    induction t generalizing seen prev with
    | nil => exact fun _ h => absurd h (by simp [esc])
    | cons x r ih =>
      intro h
      simp only [List.mem_cons, not_or] at h
      rw [esc]
      split
      · intro hm
        rcases List.mem_append.mp hm with hm | hm
        · split at hm
          · exact absurd hm (by decide)
          · exact absurd hm (by decide)
        · exact ih _ _ h.2 hm
      · intro hm
        rcases List.mem_cons.mp hm with hm | hm
        · exact h.1 hm
        · exact ih _ _ h.2 hm
  have hj : 0 ∉ joinWords ws := by
    intro hm
    have hw := hc.words
    generalize ws = l at hm hw
    induction l with
    | nil => simp [joinWords] at hm
    | cons w r ih =>
      cases r with
      | nil =>
        rw [show joinWords [w] = w by simp [joinWords]] at hm
        exact hz (hw w (by simp)) hm
      | cons v r =>
        rw [show joinWords (w :: v :: r) = w ++ 32 :: joinWords (v :: r) by simp [joinWords, List.intercalate]] at hm
        rcases List.mem_append.mp hm with hm | hm
        · exact hz (hw w (by simp)) hm
        · rcases List.mem_cons.mp hm with hm | hm
          · cases hm
          · exact ih hm fun x hx => hw x (List.mem_cons_of_mem _ hx)
  have ha : 0 ∉ c.args := by
    intro hm
    obtain ⟨p, hp, hm⟩ := List.mem_flatMap.mp hm
    rcases List.mem_append.mp hm with hm | hm
    · rcases List.mem_append.mp hm with hm | hm
      · exact hz hc.flag hm
      · exact hz (hc.paths p hp) hm
    · exact absurd hm (by decide)
  have hn : 0 ∉ bytes "echo \"" ++ esc false 0 text ++ bytes "\" | " ++ c.exec ++ [32] ++ c.args ++ c.redirect := by
    rw [hc.exec, hc.redirect]
    simp only [List.mem_append, not_or]
    exact ⟨⟨⟨⟨⟨⟨by decide, e0 _ _ _ h0⟩, by decide⟩, hj⟩, by decide⟩, ha⟩, by decide⟩
  rw [cString_id hn]
  have e : bytes "echo \"" ++ esc false 0 text ++ bytes "\" | " ++ c.exec ++ [32] ++ c.args ++ c.redirect =
      bytes "echo" ++ 32 :: 34 :: (esc false 0 text ++ 34 :: (bytes " | " ++ c.exec ++ [32] ++ c.args ++ c.redirect)) := by
    rw [show bytes "echo \"" = bytes "echo" ++ [32, 34] from by decide, show bytes "\" | " = 34 :: bytes " | " from by decide]
    simp
  have hecho : Safe (bytes "echo") := ⟨by decide, by decide⟩
  unfold shell
  rw [e, tokens_word hecho, tokens_quote, show more none [] = some [] from rfl,
    tokens_inside _ _ _ _ [] (Nat.le_refl _) (passes_inside _ text false 0 _ (Nat.le_refl _) (by decide) ht), List.nil_append,
    tokens_intended hc]
  rfl

/-- The defaults are such names. -/
theorem default_plain (ps : List Bytes) (h : ∀ p ∈ ps, Safe p) : Config.Plain { paths := ps } [bytes "cpp", bytes "-H"] where
  exec := show bytes "cpp -H" = joinWords [bytes "cpp", bytes "-H"] by decide
  some := by decide
  words := by
    intro w hw
    simp only [List.mem_cons, List.not_mem_nil, or_false] at hw
    rcases hw with rfl | rfl
    · exact ⟨by decide, by decide⟩
    · exact ⟨by decide, by decide⟩
  flag := show Safe (bytes "-I") from ⟨by decide, by decide⟩
  paths := h
  redirect := rfl

/-- A text with quotation marks, and with escaped ones and other backslashes in a string: `const string A = "say \"no\"\t!"; // it's`. -/
def quotedSample : Bytes := bytes "const string A = \"say \\\"no\\\"\\t!\"; // it's (a)\n#include <b>\n"

def passes? : Bool → Bytes → Bool
  | _, [] => true
  | _, [c] => c != 36 && c != 96 && c != 92
  | seen, c :: d :: r =>
    if c = 92 then d != 36 && d != 96 && d != 92 && d != 10 && (d != 34 || seen) && passes? seen (d :: r)
    else c != 36 && c != 96 && passes? (seen || c == 34) (d :: r)

theorem passes_of : ∀ {seen : Bool} {t : Bytes}, passes? seen t = true → Passes seen t
  | _, [], _ => trivial
  | _, [c], h => by
    simp only [passes?, Bool.and_eq_true, bne_iff_ne, ne_eq] at h
    exact ⟨h.1.1, h.1.2, h.2⟩
  | seen, c :: d :: r, h => by
    unfold passes? at h
    unfold Passes
    split at h
    · rename_i hc
      rw [if_pos hc]
      simp only [Bool.and_eq_true, Bool.or_eq_true, bne_iff_ne, ne_eq] at h
      exact ⟨h.1.1.1.1.1, h.1.1.1.1.2, h.1.1.1.2, h.1.1.2, fun e => h.1.2.resolve_left (fun k => k e), passes_of h.2⟩
    · rename_i hc
      rw [if_neg hc]
      simp only [Bool.and_eq_true, bne_iff_ne, ne_eq] at h
      exact ⟨h.1.1, h.1.2, passes_of h.2⟩

example : ∃ cmd, stringCommand (some 0) (quotedSample.length + 1) { paths := [bytes "/usr/share/idl"] } quotedSample = .ok cmd ∧
    shell (cString cmd) = some (intended { paths := [bytes "/usr/share/idl"] } [bytes "cpp", bytes "-H"] quotedSample) :=
  C65_command_partial 0 (by decide) _ _ (default_plain _ fun p hp => by rw [List.mem_singleton.mp hp]; exact ⟨by decide, by decide⟩)
    quotedSample (passes_of (by decide)) (by decide)

example : shell (bytes "echo \"a\" | cpp -H -I/x  2>/dev/null") = some (intended { paths := [bytes "/x"] } [bytes "cpp", bytes "-H"] (bytes "a")) := by decide

/-! ## Undefined behaviour -/

/-- C65, the other way: `replace_all_string` reads a character outside of the text, whatever the text is, if it has a quotation
mark; without one it does not. -/
theorem C65_undefined (c : Config) (text : Bytes) : stringCommand none (text.length + 1) c text = .ub ↔ 34 ∈ text := by
  constructor
  · intro h
    refine Decidable.byContradiction fun hn => ?_
    have hf : find [34] text 0 = none := find_none (a := []) hn
    rw [stringCommand, replaceAll, hf] at h
    cases h
  · intro h
    rcases replaceAll_ub (f := text.length + 1) (t := text) (by omega) with h1 | h1
    · rw [stringCommand, h1]
    · exact absurd h h1

/-! ## Commands in a text -/

/-- C65, the other way: whatever word `w` is written in a comment after `// \"; ` (and before ` #`), the shell executes it as a
command. -/
theorem C65_executes_fails (w : Bytes) (hw : Safe w) :
    ∃ cmd, stringCommand (some 0) (w.length + 100) {} (bytes "// \\\"; " ++ w ++ bytes " #") = .ok cmd ∧
      shell cmd = some [.word (bytes "echo"), .word (bytes "// \\"), .op 59, .word w] := by
  have hq : 34 ∉ w := fun hm => absurd (hw.2 34 hm) (by decide)
  have hlen : (bytes "// \\\"; " ++ w ++ bytes " #").length < w.length + 100 := by
    simp only [List.length_append]
    rw [show (bytes "// \\\"; ").length = 7 from by decide, show (bytes " #").length = 2 from by decide]
    omega
  refine ⟨_, by rw [stringCommand, replaceAll_ok (by decide) hlen 0], ?_⟩
  have e1 : bytes "// \\\"; " ++ w ++ bytes " #" = bytes "// \\" ++ 34 :: (bytes "; " ++ w ++ bytes " #") := by
    rw [show bytes "// \\\"; " = bytes "// \\" ++ 34 :: bytes "; " from by decide]; simp
  have h2 : 34 ∉ bytes "; " ++ w ++ bytes " #" := by
    simp only [List.mem_append, not_or]
    exact ⟨⟨by decide, hq⟩, by decide⟩
  have e2 : esc false 0 (bytes "// \\\"; " ++ w ++ bytes " #") = bytes "// \\" ++ ([92, 34] ++ (bytes "; " ++ w ++ bytes " #")) := by
    rw [e1, esc_split (by decide), esc_none h2]; rfl
  have e3 : bytes "echo \"" ++ (bytes "// \\" ++ ([92, 34] ++ (bytes "; " ++ w ++ bytes " #"))) ++ bytes "\" | " ++ bytes "cpp -H" ++ [32] ++
      Config.args {} ++ bytes " 2>/dev/null" =
      bytes "echo" ++ 32 :: 34 :: (bytes "// \\\\" ++ 34 :: 59 :: 32 :: (w ++ 32 :: 35 :: bytes "\" | cpp -H  2>/dev/null")) := by
    rw [show bytes "echo \"" = bytes "echo" ++ [32, 34] from by decide, show bytes "// \\\\" = bytes "// \\" ++ [92] from by decide,
      show bytes "\" | cpp -H  2>/dev/null" = bytes "\" | " ++ bytes "cpp -H" ++ [32] ++ Config.args {} ++ bytes " 2>/dev/null" from by decide,
      show bytes "; " = [59, 32] from by decide, show bytes " #" = [32, 35] from by decide]
    simp only [List.append_assoc, List.cons_append, List.nil_append]
  have hin : inside (bytes "// \\\\" ++ 34 :: 59 :: 32 :: (w ++ 32 :: 35 :: bytes "\" | cpp -H  2>/dev/null")) =
      some (bytes "// \\", 59 :: 32 :: (w ++ 32 :: 35 :: bytes "\" | cpp -H  2>/dev/null")) := rfl
  have hecho : Safe (bytes "echo") := ⟨by decide, by decide⟩
  have hcom : tokens .plain none (35 :: bytes "\" | cpp -H  2>/dev/null") = some [] := by decide
  show shell (bytes "echo \"" ++ esc false 0 (bytes "// \\\"; " ++ w ++ bytes " #") ++ bytes "\" | " ++ bytes "cpp -H" ++ [32] ++
      Config.args {} ++ bytes " 2>/dev/null") = _
  rw [e2, e3]
  unfold shell
  rw [tokens_word hecho, tokens_quote, show more none [] = some [] from rfl, tokens_inside _ _ _ _ [] (Nat.le_refl _) hin, List.nil_append,
    tokens_op (by decide), tokens_blank, tokens_word hw, hcom]
  rfl

/-- C65, the other way: what stands in `$(…)` in a comment, or after a dollar sign anywhere, is expanded by the shell. -/
theorem C65_substitution_fails :
    ∃ cmd, stringCommand none 100 {} (bytes "// $(reboot)\nstruct S {};") = .ok cmd ∧
      shell cmd = some [.word (bytes "echo"), .expand (bytes "$(reboot)\nstruct S {};\" | cpp -H  2>/dev/null")] :=
  ⟨_, rfl, by decide⟩

/-- C65, the other way: a string that ends with an escaped backslash makes a command that is no command: a quote is not closed. -/
theorem C65_backslash_fails :
    ∃ cmd, stringCommand (some 0) 100 {} (bytes "const string A = \"a\\\\\";") = .ok cmd ∧ shell cmd = none :=
  ⟨_, rfl, by decide⟩

/-- C65, the other way: on a system whose `echo` knows `\n`, a string in the text is broken into two lines. Without backslashes
`echo` prints what it is given. -/
theorem C65_echo :
    (∀ t : Bytes, 92 ∉ t → echoed t = some (t ++ [10])) ∧
    echoed (bytes "const string A = \"a\\nb\";") = some (bytes "const string A = \"a\nb\";\n") := by
  refine ⟨fun t => ?_, by decide⟩
  have key : ∀ n (t : Bytes), t.length ≤ n → 92 ∉ t → echoed t = some (t ++ [10]) := by
    intro n
    induction n with
    | zero => intro t hn _; rw [List.length_eq_zero_iff.mp (by omega : t.length = 0)]; rfl
    | succ n ih =>
      intro t hn h
      match t, hn, h with
      | [], _, _ => rfl
      | [c], _, _ => rfl
      | c :: d :: r, hn, h =>
        simp only [List.mem_cons, not_or] at h
        rw [echoed, if_pos (Ne.symm h.1), ih (d :: r) (by simp only [List.length_cons] at hn ⊢; omega)
          (by simp only [List.mem_cons, not_or]; exact h.2)]
        rfl
  exact key _ t (Nat.le_refl _)

/-! ## Files -/

/-- C65: for a file whose name needs no quotes, the command is the preprocessor with its directories and that file. -/
theorem C65_file_partial (c : Config) (ws : List Bytes) (hc : c.Plain ws) (file : Bytes) (hf : Safe file) :
    shell (fileCommand c file) = some (preprocessor c ws [file]) := by
  have e : fileCommand c file =
      joinWords ws ++ 32 :: (c.paths.flatMap (fun p => c.includeFlag ++ p ++ [32]) ++ (file ++ bytes " 2>/dev/null")) := by
    rw [fileCommand, hc.exec, hc.redirect]
    simp [Config.args]
  unfold shell
  rw [e, tokens_words hc.some hc.words, tokens_paths hc.flag hc.paths, tokens_safe hf, tokens_redirect]
  simp [flush, preprocessor, more]

example : shell (fileCommand { paths := [bytes "idl"] } (bytes "/tmp/a_1.idl")) =
    some (preprocessor { paths := [bytes "idl"] } [bytes "cpp", bytes "-H"] [bytes "/tmp/a_1.idl"]) :=
  C65_file_partial _ _ (default_plain _ fun p hp => by rw [List.mem_singleton.mp hp]; exact ⟨by decide, by decide⟩) _ ⟨by decide, by decide⟩

/-- C65, the other way: a blank in the name of a file makes two names of it, and what comes after a semicolon is executed. -/
theorem C65_file_fails :
    shell (fileCommand {} (bytes "my types.idl")) = some (preprocessor {} [bytes "cpp", bytes "-H"] [bytes "my", bytes "types.idl"]) ∧
    shell (fileCommand {} (bytes "a.idl;reboot")) =
      some [.word (bytes "cpp"), .word (bytes "-H"), .word (bytes "a.idl"), .op 59, .word (bytes "reboot"), .word (bytes "2"), .op 62,
        .word (bytes "/dev/null")] := by decide

/-! ## The output -/

/-- C65: the output of the preprocessor is taken as it is, whatever the lengths of its lines, if it has no zero in it. -/
theorem C65_output_partial (out : Bytes) (h : 0 ∉ out) : collect (out.length + 1) out = out := collect_ok _ _ (by omega) h

/-- C65, the other way: after a zero the rest of the line is lost, and only that. -/
theorem C65_output_fails : collect 100 (bytes "long a; \x00 long b;\nlong c;") = bytes "long a; long c;" := by decide

/-! ## All together -/

theorem passes_without : ∀ (t : Bytes) (seen : Bool), 36 ∉ t → 96 ∉ t → 92 ∉ t → Passes seen t := by
  intro t
  induction t with
  | nil => intros; trivial
  | cons x r ih =>
    intro seen h1 h2 h3
    simp only [List.mem_cons, not_or] at h1 h2 h3
    cases r with
    | nil => exact ⟨Ne.symm h1.1, Ne.symm h2.1, Ne.symm h3.1⟩
    | cons d r =>
      rw [Passes, if_neg (Ne.symm h3.1)]
      exact ⟨Ne.symm h1.1, Ne.symm h2.1, ih _ (by simpa using h1.2) (by simpa using h2.2) (by simpa using h3.2)⟩

/-- C65: if the system does with `echo t | cpp …` what it should, that is, prints what the preprocessor makes of `t` and an end of
line, then what `idl::parse` reads is what the preprocessor makes of the text, all of it and nothing else. For texts without `$`, back
quotes, backslashes and zeros. -/
theorem C65_preprocessed_partial (run cpp : Bytes → Bytes) (c : Config) (ws : List Bytes) (hc : c.Plain ws)
    (hrun : ∀ cmd t, shell cmd = some (intended c ws t) → 92 ∉ t → run cmd = cpp (t ++ [10]))
    (text : Bytes) (h1 : 36 ∉ text) (h2 : 96 ∉ text) (h3 : 92 ∉ text) (h0 : 0 ∉ text) (hz : 0 ∉ cpp (text ++ [10]))
    (b : Nat) (hb : b ≠ 92) (ctx : Idl.Syn.Ctx) (f : Nat) (root : Idl.Mod Item) :
    parseString run (some b) c true ctx f root text = .ok (Idl.Syn.parse ctx f root (cpp (text ++ [10]))) := by
  obtain ⟨cmd, e1, e2⟩ := C65_command_partial b hb c ws hc text (passes_without text false h1 h2 h3) h0
  unfold parseString
  rw [if_pos rfl, e1]
  simp only [hrun _ _ e2 h3]
  rw [collect_ok _ _ (by omega) hz, cString_id hz]

/-- C65: and if what the preprocessor makes of the text writes the same declarations, apart from lines that begin with `#` and other
ignored declarations, then `idl::parse` does with preprocessing what it does without. -/
theorem C65_reads_partial (run cpp : Bytes → Bytes) (c : Config) (ws : List Bytes) (hc : c.Plain ws)
    (hrun : ∀ cmd t, shell cmd = some (intended c ws t) → 92 ∉ t → run cmd = cpp (t ++ [10]))
    (text : Bytes) (h1 : 36 ∉ text) (h2 : 96 ∉ text) (h3 : 92 ∉ text) (h0 : 0 ∉ text) (ds ds' : List Idl.Syn.Def) (hw : Idl.Writes ds text)
    (hz : 0 ∉ cpp (text ++ [10])) (hw' : Idl.Writes ds' (cpp (text ++ [10]))) (hd : Idl.Without ds' ds)
    (b : Nat) (hb : b ≠ 92) (ctx : Idl.Syn.Ctx) (f : Nat) (root : Idl.Mod Item) :
    parseString run (some b) c true ctx f root text = .ok (Idl.Syn.parse ctx f root text) ∧
    parseString run (some b) c false ctx f root text = .ok (Idl.Syn.parse ctx f root text) := by
  constructor
  · rw [C65_preprocessed_partial run cpp c ws hc hrun text h1 h2 h3 h0 hz b hb ctx f root]
    unfold Idl.Syn.parse
    rw [Idl.Syn.document_written hw, Idl.Syn.document_written hw']
    simp only [Idl.without_build hd]
  · unfold parseString
    rw [if_neg (by decide), cString_id h0]

/-- A preprocessor that writes where the text comes from, and the rest as it is. -/
def sampleCpp (t : Bytes) : Bytes := bytes "# 1 \"<stdin>\"\n" ++ t

/-- A system that can do nothing but `echo` into this preprocessor. -/
def sampleRun (cmd : Bytes) : Bytes :=
  match shell cmd with
  | some (.word _ :: .word t :: .op 124 :: _) => sampleCpp (t ++ [10])
  | _ => []

def cppPieces : List (Idl.Piece × Bytes) :=
  [(.line (bytes " 1 \"<stdin>\"\n"), []), (Idl.kword "struct", [32]), (.word (bytes "S"), [32]), (.sign 123, [32]), (Idl.kword "long", [32]),
    (.word (bytes "x"), []), (.sign 59, [32]), (.sign 125, []), (.sign 59, [10])]

theorem cpp_writes : Idl.Writes [.skip, Idl.sampleStruct] (sampleCpp (Idl.render Idl.plainPieces ++ [10])) := by
  refine ⟨([(.skip, (cppPieces.map (·.1)).take 1), (Idl.sampleStruct, Idl.plainPieces.map (·.1))] : List (Idl.Syn.Def × List Idl.Piece)), by simp,
    fun d hd => ?_, rfl, [], Idl.render cppPieces, Idl.Syn.blanks_nil, ?_, ?_⟩
  · simp only [List.mem_cons, List.not_mem_nil, or_false] at hd
    rcases hd with rfl | rfl
    · exact .line
    · exact Idl.plain_pieces
  · decide
  · exact Idl.spaced_of (l := cppPieces) (by decide)

/-- With that system, a structure is read with the preprocessor as without. -/
example (ctx : Idl.Syn.Ctx) (f : Nat) (root : Idl.Mod Item) :
    parseString sampleRun (some 0) {} true ctx f root (bytes "struct S { long x; };") = .ok (Idl.Syn.parse ctx f root (bytes "struct S { long x; };")) := by
  refine (C65_reads_partial sampleRun sampleCpp {} [bytes "cpp", bytes "-H"] (default_plain [] (by simp)) (fun cmd t h _ => ?_)
    (Idl.render Idl.plainPieces) (by decide) (by decide) (by decide) (by decide) [Idl.sampleStruct] [.skip, Idl.sampleStruct] Idl.plain_writes
    (by decide) cpp_writes (.skip (.keep .nil)) 0 (by decide) ctx f root).1
  rw [sampleRun, h]
  rfl

/-- What is read with that system. -/
example (ctx : Idl.Syn.Ctx) (f : Nat) (root : Idl.Mod Item) :
    parseString sampleRun (some 0) {} true ctx f root (bytes "struct S { long x; };") =
      .ok (Idl.Syn.parse ctx f root (bytes "# 1 \"<stdin>\"\nstruct S { long x; };\n")) := by
  refine C65_preprocessed_partial sampleRun sampleCpp {} [bytes "cpp", bytes "-H"] (default_plain [] (by simp)) (fun cmd t h _ => ?_)
    (bytes "struct S { long x; };") (by decide) (by decide) (by decide) (by decide) (by decide) 0 (by decide) ctx f root
  rw [sampleRun, h]
  rfl

end Verif.Pre
