import Verif.Lemmas.TempFile
import Verif.Spec.TempFile
/-!
# C71: reading files, and texts through a temporary file
-/

namespace Verif.Pre
open Verif.Idl.Syn (Item)

/-! ## The text is read -/

theorem preprocess_file {s : System} {c : Config} {ws : List Bytes} {cpp : Disk → Bytes → Bytes} (h : s.Has c ws cpp) (ho : s.Opens) (hc : c.Plain ws)
    {d : Disk} {file t : Bytes} (hf : Safe file) (hd : d file = some t) (hz : 0 ∉ cpp d t) : preprocessFile s c d file = some (cpp d t) := by
  have hs := ho d (cString (fileCommand c file))
  obtain ⟨⟨out, st⟩, he⟩ := Option.isSome_iff_exists.mp hs
  have e : out = cpp d t := by
    refine h.prints d _ file t out st ?_ hd he
    rw [cString_id (fileCommand_zero hc (safe_zero hf))]
    exact C65_file_partial c ws hc file hf
  unfold preprocessFile exec
  rw [he, e]
  simp only [Option.map_some, collect_ok _ _ (Nat.lt_succ_self _) hz]

/-- C71: `parse_file` reads what the preprocessor makes of what is in the file, all of it, whatever characters it has. -/
theorem C71_file_partial (s : System) (c : Config) (ws : List Bytes) (cpp : Disk → Bytes → Bytes) (h : s.Has c ws cpp) (ho : s.Opens)
    (hc : c.Plain ws) (d : Disk) (file t : Bytes) (hf : Safe file) (hd : d file = some t) (hz : 0 ∉ cpp d t) (ctx : Idl.Syn.Ctx) (f : Nat)
    (root : Idl.Mod Item) : parseFile s c true ctx f root d file = .read (Idl.Syn.parse ctx f root (cpp d t)) := by
  unfold parseFile
  rw [if_pos rfl, preprocess_file h ho hc hf hd hz]
  simp only [cString_id hz]

/-- C71: without preprocessing it reads what is in the file, up to the first zero. -/
theorem C71_file_plain (s : System) (c : Config) (d : Disk) (file t rest : Bytes) (h0 : 0 ∉ t) (hd : d file = some t ∨ d file = some (t ++ 0 :: rest))
    (ctx : Idl.Syn.Ctx) (f : Nat) (root : Idl.Mod Item) :
    parseFile s c false ctx f root d file = .read (Idl.Syn.parse ctx f root t) := by
  unfold parseFile
  rw [if_neg (by decide)]
  rcases hd with hd | hd
  · rw [hd, Option.getD_some, cString_id h0]
  · rw [hd, Option.getD_some]
    have : cString (t ++ 0 :: rest) = t := by
      have := cString_id h0
      unfold cString at this ⊢
      rw [List.takeWhile_append, this, if_pos rfl]
      simp
    rw [this]

/-- C71: a text that goes through a temporary file is read like that, whatever characters it has, and afterwards the file is gone and
the others are what they were. -/
theorem C71_reads_partial (s : System) (c : Config) (ws : List Bytes) (cpp : Disk → Bytes → Bytes) (h : s.Has c ws cpp) (hs : s.Stores) (ho : s.Opens)
    (hc : c.Plain ws) (d : Disk) (n : Bytes) (hn : s.temp d = some n) (text : Bytes) (hz : 0 ∉ cpp (d.put n (some text)) text) (ctx : Idl.Syn.Ctx)
    (f : Nat) (root : Idl.Mod Item) :
    parseTemp s c ctx f root d text = (.read (Idl.Syn.parse ctx f root (cpp (d.put n (some text)) text)), d) := by
  unfold parseTemp
  rw [hn]
  simp only [hs text]
  rw [preprocess_file h ho hc (h.safe d n hn) (put_same d n (some text)) hz]
  simp only [cString_id hz, put_put, put_none (h.fresh d n hn)]

/-- C71: and if what the preprocessor makes of the text writes the same declarations, apart from lines that begin with `#`, then the
text has the effect that it has without preprocessing: also a text with `$`, back quotes, backslashes. -/
theorem C71_same_partial (s : System) (c : Config) (ws : List Bytes) (cpp : Disk → Bytes → Bytes) (h : s.Has c ws cpp) (hs : s.Stores) (ho : s.Opens)
    (hc : c.Plain ws) (d : Disk) (n : Bytes) (hn : s.temp d = some n) (text : Bytes) (ds ds' : List Idl.Syn.Def) (hw : Idl.Writes ds text)
    (hz : 0 ∉ cpp (d.put n (some text)) text) (hw' : Idl.Writes ds' (cpp (d.put n (some text)) text)) (hd : Idl.Without ds' ds)
    (ctx : Idl.Syn.Ctx) (f : Nat) (root : Idl.Mod Item) :
    parseTemp s c ctx f root d text = (.read (Idl.Syn.parse ctx f root text), d) := by
  rw [C71_reads_partial s c ws cpp h hs ho hc d n hn text hz]
  unfold Idl.Syn.parse
  rw [Idl.Syn.document_written hw, Idl.Syn.document_written hw']
  simp only [Idl.without_build hd]

/-- C71: and both strategies do the same, for the texts with which the other one (C65) is right. -/
theorem C71_strategies_partial (s : System) (run cpp : Bytes → Bytes) (c : Config) (ws : List Bytes) (h : s.Has c ws fun _ => cpp) (hs : s.Stores)
    (ho : s.Opens) (hc : c.Plain ws) (hrun : ∀ cmd t, shell cmd = some (intended c ws t) → 92 ∉ t → run cmd = cpp (t ++ [10]))
    (d : Disk) (n : Bytes) (hn : s.temp d = some n) (text : Bytes) (h1 : 36 ∉ text) (h2 : 96 ∉ text) (h3 : 92 ∉ text) (h0 : 0 ∉ text)
    (ds ds1 ds2 : List Idl.Syn.Def) (hz1 : 0 ∉ cpp text) (hw1 : Idl.Writes ds1 (cpp text)) (hd1 : Idl.Without ds1 ds)
    (hz2 : 0 ∉ cpp (text ++ [10])) (hw2 : Idl.Writes ds2 (cpp (text ++ [10]))) (hd2 : Idl.Without ds2 ds)
    (b : Nat) (hb : b ≠ 92) (ctx : Idl.Syn.Ctx) (f : Nat) (root : Idl.Mod Item) :
    ∃ p, parseString run (some b) c true ctx f root text = .ok p ∧ parseTemp s c ctx f root d text = (.read p, d) := by
  refine ⟨_, C65_preprocessed_partial run cpp c ws hc hrun text h1 h2 h3 h0 hz2 b hb ctx f root, ?_⟩
  rw [C71_reads_partial s c ws (fun _ => cpp) h hs ho hc d n hn text hz1]
  unfold Idl.Syn.parse
  rw [Idl.Syn.document_written hw1, Idl.Syn.document_written hw2]
  simp only [Idl.without_build hd1, Idl.without_build hd2]

/-! ## The files -/

/-- C71: whatever the system does: if the names of `mkstemp` are new, the files are afterwards what they were before, unless
`popen` failed, and then there is one file more, with the text. -/
theorem C71_disk (s : System) (hf : ∀ d n, s.temp d = some n → d n = none) (c : Config) (ctx : Idl.Syn.Ctx) (f : Nat) (root : Idl.Mod Item) (d : Disk)
    (text : Bytes) :
    ((parseTemp s c ctx f root d text).1.isThrow = false ∧ (parseTemp s c ctx f root d text).2 = d) ∨
    ((parseTemp s c ctx f root d text).1.isThrow = true ∧
      ∃ n, d n = none ∧ (parseTemp s c ctx f root d text).2 = d.put n (some (s.stored text))) := by
  unfold parseTemp
  cases hn : s.temp d with
  | none => exact .inl ⟨rfl, rfl⟩
  | some n =>
    cases hp : preprocessFile s c (d.put n (some (s.stored text))) n with
    | some out => exact .inl ⟨by simp only [hp]; rfl, by simp only [hp]; rw [put_put, put_none (hf d n hn)]⟩
    | none => exact .inr ⟨by simp only [hp]; rfl, n, hf d n hn, by simp only [hp]⟩

/-- C71: over any number of texts: the files that were there are what they were, and there are as many more as calls have thrown. -/
theorem C71_history (s : System) (hf : ∀ d n, s.temp d = some n → d n = none) (c : Config) (ctx : Idl.Syn.Ctx) (f : Nat) (root : Idl.Mod Item)
    (texts : List Bytes) (d : Disk) :
    ∃ ns : List Bytes, ns.Nodup ∧ ns.length = (parseTemps s c ctx f root d texts).1.countP End.isThrow ∧
      (∀ n ∈ ns, d n = none ∧ ((parseTemps s c ctx f root d texts).2 n).isSome) ∧
      (∀ n, n ∉ ns → (parseTemps s c ctx f root d texts).2 n = d n) := by
  induction texts generalizing d with
  | nil => exact ⟨[], by simp, rfl, by simp, fun _ _ => rfl⟩
  | cons t ts ih =>
    obtain ⟨ns, h1, h2, h3, h4⟩ := ih (parseTemp s c ctx f root d t).2
    have e1 : (parseTemps s c ctx f root d (t :: ts)).1 =
        (parseTemp s c ctx f root d t).1 :: (parseTemps s c ctx f root (parseTemp s c ctx f root d t).2 ts).1 := rfl
    have e2 : (parseTemps s c ctx f root d (t :: ts)).2 = (parseTemps s c ctx f root (parseTemp s c ctx f root d t).2 ts).2 := rfl
    rw [e1, e2]
    rcases C71_disk s hf c ctx f root d t with ⟨ht, hd⟩ | ⟨ht, n, hn, hd⟩
    · refine ⟨ns, h1, by rw [List.countP_cons, ht, h2]; rfl, fun n hn => ⟨?_, (h3 n hn).2⟩, fun n hn => ?_⟩
      · have := (h3 n hn).1; rwa [hd] at this
      · rw [h4 n hn, hd]
    · have hnn : n ∉ ns := fun hm => by
        have := (h3 n hm).1
        rw [hd, put_same] at this
        cases this
      refine ⟨n :: ns, List.nodup_cons.mpr ⟨hnn, h1⟩, by rw [List.countP_cons, ht, List.length_cons, h2]; rfl, ?_, ?_⟩
      · intro m hm
        rcases List.mem_cons.mp hm with rfl | hm
        · exact ⟨hn, by rw [h4 m hnn, hd, put_same]; rfl⟩
        · have := (h3 m hm).1
          rw [hd, put_other (fun e : m = n => hnn (e ▸ hm))] at this
          exact ⟨this, (h3 m hm).2⟩
      · intro m hm
        rw [List.mem_cons, not_or] at hm
        rw [h4 m hm.2, hd, put_other hm.1]

/-- C71: so as long as `popen` does not fail, no file is left, changed or lost. -/
theorem C71_clean (s : System) (hf : ∀ d n, s.temp d = some n → d n = none) (ho : s.Opens) (c : Config) (ctx : Idl.Syn.Ctx) (f : Nat)
    (root : Idl.Mod Item) (texts : List Bytes) (d : Disk) : (parseTemps s c ctx f root d texts).2 = d := by
  induction texts generalizing d with
  | nil => rfl
  | cons t ts ih =>
    show (parseTemps s c ctx f root (parseTemp s c ctx f root d t).2 ts).2 = d
    rw [ih]
    rcases C71_disk s hf c ctx f root d t with ⟨_, hd⟩ | ⟨ht, _⟩
    · exact hd
    · exfalso
      unfold parseTemp at ht
      cases hn : s.temp d with
      | none => rw [hn] at ht; cases ht
      | some n =>
        rw [hn] at ht
        obtain ⟨o, he⟩ := Option.isSome_iff_exists.mp (ho (d.put n (some (s.stored t))) (cString (fileCommand c n)))
        simp only [preprocessFile, exec, he, Option.map_some] at ht
        cases ht

/-- C71: if no file can be made, nothing is read. -/
theorem C71_refused (s : System) (c : Config) (ctx : Idl.Syn.Ctx) (f : Nat) (root : Idl.Mod Item) (d : Disk) (text : Bytes) :
    s.temp d = none ↔ parseTemp s c ctx f root d text = (.refused, d) := by
  constructor
  · intro h; unfold parseTemp; rw [h]
  · intro h
    unfold parseTemp at h
    cases hn : s.temp d with
    | none => rfl
    | some n =>
      rw [hn] at h
      simp only at h
      split at h <;> cases h

/-- C71: a failure of `popen`, and nothing else, ends in an exception: of `parse_file` with preprocessing, and of a text for which a
file could be made. -/
theorem C71_throws (s : System) (c : Config) (ctx : Idl.Syn.Ctx) (f : Nat) (root : Idl.Mod Item) (d : Disk) (file : Bytes) :
    ((parseFile s c true ctx f root d file).isThrow = true ↔ s.run d (cString (fileCommand c file)) = none) ∧
    (parseFile s c false ctx f root d file).isThrow = false ∧
    (∀ n text, s.temp d = some n → ((parseTemp s c ctx f root d text).1.isThrow = true ↔
      s.run (d.put n (some (s.stored text))) (cString (fileCommand c n)) = none)) := by
  refine ⟨?_, rfl, fun n text hn => ?_⟩
  · unfold parseFile
    rw [if_pos rfl]
    unfold preprocessFile exec
    cases s.run d (cString (fileCommand c file)) with
    | none => exact ⟨fun _ => rfl, fun _ => rfl⟩
    | some o => exact ⟨fun h => (by cases h), fun h => (by cases h)⟩
  · unfold parseTemp
    rw [hn]
    unfold preprocessFile exec
    simp only
    cases s.run (d.put n (some (s.stored text))) (cString (fileCommand c n)) with
    | none => exact ⟨fun _ => rfl, fun _ => rfl⟩
    | some o => exact ⟨fun h => (by cases h), fun h => (by cases h)⟩

/-! ## What goes wrong -/

/-- C71: a file that is not there is read as an empty text, which is rejected; with preprocessing too, if the preprocessor prints
nothing. -/
theorem C71_missing (s : System) (c : Config) (d : Disk) (file : Bytes) (hd : d file = none)
    (hr : ∀ d cmd, (s.run d cmd).map (·.1) = some []) (pre : Bool) (ctx : Idl.Syn.Ctx) (f : Nat) (root : Idl.Mod Item) :
    parseFile s c pre ctx f root d file = .read .rejected := by
  have e : Idl.Syn.parse ctx f root [] = .rejected := rfl
  unfold parseFile
  cases pre with
  | false => rw [if_neg (by decide), hd]; exact congrArg End.read e
  | true =>
    rw [if_pos rfl]
    have := hr d (cString (fileCommand c file))
    obtain ⟨⟨out, st⟩, he, rfl⟩ := Option.map_eq_some_iff.mp this
    simp only [preprocessFile, exec, he, Option.map_some]
    exact congrArg End.read e

/-- C71, the other way: whether the preprocessor fails is not asked: systems that differ only in the exit status of their commands are
all the same. -/
theorem C71_status_fails (s s' : System) (h1 : s.temp = s'.temp) (h2 : s.stored = s'.stored)
    (h3 : ∀ d cmd, (s.run d cmd).map (·.1) = (s'.run d cmd).map (·.1)) (c : Config) (ctx : Idl.Syn.Ctx) (f : Nat) (root : Idl.Mod Item) (d : Disk)
    (t : Bytes) (pre : Bool) :
    parseFile s c pre ctx f root d t = parseFile s' c pre ctx f root d t ∧ parseTemp s c ctx f root d t = parseTemp s' c ctx f root d t := by
  have e : ∀ d n, preprocessFile s c d n = preprocessFile s' c d n := by
    intro d n
    have := h3 d (cString (fileCommand c n))
    unfold preprocessFile exec
    cases hr : s.run d (cString (fileCommand c n)) with
    | none =>
      cases hr' : s'.run d (cString (fileCommand c n)) with
      | none => rfl
      | some o => rw [hr, hr'] at this; cases this
    | some o =>
      cases hr' : s'.run d (cString (fileCommand c n)) with
      | none => rw [hr, hr'] at this; cases this
      | some o' =>
        rw [hr, hr', Option.map_some, Option.map_some, Option.some.injEq] at this
        rw [Option.map_some, Option.map_some, this]
  unfold parseFile parseTemp
  rw [h1, h2]
  simp only [e]
  exact ⟨trivial, trivial⟩

/-- C71, the other way: if the disk takes only a part of the text, that part is read, and nothing is said. -/
theorem C71_full_fails (s : System) (c : Config) (ws : List Bytes) (cpp : Disk → Bytes → Bytes) (h : s.Has c ws cpp) (ho : s.Opens)
    (hc : c.Plain ws) (d : Disk) (n : Bytes) (hn : s.temp d = some n) (text part : Bytes) (hp : s.stored text = part)
    (hz : 0 ∉ cpp (d.put n (some part)) part) (ctx : Idl.Syn.Ctx) (f : Nat) (root : Idl.Mod Item) :
    parseTemp s c ctx f root d text = (.read (Idl.Syn.parse ctx f root (cpp (d.put n (some part)) part)), d) := by
  unfold parseTemp
  rw [hn]
  simp only [hp]
  rw [preprocess_file h ho hc (h.safe d n hn) (put_same d n (some part)) hz]
  simp only [cString_id hz, put_put, put_none (h.fresh d n hn)]

/-- C71, the other way: if the name of the directory for temporary files has a blank, the preprocessor is given two names, neither
of which is the file's. -/
theorem C71_blank_fails (c : Config) (ws : List Bytes) (hc : c.Plain ws) (a b : Bytes) (ha : Safe a) (hb : Safe b) :
    shell (fileCommand c (a ++ 32 :: b)) = some (preprocessor c ws [a, b]) := by
  have e : fileCommand c (a ++ 32 :: b) =
      joinWords ws ++ 32 :: (c.paths.flatMap (fun p => c.includeFlag ++ p ++ [32]) ++ (a ++ 32 :: (b ++ bytes " 2>/dev/null"))) := by
    rw [fileCommand, hc.exec, hc.redirect]
    simp [Config.args]
  unfold shell
  rw [e, tokens_words hc.some hc.words, tokens_paths hc.flag hc.paths, tokens_word ha, tokens_safe hb, tokens_redirect]
  simp [flush, preprocessor, more]

/-- C71, the other way: `popen` fails, and the file stays, with the text in it. -/
theorem C71_leaves_fails (s : System) (c : Config) (d : Disk) (n : Bytes) (hn : s.temp d = some n) (hr : ∀ d cmd, s.run d cmd = none) (text : Bytes)
    (ctx : Idl.Syn.Ctx) (f : Nat) (root : Idl.Mod Item) :
    (parseTemp s c ctx f root d text).1.isThrow = true ∧ (parseTemp s c ctx f root d text).2 n = some (s.stored text) := by
  unfold parseTemp
  rw [hn]
  simp only [preprocessFile, exec, hr, Option.map_none]
  exact ⟨rfl, put_same _ _ _⟩

/-! ## A system -/

/-- The first of the names `/tmp/x`, `/tmp/xx`, … that is no file's, of the first 100. -/
def sampleName (d : Disk) : Option Bytes :=
  ((List.range 100).map fun k => bytes "/tmp/" ++ List.replicate (k + 1) 120).find? fun n => (d n).isNone

/-- The file that a command of the preprocessor has. -/
def sampleFile : List Tok → Option Bytes
  | [.word _, .word _, .word file, .word _, .op _, .word _] => some file
  | _ => none

/-- A system that can do nothing but `cpp -H file`. -/
def sampleSystem : System where
  temp := sampleName
  stored t := t
  run d cmd := some (((shell cmd).bind fun ts => (sampleFile ts).bind fun file => (d file).map sampleCpp).getD [], 1)

theorem sample_has : sampleSystem.Has {} [bytes "cpp", bytes "-H"] fun _ => sampleCpp where
  fresh d n h := by
    have := List.find?_some h
    simpa using this
  safe d n h := by
    have := List.mem_of_find?_eq_some h
    obtain ⟨k, _, rfl⟩ := List.mem_map.mp this
    refine ⟨by simp, fun c hc => ?_⟩
    rcases List.mem_append.mp hc with hc | hc
    · have : ∀ c ∈ bytes "/tmp/", (97 ≤ c ∧ c ≤ 122) ∨ (65 ≤ c ∧ c ≤ 90) ∨ (48 ≤ c ∧ c ≤ 57) ∨ c ∈ bytes "_-+.,/:=@%" := by decide
      exact this c hc
    · obtain ⟨_, rfl⟩ := List.mem_replicate.mp hc
      exact .inl (by decide)
  prints d cmd file t out st h hd hr := by
    have e : sampleSystem.run d cmd = some (sampleCpp t, 1) := by
      show some (((shell cmd).bind fun ts => (sampleFile ts).bind fun file => (d file).map sampleCpp).getD [], 1) = _
      rw [h]
      have : sampleFile (preprocessor {} [bytes "cpp", bytes "-H"] [file]) = some file := rfl
      simp [this, hd]
    rw [e] at hr
    exact (Prod.mk.inj (Option.some.inj hr)).1.symm

theorem sample_name : sampleSystem.temp (fun _ => none) = some (bytes "/tmp/x") := by decide

/-- What would be executed if it were given to `echo` is only read. -/
example (ctx : Idl.Syn.Ctx) (f : Nat) (root : Idl.Mod Item) :
    parseTemp sampleSystem {} ctx f root (fun _ => none) (bytes "// $(reboot) \\\"; reboot #\nstruct S {};") =
      (.read (Idl.Syn.parse ctx f root (bytes "# 1 \"<stdin>\"\n// $(reboot) \\\"; reboot #\nstruct S {};")), fun _ => none) :=
  C71_reads_partial sampleSystem {} _ _ sample_has (fun _ => rfl) (fun _ _ => rfl) (default_plain [] (by simp)) (fun _ => none) (bytes "/tmp/x") sample_name
    _ (by decide) ctx f root

example (ctx : Idl.Syn.Ctx) (f : Nat) (root : Idl.Mod Item) :
    parseFile sampleSystem {} true ctx f root (Disk.put (fun _ => none) (bytes "a.idl") (some (bytes "struct S {};"))) (bytes "a.idl") =
      .read (Idl.Syn.parse ctx f root (bytes "# 1 \"<stdin>\"\nstruct S {};")) :=
  C71_file_partial sampleSystem {} _ _ sample_has (fun _ _ => rfl) (default_plain [] (by simp))
    (Disk.put (fun _ => none) (bytes "a.idl") (some (bytes "struct S {};"))) (bytes "a.idl") (bytes "struct S {};") ⟨by decide, by decide⟩
    (put_same _ _ _) (by decide) ctx f root

def cppPieces0 : List (Idl.Piece × Bytes) :=
  [(.line (bytes " 1 \"<stdin>\"\n"), []), (Idl.kword "struct", [32]), (.word (bytes "S"), [32]), (.sign 123, [32]), (Idl.kword "long", [32]),
    (.word (bytes "x"), []), (.sign 59, [32]), (.sign 125, []), (.sign 59, [])]

theorem cpp_writes0 : Idl.Writes [.skip, Idl.sampleStruct] (sampleCpp (Idl.render Idl.plainPieces)) := by
  refine ⟨([(.skip, (cppPieces0.map (·.1)).take 1), (Idl.sampleStruct, Idl.plainPieces.map (·.1))] : List (Idl.Syn.Def × List Idl.Piece)), by simp,
    fun d hd => ?_, rfl, [], Idl.render cppPieces0, Idl.Syn.blanks_nil, ?_, ?_⟩
  · simp only [List.mem_cons, List.not_mem_nil, or_false] at hd
    rcases hd with rfl | rfl
    · exact .line
    · exact Idl.plain_pieces
  · decide
  · exact Idl.spaced_of (l := cppPieces0) (by decide)

/-- A structure is read through the file as without, and as through `echo`. -/
example (ctx : Idl.Syn.Ctx) (f : Nat) (root : Idl.Mod Item) :
    parseTemp sampleSystem {} ctx f root (fun _ => none) (Idl.render Idl.plainPieces) =
      (.read (Idl.Syn.parse ctx f root (Idl.render Idl.plainPieces)), fun _ => none) ∧
    ∃ p, parseString sampleRun (some 0) {} true ctx f root (Idl.render Idl.plainPieces) = .ok p ∧
      parseTemp sampleSystem {} ctx f root (fun _ => none) (Idl.render Idl.plainPieces) = (.read p, fun _ => none) := by
  refine ⟨C71_same_partial sampleSystem {} _ _ sample_has (fun _ => rfl) (fun _ _ => rfl) (default_plain [] (by simp)) (fun _ => none) (bytes "/tmp/x")
    sample_name _ [Idl.sampleStruct] [.skip, Idl.sampleStruct] Idl.plain_writes (by decide) cpp_writes0 (.skip (.keep .nil)) ctx f root,
    C71_strategies_partial sampleSystem sampleRun sampleCpp {} [bytes "cpp", bytes "-H"] sample_has (fun _ => rfl) (fun _ _ => rfl)
      (default_plain [] (by simp)) (fun cmd t h _ => ?_) (fun _ => none) (bytes "/tmp/x") sample_name _ (by decide) (by decide) (by decide) (by decide)
      [Idl.sampleStruct] [.skip, Idl.sampleStruct] [.skip, Idl.sampleStruct] (by decide) cpp_writes0 (.skip (.keep .nil)) (by decide) cpp_writes
      (.skip (.keep .nil)) 0 (by decide) ctx f root⟩
  rw [sampleRun, h]
  rfl

/-- A disk that takes 21 characters. -/
def fullSystem : System := { sampleSystem with stored := (·.take 21) }

/-- Of two structures the first is read, and nothing is said. -/
example (ctx : Idl.Syn.Ctx) (f : Nat) (root : Idl.Mod Item) :
    parseTemp fullSystem {} ctx f root (fun _ => none) (bytes "struct A { long x; };struct B {};") =
      (.read (Idl.Syn.parse ctx f root (bytes "# 1 \"<stdin>\"\nstruct A { long x; };")), fun _ => none) :=
  C71_full_fails fullSystem {} _ (fun _ => sampleCpp) ⟨sample_has.fresh, sample_has.safe, sample_has.prints⟩ (fun _ _ => rfl)
    (default_plain [] (by simp)) (fun _ => none) (bytes "/tmp/x") sample_name _ (bytes "struct A { long x; };") (by decide) (by decide) ctx f root

/-- Two texts when `popen` fails: two files more. -/
example (ctx : Idl.Syn.Ctx) (root : Idl.Mod Item) :
    let d := (parseTemps { sampleSystem with run := fun _ _ => none } {} ctx 10 root (fun _ => none) [bytes "a", bytes "b"]).2
    d (bytes "/tmp/x") = some (bytes "a") ∧ d (bytes "/tmp/xx") = some (bytes "b") ∧ d (bytes "/tmp/xxx") = none := ⟨rfl, rfl, rfl⟩

/-- The exit status of every command of `sampleSystem` is 1; with 0 it does the same. -/
example (ctx : Idl.Syn.Ctx) (f : Nat) (root : Idl.Mod Item) (d : Disk) (t : Bytes) :
    parseTemp sampleSystem {} ctx f root d t =
      parseTemp { sampleSystem with run := fun d cmd => (sampleSystem.run d cmd).map fun o => (o.1, 0) } {} ctx f root d t :=
  (C71_status_fails sampleSystem { sampleSystem with run := fun d cmd => (sampleSystem.run d cmd).map fun o => (o.1, 0) } rfl rfl
    (fun d cmd => rfl) {} ctx f root d t true).2

/-- A file that is not there. -/
example (ctx : Idl.Syn.Ctx) (f : Nat) (root : Idl.Mod Item) :
    parseFile { sampleSystem with run := fun _ _ => some ([], 1) } {} true ctx f root (fun _ => none) (bytes "a.idl") = .read .rejected :=
  C71_missing { sampleSystem with run := fun _ _ => some ([], 1) } {} _ _ rfl (fun _ _ => rfl) true ctx f root

example (ctx : Idl.Syn.Ctx) (root : Idl.Mod Item) :
    (parseTemp { sampleSystem with run := fun _ _ => none } {} ctx 10 root (fun _ => none) (bytes "a")).1.isThrow = true :=
  (C71_leaves_fails { sampleSystem with run := fun _ _ => none } {} (fun _ => none) (bytes "/tmp/x") sample_name (fun _ _ => rfl) (bytes "a") ctx 10 root).1

example : shell (fileCommand {} (bytes "/my tmp/x")) = some (preprocessor {} [bytes "cpp", bytes "-H"] [bytes "/my", bytes "tmp/x"]) :=
  C71_blank_fails {} _ (default_plain [] (by simp)) (bytes "/my") (bytes "tmp/x") ⟨by decide, by decide⟩ ⟨by decide, by decide⟩

end Verif.Pre
