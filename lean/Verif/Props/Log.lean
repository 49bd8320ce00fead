import Verif.Model.Log
import Mathlib.Data.List.Induction
/-!
# C49: log filtering
-/

namespace Verif.Log

/-! Specification: severities are ordered error > warning > info > debug; what a history of calls
must leave in the log is read off the history itself. -/

/-- `a` is at least as severe as `b`. -/
def AtLeast : Level → Level → Prop
  | .error, _ => True
  | .warning, .error => False
  | .warning, _ => True
  | .info, .error | .info, .warning => False
  | .info, _ => True
  | .debug, .debug => True
  | .debug, _ => False

instance (a b : Level) : Decidable (AtLeast a b) := by
  cases a <;> cases b <;> unfold AtLeast <;> infer_instance

/-- The level in force after a history: the last one set, a new context starting with warnings. -/
def levelAfter (h : List Call) : Level :=
  (h.filterMap (fun c => match c with | .setLevel l => some l | _ => none)).getLast?.getD .warning

/-- Whether printing is enabled after a history: the last setting, a new context not printing. -/
def printAfter (h : List Call) : Bool :=
  (h.filterMap (fun c => match c with | .setPrint b => some b | _ => none)).getLast?.getD false

/-- The entry that records a message. -/
def entryOf (l : Level) (cat msg : String) (ast : Option Pos) : Entry :=
  ⟨(ast.map (·.path)).getD "", (ast.map (·.line)).getD 0, (ast.map (·.column)).getD 0, l, cat, msg⟩

/-- The entry the `i`-th call of a history must leave in the log, if any: a message is recorded when
it is at least as severe as the level in force at that moment. -/
def recorded (h : List Call) (i : Nat) : Option Entry :=
  match h[i]? with
  | some (.write l cat msg ast) =>
    if AtLeast l (levelAfter (h.take i)) then some (entryOf l cat msg ast) else none
  | _ => none

/-- The line that shows an entry: severity, category and message. -/
def lineOf (e : Entry) : String :=
  (if e.level = .error then "[ERROR] " else if e.level = .warning then "[WARNING] "
    else if e.level = .info then "[INFO] " else "[DEBUG] ") ++ e.category ++ ": " ++ e.message

theorem print_eq (e : Entry) : e.print = lineOf e := by
  unfold Entry.print lineOf
  cases e.level <;> rfl

/-- The line the `i`-th call must print, if any. -/
def printed (h : List Call) (i : Nat) : Option String :=
  if printAfter (h.take i) then (recorded h i).map lineOf else none

theorem atLeast_iff (a b : Level) : AtLeast a b ↔ a.toNat ≤ b.toNat := by
  cases a <;> cases b <;> simp [AtLeast, Level.toNat]

theorem run_snoc (h : List Call) (c : Call) : run (h ++ [c]) = (run h).step c := by
  simp [run, List.foldl_append]

theorem levelAfter_snoc (h : List Call) (c : Call) :
    levelAfter (h ++ [c]) = (match c with | .setLevel l => l | _ => levelAfter h) := by
  cases c <;> simp [levelAfter, List.filterMap_append]

theorem printAfter_snoc (h : List Call) (c : Call) :
    printAfter (h ++ [c]) = (match c with | .setPrint l => l | _ => printAfter h) := by
  cases c <;> simp [printAfter, List.filterMap_append]

theorem level_run (h : List Call) : (run h).level = levelAfter h := by
  induction h using List.reverseRecOn with
  | nil => rfl
  | append_singleton h c ih =>
    rw [run_snoc, levelAfter_snoc]
    cases c with
    | setLevel l => rfl
    | setPrint b => exact ih
    | write l cat msg ast =>
      simp only [Ctx.step, Ctx.write]
      split
      · split <;> exact ih
      · exact ih

theorem print_run (h : List Call) : (run h).print = printAfter h := by
  induction h using List.reverseRecOn with
  | nil => rfl
  | append_singleton h c ih =>
    rw [run_snoc, printAfter_snoc]
    cases c with
    | setLevel l => exact ih
    | setPrint b => rfl
    | write l cat msg ast =>
      simp only [Ctx.step, Ctx.write]
      split
      · split <;> exact ih
      · exact ih

theorem recorded_append (h : List Call) (c : Call) (i : Nat) (hi : i < h.length) :
    recorded (h ++ [c]) i = recorded h i := by
  simp only [recorded, List.getElem?_append_left hi, List.take_append_of_le_length (Nat.le_of_lt hi)]

theorem printed_append (h : List Call) (c : Call) (i : Nat) (hi : i < h.length) :
    printed (h ++ [c]) i = printed h i := by
  simp only [printed, recorded_append h c i hi, List.take_append_of_le_length (Nat.le_of_lt hi)]

theorem filterMap_range_snoc {α : Type} (f g : Nat → Option α) (n : Nat)
    (hfg : ∀ i < n, f i = g i) :
    (List.range (n + 1)).filterMap f = (List.range n).filterMap g ++ (f n).toList := by
  rw [List.range_succ, List.filterMap_append]
  have : ∀ l : List Nat, (∀ i ∈ l, f i = g i) → l.filterMap f = l.filterMap g := by
    intro l hl
    induction l with
    | nil => rfl
    | cons a l ih =>
      simp only [List.filterMap_cons, hl a (by simp), ih (fun i hi => hl i (by simp [hi]))]
  rw [this _ (fun i hi => hfg i (List.mem_range.mp hi))]
  congr 1

/-- **C49 (recording).** After any history of calls the log holds, in order, exactly one entry for
each message that was at least as severe as the level in force when it was written. -/
theorem C49_log_holds_exactly_admitted_messages (h : List Call) :
    (run h).log = (List.range h.length).filterMap (recorded h) := by
  induction h using List.reverseRecOn with
  | nil => rfl
  | append_singleton h c ih =>
    rw [run_snoc, List.length_append, List.length_singleton,
      filterMap_range_snoc _ _ _ (recorded_append h c), ← ih]
    cases c with
    | setLevel l => simp [Ctx.step, Ctx.setLevel, recorded]
    | setPrint b => simp [Ctx.step, Ctx.setPrint, recorded]
    | write l cat msg ast =>
      simp only [Ctx.step, Ctx.write, recorded, List.getElem?_concat_length, List.take_left',
        atLeast_iff, ge_iff_le, level_run]
      split
      · split <;> cases ast <;> simp [entryOf]
      · simp

/-- **C49 (printing).** What is written to the standard output is the printed form of exactly the
recorded messages that were written while printing was enabled, in order. -/
theorem C49_printed_exactly_when_enabled (h : List Call) :
    (run h).out = (List.range h.length).filterMap (printed h) := by
  induction h using List.reverseRecOn with
  | nil => rfl
  | append_singleton h c ih =>
    rw [run_snoc, List.length_append, List.length_singleton,
      filterMap_range_snoc _ _ _ (printed_append h c), ← ih]
    cases c with
    | setLevel l => simp [Ctx.step, Ctx.setLevel, printed, recorded]
    | setPrint b => simp [Ctx.step, Ctx.setPrint, printed, recorded]
    | write l cat msg ast =>
      simp only [Ctx.step, Ctx.write, printed, recorded, List.getElem?_concat_length,
        List.take_left', atLeast_iff, ge_iff_le, level_run, print_run]
      split
      · split <;> cases ast <;> simp [print_eq, entryOf]
      · simp

/-- **C49 (non-strict query).** A query returns, in order, exactly the entries at least as severe as
the level asked for. -/
theorem C49_query_at_least (l : Level) (es : List Entry) :
    query l false es = es.filter (fun e => decide (AtLeast e.level l)) := by
  induction es with
  | nil => rfl
  | cons e es ih =>
    have : (e.level = l ∨ (True ∧ e.level.toNat < l.toNat)) ↔ AtLeast e.level l := by
      cases e.level <;> cases l <;> simp [AtLeast, Level.toNat]
    rw [query, List.filter_cons, ih]
    simp only [this, decide_eq_true_eq]

/-- **C49 (strict query).** A strict query returns, in order, exactly the entries of that level. -/
theorem C49_query_strict (l : Level) (es : List Entry) :
    query l true es = es.filter (fun e => decide (e.level = l)) := by
  induction es with
  | nil => rfl
  | cons e es ih => simp [query, ih, List.filter_cons]

/-- A history that exercises the theorems: an info message is dropped, recorded once the level is
lowered, and dropped again; one line is printed. -/
example : let h : List Call := [.write .info "A" "x" none, .setLevel .debug,
      .write .info "B" "y" (some ⟨"f", 1, 2⟩), .setPrint true, .write .error "C" "z" none,
      .setLevel .error, .write .warning "D" "w" none]
    (run h).log.map (·.category) = ["B", "C"] ∧ (run h).out = ["[ERROR] C: z"] ∧
    (query .error false (run h).log).map (·.category) = ["C"] ∧
    (query .info true (run h).log).map (·.category) = ["B"] := by decide

end Verif.Log
