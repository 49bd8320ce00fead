import Verif.Model.Expr
import Verif.Props.Ops
/-!
# C44: constant expressions
-/

namespace Verif.Expr
open Verif.Ops

/-! ## Specification

The grammar of the IDL language specification, with left-recursive rules for the binary operators, and
the value of an expression in the arithmetic of the declared type. -/

/-- Source expressions, parentheses kept. -/
inductive S where
  | lit (n : Nat)
  | name (s : String)
  | paren (e : S)
  | un (u : UOp) (e : S)
  | bin (o : Op) (l r : S)
  deriving DecidableEq

/-- The token of a unary operator. -/
def UOp.tok : UOp → Tok
  | .minus => .op .sub
  | .plus => .op .add
  | .tilde => .tilde

/-- `Derives n e ts`: the tokens `ts` are an expression `e` of precedence class `n` (0 weakest: `|`,
then `^`, `&`, shifts, `+ -`, `* / %`, unary operators, primaries). Binary operators associate to the
left: their left operand may be of the same class. -/
inductive Derives : Nat → S → List Tok → Prop
  | lit (n) : Derives 7 (.lit n) [.lit n]
  | name (s) : Derives 7 (.name s) [.name s]
  | paren {e ts} : Derives 0 e ts → Derives 7 (.paren e) (.lpar :: ts ++ [.rpar])
  | un {e ts} (u) : Derives 7 e ts → Derives 6 (.un u e) (u.tok :: ts)
  | weaken {n e ts} : n < 7 → Derives (n + 1) e ts → Derives n e ts
  | bin {l r tl tr} (o : Op) : Derives (level o) l tl → Derives (level o + 1) r tr →
      Derives (level o) (.bin o l r) (tl ++ .op o :: tr)

/-- `Val k env e v`: in the arithmetic of type `k`, expression `e` has value `v`. No value where a
literal does not fit or C++ leaves an operation undefined. -/
inductive Val (k : PK) (env : String → Num) : S → BitVec (bits k) → Prop
  | lit (n : Nat) (v) : represents k v = (n : Int) → Val k env (.lit n) v
  | name (s v) : env s = ⟨k, v⟩ → Val k env (.name s) v
  | paren {e v} : Val k env e v → Val k env (.paren e) v
  | minus {e v} : Val k env e v → ¬ Overflows k (-(represents k v)) → Val k env (.un .minus e) (-v)
  | plus {e v} : Val k env e v → Val k env (.un .plus e) v
  | tilde {e v} : Val k env e v → Val k env (.un .tilde e) (~~~ v)
  | bin {l r a b} (o) : Val k env l a → Val k env r b → ¬ Undef o k a b →
      Val k env (.bin o l r) (machine o (signed k) a b)

/-! ## What the parser builds -/

/-- Tree of an expression, possibly followed by an operator and a further operand: what the
right-recursive rules make of it. -/
def finish (e : E) : Option (Op × E) → E
  | none => e
  | some (o, x) => .bin o e x

/-- Chains of operators of one class are grouped to the right. -/
def regroup : S → Option (Op × E) → E
  | .lit n, c => finish (.lit n) c
  | .name s, c => finish (.name s) c
  | .paren e, c => finish (regroup e none) c
  | .un u e, c => finish (.un u (regroup e none)) c
  | .bin o l r, none => regroup l (some (o, regroup r none))
  | .bin o l r, some (o2, x) =>
    if level o = level o2 then regroup l (some (o, .bin o2 (regroup r none) x))
    else .bin o2 (regroup l (some (o, regroup r none))) x

/-- The unread tokens do not continue an expression of class `n`. -/
def Stops (n : Nat) : List Tok → Prop
  | .op o :: _ => level o < n
  | _ => True

/-- What is shown of every derivation. -/
def Good (n : Nat) (s : S) (ts : List Tok) : Prop :=
  (∀ rest, Stops n rest → ∀ f, 9 * ts.length + (9 - n) ≤ f →
    parse f n (ts ++ rest) = some (regroup s none, rest)) ∧
  (∀ o rest x rest2 F, level o = n → (∀ f, F ≤ f → parse f n rest = some (x, rest2)) →
    ∀ f, F + 9 * ts.length + (9 - n) ≤ f →
      parse f n (ts ++ .op o :: rest) = some (regroup s (some (o, x)), rest2))

theorem derives_level {n : Nat} {s : S} {ts : List Tok} (h : Derives n s ts) :
    ∀ o l r, s = .bin o l r → n ≤ level o := by
  induction h with
  | lit n => intro o l r e; cases e
  | name s => intro o l r e; cases e
  | paren _ _ => intro o l r e; cases e
  | un _ _ _ => intro o l r e; cases e
  | weaken _ _ ih => intro o l r e; have := ih o l r e; omega
  | bin o _ _ _ _ => intro o' l r e; cases e; exact Nat.le_refl _

theorem regroup_some (s : S) (n : Nat) (o : Op) (x : E) (hn : level o = n)
    (h : ∀ o' l r, s = .bin o' l r → n + 1 ≤ level o') :
    regroup s (some (o, x)) = .bin o (regroup s none) x := by
  cases s with
  | lit n => rfl
  | name s => rfl
  | paren e => rfl
  | un u e => rfl
  | bin o' l r =>
    have := h o' l r rfl
    simp only [regroup, if_neg (show ¬ level o' = level o by omega)]

theorem derives_ne_nil {n : Nat} {s : S} {ts : List Tok} (h : Derives n s ts) : ts ≠ [] := by
  induction h with
  | weaken _ _ ih => exact ih
  | bin => simp
  | _ => simp

/-- A primary does not start with a unary operator. -/
theorem derives_primary_head {n : Nat} {s : S} {ts : List Tok} (h : Derives n s ts) (h7 : n = 7) :
    ∃ t r, ts = t :: r ∧ ((∃ n, t = .lit n) ∨ (∃ s, t = .name s) ∨ t = .lpar) := by
  cases h with
  | lit n => exact ⟨_, _, rfl, .inl ⟨_, rfl⟩⟩
  | name s => exact ⟨_, _, rfl, .inr (.inl ⟨_, rfl⟩)⟩
  | paren _ => exact ⟨_, _, rfl, .inr (.inr rfl)⟩
  | un _ _ => omega
  | weaken _ _ => omega
  | bin o _ _ => cases o <;> simp [level] at h7

theorem good_weaken {n : Nat} {s : S} {ts : List Tok} (hn : n < 7) (hd : Derives (n + 1) s ts)
    (ih : Good (n + 1) s ts) : Good n s ts := by
  by_cases h5 : n ≤ 5
  · constructor
    · intro rest hs f hf
      obtain ⟨g, rfl⟩ : ∃ g, f = g + 1 := ⟨f - 1, by omega⟩
      have h1 := ih.1 rest (by
        unfold Stops at hs ⊢
        split
        · simp only at hs; omega
        · trivial) g (by omega)
      rw [parse, if_pos h5, binaryRule, h1]
      cases rest with
      | nil => rfl
      | cons t r =>
        cases t with
        | op o =>
          have : level o < n := hs
          simp only
          rw [if_neg (by omega)]
        | _ => rfl
    · intro o rest x rest2 F ho hF f hf
      obtain ⟨g, rfl⟩ : ∃ g, f = g + 1 := ⟨f - 1, by omega⟩
      have h1 := ih.1 (.op o :: rest) (by show level o < n + 1; omega) g (by omega)
      rw [parse, if_pos h5, binaryRule, h1]
      simp only [ho, if_true]
      rw [hF g (by omega)]
      simp only
      rw [regroup_some s n o x ho (derives_level hd)]
  · have h6 : n = 6 := by omega
    subst h6
    obtain ⟨t, r, rfl, ht⟩ := derives_primary_head hd rfl
    constructor
    · intro rest hs f hf
      obtain ⟨g, rfl⟩ : ∃ g, f = g + 1 := ⟨f - 1, by omega⟩
      have h1 := ih.1 rest (by
        unfold Stops at hs ⊢
        split
        · simp only at hs; omega
        · trivial) g (by omega)
      rw [parse, if_neg (by omega), if_pos rfl]
      rcases ht with ⟨m, rfl⟩ | ⟨m, rfl⟩ | rfl <;> exact h1
    · intro o rest x rest2 F ho
      exfalso
      cases o <;> simp [level] at ho

theorem good_of_derives {n : Nat} {s : S} {ts : List Tok} (h : Derives n s ts) : Good n s ts := by
  have no : ∀ n, 6 ≤ n → ∀ o : Op, level o = n → False := by
    intro n hn o ho
    cases o <;> simp [level] at ho <;> omega
  induction h with
  | lit m =>
    refine ⟨?_, fun o _ _ _ _ ho => (no 7 (by omega) o ho).elim⟩
    intro rest _ f hf
    obtain ⟨g, rfl⟩ : ∃ g, f = g + 1 := ⟨f - 1, by omega⟩
    rfl
  | name m =>
    refine ⟨?_, fun o _ _ _ _ ho => (no 7 (by omega) o ho).elim⟩
    intro rest _ f hf
    obtain ⟨g, rfl⟩ : ∃ g, f = g + 1 := ⟨f - 1, by omega⟩
    rfl
  | @paren e ts _ ih =>
    refine ⟨?_, fun o _ _ _ _ ho => (no 7 (by omega) o ho).elim⟩
    intro rest _ f hf
    obtain ⟨g, rfl⟩ : ∃ g, f = g + 1 := ⟨f - 1, by omega⟩
    have h1 := ih.1 (.rpar :: rest) trivial g (by simp at hf; omega)
    rw [parse, if_neg (by omega), if_neg (by omega)]
    simp only [List.cons_append, List.append_assoc, List.nil_append, primaryRule]
    rw [h1]
    rfl
  | @un e ts u _ ih =>
    refine ⟨?_, fun o _ _ _ _ ho => (no 6 (by omega) o ho).elim⟩
    intro rest hs f hf
    obtain ⟨g, rfl⟩ : ∃ g, f = g + 1 := ⟨f - 1, by omega⟩
    have h1 := ih.1 rest (by
        unfold Stops at hs ⊢
        split
        · simp only at hs; omega
        · trivial) g (by simp at hf; omega)
    rw [parse, if_neg (by omega), if_pos rfl]
    cases u <;> simp only [UOp.tok, List.cons_append, unaryRule, h1] <;> rfl
  | weaken hn hd ih => exact good_weaken hn hd ih
  | @bin l r tl tr o hl hr ihl ihr =>
    have hr' : Good (level o) r tr :=
      good_weaken (by cases o <;> simp [level]) hr ihr
    constructor
    · intro rest hs f hf
      have h1 := ihl.2 o (tr ++ rest) (regroup r none) rest (9 * tr.length + (9 - level o)) rfl
        (fun f hf => hr'.1 rest hs f hf) f (by simp at hf; omega)
      rw [List.append_assoc, List.cons_append, h1, regroup]
    · intro o2 rest x rest2 F ho hF f hf
      have h1 := ihl.2 o (tr ++ .op o2 :: rest) (regroup r (some (o2, x))) rest2
        (F + 9 * tr.length + (9 - level o)) rfl
        (fun f hf => hr'.2 o2 rest x rest2 F ho hF f hf) f (by simp at hf; omega)
      rw [List.append_assoc, List.cons_append, h1, regroup, if_pos ho.symm,
        regroup_some r (level o) o2 x ho (derives_level hr)]

/-! ## Theorems -/

/-- **C44 (precedence).** Every expression of the language is accepted, with the standard precedences,
but operators of one class are grouped to the right. -/
theorem C44_parsed_with_right_grouping (s : S) (ts : List Tok) (h : Derives 0 s ts) :
    parseAll ts = some (regroup s none) := by
  have := (good_of_derives h).1 [] trivial (9 * ts.length + 9) (by omega)
  rw [List.append_nil] at this
  rw [parseAll, this]

/-- Operators for which grouping does not matter in the arithmetic of type `k`. -/
def Assoc (k : PK) (o : Op) : Prop :=
  ((k = .u32 ∨ k = .u64) ∧ (o = .add ∨ o = .mul)) ∨ o = .and ∨ o = .xor ∨ o = .or

/-- The operator at the top of an expression without parentheses. -/
def S.top : S → Option Op
  | .bin o _ _ => some o
  | _ => none

/-- The expressions the partial theorem covers: no `~`, unary minus on signed types only, and a chain
of operators of one class repeats one operator for which grouping does not matter. -/
def Fine (k : PK) : S → Prop
  | .lit _ => True
  | .name _ => True
  | .paren e => Fine k e
  | .un u e => u ≠ .tilde ∧ (u = .minus → signed k = true) ∧ Fine k e
  | .bin o l r => Fine k l ∧ Fine k r ∧
      ∀ o', l.top = some o' → level o' = level o → o' = o ∧ Assoc k o

theorem machine_assoc {k : PK} {o : Op} (h : Assoc k o) (a b c : BitVec (bits k)) :
    machine o (signed k) (machine o (signed k) a b) c = machine o (signed k) a (machine o (signed k) b c) := by
  rcases h with ⟨_, h | h⟩ | h | h | h <;> subst h <;> simp only [machine]
  · exact BitVec.add_assoc ..
  · exact BitVec.mul_assoc ..
  · exact BitVec.and_assoc ..
  · exact BitVec.xor_assoc ..
  · exact BitVec.or_assoc ..

theorem assoc_total {k : PK} {o : Op} (h : Assoc k o) (a b : BitVec (bits k)) : ¬ Undef o k a b := by
  intro hu
  rcases h with ⟨hk, h⟩ | h
  · rcases hk with hk | hk <;> subst hk <;> rcases h with h | h <;> subst h <;>
      simp [Undef, Overflows] at hu
  · rcases h with h | h | h <;> subst h <;> exact hu

theorem solve_finish (k : PK) (env) (hk : isInt k = true) (e : E) (a : BitVec (bits k))
    (h : solve k env e = .ok ⟨k, a⟩) (o : Op) (x : E) (b : BitVec (bits k))
    (hx : solve k env x = .ok ⟨k, b⟩) (hu : ¬ Undef o k a b) :
    solve k env (.bin o e x) = .ok ⟨k, machine o (signed k) a b⟩ := by
  rw [solve, h]
  simp only [hx]
  exact (C38_binary_operator o k hk a b).1 hu

theorem literal_fits (k : PK) (hk : isInt k = true) (n : Nat) (v : BitVec (bits k))
    (h : represents k v = n) : literal k n = v := by
  rw [represents_eq] at h
  have R := range_cases k hk v
  have e : conv k (n : Int) = v := by rw [← h, conv_val]
  unfold literal
  rw [h] at R
  rw [← e]
  split
  · have : (min n (2 ^ 63 - 1) : Int) = n := by
      cases k <;> simp [isInt] at hk <;> simp only [InRange] at R <;> simp_all [signed] <;> omega
    rw [this]
  · have : (min n (2 ^ 64 - 1) : Int) = n := by
      cases k <;> simp [isInt] at hk <;> simp only [InRange] at R <;> simp_all [signed] <;> omega
    rw [this]

theorem solve_regroup (k : PK) (env) (hk : isInt k = true) (s : S) : Fine k s →
    ∀ a, Val k env s a →
    solve k env (regroup s none) = .ok ⟨k, a⟩ ∧
    ∀ o x b, (∀ o', s.top = some o' → level o' = level o → o' = o ∧ Assoc k o) →
      solve k env x = .ok ⟨k, b⟩ → ¬ Undef o k a b →
      solve k env (regroup s (some (o, x))) = .ok ⟨k, machine o (signed k) a b⟩ := by
  induction s with
  | lit n =>
    intro _ a hv
    cases hv with
    | lit _ _ h =>
    have h1 : solve k env (.lit n) = .ok ⟨k, a⟩ := by rw [solve, literal_fits k hk n a h]
    exact ⟨h1, fun o x b _ hx hu => solve_finish k env hk _ a h1 o x b hx hu⟩
  | name n =>
    intro _ a hv
    cases hv with
    | name _ _ h =>
    have h1 : solve k env (.name n) = .ok ⟨k, a⟩ := by rw [solve, h, if_pos rfl]
    exact ⟨h1, fun o x b _ hx hu => solve_finish k env hk _ a h1 o x b hx hu⟩
  | paren e ih =>
    intro hf a hv
    cases hv with
    | paren h =>
    have h1 := (ih hf a h).1
    exact ⟨h1, fun o x b _ hx hu => solve_finish k env hk _ a h1 o x b hx hu⟩
  | un u e ih =>
    intro hf a hv
    have h1 : solve k env (.un u (regroup e none)) = .ok ⟨k, a⟩ := by
      cases hv with
      | @minus _ v h hno =>
        rw [solve, (ih hf.2.2 v h).1]
        simp only [if_true]
        have hs := hf.2.1 rfl
        have hm : k ∈ [PK.i8, .i16, .i32, .i64] := by
          cases k <;> simp [isInt, signed] at hk hs <;> simp
        exact (((C38_unary k v).1 hm).1 hno)
      | plus h =>
        rw [solve, (ih hf.2.2 a h).1]
        rfl
      | tilde h => exact absurd rfl hf.1
    exact ⟨h1, fun o x b _ hx hu => solve_finish k env hk _ a h1 o x b hx hu⟩
  | bin o l r ihl ihr =>
    intro hf a hv
    cases hv with
    | @bin _ _ la rb _ hl hr hnu =>
    have IL := ihl hf.1 la hl
    have IR := ihr hf.2.1 rb hr
    have h1 : solve k env (regroup (.bin o l r) none) = .ok ⟨k, machine o (signed k) la rb⟩ := by
      rw [regroup]
      exact IL.2 o _ rb hf.2.2 IR.1 hnu
    refine ⟨h1, ?_⟩
    intro o2 x b htop hx hu
    rw [regroup]
    split
    · rename_i hlev
      obtain ⟨he, has⟩ := htop o rfl hlev
      subst he
      have h2 := solve_finish k env hk _ rb IR.1 o x b hx (assoc_total has rb b)
      have h3 := IL.2 o _ _ hf.2.2 h2 (assoc_total has la _)
      rw [h3, machine_assoc has]
    · rw [regroup] at h1
      exact solve_finish k env hk _ _ h1 o2 x b hx hu

/-- **C44 (partial).** For every integer type, a constant declared with an expression whose chains of
operators of one class are harmless (see `Fine`; in particular any expression that parenthesises all
chains) gets the value of the standard reading. Missing: chains such as `a - b - c`, unary `~`, unary
minus on unsigned types (the theorems below show the code gets these wrong), and floating point
types. -/
theorem C44_constant_expression_value_partial (k : PK) (hk : isInt k = true) (env : String → Num)
    (s : S) (ts : List Tok) (hd : Derives 0 s ts) (hf : Fine k s) (v : BitVec (bits k))
    (hv : Val k env s v) : constant k env ts = some (.ok ⟨k, v⟩) := by
  rw [constant, C44_parsed_with_right_grouping s ts hd]
  simp [(solve_regroup k env hk s hf v hv).1]

/-- A minus chain: `10 - 3 - 2`. -/
def minusChain : S := .bin .sub (.bin .sub (.lit 10) (.lit 3)) (.lit 2)

/-- **C44 (negative result).** `const int32 X = 10 - 3 - 2;` means 5 but is given 9. -/
theorem C44_not_left_associative :
    ∃ ts, Derives 0 minusChain ts ∧ Val .i32 (fun _ => ⟨.bool, 0#8⟩) minusChain 5#32 ∧
      constant .i32 (fun _ => ⟨.bool, 0#8⟩) ts = some (.ok ⟨.i32, 9#32⟩) := by
  refine ⟨[.lit 10, .op .sub, .lit 3, .op .sub, .lit 2], ?_, ?_, by decide⟩
  · refine .weaken (by omega) (.weaken (by omega) (.weaken (by omega) (.weaken (by omega) ?_)))
    have w : ∀ n, Derives 5 (.lit n) [.lit n] := fun n =>
      .weaken (by omega) (.weaken (by omega) (.lit n))
    have h := Derives.bin .sub (tl := [.lit 10, .op .sub, .lit 3]) (tr := [.lit 2])
      (Derives.bin .sub (tl := [.lit 10]) (tr := [.lit 3]) (.weaken (by decide) (w 10)) (w 3)) (w 2)
    exact h
  · have h : Val .i32 (fun _ => ⟨.bool, 0#8⟩) minusChain
        (machine .sub (signed .i32) (machine .sub (signed .i32) 10#32 3#32) 2#32) :=
      .bin _ (.bin _ (Val.lit (k := .i32) 10 10#32 rfl) (Val.lit (k := .i32) 3 3#32 rfl) (by simp [Undef, Overflows, represents]))
        (Val.lit (k := .i32) 2 2#32 rfl) (by simp [Undef, Overflows, machine, represents])
    exact h

/-- **C44 (negative result).** The same for division: `8 / 4 / 2` is given 4 instead of 1. -/
theorem C44_not_left_associative_div :
    constant .i32 (fun _ => ⟨.bool, 0#8⟩) [.lit 8, .op .div, .lit 4, .op .div, .lit 2] =
      some (.ok ⟨.i32, 4#32⟩) := by decide

/-- **C44 (negative result).** Unary `~` is ignored, for every literal and integer type. -/
theorem C44_not_complement (k : PK) (env : String → Num) (n : Nat) :
    constant k env [.tilde, .lit n] = constant k env [.lit n] := by
  have h1 : parseAll [.tilde, .lit n] = some (.un .tilde (.lit n)) := rfl
  have h2 : parseAll [.lit n] = some (.lit n) := rfl
  rw [constant, constant, h1, h2]
  rfl

/-- **C44 (negative result).** A negated literal is refused for unsigned types. -/
theorem C44_not_negated_unsigned (k : PK) (h : k ∈ [PK.u8, .u16, .u32, .u64]) (env : String → Num)
    (n : Nat) : constant k env [.op .sub, .lit n] = some .refused := by
  have h1 : parseAll [.op .sub, .lit n] = some (.un .minus (.lit n)) := rfl
  rw [constant, h1]
  simp only [Option.map_some, solve, if_true]
  rw [((C38_unary k (literal k n)).2 h).1]

/-- The hypotheses of the partial theorem are met by `N * (2 + 3) | 1 << 4` with a constant `N`. -/
example : let env : String → Num := fun s => if s = "N" then ⟨.u32, 7#32⟩ else ⟨.bool, 0#8⟩
    let s : S := .bin .or (.bin .mul (.name "N") (.paren (.bin .add (.lit 2) (.lit 3))))
      (.bin .shl (.lit 1) (.lit 4))
    let ts : List Tok := [.name "N", .op .mul, .lpar, .lit 2, .op .add, .lit 3, .rpar, .op .or,
      .lit 1, .op .shl, .lit 4]
    Derives 0 s ts ∧ Fine .u32 s ∧ Val .u32 env s 51#32 ∧ constant .u32 env ts = some (.ok ⟨.u32, 51#32⟩) := by
  intro env s ts
  have w : ∀ n j, j ≤ 7 → Derives (7 - j) (.lit n) [.lit n] := by
    intro n j hj
    induction j with
    | zero => exact .lit n
    | succ j ih =>
      have := ih (by omega)
      have e : 7 - j = (7 - (j + 1)) + 1 := by omega
      rw [e] at this
      exact .weaken (by omega) this
  have up : ∀ e ts n, n ≤ 5 → Derives 5 e ts → Derives (5 - n) e ts := by
    intro e ts n hn h
    induction n with
    | zero => exact h
    | succ j ih =>
      have := ih (by omega)
      have e' : 5 - j = (5 - (j + 1)) + 1 := by omega
      rw [e'] at this
      exact .weaken (by omega) this
  refine ⟨?_, ?_, ?_, by decide⟩
  · have hp : Derives 7 (.paren (.bin .add (.lit 2) (.lit 3))) [.lpar, .lit 2, .op .add, .lit 3, .rpar] := by
      have h4 : Derives 4 (.bin .add (.lit 2) (.lit 3)) [.lit 2, .op .add, .lit 3] :=
        .bin .add (tl := [.lit 2]) (tr := [.lit 3]) (w 2 3 (by omega)) (w 3 2 (by omega))
      exact .paren (.weaken (by omega) (.weaken (by omega) (.weaken (by omega) (.weaken (by omega) h4))))
    have hN : Derives 5 (.name "N") [.name "N"] := .weaken (by omega) (.weaken (by omega) (.name _))
    have hm := Derives.bin .mul hN (.weaken (by decide) hp)
    have hs : Derives 3 (.bin .shl (.lit 1) (.lit 4)) [.lit 1, .op .shl, .lit 4] :=
      .bin .shl (tl := [.lit 1]) (tr := [.lit 4]) (w 1 4 (by omega)) (w 4 3 (by omega))
    exact .bin .or (tr := [.lit 1, .op .shl, .lit 4]) (up _ _ 5 (by omega) hm)
      (.weaken (by decide) (.weaken (by decide) hs))
  · simp [s, Fine, S.top, level]
  · have h : Val .u32 env s (machine .or (signed .u32)
        (machine .mul (signed .u32) 7#32 (machine .add (signed .u32) 2#32 3#32))
        (machine .shl (signed .u32) 1#32 4#32)) := by
      refine .bin _ (.bin _ (.name _ _ rfl) (.paren (.bin _ (Val.lit (k := .u32) 2 2#32 rfl) (Val.lit (k := .u32) 3 3#32 rfl) ?_)) ?_)
        (.bin _ (Val.lit (k := .u32) 1 1#32 rfl) (Val.lit (k := .u32) 4 4#32 rfl) ?_) ?_
      · simp [Undef, Overflows]
      · simp [Undef, Overflows]
      · simp [Undef, represents, shiftLimit]
      · simp [Undef]
    exact h

end Verif.Expr
