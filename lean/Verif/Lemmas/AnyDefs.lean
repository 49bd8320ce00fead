import Verif.Lemmas.AnyGrammar
/-!
# The declarations of a text without four colons in a row
-/

namespace Verif.Idl.Syn
open Text

variable {A : Prop}

/-- No name in it has four colons in a row. -/
def PlainDim : Dim → Prop
  | .literal t => NoQuad t
  | .name t => NoQuad t

/-- The same for an optional size. -/
def PlainSize (n : Option Dim) : Prop := ∀ d, n = some d → PlainDim d

/-- The same for a type. -/
def PlainT (A : Prop) : TSpec → Prop
  | .prim _ => True
  | .any => A
  | .fixed => A
  | .name t => NoQuad t
  | .string n => ∀ t, n = some t → NoQuad t
  | .wstring n => ∀ t, n = some t → NoQuad t
  | .seq t n => PlainT A t ∧ PlainSize n
  | .map k v n => PlainT A k ∧ PlainT A v ∧ PlainSize n

/-- The same for a declarator. -/
def PlainD (d : Declr) : Prop := NoQuad d.name ∧ ∀ x ∈ d.dims, PlainDim x

/-- A text that begins with an ASCII character. -/
def Ascii (t : Bytes) : Prop := ∀ b, t.head? = some b → b < 128

/-- The same for a literal. -/
def PlainLit : Lit → Prop
  | .text t => Ascii t
  | .parts _ => True

/-- The same for an expression. -/
def PlainE : CExpr → Prop
  | .lit l => PlainLit l
  | .name t => NoQuad t
  | .un _ e => PlainE e
  | .bin _ l r => PlainE l ∧ PlainE r

/-- The same for a declaration. -/
inductive PlainDef (A : Prop) : Def → Prop
  | struct {n q ms} : NoQuad n → (∀ x, q = some x → NoQuad x) → (∀ m ∈ ms, PlainT A m.1 ∧ ∀ d ∈ m.2, PlainD d) → PlainDef A (.struct n q ms)
  | forward {n} : NoQuad n → PlainDef A (.forward n)
  | union {n t cs} : NoQuad n → PlainT A t → (∀ x ∈ cs, (∀ l ∈ x.labels, NoQuad l) ∧ PlainT A x.type ∧ PlainD x.name) → PlainDef A (.union n t cs)
  | unionForward {n} : NoQuad n → PlainDef A (.unionForward n)
  | enum {n ids} : NoQuad n → PlainDef A (.enum n ids)
  | const {t n e} : PlainT A t → NoQuad n → PlainE e → PlainDef A (.const t n e)
  | typedef {t ds} : PlainT A t → (∀ d, some d ∈ ds → PlainD d) → PlainDef A (.typedef t ds)
  | ignored {n} : NoQuad n → PlainDef A (.ignored n)
  | skip : PlainDef A .skip
  | module {n ds} : NoQuad n → (∀ d ∈ ds, PlainDef A d) → PlainDef A (.module n ds)

theorem Good.cons {α} {p : P α} {l : List (P α)} {Q : α → Prop} (h : Good A p Q) (k : Good A (Syn.choice l) Q) : Good A (Syn.choice (p :: l)) Q := h.or k
theorem Good.last {α} {Q : α → Prop} : Good A (Syn.choice ([] : List (P α))) Q := Good.fail

/-- A rule that yields one thing. -/
theorem Good.yields {α β} {p : P α} {b : β} {R : β → Prop} (h : Good A p fun _ => True) (hb : R b) :
    Good A (p >>= fun _ => (Pure.pure b : P β)) R := h.then fun _ => Good.pure hb

/-- A rule that wraps what another yields. -/
theorem Good.wraps {α β} {p : P α} {Q : α → Prop} {k : α → β} {R : β → Prop} (h : Good A p Q) (hb : ∀ a, Q a → R (k a)) :
    Good A (p >>= fun a => (Pure.pure (k a) : P β)) R := h.bind (fun a ha => Good.pure (hb a ha)) fun a => Good.pure trivial

theorem colon_free {l : Bytes} {f : Nat → Bool} (h : ∀ a ∈ l, f a = true) (hf : f 58 = false) : 58 ∉ l :=
  fun e => absurd (h 58 e) (by rw [hf]; decide)

theorem good_integer : Good A integerLiteral NoQuad := by
  have key : ∀ (f : Nat → Bool), f 58 = false → ∀ pre : Bytes, 58 ∉ pre → ∀ p : P Bytes, Good A p (fun r => ∀ a ∈ r, f a = true) →
      Good A (p >>= fun r => (Pure.pure (pre ++ r) : P Bytes)) NoQuad := fun f hf pre hp p hr =>
    hr.wraps fun r h => noQuad_of (by rw [List.mem_append, not_or]; exact ⟨hp, colon_free h hf⟩)
  refine Good.or ?_ (Good.or ?_ (Good.or ?_ ?_))
  · exact (good_lit _).then fun _ => key _ (by decide) [48] (by decide) _ (good_one _).plus
  · refine (good_lit _).then fun _ => (good_one _).bind (fun x hx => key _ (by decide) [48, x] ?_ _ (good_one _).plus)
      fun x => (good_one _).plus.true.then fun _ => Good.pure trivial
    intro h
    simp only [List.mem_cons, List.not_mem_nil, or_false] at h
    rcases h with h | h
    · cases h
    · subst h; exact absurd hx (by decide)
  · refine (good_one _).bind (fun x hx => key _ (by decide) [x] ?_ _ (good_one _).star)
      fun x => (good_one _).star.true.then fun _ => Good.pure trivial
    intro h
    simp only [List.mem_cons, List.not_mem_nil, or_false] at h
    subst h; exact absurd hx (by decide)
  · exact (good_lit _).yields (noQuad_of (by decide))

theorem good_positive : Good A positiveInt PlainDim :=
  (Good.wraps (k := Dim.literal) (R := PlainDim) good_integer fun _ h => h).or
    (Good.wraps (k := Dim.name) (R := PlainDim) good_scopedId fun _ h => h)

theorem good_signed : Good A signedInt (PlainT A) :=
  .cons (((good_kw _).or (good_kw _)).yields trivial) <| .cons (((good_kw2 _ _).or (good_kw _)).yields trivial) <|
  .cons (((good_kw _).or (good_kw _)).yields trivial) <| .cons ((good_kw _).yields trivial) .last

theorem good_unsigned : Good A unsignedInt (PlainT A) :=
  .cons (((good_kw2 _ _).or (good_kw _)).yields trivial) <| .cons (((good_kw3 _ _ _).or (good_kw _)).yields trivial) <|
  .cons (((good_kw2 _ _).or (good_kw _)).yields trivial) <| .cons ((good_kw _).yields trivial) .last

theorem good_any : Good A (kw "any") fun _ => A :=
  good_word _ fun _ hs hi => hs.2.elim id fun h => absurd hi h.1
theorem good_fixedKw : Good A (kw "fixed") fun _ => A :=
  good_word _ fun _ hs hi => hs.2.elim id fun h => absurd hi h.2.1

theorem good_base : Good A baseType (PlainT A) :=
  .cons ((good_kw _).yields trivial) <| .cons ((good_kw _).yields trivial) <| .cons ((good_kw2 _ _).yields trivial) <|
  .cons (good_signed.or good_unsigned) <| .cons ((good_kw _).yields trivial) <| .cons ((good_kw _).yields trivial) <|
  .cons ((good_kw _).yields trivial) <| .cons ((good_kw _).yields trivial) <| .cons (good_any.wraps fun _ h => h) .last

theorem good_named : Good A (do let t ← scopedId; Pure.pure (TSpec.name t) : P TSpec) (PlainT A) := good_scopedId.wraps fun _ h => h

theorem good_simple : Good A simpleType (PlainT A) := good_base.or good_named

theorem good_size : Good A stringSize NoQuad := by
  refine (good_sym _).then fun _ => Good.bind (Q := NoQuad) ?_ (fun t ht => (good_sym _).yields ht) fun t => (good_sym _).yields trivial
  refine good_positive.wraps fun d hd => ?_
  cases d <;> exact hd

theorem good_string : Good A stringType (PlainT A) := (good_kw _).then fun _ => good_size.opt.wraps fun _ h => h
theorem good_wstring : Good A wstringType (PlainT A) := (good_kw _).then fun _ => good_size.opt.wraps fun _ h => h
theorem good_fixed : Good A fixedType (PlainT A) :=
  have k : ∀ {R : TSpec → Prop}, R .fixed → Good A (do sym "<"; let _ ← positiveInt; sym ","; let _ ← positiveInt; sym ">"; Pure.pure .fixed : P TSpec) R :=
    fun h => (good_sym _).then fun _ => good_positive.true.then fun _ => (good_sym _).then fun _ => good_positive.true.then fun _ => (good_sym _).yields h
  good_fixedKw.bind (fun _ h => k h) fun _ => k trivial

theorem good_collection : Good A collectionSize PlainDim := (good_sym _).then fun _ => good_positive

theorem good_template {p : P TSpec} (h : Good A p (PlainT A)) : Good A (templateType p) (PlainT A) := by
  have tr := h.true
  refine .cons ?_ (.cons ?_ (.cons good_string (.cons good_wstring (.cons good_fixed .last))))
  · refine (good_kw _).then fun _ => (good_sym _).then fun _ => h.bind (fun k hk => (good_sym _).then fun _ => h.bind (fun v hv =>
      good_collection.opt.bind (fun n hn => (good_sym _).yields ⟨hk, hv, hn⟩) fun n => (good_sym _).yields trivial)
        fun v => good_collection.opt.true.then fun n => (good_sym _).yields trivial)
      fun k => (good_sym _).then fun _ => tr.then fun v => good_collection.opt.true.then fun n => (good_sym _).yields trivial
  · exact (good_kw _).then fun _ => (good_sym _).then fun _ => h.bind (fun k hk =>
      good_collection.opt.bind (fun n hn => (good_sym _).yields ⟨hk, hn⟩) fun n => (good_sym _).yields trivial)
      fun k => good_collection.opt.true.then fun n => (good_sym _).yields trivial

theorem good_typeFrom : ∀ f, Good A (typeSpecFrom f) (PlainT A)
  | 0 => Good.fail
  | f + 1 => good_wsOpt.then fun _ => ((good_template (good_typeFrom f)).or good_simple).bind (fun t ht => good_wsOpt.yields ht)
      fun t => good_wsOpt.yields trivial

theorem good_type : Good A typeSpec (PlainT A) := fun s a r e => good_typeFrom _ s a r e

theorem good_array : Good A arraySize PlainDim :=
  (good_sym _).then fun _ => good_positive.bind (fun d hd => (good_sym _).yields hd) fun d => (good_sym _).yields trivial

theorem good_declarator : Good A declarator PlainD :=
  (good_identifier.bind (fun n hn => good_array.plus.wraps (k := fun ds => Declr.mk n ds) (R := PlainD) fun ds hds => ⟨hn, hds⟩)
      fun n => good_array.plus.true.then fun _ => Good.pure trivial).or
    (good_identifier.wraps (k := fun n => Declr.mk n []) (R := PlainD) fun n hn => ⟨hn, by simp⟩)

theorem good_declarators : Good A declarators fun l => ∀ d ∈ l, PlainD d :=
  have h : Good A (do sym ","; declarator : P Declr) PlainD := (good_sym _).then fun _ => good_declarator
  good_declarator.bind (fun _ hd => h.star.wraps fun _ hl => List.forall_mem_cons.mpr ⟨hd, hl⟩)
    fun _ => h.star.true.then fun _ => Good.pure trivial

theorem good_exp : Good A expOrSuffix fun _ => True :=
  ((good_one _).true.then fun _ => (good_one _).opt.true.then fun _ => (good_one _).plus.true.then fun _ => Good.pure trivial).or
    ((good_one _).true.then fun _ => Good.pure trivial)

theorem good_float : Good A floatLiteral fun _ => True :=
  .cons ((good_one _).plus.true.then fun _ => (good_lit _).then fun _ => (good_one _).star.true.then fun _ => good_exp.opt.true.then fun _ => Good.pure trivial) <|
  .cons ((good_lit _).then fun _ => (good_one _).plus.true.then fun _ => good_exp.opt.true.then fun _ => Good.pure trivial) <|
  .cons ((good_one _).plus.true.then fun _ => good_exp) .last

theorem good_escape : Good A escape fun _ => True :=
  (good_lit _).then fun _ =>
  .cons ((good_one _).true.then fun _ => Good.pure trivial) <|
  .cons ((good_one _).true.then fun _ => (good_one _).opt.true.then fun _ => (good_one _).opt.true.then fun _ => Good.pure trivial) <|
  .cons ((good_lit _).then fun _ => (good_one _).true.then fun _ => (good_one _).opt.true.then fun _ => Good.pure trivial) <|
  .cons ((good_lit _).then fun _ => (good_one _).true.then fun _ => (good_one _).opt.true.then fun _ => (good_one _).opt.true.then fun _ =>
    (good_one _).opt.true.then fun _ => Good.pure trivial) .last

theorem good_char : Good A charLiteral fun _ => True :=
  ((good_lit _).then fun _ => (good_one _).plus.true.then fun _ => good_lit _).or
    ((good_lit _).then fun _ => good_escape.then fun _ => good_lit _)

theorem good_quoted (q : Nat) : Good A (quotedText q) fun _ => True :=
  (good_one _).true.then fun _ =>
    (Good.star (Q := fun _ => True) (good_escape.or ((good_one _).true.then fun _ => Good.pure trivial))).true.then fun _ =>
      (good_one _).true.then fun _ => Good.pure trivial

theorem good_substring : Good A substringLiteral fun _ => True :=
  (((good_quoted _).or (good_quoted _)).token.true).then fun _ =>
    ((((good_lit _).then fun _ => good_wsOpt.then fun _ => good_lit _ : Good A (do lit "\""; wsOpt; lit "\"" : P Unit) fun _ => True)).or good_wsOpt).then fun _ => Good.pure trivial

/-- A rule that reads an ASCII character first. -/
def Begins {α} (p : P α) : Prop := ∀ s a r, p s = some (a, r) → ∃ b t, s = b :: t ∧ b < 128 ∧ r <:+ t

theorem Begins.bind {α β} {p : P α} {k : α → P β} (h : Begins p) (hk : ∀ a, Good True (k a) fun _ => True) : Begins (p >>= k) := by
  intro s b r e
  have e : (p s).bind (fun x => k x.1 x.2) = some (b, r) := e
  cases hp : p s with
  | none => rw [hp] at e; cases e
  | some x =>
    rw [hp, Option.bind_some] at e
    obtain ⟨c, t, h1, h2, h3⟩ := h s x.1 x.2 hp
    exact ⟨c, t, h1, h2, ((hk x.1) x.2 b r e).1.trans h3⟩

theorem Begins.or {α} {p q : P α} (h : Begins p) (k : Begins q) : Begins (p.or q) := by
  intro s a r e
  unfold P.or at e
  cases hp : p s with
  | none => rw [hp] at e; exact k s a r e
  | some x => rw [hp] at e; cases e; exact h s a r hp

theorem begins_one {f : Nat → Bool} (h : ∀ c, f c = true → c < 128) : Begins (one f) := by
  intro s a r e
  cases s with
  | nil => cases e
  | cons c s =>
    have e : (if f c then some (c, s) else none) = some (a, r) := e
    split at e
    · rename_i hc; cases e; exact ⟨_, _, rfl, h _ hc, List.suffix_rfl⟩
    · cases e

theorem begins_lit {w : String} {b : Nat} {t : Bytes} (h : bytes w = b :: t) (hb : b < 128) : Begins (lit w) := by
  intro s a r e
  refine ⟨b, t ++ r, by rw [lit_eq (u := a) e, h]; rfl, hb, List.suffix_append _ _⟩

theorem Begins.token {α} {p : P α} (h : Begins p) : Good A (token p) Ascii := by
  intro s a r e
  unfold Syn.token at e
  simp only [Option.map_eq_some_iff] at e
  obtain ⟨x, h1, h2⟩ := e
  cases h2
  obtain ⟨b, t, rfl, hb, ht⟩ := h s x.1 x.2 h1
  refine ⟨ht.trans (List.suffix_cons _ _), fun _ => ?_⟩
  have hl := ht.length_le
  have : (b :: t).length - x.2.length = (t.length - x.2.length) + 1 := by rw [List.length_cons]; omega
  rw [this, List.take_succ_cons]
  intro c hc
  rw [List.head?_cons, Option.some.injEq] at hc
  rw [← hc]; exact hb

theorem ascii_take {n b : Nat} {t : Bytes} (hb : b < 128) : Ascii ((b :: t).take n) := by
  intro c hc
  cases n with
  | zero => cases hc
  | succ n => rw [List.take_succ_cons, List.head?_cons, Option.some.injEq] at hc; rw [← hc]; exact hb

theorem begins_quoted {q : Nat} (hq : q < 128) : Begins (quotedText q) :=
  (begins_one (by simp only [decide_eq_true_eq]; rintro c rfl; exact hq)).bind fun _ =>
    (Good.star (Q := fun _ => True) (good_escape.or ((good_one _).true.then fun _ => Good.pure trivial))).true.then fun _ =>
      (good_one _).true.then fun _ => Good.pure trivial

theorem begins_char : Begins charLiteral :=
  ((begins_lit (by rfl) (by decide : 39 < 128)).bind fun _ => (good_one _).plus.true.then fun _ => good_lit _).or
    ((begins_lit (by rfl) (by decide : 39 < 128)).bind fun _ => good_escape.then fun _ => good_lit _)

theorem digit_ascii (c : Nat) (h : isDigit c = true) : c < 128 := by
  simp only [isDigit, Bool.and_eq_true, decide_eq_true_eq] at h; omega

theorem begins_float : Begins floatLiteral := by
  have k : Begins (one isDigit).plus := (begins_one digit_ascii).bind fun _ => (good_one _).star.true.then fun _ => Good.pure trivial
  refine (k.bind fun _ => (good_lit _).then fun _ => (good_one _).star.true.then fun _ => good_exp.opt.true.then fun _ => Good.pure trivial).or ?_
  refine ((begins_lit (by rfl) (by decide : 46 < 128)).bind fun _ => (good_one _).plus.true.then fun _ => good_exp.opt.true.then fun _ => Good.pure trivial).or ?_
  exact (k.bind fun _ => good_exp).or fun s a r e => by cases e

theorem begins_substring : Good A substringLiteral Ascii :=
  ((begins_quoted (by decide)).or (begins_quoted (by decide))).token.bind (fun _ h =>
    ((((good_lit _).then fun _ => good_wsOpt.then fun _ => good_lit _ : Good A (do lit "\""; wsOpt; lit "\"" : P Unit) fun _ => True)).or good_wsOpt).then fun _ => Good.pure h)
    fun _ => ((((good_lit _).then fun _ => good_wsOpt.then fun _ => good_lit _ : Good A (do lit "\""; wsOpt; lit "\"" : P Unit) fun _ => True)).or good_wsOpt).then fun _ => Good.pure trivial

theorem substring_begins : Begins substringLiteral :=
  Begins.bind (fun s a r e => by
      unfold Syn.token at e
      simp only [Option.map_eq_some_iff] at e
      obtain ⟨x, h1, h2⟩ := e
      cases h2
      exact ((begins_quoted (by decide)).or (begins_quoted (by decide))) s x.1 x.2 h1)
    fun _ => ((((good_lit _).then fun _ => good_wsOpt.then fun _ => good_lit _ : Good True (do lit "\""; wsOpt; lit "\"" : P Unit) fun _ => True)).or good_wsOpt).then fun _ => Good.pure trivial

theorem ascii_integer : Good A integerLiteral Ascii := by
  refine Good.or ?_ (Good.or ?_ (Good.or ?_ ?_))
  · exact (good_lit _).then fun _ => (good_one _).plus.wraps fun _ _ c hc => by cases hc; decide
  · exact (good_lit _).then fun _ => (good_one _).true.then fun _ => (good_one _).plus.wraps fun _ _ c hc => by cases hc; decide
  · refine (good_one _).bind (fun x hx => (good_one _).star.wraps fun _ _ c hc => ?_) fun x => (good_one _).star.true.then fun _ => Good.pure trivial
    cases hc
    simp only [Bool.and_eq_true, decide_eq_true_eq] at hx; omega
  · exact (good_lit _).yields fun c hc => by cases hc; decide

theorem plain_parts : ∀ ts : List Bytes, (∀ t ∈ ts, Ascii t) → PlainLit (Lit.ofParts ts)
  | [], _ => trivial
  | [t], h => h t (by simp)
  | _ :: _ :: _, _ => trivial

theorem good_literal : Good A scopedOrLiteral PlainE :=
  .cons (begins_float.token.wraps (k := fun t => CExpr.lit (.text t)) (R := PlainE) fun _ h => h) <|
  .cons (ascii_integer.wraps (k := fun t => CExpr.lit (.text t)) (R := PlainE) fun _ h => h) <|
  .cons (begins_char.token.wraps (k := fun t => CExpr.lit (.text t)) (R := PlainE) fun _ h => h) <|
  .cons ((Begins.token (p := do lit "L"; charLiteral) ((begins_lit (by rfl) (by decide : 76 < 128)).bind fun _ => good_char)).wraps
    (k := fun t => CExpr.lit (.text t)) (R := PlainE) fun _ h => h) <|
  .cons ((Begins.token (p := (lit "TRUE").or (lit "FALSE")) ((begins_lit (by rfl) (by decide : 84 < 128)).or (begins_lit (by rfl) (by decide : 70 < 128)))).wraps
    (k := fun t => CExpr.lit (.text t)) (R := PlainE) fun _ h => h) <|
  .cons (begins_substring.plus.wraps (k := fun ts => CExpr.lit (.ofParts ts)) (R := PlainE) fun ts h => plain_parts ts h) <|
  .cons ((Good.plus (p := do lit "L"; token substringLiteral) (Q := Ascii) ((good_lit _).then fun _ => substring_begins.token)).wraps
    (k := fun ts => CExpr.lit (.ofParts ts)) (R := PlainE) fun ts h => plain_parts ts h) <|
  .cons (good_scopedId.wraps (k := CExpr.name) (R := PlainE) fun _ h => h) .last

theorem good_binary {next : P CExpr} {op : P Ops.Op} (h : Good A next PlainE) (ho : Good A op fun _ => True) : ∀ f, Good A (binary next op f) PlainE
  | 0 => Good.fail
  | f + 1 => by
    refine Good.or ?_ h
    refine h.bind (fun l hl => ho.then fun o => (good_binary h ho f).wraps fun r hr => ⟨hl, hr⟩) fun l => ho.then fun o =>
      (good_binary h ho f).true.then fun _ => Good.pure trivial

theorem good_unary {prim : P CExpr} (h : Good A prim PlainE) : Good A (unaryExpr prim) PlainE := by
  refine Good.or (Good.then (p := choice _) ?_ fun u => h.wraps fun _ he => he) h
  exact .cons ((good_sym _).yields trivial) <| .cons ((good_sym _).yields trivial) <| .cons ((good_sym _).yields trivial) .last

theorem good_primary {expr : P CExpr} (h : Good A expr PlainE) : Good A (primaryExpr expr) PlainE :=
  ((good_sym _).then fun _ => h.bind (fun _ he => (good_sym _).yields he) fun _ => (good_sym _).yields trivial).or good_literal

theorem good_op (w : String) (o : Ops.Op) : Good A (opSym w o) fun _ => True := (good_sym _).yields trivial

theorem good_constExpr : ∀ f, Good A (constExpr f) PlainE
  | 0 => Good.fail
  | f + 1 => by
    refine good_binary (good_binary (good_binary (good_binary (good_binary (good_binary (good_unary (good_primary (good_constExpr f)))
      ?_ _) ?_ _) ?_ _) ?_ _) ?_ _) ?_ _
    · exact .cons (good_op _ _) <| .cons (good_op _ _) <| .cons (good_op _ _) .last
    · exact .cons (good_op _ _) <| .cons (good_op _ _) .last
    · exact .cons (good_op _ _) <| .cons (good_op _ _) .last
    · exact good_op _ _
    · exact good_op _ _
    · exact good_op _ _

theorem good_expression : Good A expression PlainE := fun s a r e => good_constExpr _ s a r e

theorem good_switch : Good A switchType (PlainT A) :=
  .cons (good_signed.or good_unsigned) <| .cons ((good_kw _).yields trivial) <| .cons ((good_kw _).yields trivial) <|
  .cons ((good_kw _).yields trivial) <| .cons ((good_kw _).yields trivial) <| .cons good_named .last

theorem good_case : Good A caseLabel NoQuad :=
  ((good_kw _).then fun _ => good_expression.token.bind (fun _ h => (good_sym _).yields h) fun _ => (good_sym _).yields trivial).or
    ((good_kw _).token.bind (fun _ h => (good_sym _).yields h) fun _ => (good_sym _).yields trivial)

theorem good_annotParam : Good A annotParam fun _ => True :=
  (good_identifier.true.then fun _ => (good_sym _).then fun _ => good_expression.true.then fun _ => Good.pure trivial).or
    (good_expression.true.then fun _ => Good.pure trivial)

theorem good_annotParams : Good A annotParams fun _ => True :=
  good_annotParam.then fun _ => Good.then (Good.star (Q := fun _ => True) ((good_sym _).then fun _ => good_annotParam)).true fun _ => Good.pure trivial

theorem good_annot : Good A annot fun _ => True :=
  (good_lit _).then fun _ => good_scopedId.true.then fun _ =>
    Good.then (Good.opt (Q := fun _ => True) ((good_sym _).then fun _ => good_annotParams.then fun _ => good_sym _)).true fun _ => Good.pure trivial

theorem good_annots : Good A annots fun _ => True := good_annot.star.true.then fun _ => Good.pure trivial

theorem good_member : Good A member fun m => (PlainT A) m.1 ∧ ∀ d ∈ m.2, PlainD d :=
  good_annots.then fun _ =>
  good_type.bind (fun _ ht => good_declarators.bind (fun _ hd => (good_sym _).yields ⟨ht, hd⟩) fun _ => (good_sym _).yields trivial)
    fun _ => good_declarators.true.then fun _ => (good_sym _).yields trivial

theorem good_unionCase : Good A unionCase fun x => (∀ l ∈ x.labels, NoQuad l) ∧ (PlainT A) x.type ∧ PlainD x.name :=
  good_case.plus.bind (fun _ hl => good_annots.then fun _ => good_type.bind (fun _ ht => good_declarator.bind (fun _ hd => (good_sym _).yields ⟨hl, ht, hd⟩)
        fun _ => (good_sym _).yields trivial)
      fun _ => good_declarator.true.then fun _ => (good_sym _).yields trivial)
    fun _ => good_annots.then fun _ => good_type.true.then fun _ => good_declarator.true.then fun _ => (good_sym _).yields trivial

theorem good_constType : Good A constType (PlainT A) :=
  .cons ((good_kw _).yields trivial) <| .cons ((good_kw _).yields trivial) <| .cons ((good_kw2 _ _).yields trivial) <|
  .cons (good_fixedKw.wraps fun _ h => h) <| .cons (good_signed.or good_unsigned) <| .cons ((good_kw _).yields trivial) <|
  .cons ((good_kw _).yields trivial) <| .cons ((good_kw _).yields trivial) <| .cons good_string <| .cons good_wstring <|
  .cons good_named .last

theorem good_const : Good A constDcl (PlainDef A) :=
  (good_kw _).then fun _ => good_constType.bind (fun _ ht => good_wsOpt.then fun _ => good_identifier.bind (fun _ hn =>
        (good_sym _).then fun _ => good_expression.wraps fun _ he => .const ht hn he)
      fun _ => (good_sym _).then fun _ => good_expression.true.then fun _ => Good.pure trivial)
    fun _ => good_wsOpt.then fun _ => good_identifier.true.then fun _ => (good_sym _).then fun _ => good_expression.true.then fun _ => Good.pure trivial

theorem good_struct : Good A structDef (PlainDef A) := by
  have hp : Good A (do sym ":"; scopedId : P Bytes) NoQuad := (good_sym _).then fun _ => good_scopedId
  exact (good_kw _).then fun _ => good_identifier.bind (fun _ hn => hp.opt.bind (fun _ hq => (good_sym _).then fun _ =>
          good_member.star.bind (fun _ hm => (good_sym _).yields (.struct hn hq hm)) fun _ => (good_sym _).yields trivial)
        fun _ => (good_sym _).then fun _ => good_member.star.true.then fun _ => (good_sym _).yields trivial)
      fun _ => hp.opt.true.then fun _ => (good_sym _).then fun _ => good_member.star.true.then fun _ => (good_sym _).yields trivial

theorem good_forward : Good A structForward (PlainDef A) := (good_kw _).then fun _ => good_identifier.wraps fun _ h => .forward h
theorem good_unionForward : Good A unionForward (PlainDef A) := (good_kw _).then fun _ => good_identifier.wraps fun _ h => .unionForward h

theorem good_union : Good A unionDef (PlainDef A) :=
  (good_kw _).then fun _ => good_identifier.bind (fun _ hn => (good_kw _).then fun _ => (good_sym _).then fun _ =>
        good_switch.bind (fun _ ht => (good_sym _).then fun _ => (good_sym _).then fun _ =>
            good_unionCase.plus.bind (fun _ hc => (good_sym _).yields (.union hn ht hc)) fun _ => (good_sym _).yields trivial)
          fun _ => (good_sym _).then fun _ => (good_sym _).then fun _ => good_unionCase.plus.true.then fun _ => (good_sym _).yields trivial)
    fun _ => (good_kw _).then fun _ => (good_sym _).then fun _ => good_switch.true.then fun _ => (good_sym _).then fun _ =>
      (good_sym _).then fun _ => good_unionCase.plus.true.then fun _ => (good_sym _).yields trivial

theorem good_enumerator : Good A enumerator fun _ => True := good_annots.then fun _ => good_identifier.true.then fun _ => Good.pure trivial

theorem good_enum : Good A enumDcl (PlainDef A) := by
  have hp : Good A (do sym ","; enumerator : P Bytes) fun _ => True := (good_sym _).then fun _ => good_enumerator
  exact (good_kw _).then fun _ => good_identifier.bind (fun _ hn => (good_sym _).then fun _ => good_enumerator.then fun _ =>
        hp.star.true.then fun _ => (good_sym _).yields (.enum hn))
      fun _ => (good_sym _).then fun _ => good_enumerator.then fun _ => hp.star.true.then fun _ => (good_sym _).yields trivial

theorem good_bitfield : Good A bitfield fun _ => True := by
  refine good_annots.then fun _ => (good_kw _).then fun _ => (good_sym _).then fun _ => good_positive.true.then fun _ => ?_
  refine Good.then (Good.opt (Q := fun _ => True) ((good_sym _).then fun _ => ?_)).true fun _ =>
    (good_sym _).then fun _ => good_identifier.star.true.then fun _ => good_sym _
  exact .cons ((good_kw _).yields trivial) (.cons ((good_kw _).yields trivial) (.cons (good_signed.or good_unsigned).true .last))

theorem good_bitset : Good A bitsetDcl (PlainDef A) := by
  have hp : Good A (do sym ":"; scopedId : P Bytes) fun _ => True := (good_sym _).then fun _ => good_scopedId.true
  refine (good_kw _).then fun _ => good_identifier.bind (fun n hn => hp.opt.true.then fun _ => (good_sym _).then fun _ =>
      good_bitfield.star.true.then fun _ => (good_sym _).yields ?_)
    fun n => hp.opt.true.then fun _ => (good_sym _).then fun _ => good_bitfield.star.true.then fun _ => (good_sym _).yields trivial
  split
  · exact .struct hn (by simp) (by simp)
  · exact .ignored hn

theorem good_bitValue : Good A bitValue fun _ => True :=
  Good.then (Good.star (Q := fun _ => True) (good_annot.then fun _ => good_wsOpt)).true fun _ => good_identifier.true.then fun _ => Good.pure trivial

theorem good_bitmask : Good A bitmaskDcl (PlainDef A) := by
  have hp : Good A (do sym ","; bitValue : P Unit) fun _ => True := (good_sym _).then fun _ => good_bitValue
  exact (good_kw _).then fun _ => good_identifier.bind (fun _ hn => (good_sym _).then fun _ => good_bitValue.then fun _ =>
        hp.star.true.then fun _ => (good_sym _).yields (.ignored hn))
      fun _ => (good_sym _).then fun _ => good_bitValue.then fun _ => hp.star.true.then fun _ => (good_sym _).yields trivial

theorem good_constr : Good A constrDcl (PlainDef A) :=
  .cons good_struct <| .cons good_forward <| .cons good_union <| .cons good_unionForward <| .cons good_enum <| .cons good_bitset <|
    .cons good_bitmask .last

theorem good_constrType : Good A constrType (PlainDef A) := good_annots.then fun _ => good_constr

theorem good_native : Good A nativeDcl (PlainDef A) :=
  (good_kw _).then fun _ => good_identifier.wraps fun _ hn => .struct hn (by simp) (by simp)

theorem good_constrSpec (ha : A) : Good A constrSpec (PlainT A) := by
  refine good_annots.then fun n => good_constr.wraps fun d hd => ?_
  split
  · cases hd with
    | struct hn _ _ => exact hn
  · exact ha

theorem good_plainSpec (n : Nat) : Good A ((templateType (typeSpecFrom n)).or simpleType) (PlainT A) := (good_template (good_typeFrom n)).or good_simple

/-- What the definition of a type begins with. -/
def Heads {α} (p : P α) : Prop := ∀ s a r, p s = some (a, r) →
  ∃ l w t, Filler l ∧ w ∈ ["struct", "union", "enum", "bitset", "bitmask", "@"] ∧ s = l ++ (bytes w ++ t)

theorem heads_kw {α} {w : String} {k : Unit → P α} (h : w ∈ ["struct", "union", "enum", "bitset", "bitmask", "@"]) : Heads (kw w >>= k) := by
  intro s a r e
  obtain ⟨_, t, h1, _⟩ := bind_split e
  obtain ⟨l, l', rfl, h2, _⟩ := kw_inv h1
  exact ⟨l, w, l' ++ t, h2, h, rfl⟩

theorem Heads.or {α} {p q : P α} (h : Heads p) (k : Heads q) : Heads (p.or q) := fun s a r e => (or_split e).elim (h s a r) (k s a r)

theorem heads_constr : Heads constrDcl :=
  Heads.or (heads_kw (by simp)) <| Heads.or (heads_kw (by simp)) <| Heads.or (heads_kw (by simp)) <| Heads.or (heads_kw (by simp)) <|
  Heads.or (heads_kw (by simp)) <| Heads.or (heads_kw (by simp)) <| Heads.or (heads_kw (by simp)) fun s a r e => by cases e

theorem heads_spec : Heads constrSpec := by
  intro s a r e
  obtain ⟨n, t, h1, e⟩ := bind_split e
  obtain ⟨d, t', h2, _⟩ := bind_split e
  obtain ⟨l, t'', h3, h4⟩ := bind_split h1
  obtain ⟨_, rfl⟩ := pure_split h4
  rcases upTo_split h3 with ⟨_, rfl⟩ | ⟨m, x, t1, l', _, _, h5, _⟩
  · exact heads_constr _ _ _ h2
  · obtain ⟨_, t2, h6, _⟩ := bind_split h5
    exact ⟨[], "@", t2, .nil, by simp, lit_eq h6⟩

/-- No type is defined after this `typedef`, unless `A`. -/
theorem typedef_calm {s r : Bytes} {u : Unit} (e : kw "typedef" s = some (u, r)) (h : Calm A s) : A ∨ constrSpec r = none := by
  refine h.2.imp id fun k => ?_
  cases hc : constrSpec r with
  | none => rfl
  | some x =>
    obtain ⟨l, w, t, h1, h2, h3⟩ := heads_spec r x.1 x.2 hc
    obtain ⟨a, b, rfl, _, h4⟩ := kw_inv e
    refine absurd ?_ (k.2.2 (b ++ l) (filler_append h4 h1) w h2)
    rw [h3]
    exact ⟨a, t, by simp⟩

theorem good_typedefTrue : Good A typedefSpec fun _ => True := fun s a r e =>
  ⟨((good_constrSpec (A := True) trivial).or (good_plainSpec s.length) s a r e).1, fun _ => trivial⟩

theorem good_afterKw : Good A (kw "typedef" >>= fun _ => typedefSpec) (PlainT A) := by
  intro s a r e
  refine ⟨((good_kw (A := A) "typedef").then fun _ => good_typedefTrue) s a r e |>.1, fun hs => ?_⟩
  obtain ⟨_, t, h1, h2⟩ := bind_split e
  have ht : Calm A t := hs.part (good_kw (A := A) _ _ _ _ h1).1.isInfix
  have h2 : (constrSpec.or ((templateType (typeSpecFrom t.length)).or simpleType)) t = some (a, r) := h2
  rcases typedef_calm h1 hs with ha | hn
  · exact (((good_constrSpec ha).or (good_plainSpec t.length)) t a r h2).2 ht
  · rcases or_split h2 with h | h
    · rw [hn] at h; cases h
    · exact (good_plainSpec t.length t a r h).2 ht

theorem good_anyDeclarator : Good A anyDeclarator fun x => ∀ d, x = some d → PlainD d := good_declarator.opt

theorem good_typedef : Good A typedefDcl (PlainDef A) := by
  have hp : Good A (do sym ","; anyDeclarator) fun x => ∀ d, x = some d → PlainD d := (good_sym _).then fun _ => good_anyDeclarator
  have g : Good A ((kw "typedef" >>= fun _ => typedefSpec) >>= fun t => wsOpt >>= fun _ => anyDeclarator >>= fun d =>
      (do sym ","; anyDeclarator).star >>= fun r => Pure.pure (Def.typedef t (d :: r))) (PlainDef A) := by
    refine good_afterKw.bind (fun t ht => good_wsOpt.then fun _ => good_anyDeclarator.bind (fun d hd => hp.star.wraps fun r hr => .typedef ht ?_)
        fun d => hp.star.true.then fun _ => Good.pure trivial)
      fun t => good_wsOpt.then fun _ => good_anyDeclarator.true.then fun d => hp.star.true.then fun _ => Good.pure trivial
    intro x hx
    rcases List.mem_cons.mp hx with h | h
    · exact hd x h.symm
    · exact hr _ h x rfl
  intro s a r e
  refine g s a r ?_
  obtain ⟨u, t, h1, h2⟩ := bind_split e
  obtain ⟨y, t', h3, h4⟩ := bind_split h2
  have h5 : (kw "typedef" >>= fun _ => typedefSpec) s = some (y, t') := bind_join h1 h3
  exact bind_join h5 h4

theorem good_annotMember : Good A annotMember fun _ => True :=
  good_wsOpt.then fun _ => good_constType.true.then fun _ => good_wsOpt.then fun _ => good_identifier.true.then fun _ =>
    Good.then (Good.opt (Q := fun _ => True) ((good_kw _).then fun _ => good_expression.true)).true fun _ => good_sym _

theorem good_annotation : Good A annotationDcl (PlainDef A) := by
  refine (good_kw _).then fun _ => good_identifier.true.then fun _ => (good_sym _).then fun _ =>
    Good.then (Good.star (Q := fun _ => True) ?_).true fun _ => (good_sym _).yields .skip
  exact .cons good_annotMember <| .cons (good_enum.true.then fun _ => good_sym _) <| .cons (good_const.true.then fun _ => good_sym _) <|
    .cons (good_typedef.true.then fun _ => good_sym _) .last

theorem good_directive : Good A directive (PlainDef A) :=
  good_wsOpt.then fun _ => (good_lit _).then fun _ =>
    Good.then (Good.star (Q := fun _ => True) (good_nlEscape.or ((Good.not _).then fun _ => (good_one _).true.then fun _ => Good.pure trivial))).true fun _ =>
      good_eol.yields .skip

theorem good_with {inner : P Def} (h : Good A inner (PlainDef A)) : Good A (definitionWith inner) (PlainDef A) := by
  refine Good.or (Good.bind (Q := PlainDef A) (p := choice _) ?_ (fun _ hd => (good_sym _).yields hd) fun _ => (good_sym _).yields trivial) good_directive
  exact .cons h <| .cons good_const <| .cons good_constrType <| .cons good_native <| .cons good_typedef <| .cons good_annotation .last

theorem good_definition : ∀ f, Good A (definition f) (PlainDef A)
  | 0 => Good.fail
  | f + 1 => good_with (good_annots.then fun _ => (good_kw _).then fun _ => good_identifier.bind (fun _ hn => (good_sym _).then fun _ =>
        (good_definition f).plus.bind (fun _ hd => (good_sym _).yields (.module hn hd)) fun _ => (good_sym _).yields trivial)
      fun _ => (good_sym _).then fun _ => (good_definition f).plus.true.then fun _ => (good_sym _).yields trivial)

theorem document_plain {s : Bytes} {ds : List Def} (h : Calm A s) (e : document s = some ds) : ∀ d ∈ ds, PlainDef A d := by
  unfold document at e
  simp only [Option.map_eq_some_iff] at e
  obtain ⟨x, h1, h2⟩ := e
  subst h2
  have g : Good A (do wsOpt; let ds ← (definition (s.length + 1)).plus; wsOpt; eot; Pure.pure ds : P (List Def)) fun l => ∀ d ∈ l, (PlainDef A) d :=
    good_wsOpt.then fun _ => (good_definition _).plus.bind (fun _ hd => good_wsOpt.then fun _ => good_eot.yields hd)
      fun _ => good_wsOpt.then fun _ => good_eot.yields trivial
  exact (g s x.1 x.2 h1).2 h

end Verif.Idl.Syn
