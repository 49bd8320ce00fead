import Verif.Lemmas.AnyLook
/-!
# The names in a text without four colons in a row
-/

namespace Verif.Idl.Syn
open Text

theorem NoQuad.part {s a : Bytes} (h : NoQuad s) (hi : a <:+: s) : NoQuad a := fun hq => h (hq.trans hi)

/-- No four colons in a row; and no `any`, no `fixed` and no definition in a `typedef`, unless `A`. -/
def Calm (A : Prop) (s : Bytes) : Prop := NoQuad s ∧ (A ∨ ¬ bytes "any" <:+: s ∧ ¬ bytes "fixed" <:+: s ∧ NoInline s)

theorem Calm.part {A : Prop} {s a : Bytes} (h : Calm A s) (hi : a <:+: s) : Calm A a :=
  ⟨NoQuad.part h.1 hi, h.2.imp id fun k => ⟨fun q => k.1 (q.trans hi), fun q => k.2.1 (q.trans hi),
    fun l hl w hw q => k.2.2 l hl w hw (q.trans hi)⟩⟩

variable {A : Prop}

/-- A rule leaves an end of the text, and yields something with this property if the text has no four colons in a row. -/
def Good {α} (A : Prop) (p : P α) (Q : α → Prop) : Prop := ∀ s a r, p s = some (a, r) → r <:+ s ∧ (Calm A s → Q a)

theorem Good.mono {α} {p : P α} {Q R : α → Prop} (h : Good A p Q) (hQ : ∀ a, Q a → R a) : Good A p R :=
  fun s a r e => ⟨(h s a r e).1, fun hs => hQ a ((h s a r e).2 hs)⟩

theorem Good.pure {α} {a : α} {Q : α → Prop} (h : Q a) : Good A (pure a : P α) Q := by
  intro s b r e
  have e : some (a, s) = some (b, r) := e
  cases e
  exact ⟨List.suffix_rfl, fun _ => h⟩

theorem Good.bind {α β} {p : P α} {k : α → P β} {Q : α → Prop} {R : β → Prop} (h : Good A p Q) (hk : ∀ a, Q a → Good A (k a) R)
    (hk' : ∀ a, Good A (k a) fun _ => True) : Good A (p >>= k) R := by
  intro s b r e
  have e : (p s).bind (fun x => k x.1 x.2) = some (b, r) := e
  cases hp : p s with
  | none => rw [hp] at e; cases e
  | some x =>
    obtain ⟨a, t⟩ := x
    rw [hp, Option.bind_some] at e
    obtain ⟨h1, h2⟩ := h s a t hp
    exact ⟨((hk' a) t b r e).1.trans h1, fun hs => ((hk a (h2 hs)) t b r e).2 (Calm.part hs h1.isInfix)⟩

/-- The same when nothing has to be known of what is read first. -/
theorem Good.then {α β} {p : P α} {k : α → P β} {R : β → Prop} (h : Good A p fun _ => True) (hk : ∀ a, Good A (k a) R) :
    Good A (p >>= k) R := h.bind (fun a _ => hk a) fun a => (hk a).mono fun _ _ => trivial

theorem Good.or {α} {p q : P α} {Q : α → Prop} (h : Good A p Q) (k : Good A q Q) : Good A (p.or q) Q := by
  intro s a r e
  unfold P.or at e
  cases hp : p s with
  | none => rw [hp] at e; exact k s a r e
  | some x => rw [hp] at e; cases e; exact h s a r hp

theorem Good.fail {α} {Q : α → Prop} : Good A (fun _ => none : P α) Q := fun s a r e => by cases e

theorem Good.choice {α} {Q : α → Prop} : ∀ {l : List (P α)}, (∀ p ∈ l, Good A p Q) → Good A (choice l) Q
  | [], _ => Good.fail
  | p :: l, h => (h p (by simp)).or (Good.choice fun q hq => h q (List.mem_cons_of_mem _ hq))

theorem Good.opt {α} {p : P α} {Q : α → Prop} (h : Good A p Q) : Good A p.opt fun x => ∀ a, x = some a → Q a := by
  intro s a r e
  unfold P.opt at e
  cases hp : p s with
  | none => rw [hp] at e; cases e; exact ⟨List.suffix_rfl, fun _ => by simp⟩
  | some x =>
    rw [hp] at e; cases e
    obtain ⟨h1, h2⟩ := h s x.1 x.2 hp
    exact ⟨h1, fun hs a ha => by cases ha; exact h2 hs⟩

theorem Good.not {α} (p : P α) : Good A p.not fun _ => True := by
  intro s a r e
  unfold P.not at e
  cases hp : p s with
  | none => rw [hp] at e; cases e; exact ⟨List.suffix_rfl, fun _ => trivial⟩
  | some x => rw [hp] at e; cases e

theorem Good.upTo {α} {p : P α} {Q : α → Prop} (h : Good A p Q) : ∀ n, Good A (p.upTo n) fun l => ∀ a ∈ l, Q a
  | 0 => by intro s a r e; cases e; exact ⟨List.suffix_rfl, fun _ => by simp⟩
  | n + 1 => by
    intro s a r e
    unfold P.upTo at e
    cases hp : p s with
    | none => rw [hp] at e; cases e; exact ⟨List.suffix_rfl, fun _ => by simp⟩
    | some x =>
      rw [hp] at e
      simp only [Option.map_eq_some_iff] at e
      obtain ⟨y, h1, h2⟩ := e
      cases h2
      obtain ⟨k1, k2⟩ := h s x.1 x.2 hp
      obtain ⟨k3, k4⟩ := Good.upTo h n x.2 y.1 y.2 h1
      exact ⟨k3.trans k1, fun hs => List.forall_mem_cons.mpr ⟨k2 hs, k4 (Calm.part hs k1.isInfix)⟩⟩

theorem Good.star {α} {p : P α} {Q : α → Prop} (h : Good A p Q) : Good A p.star fun l => ∀ a ∈ l, Q a :=
  fun s a r e => h.upTo s.length s a r e

theorem Good.true {α} {p : P α} {Q : α → Prop} (h : Good A p Q) : Good A p fun _ => True := h.mono fun _ _ => trivial

theorem Good.plus {α} {p : P α} {Q : α → Prop} (h : Good A p Q) : Good A p.plus fun l => ∀ a ∈ l, Q a :=
  h.bind (fun a ha => h.star.bind (fun l hl => Good.pure (List.forall_mem_cons.mpr ⟨ha, hl⟩)) fun l => Good.pure trivial)
    fun a => h.star.true.then fun l => Good.pure trivial

theorem good_one (f : Nat → Bool) : Good A (one f) fun c => f c = true := by
  intro s a r e
  cases s with
  | nil => cases e
  | cons c s =>
    have e : (if f c then some (c, s) else none) = some (a, r) := e
    split at e
    · rename_i hc; cases e; exact ⟨List.suffix_cons _ _, fun _ => hc⟩
    · cases e

theorem strip_eq : ∀ {k s r : Bytes}, strip k s = some r → s = k ++ r
  | [], s, r, e => by cases e; rfl
  | k :: ks, [], r, e => by cases e
  | k :: ks, c :: s, r, e => by
    unfold strip at e
    split at e
    · rename_i h; subst h; rw [strip_eq e]; rfl
    · cases e

theorem lit_eq {w : String} {s r : Bytes} {u : Unit} (e : lit w s = some (u, r)) : s = bytes w ++ r := by
  unfold lit at e
  simp only [Option.map_eq_some_iff] at e
  obtain ⟨x, h1, h2⟩ := e
  cases h2
  exact strip_eq h1

theorem good_lit (w : String) : Good A (lit w) fun _ => True := by
  intro s a r e
  rw [lit_eq e]
  exact ⟨List.suffix_append _ _, fun _ => trivial⟩

theorem good_eot : Good A eot fun _ => True := by
  intro s a r e
  cases s with
  | nil => cases e; exact ⟨List.suffix_rfl, fun _ => trivial⟩
  | cons c s => cases e

theorem good_eol : Good A eol fun _ => True := (good_lit _).or ((good_lit _).or ((good_lit _).or good_eot))

theorem good_nlEscape : Good A nlEscape fun _ => True := (good_lit _).then fun _ => good_eol

theorem good_lead : Good A lead fun _ => True := (good_one _).star.true

theorem good_ws : ∀ f, Good A (ws f) fun _ => True
  | 0 => Good.fail
  | f + 1 => by
    unfold ws
    refine Good.or (Good.or ?_ ?_) ?_
    · refine good_lead.then fun _ => (good_lit _).then fun _ => ?_
      refine Good.then (Good.star (Q := fun _ => True) (good_nlEscape.or ((Good.not _).then fun _ => (good_one _).true.then fun _ => Good.pure trivial))).true fun _ => ?_
      exact good_eol.then fun _ => (good_ws f).opt.true.then fun _ => Good.pure trivial
    · refine good_lead.then fun _ => (good_lit _).then fun _ => ?_
      refine Good.then (Good.star (Q := fun _ => True) ((Good.not _).then fun _ => (good_one _).true)).true fun _ => ?_
      exact (good_lit _).then fun _ => (good_ws f).opt.true.then fun _ => Good.pure trivial
    · exact (good_one _).plus.true.then fun _ => Good.pure trivial

theorem good_wsOpt : Good A wsOpt fun _ => True := fun s a r e =>
  ((good_ws (s.length + 1)).opt.true.then fun _ => Good.pure trivial : Good A (do let _ ← (ws (s.length + 1)).opt; pure ()) fun _ => True) s a r e

theorem good_wsReq : Good A wsReq fun _ => True := fun s a r e => good_ws (s.length + 1) s a r e

theorem noQuad_of {a : Bytes} (h : 58 ∉ a) : NoQuad a := fun hi => h (hi.subset (by simp))

/-- The keyword has been read. -/
theorem good_word (w : String) {Q : Unit → Prop} (h : ∀ s, Calm A s → bytes w <:+: s → Q ()) : Good A (kw w) Q := by
  intro s a r e
  refine ⟨(good_wsOpt.then fun _ => (good_lit w).then fun _ => (Good.not _).then fun _ => good_wsOpt :
    Good A (kw w) fun _ => True) s a r e |>.1, fun hs => ?_⟩
  have e : (wsOpt s).bind (fun x => (lit w x.2).bind fun y => (endKw y.2).bind fun z => wsOpt z.2) = some (a, r) := e
  cases h1 : wsOpt s with
  | none => rw [h1] at e; cases e
  | some x =>
    rw [h1, Option.bind_some] at e
    cases h2 : lit w x.2 with
    | none => rw [h2] at e; cases e
    | some y =>
      have hx : x.2 <:+ s := (good_wsOpt (A := A) s x.1 x.2 h1).1
      refine h s hs (List.IsInfix.trans ?_ hx.isInfix)
      rw [lit_eq (u := y.1) h2]
      exact (List.prefix_append _ _).isInfix

/-- What is read. -/
theorem Good.token {α} {p : P α} {Q : α → Prop} (h : Good A p Q) : Good A (token p) NoQuad := by
  intro s a r e
  unfold Syn.token at e
  simp only [Option.map_eq_some_iff] at e
  obtain ⟨x, h1, h2⟩ := e
  cases h2
  exact ⟨(h s x.1 x.2 h1).1, fun hs => NoQuad.part hs.1 (List.take_prefix _ _).isInfix⟩

theorem good_identifier : Good A identifier NoQuad := by
  refine (good_one _).bind (fun c hc => (good_one _).star.bind (fun r hr => Good.pure (noQuad_of ?_)) fun _ => Good.pure trivial)
    fun _ => (good_one _).star.true.then fun _ => Good.pure trivial
  rw [List.mem_cons, not_or]
  refine ⟨fun e => ?_, fun e => ?_⟩
  · subst e; exact absurd hc (by decide)
  · exact absurd (hr 58 e) (by decide)

/-- A rule that yields the text it reads. -/
def Exact (p : P Bytes) : Prop := ∀ s a r, p s = some (a, r) → s = a ++ r

theorem upTo_exact (f : Nat → Bool) : ∀ n s a r, (one f).upTo n s = some (a, r) → s = a ++ r
  | 0, s, a, r, e => by cases e; rfl
  | n + 1, s, a, r, e => by
    unfold P.upTo at e
    cases hp : one f s with
    | none => rw [hp] at e; cases e; rfl
    | some x =>
      rw [hp] at e
      simp only [Option.map_eq_some_iff] at e
      obtain ⟨y, h1, h2⟩ := e
      cases h2
      have := upTo_exact f n _ _ _ h1
      cases s with
      | nil => cases hp
      | cons c s =>
        have hp : (if f c then some (c, s) else none) = some x := hp
        split at hp
        · cases hp; rw [List.cons_append]; exact congrArg _ this
        · cases hp

theorem identifier_exact : Exact identifier := by
  intro s a r e
  have e : (one idStart s).bind (fun x => ((one idChar).star x.2).bind fun y => some (x.1 :: y.1, y.2)) = some (a, r) := e
  cases s with
  | nil => cases e
  | cons c s =>
    by_cases hc : idStart c = true
    · have h1 : one idStart (c :: s) = some (c, s) := by simp [one, hc]
      rw [h1, Option.bind_some] at e
      cases h2 : (one idChar).star s with
      | none => rw [h2] at e; cases e
      | some y =>
        rw [h2] at e
        cases e
        rw [List.cons_append, ← upTo_exact _ _ _ _ _ h2]
    · have h1 : one idStart (c :: s) = none := by simp [one, hc]
      rw [h1] at e; cases e

theorem scopedIdFrom_exact : ∀ n, Exact (scopedIdFrom n)
  | 0 => fun s a r e => by cases e
  | n + 1 => by
    intro s a r e
    unfold scopedIdFrom P.or at e
    split at e
    · rename_i x hx
      cases e
      have hx : (identifier s).bind (fun x => (lit "::" x.2).bind fun y => (scopedIdFrom n y.2).bind fun z => some (x.1 ++ bytes "::" ++ z.1, z.2)) = some (a, r) := hx
      cases h1 : identifier s with
      | none => rw [h1] at hx; cases hx
      | some x =>
        rw [h1, Option.bind_some] at hx
        cases h2 : lit "::" x.2 with
        | none => rw [h2] at hx; cases hx
        | some y =>
          rw [h2, Option.bind_some] at hx
          cases h3 : scopedIdFrom n y.2 with
          | none => rw [h3] at hx; cases hx
          | some z =>
            rw [h3, Option.bind_some] at hx
            cases hx
            rw [identifier_exact _ _ _ h1, lit_eq (u := y.1) h2, scopedIdFrom_exact n _ _ _ h3]
            simp
    · split at e
      · rename_i x hx
        cases e
        have hx : (lit "::" s).bind (fun y => (scopedIdFrom n y.2).bind fun z => some (bytes "::" ++ z.1, z.2)) = some (a, r) := hx
        cases h2 : lit "::" s with
        | none => rw [h2] at hx; cases hx
        | some y =>
          rw [h2, Option.bind_some] at hx
          cases h3 : scopedIdFrom n y.2 with
          | none => rw [h3] at hx; cases hx
          | some z =>
            rw [h3, Option.bind_some] at hx
            cases hx
            rw [lit_eq (u := y.1) h2, scopedIdFrom_exact n _ _ _ h3]
            simp
      · exact identifier_exact s a r e

theorem good_scopedId : Good A scopedId NoQuad := by
  intro s a r e
  have := scopedIdFrom_exact _ _ _ _ e
  rw [this]
  exact ⟨List.suffix_append _ _, fun hs => NoQuad.part hs.1 (List.prefix_append _ _).isInfix⟩

theorem good_kw (w : String) : Good A (kw w) fun _ => True :=
  good_wsOpt.then fun _ => (good_lit w).then fun _ => (Good.not _).then fun _ => good_wsOpt
theorem good_kw2 (v w : String) : Good A (kw2 v w) fun _ => True :=
  good_wsOpt.then fun _ => (good_lit v).then fun _ => good_wsReq.then fun _ => (good_lit w).then fun _ => (Good.not _).then fun _ => good_wsOpt
theorem good_kw3 (u v w : String) : Good A (kw3 u v w) fun _ => True :=
  good_wsOpt.then fun _ => (good_lit u).then fun _ => good_wsReq.then fun _ => (good_lit v).then fun _ => good_wsReq.then fun _ =>
    (good_lit w).then fun _ => (Good.not _).then fun _ => good_wsOpt
theorem good_sym (w : String) : Good A (sym w) fun _ => True := good_wsOpt.then fun _ => (good_lit w).then fun _ => good_wsOpt

/-! ## White space -/

theorem eol_inv {s r : Bytes} {u : Unit} (e : eol s = some (u, r)) : ∃ l ∈ [[13, 10], [10], [13], []], s = l ++ r := by
  unfold eol P.or at e
  split at e
  · rename_i x hx; cases e; exact ⟨[13, 10], by decide, lit_eq hx⟩
  · split at e
    · rename_i x hx; cases e; exact ⟨[10], by decide, lit_eq hx⟩
    · split at e
      · rename_i x hx; cases e; exact ⟨[13], by decide, lit_eq hx⟩
      · cases s with
        | nil => cases e; exact ⟨[], by simp, rfl⟩
        | cons c s => cases e

theorem one_inv {f : Nat → Bool} {s r : Bytes} {c : Nat} (e : one f s = some (c, r)) : s = c :: r ∧ f c = true := by
  cases s with
  | nil => cases e
  | cons d s =>
    have e : (if f d then some (d, s) else none) = some (c, r) := e
    split at e
    · rename_i hc; cases e; exact ⟨rfl, hc⟩
    · cases e

/-- The two parts of a rule. -/
theorem bind_split {α β} {p : P α} {k : α → P β} {s r : Bytes} {b : β} (e : (p >>= k) s = some (b, r)) :
    ∃ a t, p s = some (a, t) ∧ k a t = some (b, r) := by
  have e : (p s).bind (fun x => k x.1 x.2) = some (b, r) := e
  cases hp : p s with
  | none => rw [hp] at e; cases e
  | some x => rw [hp, Option.bind_some] at e; exact ⟨_, _, rfl, e⟩

theorem bind_join {α β} {p : P α} {k : α → P β} {s t : Bytes} {a : α} {x : Option (β × Bytes)} (h : p s = some (a, t)) (e : k a t = x) : (p >>= k) s = x := by
  show (p s).bind (fun y => k y.1 y.2) = x
  rw [h]; exact e

theorem pure_split {α} {a b : α} {s r : Bytes} (e : (Pure.pure a : P α) s = some (b, r)) : a = b ∧ s = r := by
  have e : some (a, s) = some (b, r) := e
  cases e; exact ⟨rfl, rfl⟩

theorem or_split {α} {p q : P α} {s r : Bytes} {a : α} (e : (p.or q) s = some (a, r)) : p s = some (a, r) ∨ q s = some (a, r) := by
  unfold P.or at e
  split at e
  · rename_i x hx; cases e; exact .inl hx
  · exact .inr e

theorem not_split {α} {p : P α} {s r : Bytes} {a : Unit} (e : p.not s = some (a, r)) : p s = none ∧ s = r := by
  unfold P.not at e
  split at e
  · cases e
  · rename_i x hx; cases e; exact ⟨hx, rfl⟩

theorem opt_split {α} {p : P α} {s r : Bytes} {a : Option α} (e : p.opt s = some (a, r)) :
    (∃ b, a = some b ∧ p s = some (b, r)) ∨ a = none ∧ p s = none ∧ s = r := by
  unfold P.opt at e
  split at e
  · rename_i x hx; cases e; exact .inl ⟨_, rfl, hx⟩
  · rename_i hx; cases e; exact .inr ⟨rfl, hx, rfl⟩

/-- What is left when a repetition ends. -/
theorem upTo_split {α} {p : P α} {n : Nat} {s r : Bytes} {l : List α} (e : p.upTo n s = some (l, r)) :
    l = [] ∧ s = r ∨ ∃ m a t l', n = m + 1 ∧ l = a :: l' ∧ p s = some (a, t) ∧ p.upTo m t = some (l', r) := by
  cases n with
  | zero => cases e; exact .inl ⟨rfl, rfl⟩
  | succ n =>
    unfold P.upTo at e
    cases hp : p s with
    | none => rw [hp] at e; cases e; exact .inl ⟨rfl, rfl⟩
    | some x =>
      rw [hp] at e
      simp only [Option.map_eq_some_iff] at e
      obtain ⟨y, h1, h2⟩ := e
      cases h2
      exact .inr ⟨n, x.1, x.2, y.1, rfl, rfl, rfl, h1⟩

theorem eol_crlf {c : Nat} {s : Bytes} (h : eol (c :: s) = none) : c ≠ 10 ∧ c ≠ 13 := by
  have key : ∀ d : Nat, d = 10 ∨ d = 13 → (eol (d :: s)).isSome := by
    rintro d (rfl | rfl)
    · have h1 : lit "\r\n" (10 :: s) = none := by
        unfold lit; rw [show bytes "\r\n" = [13, 10] from rfl]; rfl
      have h2 : lit "\n" (10 :: s) = some ((), s) := by unfold lit; rw [show bytes "\n" = [10] from rfl]; simp [strip]
      unfold eol P.or; rw [h1]; simp only; rw [h2]; rfl
    · have h3 : lit "\r" (13 :: s) = some ((), s) := by unfold lit; rw [show bytes "\r" = [13] from rfl]; simp [strip]
      unfold eol P.or
      cases lit "\r\n" (13 :: s) with
      | some x => rfl
      | none =>
        simp only
        cases lit "\n" (13 :: s) with
        | some x => rfl
        | none => simp only; rw [h3]; rfl
  refine ⟨fun e => ?_, fun e => ?_⟩
  · have := key c (.inl e); rw [h] at this; cases this
  · have := key c (.inr e); rw [h] at this; cases this

theorem lineText_inv : ∀ (n : Nat) {s r : Bytes} {l : List Unit},
    (nlEscape.or (do eol.not; let _ ← one fun _ => true; Pure.pure ())).upTo n s = some (l, r) → ∃ t, s = t ++ r ∧ LineText t
  | n, s, r, l, e => by
    rcases upTo_split e with ⟨_, rfl⟩ | ⟨m, a, t, l', rfl, rfl, h1, h2⟩
    · exact ⟨[], rfl, .nil⟩
    · obtain ⟨t', rfl, h3⟩ := lineText_inv m h2
      rcases or_split h1 with h | h
      · obtain ⟨_, s1, k1, k2⟩ := bind_split h
        obtain ⟨x, hx, rfl⟩ := eol_inv k2
        exact ⟨92 :: (x ++ t'), by rw [lit_eq k1, show bytes "\\" = [92] from rfl]; simp, .continued hx h3⟩
      · obtain ⟨_, s1, k1, k2⟩ := bind_split h
        obtain ⟨c, s2, k3, k4⟩ := bind_split k2
        obtain ⟨k5, rfl⟩ := not_split k1
        obtain ⟨rfl, _⟩ := one_inv k3
        obtain ⟨_, rfl⟩ := pure_split k4
        exact ⟨c :: t', rfl, .char (eol_crlf k5).1 (eol_crlf k5).2 h3⟩

theorem strip_self (k r : Bytes) : strip k (k ++ r) = some r := by
  induction k with
  | nil => rfl
  | cons c k ih => rw [List.cons_append, strip, if_pos rfl, ih]

/-- No star and slash begins in what is passed over. -/
theorem blockText_inv : ∀ (n : Nat) {s r : Bytes} {l : List Nat},
    (do (lit "*/").not; one fun _ => true).upTo n s = some (l, r) → ∃ t, s = t ++ r ∧ ∀ a b, t = a ++ b → b ≠ [] → ¬ [42, 47] <+: b ++ r
  | n, s, r, l, e => by
    rcases upTo_split e with ⟨_, rfl⟩ | ⟨m, a, t, l', rfl, rfl, h1, h2⟩
    · exact ⟨[], rfl, fun a b h hb => absurd (List.append_eq_nil_iff.mp h.symm).2 hb⟩
    · obtain ⟨t', rfl, h3⟩ := blockText_inv m h2
      obtain ⟨_, s1, k1, k2⟩ := bind_split h1
      obtain ⟨k5, rfl⟩ := not_split k1
      obtain ⟨rfl, _⟩ := one_inv k2
      refine ⟨a :: t', rfl, fun x y h hy hp => ?_⟩
      cases x with
      | nil =>
        rw [List.nil_append] at h
        subst h
        obtain ⟨z, hz⟩ := hp
        have hz : [42, 47] ++ z = a :: (t' ++ r) := hz
        rw [← hz] at k5
        unfold lit at k5
        rw [show bytes "*/" = [42, 47] from rfl, strip_self] at k5
        cases k5
      | cons c x =>
        rw [List.cons_append, List.cons.injEq] at h
        exact h3 x y h.2 hy hp

theorem upTo_class {f : Nat → Bool} : ∀ n {s a r}, (one f).upTo n s = some (a, r) → s = a ++ r ∧ ∀ c ∈ a, f c = true
  | n, s, a, r, e => by
    rcases upTo_split e with ⟨rfl, rfl⟩ | ⟨m, a, t, l', rfl, rfl, h1, h2⟩
    · exact ⟨rfl, by simp⟩
    · obtain ⟨rfl, h3⟩ := one_inv h1
      obtain ⟨rfl, h4⟩ := upTo_class m h2
      exact ⟨rfl, by simpa using ⟨h3, h4⟩⟩

theorem filler_blanks {f : Nat → Bool} (hf : ∀ c, f c = true → c ∈ [32, 9, 13, 10]) : ∀ {a l : Bytes}, (∀ c ∈ a, f c = true) → Filler l → Filler (a ++ l)
  | [], _, _, h => h
  | c :: a, _, ha, h => .blank (hf c (ha c (by simp))) (filler_blanks hf (fun x hx => ha x (by simp [hx])) h)

theorem filler_append {a b : Bytes} (ha : Filler a) (hb : Filler b) : Filler (a ++ b) := by
  induction ha with
  | nil => exact hb
  | blank h _ ih => exact .blank h ih
  | line h1 h2 _ ih => simp only [List.cons_append, List.append_assoc]; exact .line h1 h2 ih
  | block h1 _ ih => simp only [List.cons_append, List.append_assoc]; exact .block h1 ih

theorem lead_inv {s r a : Bytes} (e : lead s = some (a, r)) : s = a ++ r ∧ ∀ l, Filler l → Filler (a ++ l) := by
  obtain ⟨h1, h2⟩ := upTo_class _ e
  refine ⟨h1, fun l hl => filler_blanks (f := fun c => c = 32 || c = 10) (fun c hc => ?_) h2 hl⟩
  simp only [Bool.or_eq_true, decide_eq_true_eq] at hc
  rcases hc with rfl | rfl <;> simp

/-- What the white space rule reads. -/
theorem ws_inv : ∀ (n : Nat) {s r : Bytes} {u : Unit}, ws n s = some (u, r) → ∃ l, s = l ++ r ∧ Filler l
  | 0, s, r, u, e => by cases e
  | n + 1, s, r, u, e => by
    have more : ∀ {s r : Bytes} {x : Option Unit}, (ws n).opt s = some (x, r) → ∃ l, s = l ++ r ∧ Filler l := by
      intro s r x e
      rcases opt_split e with ⟨b, _, h⟩ | ⟨_, _, rfl⟩
      · exact ws_inv n h
      · exact ⟨[], rfl, .nil⟩
    unfold ws at e
    rcases or_split e with e | e
    · rcases or_split e with e | e
      · obtain ⟨a, s1, h1, e⟩ := bind_split e
        obtain ⟨_, s2, h2, e⟩ := bind_split e
        obtain ⟨_, s3, h3, e⟩ := bind_split e
        obtain ⟨_, s4, h4, e⟩ := bind_split e
        obtain ⟨_, s5, h5, e⟩ := bind_split e
        obtain ⟨_, rfl⟩ := pure_split e
        obtain ⟨rfl, k1⟩ := lead_inv h1
        obtain rfl := lit_eq h2
        obtain ⟨t, rfl, k3⟩ := lineText_inv _ h3
        obtain ⟨x, k4, rfl⟩ := eol_inv h4
        obtain ⟨l, rfl, k5⟩ := more h5
        exact ⟨a ++ (47 :: 47 :: (t ++ (x ++ l))), by rw [show bytes "//" = [47, 47] from rfl]; simp, k1 _ (.line k3 k4 k5)⟩
      · obtain ⟨a, s1, h1, e⟩ := bind_split e
        obtain ⟨_, s2, h2, e⟩ := bind_split e
        obtain ⟨_, s3, h3, e⟩ := bind_split e
        obtain ⟨_, s4, h4, e⟩ := bind_split e
        obtain ⟨_, s5, h5, e⟩ := bind_split e
        obtain ⟨_, rfl⟩ := pure_split e
        obtain ⟨rfl, k1⟩ := lead_inv h1
        obtain rfl := lit_eq h2
        obtain ⟨t, rfl, k3⟩ := blockText_inv _ h3
        obtain rfl := lit_eq h4
        obtain ⟨l, rfl, k5⟩ := more h5
        refine ⟨a ++ (47 :: 42 :: (t ++ (42 :: 47 :: l))), by rw [show bytes "/*" = [47, 42] from rfl, show bytes "*/" = [42, 47] from rfl]; simp, k1 _ (.block ?_ k5)⟩
        rintro ⟨x, y, hxy⟩
        refine k3 x ([42, 47] ++ y) (by rw [← hxy]; simp) (by simp) ⟨y ++ (bytes "*/" ++ (l ++ s5)), by simp⟩
    · obtain ⟨a, s1, h1, e⟩ := bind_split e
      obtain ⟨_, rfl⟩ := pure_split e
      obtain ⟨c, s2, h0, e⟩ := bind_split h1
      obtain ⟨b, s3, h2, e⟩ := bind_split e
      obtain ⟨_, rfl⟩ := pure_split e
      obtain ⟨rfl, k1⟩ := one_inv h0
      obtain ⟨rfl, k2⟩ := upTo_class _ h2
      have hb : ∀ c, blank c = true → c ∈ [32, 9, 13, 10] := by
        intro c hc
        simp only [blank, Bool.or_eq_true, decide_eq_true_eq] at hc
        simpa [or_assoc] using hc
      have := filler_blanks hb k2 .nil
      rw [List.append_nil] at this
      exact ⟨c :: b, rfl, .blank (hb c k1) this⟩

theorem wsOpt_inv {s r : Bytes} {u : Unit} (e : wsOpt s = some (u, r)) : ∃ l, s = l ++ r ∧ Filler l := by
  unfold wsOpt at e
  obtain ⟨x, s1, h1, e⟩ := bind_split e
  obtain ⟨_, rfl⟩ := pure_split e
  rcases opt_split h1 with ⟨b, _, h⟩ | ⟨_, _, rfl⟩
  · exact ws_inv _ h
  · exact ⟨[], rfl, .nil⟩

/-- What a keyword rule reads. -/
theorem kw_inv {w : String} {s r : Bytes} {u : Unit} (e : kw w s = some (u, r)) : ∃ l l', s = l ++ (bytes w ++ (l' ++ r)) ∧ Filler l ∧ Filler l' := by
  unfold kw at e
  obtain ⟨_, s1, h1, e⟩ := bind_split e
  obtain ⟨_, s2, h2, e⟩ := bind_split e
  obtain ⟨_, s3, h3, e⟩ := bind_split e
  obtain ⟨l, rfl, k1⟩ := wsOpt_inv h1
  obtain rfl := lit_eq h2
  obtain ⟨_, rfl⟩ := not_split h3
  obtain ⟨l', rfl, k2⟩ := wsOpt_inv e
  exact ⟨l, l', rfl, k1, k2⟩

end Verif.Idl.Syn
