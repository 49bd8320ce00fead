import Verif.Spec.IdlDoc
import Verif.Lemmas.IdlLocal
import Verif.Lemmas.ModuleTree
import Verif.Props.ArrayText
/-!
# From the syntax of a declaration to the module
-/

namespace Verif.Idl.Syn
open Text Gen

/-- From some number of steps on. -/
def Ev (P : Nat → Prop) : Prop := ∃ n, ∀ f, n ≤ f → P f

theorem Ev.of {P : Nat → Prop} (h : ∀ f, P f) : Ev P := ⟨0, fun f _ => h f⟩
theorem Ev.succ {P : Nat → Prop} (h : ∀ f, P (f + 1)) : Ev P := ⟨1, fun f hf => by
  cases f with
  | zero => omega
  | succ f => exact h f⟩
theorem Ev.and {P Q : Nat → Prop} : Ev P → Ev Q → Ev fun f => P f ∧ Q f
  | ⟨n, h⟩, ⟨m, k⟩ => ⟨max n m, fun f hf => ⟨h f (by omega), k f (by omega)⟩⟩
theorem Ev.mono {P Q : Nat → Prop} (h : ∀ f, P f → Q f) : Ev P → Ev Q
  | ⟨n, k⟩ => ⟨n, fun f hf => h f (k f hf)⟩
theorem Ev.list {α : Type} {P : α → Nat → Prop} : ∀ {l : List α}, (∀ a ∈ l, Ev (P a)) → Ev fun f => ∀ a ∈ l, P a f
  | [], _ => Ev.of fun _ _ h => by cases h
  | a :: l, h => by
    have h1 := h a (by simp)
    have h2 := Ev.list (l := l) (P := P) fun b hb => h b (List.mem_cons_of_mem _ hb)
    refine (h1.and h2).mono ?_
    rintro f ⟨x, y⟩ b hb
    rcases List.mem_cons.mp hb with rfl | hb
    · exact x
    · exact y b hb

/-! ## Names -/

theorem nm_bytes (s : String) : nm (bytes s) = s.toList := by
  rw [nm, bytes_toList, List.map_map]
  conv => rhs; rw [← List.map_id s.toList]
  refine List.map_congr_left fun c _ => ?_
  show Char.ofNat c.toNat = c
  exact Char.ofNat_toNat c

theorem str_bytes (s : String) : str (bytes s) = s := by
  have h := nm_bytes s
  rw [nm] at h
  rw [str, h]; exact String.ofList_toList

theorem bytes_inj {a b : String} (h : bytes a = bytes b) : a = b := by
  have := congrArg str h
  rwa [str_bytes, str_bytes] at this

theorem isToken_no {x : String} (h : Usable x) : isToken (bytes x) = false := by
  rw [isToken, Bool.eq_false_iff]
  intro hh
  obtain ⟨w, hw, e⟩ := List.any_eq_true.mp hh
  have hw := (List.mem_filter.mp hw).1
  have e := bytes_inj (of_decide_eq_true e)
  subst e
  obtain ⟨c, t, h1, _⟩ := h.2 w hw [] (by simp)
  cases h1

theorem not_under {x : String} (h : Usable x) : ∀ r, bytes x ≠ 95 :: r := by
  intro r e
  obtain ⟨c, t, e', _, hc, _⟩ := ident_is h.1
  rw [e'] at e
  rw [List.cons.injEq] at e
  exact hc e.1

theorem resolveId_run (c : Ctx) (root : Mod Item) (p : Loc) (b : Bytes) (i : Bool) (h : ∀ r, b ≠ 95 :: r) :
    resolveId c root p b i = if isToken b && !c.keywords then .error .refused
    else if symbolCount root p (nm b) ≠ 0 && !i then .error .refused
    else .ok b := by
  unfold resolveId
  split
  · rename_i r; exact absurd rfl (h r)
  · rfl

theorem resolveId_own (c : Ctx) (root : Mod Item) (p : Loc) {x : String} (h : Usable x) :
    resolveId c root p (bytes x) true = .ok (bytes x) := by
  rw [resolveId_run _ _ _ _ _ (not_under h), isToken_no h]; simp

theorem resolveId_free (c : Ctx) (root : Mod Item) {p : Loc} {x : String} (h : Usable x) (hs : Unseen root p x.toList) (i : Bool) :
    resolveId c root p (bytes x) i = .ok (bytes x) := by
  rw [resolveId_run _ _ _ _ _ (not_under h), isToken_no h, nm_bytes]
  simp [symbolCount_zero.mpr hs]

theorem alpha_not {c : Char} (h : c.isAlpha = true) : c ≠ ':' := by rintro rfl; exact absurd h (by decide)

theorem idc_not {c : Char} (h : c.isAlphanum = true ∨ c = '_') : c ≠ ':' := by rintro rfl; exact absurd h (by decide)

theorem ident_colon {x : String} (h : Identifier x) : ':' ∉ x.toList := by
  obtain ⟨c, r, e, hc, hr⟩ := h
  rw [e]
  intro hm
  rcases List.mem_cons.mp hm with h | h
  · exact alpha_not hc h.symm
  · exact idc_not (hr _ h) rfl

theorem ident_ident {x : String} (h : Identifier x) : Ident x.toList := by
  refine ⟨?_, ident_colon h⟩
  obtain ⟨c, r, e, _⟩ := h
  rw [e]; simp

/-! ## Lookups in a module that has grown -/

theorem has_of_get {m : Mod Item} {k : Cat} {x : Name} {v : Item} (h : omGet (m.content.get k) x = some v) : m.hasSymbol x = true := by
  have : omHas (m.content.get k) x = true := by rw [← omGet_isSome, h]; rfl
  cases k <;> simp_all [Mod.hasSymbol, Content.get]

theorem _root_.Verif.Idl.Ext.fetch {a b : Mod Item} (h : Ext a b) {k : Cat} {q : Loc} {y : Name} {v : Item}
    (hv : Idl.fetch a k (.found q y) = some v) : Idl.fetch b k (.found q y) = some v := by
  rw [Idl.fetch] at hv ⊢
  cases hm : a.at q with
  | none => rw [hm] at hv; cases hv
  | some ma =>
    obtain ⟨mb, hb, hk⟩ := h.keep q ma hm
    rw [hm, Option.bind_some] at hv
    rw [hb, Option.bind_some, (hk y (has_of_get hv)).2 k, hv]

theorem _root_.Verif.Idl.Ext.typeOf {a b : Mod Item} (h : Ext a b) {q : Loc} {y : Name} {v : Item}
    (hv : Idl.typeOf a false (.found q y) = some (some v)) : Idl.typeOf b false (.found q y) = some (some v) := by
  cases hm : a.at q with
  | none => simp [Idl.typeOf, hm] at hv
  | some ma =>
    obtain ⟨mb, hb, hkeep⟩ := h.keep q ma hm
    have hs : ma.hasSymbol y = true := by
      simp only [Idl.typeOf, hm] at hv
      simp only [Bool.false_eq_true, false_and, if_false, Option.some.injEq] at hv
      split at hv
      · rename_i e; exact has_of_get (k := .alias) e
      · split at hv
        · rename_i e; exact has_of_get (k := .union) e
        · split at hv
          · rename_i e; exact has_of_get (k := .struct) e
          · exact has_of_get (k := .enum) hv
    have k := (hkeep y hs).2
    have k1 := k .alias
    have k2 := k .union
    have k3 := k .struct
    have k4 := k .enum
    simp only [Content.get] at k1 k2 k3 k4
    simp only [Idl.typeOf, hm, hb, k1, k2, k3, k4] at hv ⊢
    exact hv

theorem Means.ext {a b : Mod Item} (h : Ext a b) {p : Loc} {x : String} {T : Ty} : Means a p x T → Means b p x T
  | ⟨q, y, hl, ht⟩ => ⟨q, y, h.look _ _ _ _ hl, h.typeOf ht⟩

theorem MeansStruct.ext {a b : Mod Item} (h : Ext a b) {p : Loc} {x : String} {ms : List (String × Ty)} :
    MeansStruct a p x ms → MeansStruct b p x ms
  | ⟨q, y, n, ps, hl, ht, e⟩ => ⟨q, y, n, ps, h.look _ _ _ _ hl, h.fetch ht, e⟩

theorem Constant.ext {a b : Mod Item} (h : Ext a b) {p : Loc} {x : Name} {i : Item} : Constant a p x i → Constant b p x i
  | ⟨q, y, hl, ht⟩ => ⟨q, y, h.look _ _ _ _ hl, h.fetch ht⟩

theorem Stands.ext {a b : Mod Item} (h : Ext a b) {p : Loc} {s : Bool} {n : String} {T : Ty} (hs : Stands a p s n T) : Stands b p s n T := by
  unfold Stands at hs ⊢
  split at hs <;> exact Means.ext h hs

theorem look_ev {root : Mod Item} {p : Loc} {x : Name} {q : Loc} {y : Name} (h : Lookup root p x (.found q y)) :
    Ev fun f => look root p f x = .ok (.found q y) := by
  obtain ⟨n, hn⟩ := h
  refine ⟨n, fun f hf => ?_⟩
  show look root p f x = _
  unfold look
  rw [resolve_le root hf hn]

theorem typeByName_ev {root : Mod Item} {p : Loc} {x : String} (hx : TypeName x) {T : Ty} (h : Means root p x T) :
    Ev fun f => typeByName root p f (bytes x) = .ok T := by
  obtain ⟨q, y, hl, ht⟩ := h
  refine (look_ev hl).mono fun f hf => ?_
  have hroot : (bytes "::").isPrefixOf (bytes x) = false := by
    obtain ⟨a, r, ha, e, _⟩ := typeName_front hx
    obtain ⟨c, t, e', hc, _⟩ := ident_is ha.1
    rw [e, e']
    show (58 == c && _) = false
    have : c ≠ 58 := by rintro rfl; exact absurd hc (by decide)
    simp [this.symm]
  rw [typeByName, nm_bytes, hf, hroot]
  simp only [Except.bind, ht]

theorem structMembers_ev {root : Mod Item} {p : Loc} {x : String} {ms : List (String × Ty)} (h : MeansStruct root p x ms) :
    Ev fun f => structMembers root p f x.toList = .ok ms := by
  obtain ⟨q, y, n, ps, hl, ht, e⟩ := h
  refine (look_ev hl).mono fun f hf => ?_
  rw [structMembers, hf]
  simp only [Except.bind, ht, e]

/-! ## Constants with a name without `::` -/

theorem constant_plain {root : Mod Item} {p : Loc} (hp : (root.at p).isSome) {b : Bytes} (h : cut (nm b) = none) :
    ∃ o, (∀ f, p.length < f → constant root p f b = .ok o) ∧ ∀ i, o = some i ↔ Constant root p (nm b) i := by
  have h0 := resolve_plain (root := root) (orig := nm b) h p true hp (by simp)
  have run : ∀ r, r ≠ .ub → resolve root (p.length + 1) p (nm b) (nm b) true = some r →
      (∀ f, p.length < f → constant root p f b = .ok (fetch root .const r)) := by
    intro r hr h1 f hf
    have h2 := resolve_le root (show p.length + 1 ≤ f from hf) h1
    rw [constant, look, h2]
    cases r with
    | ub => exact absurd rfl hr
    | _ => rfl
  by_cases hd : ∃ e, e <:+ p ∧ Declares root (nm b) e
  · obtain ⟨e, he, hd⟩ := hd
    obtain ⟨e, hi⟩ := innermost_exists he hd
    refine ⟨_, run _ (by simp) (h0.1 e hi), fun i => ?_⟩
    constructor
    · intro h; exact ⟨e, nm b, ⟨_, h0.1 e hi⟩, h⟩
    · rintro ⟨q, y, hl, hg⟩
      obtain ⟨rfl, hi'⟩ := (lookup_plain hp h q y).mp hl
      rw [innermost_unique hi hi']; exact hg
  · have hn : ∀ e, e <:+ p → ¬ Declares root (nm b) e := fun e he hh => hd ⟨e, he, hh⟩
    refine ⟨none, run _ (by simp) (h0.2 hn), fun i => ⟨fun h => (by cases h), ?_⟩⟩
    rintro ⟨q, y, hl, hg⟩
    obtain ⟨rfl, hi'⟩ := (lookup_plain hp h q y).mp hl
    exact absurd hi'.2.1 (hn q hi'.1)

theorem constant_none {root : Mod Item} {p : Loc} (hp : (root.at p).isSome) {b : Bytes} (h : cut (nm b) = none)
    (hc : ∀ i, ¬ Constant root p (nm b) i) {f : Nat} (hf : p.length < f) : constant root p f b = .ok none := by
  obtain ⟨o, h1, h2⟩ := constant_plain hp h
  rw [h1 f hf]
  cases o with
  | none => rfl
  | some i => exact absurd ((h2 i).mp rfl) (hc i)

theorem constant_some {root : Mod Item} {p : Loc} (hp : (root.at p).isSome) {b : Bytes} (h : cut (nm b) = none)
    {i : Item} (hc : Constant root p (nm b) i) {f : Nat} (hf : p.length < f) : constant root p f b = .ok (some i) := by
  obtain ⟨o, h1, h2⟩ := constant_plain hp h
  rw [h1 f hf, (h2 i).mpr hc]

/-- A text that is no identifier is no constant. -/
theorem no_const {root : Mod Item} (hpr : Proper root) {p : Loc} (hp : (root.at p).isSome) {x : Name} (hc : cut x = none)
    (h : ¬ Identifier (String.ofList x)) (i : Item) : ¬ Constant root p x i := by
  rintro ⟨q, y, hl, hg⟩
  obtain ⟨rfl, _, ⟨m, hm, hs⟩, _⟩ := (lookup_plain hp hc q y).mp hl
  exact h ((hpr q m hm).2 _ hs)

/-- A name that is added and is no constant changes no constant. -/
theorem Adds.constant {a b : Mod Item} {p : Loc} {x : Name} (h : Adds a b p x)
    (hno : ∀ m, b.at p = some m → omGet m.content.consts x = none) {y : Name} (hy : cut y = none) {i : Item}
    (hc : Constant b p y i) : Constant a p y i := by
  obtain ⟨q, z, hl, hg⟩ := hc
  have hat : (b.at p).isSome := h.ext.at h.here
  obtain ⟨rfl, hi⟩ := (lookup_plain hat hy q z).mp hl
  have hdecl : ∀ e, e <:+ p → z ≠ x → (Declares b z e ↔ Declares a z e) := by
    intro e he hne
    obtain ⟨ma, ha⟩ := Option.isSome_iff_exists.mp (at_suffix he h.here)
    obtain ⟨mb, h1, h2, _⟩ := h.keep e ma ha
    constructor
    · rintro ⟨m, hm, hs⟩
      rw [h1, Option.some.injEq] at hm
      subst hm
      rw [h2, decide_eq_false (fun hh => hne hh.2), Bool.false_or] at hs
      exact ⟨ma, ha, hs⟩
    · rintro ⟨m, hm, hs⟩
      rw [ha, Option.some.injEq] at hm
      subst hm
      exact ⟨mb, h1, by rw [h2, hs, Bool.or_true]⟩
  by_cases hzx : z = x
  · subst hzx
    have hdp : Declares b z p := by
      obtain ⟨ma, ha⟩ := Option.isSome_iff_exists.mp h.here
      obtain ⟨mb, h1, h2, _⟩ := h.keep p ma ha
      exact ⟨mb, h1, by rw [h2]; simp⟩
    have := innermost_unique hi (innermost_self hdp)
    subst this
    rw [fetch] at hg
    cases hm : b.at q with
    | none => rw [hm] at hg; cases hg
    | some m =>
      rw [hm, Option.bind_some] at hg
      rw [show omGet (m.content.get .const) z = none from hno m hm] at hg
      cases hg
  · have hia : Innermost (Declares a z) p q := by
      obtain ⟨h1, h2, h3⟩ := hi
      exact ⟨h1, (hdecl q h1 hzx).mp h2, fun e he hd => h3 e he ((hdecl e he hzx).mpr hd)⟩
    refine ⟨q, z, (lookup_plain h.here hy q z).mpr ⟨rfl, hia⟩, ?_⟩
    obtain ⟨m, hm, hs⟩ := hia.2.1
    obtain ⟨mb, h1, _, _, _, h5⟩ := h.keep q m hm
    rw [fetch, h1, Option.bind_some, h5 z hs] at hg
    rw [fetch, hm, Option.bind_some, hg]

/-! ## Types -/

theorem toNat_small {n : Nat} (h : n < 55296) : (Char.ofNat n).toNat = n := by
  have hv : n.isValidChar := Or.inl h
  rw [Char.ofNat, dif_pos hv]
  rfl

theorem dec_nm_colon (n : Nat) : ':' ∉ nm (dec n) := by
  intro h
  obtain ⟨c, hc, e⟩ := List.mem_map.mp h
  have hd := dec_digits n c hc
  simp only [isDigit, Bool.and_eq_true, decide_eq_true_eq] at hd
  have := congrArg Char.toNat e
  rw [toNat_small (by omega)] at this
  have : c = 58 := this
  omega

theorem dec_no {n : Nat} : ¬ Identifier (String.ofList (nm (dec n))) := by
  rintro ⟨c, r, e, hc, _⟩
  rw [String.toList_ofList] at e
  obtain ⟨d, t, e', hd, _⟩ := dec_head n
  rw [e', nm, List.map_cons, List.cons.injEq] at e
  have : c.toNat = 48 + d := by
    rw [← e.1, toNat_small (by omega)]
  have := alpha_start hc
  simp only [idStart, Bool.or_eq_true, Bool.and_eq_true, decide_eq_true_eq] at this
  omega

theorem constant_dec {root : Mod Item} (hpr : Proper root) {p : Loc} (hp : (root.at p).isSome) (n : Nat) {f : Nat} (hf : p.length < f) :
    constant root p f (dec n) = .ok none :=
  constant_none hp (cut_none (dec_nm_colon n)) (no_const hpr hp (cut_none (dec_nm_colon n)) dec_no) hf

theorem intBound_dec {n : Nat} (h : n < 2 ^ 31) : intBound (dec n) = .ok n := by
  have := atoi_dec h [] (by decide)
  rw [List.append_nil] at this
  rw [intBound, this]
  simp only []
  congr 1
  omega

theorem dimension_dec (root : Mod Item) (p : Loc) (f : Nat) {n : Nat} (h : n < 2 ^ 32) : dimension root p f (.literal (dec n)) = .ok n := by
  have := stoul_dec (n := n) (by omega) [] (by decide)
  rw [List.append_nil] at this
  rw [dimension, this]
  simp only []
  rw [Nat.mod_eq_of_lt h]

theorem evalType_inside (c : Ctx) {root : Mod Item} (hpr : Proper root) {p : Loc} (hp : (root.at p).isSome) (T : Ty)
    (h : Writable ⟨c.char, c.wide16⟩ (Stands root p false) T) :
    Ev fun f => evalType c root p f (specOf (localise p false T)) = .ok T := by
  induction T using Ty.ind with
  | prim k =>
    refine Ev.of fun f => ?_
    obtain ⟨h1, h2, h3⟩ := h
    cases k <;> simp_all [specOf, readPK, evalType, localise]
  | enum n w vs => rw [Writable] at h; rw [localise, specOf]; simp only [evalType]; exact typeByName_ev (shown_typeName h.1 _ _) h.2
  | als n t ih => rw [Writable] at h; rw [localise, specOf]; simp only [evalType]; exact typeByName_ev h.1 h.2
  | struct n ms ih => rw [Writable] at h; rw [localise, specOf]; simp only [evalType]; exact typeByName_ev (shown_typeName h.1 _ _) h.2
  | union n d ms i ih1 ih2 => rw [Writable] at h; rw [localise, specOf]; simp only [evalType]; exact typeByName_ev (shown_typeName h.1 _ _) h.2
  | arr n c d ih => exact absurd h id
  | pair x y ih1 ih2 => exact absurd h id
  | str k b =>
    obtain ⟨h1, h2, h3⟩ := h
    refine ⟨p.length + 1, fun f hf => ?_⟩
    simp only [specOf, localise]
    by_cases hb : b = 0
    · subst hb
      cases k <;> simp_all [evalType, Ctx.wstr]
    · have e1 := constant_dec hpr hp b hf
      have e2 := intBound_dec h1
      cases k <;> simp_all [evalType, Ctx.wstr, Except.bind, Except.map]
  | seq t b ih =>
    rw [Writable] at h
    refine (ih h.1).mono fun f hf => ?_
    rw [localise, specOf, evalType, hf]
    unfold boundText
    by_cases hb : b = 0
    · subst hb; rfl
    · rw [if_neg hb]
      simp only [Except.bind, dimension_dec root p f h.2, Except.map]
  | map k v b ih1 ih2 =>
    rw [Writable] at h
    refine ((ih1 h.1).and (ih2 h.2.1)).mono fun f hf => ?_
    rw [localise, specOf, evalType, hf.1]
    unfold boundText
    by_cases hb : b = 0
    · subst hb; simp only [Except.bind, hf.2]; rfl
    · rw [if_neg hb]
      simp only [Except.bind, hf.2, dimension_dec root p f h.2.2, Except.map]

theorem evalType_ev (c : Ctx) {root : Mod Item} (hpr : Proper root) {p : Loc} (hp : (root.at p).isSome) (s : Bool) (T : Ty)
    (h : Writable ⟨c.char, c.wide16⟩ (Stands root p (s && isNamed T)) T) :
    Ev fun f => evalType c root p f (specOf (localise p s T)) = .ok T := by
  by_cases hs : (s && isNamed T) = true
  · rw [hs] at h
    rw [Bool.and_eq_true] at hs
    obtain ⟨rfl, hn⟩ := hs
    cases T with
    | enum n w vs => rw [Writable] at h; rw [localise, specOf]; simp only [evalType]; exact typeByName_ev (shown_typeName h.1 _ _) h.2
    | struct n ms => rw [Writable] at h; rw [localise, specOf]; simp only [evalType]; exact typeByName_ev (shown_typeName h.1 _ _) h.2
    | union n d ms i => rw [Writable] at h; rw [localise, specOf]; simp only [evalType]; exact typeByName_ev (shown_typeName h.1 _ _) h.2
    | _ => cases hn
  · have hs : (s && isNamed T) = false := by simpa using hs
    rw [hs] at h
    have e : localise p s T = localise p false T := by
      cases s with
      | false => rfl
      | true => cases T <;> first | rfl | cases hs
    rw [e]
    exact evalType_inside c hpr hp T h

theorem writable_ext {a b : Mod Item} (hext : Ext a b) {p : Loc} {s : Bool} {r : Reading} {T : Ty} (hw : Writable r (Stands a p s) T) :
    Writable r (Stands b p s) T := by
  induction T using Ty.ind with
  | prim k => exact hw
  | enum n w vs => exact ⟨hw.1, Stands.ext hext hw.2⟩
  | als n t ih => exact ⟨hw.1, Stands.ext hext hw.2⟩
  | struct n ms ih => exact ⟨hw.1, Stands.ext hext hw.2⟩
  | union n d ms i ih1 ih2 => exact ⟨hw.1, Stands.ext hext hw.2⟩
  | arr n c d ih => exact hw
  | pair x y ih1 ih2 => exact hw
  | str k b => exact hw
  | seq t b ih => rw [Writable] at hw ⊢; exact ⟨ih hw.1, hw.2⟩
  | map k v b ih1 ih2 => rw [Writable] at hw ⊢; exact ⟨ih1 hw.1, ih2 hw.2.1, hw.2.2⟩

theorem specOf_innermost (T : Ty) : specOf (innermost T) = specOf T := by
  induction T using Ty.ind with
  | arr n c d ih => rw [innermost, specOf, ih]
  | _ => rfl

theorem specOf_local (p : Loc) (T : Ty) : ∀ s, specOf (localise p (s && isNamed T) (innermost T)) = specOf (localise p s T) := by
  induction T using Ty.ind with
  | arr n c d ih =>
    intro s
    have := ih false
    rw [Bool.false_and] at this
    rw [show (s && isNamed (.arr n c d)) = false from Bool.and_false s, innermost, localise, specOf]
    exact this
  | enum n w vs => intro s; rw [show (s && isNamed (.enum n w vs)) = s from Bool.and_true s]; rfl
  | struct n ms ih => intro s; rw [show (s && isNamed (.struct n ms)) = s from Bool.and_true s]; rfl
  | union n d ms i ih1 ih2 => intro s; rw [show (s && isNamed (.union n d ms i)) = s from Bool.and_true s]; rfl
  | _ => intro s; rfl

theorem isNamed_inner {T : Ty} (s : Bool) : (s && isNamed T && isNamed (innermost T)) = (s && isNamed T) := by
  cases s with
  | false => rfl
  | true => cases T <;> rfl

/-- The type of a member is read. -/
theorem member_ev (c : Ctx) {root : Mod Item} (hpr : Proper root) {p : Loc} (hp : (root.at p).isSome) {s : Bool} {T : Ty}
    (h : Writable ⟨c.char, c.wide16⟩ (Stands root p (s && isNamed T)) (innermost T)) :
    Ev fun f => evalType c root p f (specOf (localise p s T)) = .ok (innermost T) := by
  have := evalType_ev c hpr hp (s && isNamed T) (innermost T) (by rw [isNamed_inner]; exact h)
  rwa [specOf_local] at this

theorem declType_ok {T : Ty} (h : Stepwise T) : declType (innermost T) (arrayDimensions T) = T := by
  cases T with
  | arr n c d =>
    obtain ⟨B, h1, _, h3⟩ := getArrayType_shape c n d
    rw [declType, h1, h3 h]; rfl
  | _ => rfl

theorem named_of {r : Reading} {st : String → Ty → Prop} {T : Ty} (h : Writable r st T) : Named T := by
  induction T using Ty.ind with
  | prim k => trivial
  | enum n w vs => exact h.1
  | als n t ih => exact h.1
  | struct n ms ih => exact h.1
  | union n d ms i ih1 ih2 => exact h.1
  | arr n c d ih => exact absurd h id
  | pair x y ih1 ih2 => exact absurd h id
  | str k b => trivial
  | seq t b ih => rw [Writable] at h; exact ih h.1
  | map k v b ih1 ih2 => rw [Writable] at h; exact ⟨ih1 h.1, ih2 h.2.1⟩

theorem named_inner {r : Reading} {st : String → Ty → Prop} {T : Ty} (h : Writable r st (innermost T)) : Named T := by
  induction T using Ty.ind with
  | arr n c d ih => exact ih h
  | _ => exact named_of h

theorem named_member {r : Reading} {lim : Nat} {root : Mod Item} {p : Loc} {full : Bool} {T : Ty}
    (h : WritableMember r lim root p full T) : Named T := named_inner h.2.2

end Verif.Idl.Syn
