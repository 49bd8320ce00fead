import Verif.Lemmas.IdlRegister
import Verif.Lemmas.UnionRebuild
import Verif.Props.Labels
/-!
# Entering unions
-/

namespace Verif.Idl.Syn
open Text Gen

/-! ## The texts of labels as names of constants -/

theorem label_none {root : Mod Item} {p : Loc} (hp : (root.at p).isSome) {b : Bytes} (h : cut (nm b) = none)
    (hc : ∀ i, ¬ Constant root p (nm b) i) {f : Nat} (hf : p.length < f) : label root p f b = .ok b := by
  rw [label, constant_none hp h hc hf]; rfl

theorem label_const {root : Mod Item} {p : Loc} (hp : (root.at p).isSome) {b : Bytes} (h : cut (nm b) = none) {k : PK} {v : Int}
    (hc : Constant root p (nm b) (.const k v)) {f : Nat} (hf : p.length < f) : label root p f b = .ok (number v) := by
  rw [label, constant_some hp h hc hf]; rfl

/-- The constants of the first tree, as far as names without `::` are concerned, are constants of the second. -/
def NoMore (root1 root : Mod Item) (p : Loc) : Prop := ∀ y, cut y = none → ∀ i, Constant root1 p y i → Constant root p y i

theorem cut_ne {c : Char} (h : c ≠ ':') {r : Name} (hr : cut r = none) : cut (c :: r) = none := by
  rw [cut]
  · rw [hr]; rfl
  · rintro s rfl; exact absurd rfl h

theorem cut_quote (b : Char) : cut ['\'', b, '\''] = none := by
  have h1 : cut [b, '\''] = none := by
    by_cases hb : b = ':'
    · subst hb; rfl
    · exact cut_none (by simp; exact fun h => hb h.symm)
  exact cut_ne (by decide) h1

theorem cut_wide (b : Char) : cut ['L', '\'', b, '\''] = none := cut_ne (by decide) (cut_quote b)

theorem not_quote {r : Name} : ¬ Identifier (String.ofList ('\'' :: r)) := by
  rintro ⟨c, t, e, hc, _⟩
  rw [String.toList_ofList, List.cons.injEq] at e
  rw [← e.1] at hc
  exact absurd hc (by decide)

theorem not_wide {r : Name} : ¬ Identifier (String.ofList ('L' :: '\'' :: r)) := by
  rintro ⟨c, t, e, _, hc⟩
  rw [String.toList_ofList, List.cons.injEq] at e
  exact absurd (hc '\'' (by rw [← e.2]; simp)) (by decide)

theorem number_nat (k : Nat) : number (k : Int) = dec k := by
  rw [number, if_neg (by omega)]; simp

theorem prefix_bytes {x : String} {w : String} (h : ∀ r, x.toList ≠ w.toList ++ r) : ∀ r, bytes x ≠ bytes w ++ r := by
  intro r e
  have e2 : bytes x = (bytes x).take (bytes w).length ++ (bytes x).drop (bytes w).length := (List.take_append_drop _ _).symm
  have e3 : (bytes x).take (bytes w).length = bytes w := by rw [e]; simp
  have e4 : (x.toList.take w.toList.length).map Char.toNat = w.toList.map Char.toNat := by
    have : (bytes x).take (bytes w).length = (x.toList.take w.toList.length).map Char.toNat := by
      rw [bytes_toList, bytes_toList, List.length_map, List.map_take]
    rw [← this, e3]; rfl
  have e5 := map_toNat_inj e4
  refine h (x.toList.drop w.toList.length) ?_
  conv => lhs; rw [← List.take_append_drop w.toList.length x.toList]
  rw [e5]

/-- A label of a union in a module: its text can be read, and what is read is the label. -/
theorem label_ok {u : UnionB} (hb : u.Built) {root : Mod Item} {p : Loc} {n : String} {v : Int} (hv : v ∈ u.getLabels n)
    (hr : ReadableLabel root p u.disc v) :
    LabelText (labelText u v) ∧ ∀ root1 : Mod Item, Proper root1 → (root1.at p).isSome → NoMore root1 root p → ∀ f, p.length < f →
      ∃ t, label root1 p f (labelText u v) = .ok t ∧ t ≠ bytes "default" ∧
        (parseLabel u.disc t).map (kept u.disc) = some v := by
  obtain ⟨hsv, hrd⟩ := hr
  have hcheck := (UnionB.built_inv hb).check
  have hk : (∃ k, u.disc.rget = .prim k) ∨ ∃ n vs, u.disc = .enum n .w4 vs := by
    unfold checkDisc at hcheck
    unfold Survives at hsv
    cases hg : u.disc.rget with
    | prim k => exact .inl ⟨k, rfl⟩
    | enum m w vs => rw [hg] at hsv; exact .inr hsv.1
    | _ => rw [hg] at hcheck; cases hcheck
  have hlab := C48_labels_of_unions hb hk n v hv
  have hrt : reparsed u.disc v = some v := by
    rw [← roundTrip_single]
    rcases hk with ⟨k, hk⟩ | ⟨m, vs, hd⟩
    · exact (C48_roundtrip_iff_partial hk hlab).mpr hsv
    · rw [hd] at hlab hsv ⊢
      exact C48_enum_partial hlab hsv
  have hrep := hrt
  unfold reparsed at hrt
  cases hl : labelValue v u.disc with
  | none => rw [hl] at hrt; cases hrt
  | some s =>
  rw [hl, Option.bind_some] at hrt
  by_cases hdef : s = bytes "default"
  · rw [if_pos hdef] at hrt; cases hrt
  rw [if_neg hdef] at hrt
  have htext : labelText u v = s := by rw [labelText, hl]; rfl
  rw [htext]
  -- it suffices that the text is no constant
  have key : LabelText s → (∀ root1 : Mod Item, Proper root1 → (root1.at p).isSome → NoMore root1 root p → ∀ f, p.length < f →
      label root1 p f s = .ok s) → LabelText s ∧ ∀ root1 : Mod Item, Proper root1 → (root1.at p).isSome → NoMore root1 root p → ∀ f, p.length < f →
      ∃ t, label root1 p f s = .ok t ∧ t ≠ bytes "default" ∧ (parseLabel u.disc t).map (kept u.disc) = some v :=
    fun h1 h2 => ⟨h1, fun r hp hi hc f hf => ⟨s, h2 r hp hi hc f hf, hdef, hrt⟩⟩
  have decs : ∀ m, s = dec m → LabelText s ∧ ∀ root1 : Mod Item, Proper root1 → (root1.at p).isSome → NoMore root1 root p → ∀ f, p.length < f →
      ∃ t, label root1 p f s = .ok t ∧ t ≠ bytes "default" ∧ (parseLabel u.disc t).map (kept u.disc) = some v := by
    rintro m rfl
    refine key ⟨_, dec_label m⟩ fun r hp hi _ f hf => ?_
    rw [label, constant_dec hp hi _ hf]; rfl
  unfold labelValue at hl
  rcases hk with ⟨k, hk⟩ | ⟨m, vs, hd⟩
  · unfold IsLabel at hlab
    rw [hk] at hl hrd hlab
    have wide : 32 ≤ v ∧ v < 127 ∧ v ≠ 34 ∧ v ≠ 39 ∧ v ≠ 92 → s = [76, 39, v.toNat, 39] →
        LabelText s ∧ ∀ root1 : Mod Item, Proper root1 → (root1.at p).isSome → NoMore root1 root p → ∀ f, p.length < f →
      ∃ t, label root1 p f s = .ok t ∧ t ≠ bytes "default" ∧ (parseLabel u.disc t).map (kept u.disc) = some v := by
      rintro hb rfl
      refine key ⟨_, wide_label (n := v.toNat) (by omega)⟩ fun r hp hi _ f hf => label_none (b := [76, 39, v.toNat, 39]) hi (by exact cut_wide (Char.ofNat v.toNat))
        (no_const hp hi (by exact cut_wide (Char.ofNat v.toNat)) (by exact not_wide (r := [Char.ofNat v.toNat, '\'']))) hf
    have wtext : 32 ≤ v ∧ v < 127 ∧ v ≠ 34 ∧ v ≠ 39 ∧ v ≠ 92 →
        (utf8 ((v % 2 ^ 64).toNat % 2 ^ 16)).map (fun u => bytes "L'" ++ u ++ bytes "'") = some s → s = [76, 39, v.toNat, 39] := by
      intro hb h
      have e : (v % 2 ^ 64).toNat % 2 ^ 16 = v.toNat := by omega
      rw [e, utf8, if_pos (by omega), Option.map_some, Option.some.injEq] at h
      rw [← h]; rfl
    cases k with
    | bool =>
      simp only [Option.some.injEq] at hl hrd
      split at hl
      · subst hl
        exact key ⟨_, bool_label (.inr rfl)⟩ fun r _ hi hc f hf => label_none (b := bytes "FALSE") hi (cut_none (by decide)) (fun i h => hrd.2 i (hc _ (cut_none (by decide)) i (by rw [nm_bytes] at h; exact h))) hf
      · subst hl
        exact key ⟨_, bool_label (.inl rfl)⟩ fun r _ hi hc f hf => label_none (b := bytes "TRUE") hi (cut_none (by decide)) (fun i h => hrd.1 i (hc _ (cut_none (by decide)) i (by rw [nm_bytes] at h; exact h))) hf
    | c8 =>
      simp only [Option.some.injEq] at hl hrd
      have e : (v % 2 ^ 64).toNat % 256 = v.toNat := by omega
      rw [e] at hl
      have hl : [39, v.toNat, 39] = s := hl
      subst hl
      exact key ⟨_, char_label (n := v.toNat) (by omega)⟩ fun r hp hi _ f hf => label_none (b := [39, v.toNat, 39]) hi (by exact cut_quote (Char.ofNat v.toNat))
        (no_const hp hi (by exact cut_quote (Char.ofNat v.toNat)) (by exact not_quote (r := [Char.ofNat v.toNat, '\'']))) hf
    | c16 => exact wide hrd (wtext hrd hl)
    | wc => exact wide hrd (wtext hrd hl)
    | f32 => cases hl
    | f64 => cases hl
    | f128 => cases hl
    | i8 => exact decs _ (Option.some.inj hl).symm
    | u8 => exact decs _ (Option.some.inj hl).symm
    | i16 => exact decs _ (Option.some.inj hl).symm
    | u16 => exact decs _ (Option.some.inj hl).symm
    | i32 => exact decs _ (Option.some.inj hl).symm
    | u32 => exact decs _ (Option.some.inj hl).symm
    | i64 => exact decs _ (Option.some.inj hl).symm
    | u64 => exact decs _ (Option.some.inj hl).symm
  · rw [hd] at hl hrd hlab
    simp only [Ty.rget, Option.some.injEq] at hl hrd
    obtain ⟨x, k, hm, rfl, hkl⟩ := hlab
    have hkn : ((k : Int) % 2 ^ 64).toNat % 2 ^ 32 = k := by omega
    rw [hkn] at hl
    cases hf : vs.find? (fun e => e.2 = k) with
    | none =>
      have := List.find?_eq_none.mp hf _ hm
      simp at this
    | some e =>
      rw [hf] at hl
      have hl : bytes e.1 = s := hl
      subst hl
      have he := List.mem_of_find?_eq_some hf
      have hek : e.2 = k := by simpa using List.find?_some hf
      obtain ⟨h1, h2, h3, h4⟩ := hrd e he (by rw [hek])
      refine ⟨⟨_, ident_label (ident_is h1) (prefix_bytes h2) (prefix_bytes h3)⟩, fun r hp hi hc f hf => ?_⟩
      have hcut : cut (nm (bytes e.1)) = none := by rw [nm_bytes]; exact cut_none (ident_colon h1)
      by_cases hg : ∃ i, Constant r p (nm (bytes e.1)) i
      · obtain ⟨i, hg⟩ := hg
        have hg' := hc _ hcut i hg
        rw [nm_bytes] at hg'
        obtain ⟨q, rfl⟩ := h4 i hg'
        refine ⟨_, label_const hi hcut hg hf, ?_, ?_⟩
        · rw [number_nat]; exact dec_ne_default k
        · rw [number_nat, hd]
          unfold parseLabel
          simp only [Ty.rget]
          rw [strtoull_dec (by omega), Nat.mod_eq_of_lt hkl, if_neg, Option.map_some, Option.some.injEq]
          · show shrinkLabel (k : Int) 4 = k
            rw [Inst.shrinkLabel_narrow _ 4 (by simp)]
            omega
          · rintro ⟨rfl, h⟩
            exact absurd h (by decide +kernel)
      · exact ⟨_, label_none hi hcut (fun i h => hg ⟨i, h⟩) hf, hdef, hrt⟩

/-! ## Cases -/

theorem forAll_append {α β} (g : α → Except Stop β) : ∀ (a b : List α) {x y : List β}, forAll g a = .ok x → forAll g b = .ok y →
    forAll g (a ++ b) = .ok (x ++ y)
  | [], b, x, y, hx, hy => by
    rw [forAll, Except.ok.injEq] at hx
    subst hx; exact hy
  | v :: a, b, x, y, hx, hy => by
    rw [forAll] at hx
    rw [List.cons_append, forAll]
    cases hv : g v with
    | error e => rw [hv] at hx; cases hx
    | ok w =>
      rw [hv] at hx
      simp only [Except.bind] at hx ⊢
      cases ha : forAll g a with
      | error e => rw [ha] at hx; cases hx
      | ok z =>
        rw [ha] at hx
        simp only [Except.map, Except.ok.injEq] at hx
        rw [forAll_append g a b ha hy, ← hx]; rfl

theorem labels_read {u : UnionB} (g : Bytes → Except Stop Bytes) : ∀ vs : List Int,
    (∀ v ∈ vs, ∃ t, g (labelText u v) = .ok t ∧ t ≠ bytes "default" ∧ (parseLabel u.disc t).map (kept u.disc) = some v) →
    ∃ ts ws, forAll g (vs.map (labelText u)) = .ok ts ∧ ws.map (kept u.disc) = vs ∧
      ∀ l d r, parseLabels u.disc (ts ++ l) d r = parseLabels u.disc l d (r ++ ws)
  | [], _ => ⟨[], [], rfl, rfl, fun l d r => by simp⟩
  | v :: vs, h => by
    obtain ⟨ts, ws, h1, h2, h3⟩ := labels_read g vs fun w hw => h w (List.mem_cons_of_mem _ hw)
    obtain ⟨t, g1, g2, g3⟩ := h v (by simp)
    cases hp : parseLabel u.disc t with
    | none => rw [hp] at g3; cases g3
    | some w =>
      rw [hp, Option.map_some, Option.some.injEq] at g3
      refine ⟨t :: ts, w :: ws, ?_, by rw [List.map_cons, g3, h2], fun l d r => ?_⟩
      · rw [List.map_cons, forAll, g1]
        simp only [Except.bind, h1, Except.map]
      · rw [List.cons_append, parseLabels, if_neg g2, hp]
        simp only
        rw [h3]; simp

/-- A label of a union that was built is kept as it is. -/
theorem kept_label {u : UnionB} (h : u.Built) {n : String} {l : Int} (hm : l ∈ u.getLabels n) : kept u.disc l = l := by
  have hi := UnionB.built_inv h
  obtain ⟨p, hp, rfl⟩ := List.mem_map.mp hm
  obtain ⟨hp1, hp2⟩ := List.mem_filter.mp hp
  simp only [decide_eq_true_eq] at hp2
  exact (UnionB.built_labels h _ _ (omGet_of_mem hi.nodup hp1)).resolve_right hp2.2

theorem case_read {u : UnionB} (hb : u.Built) {g : Bytes → Except Stop Bytes} {n : String}
    (h : ∀ v ∈ u.getLabels n, ∃ t, g (labelText u v) = .ok t ∧ t ≠ bytes "default" ∧ (parseLabel u.disc t).map (kept u.disc) = some v)
    (hd : u.isDefault n = true → g (bytes "default") = .ok (bytes "default")) :
    ∃ ts, forAll g (labelsOf u n) = .ok ts ∧ ∀ w : UnionB, w.disc = u.disc → ∀ m t,
      w.addCaseText ts m t = some (w.addCase (u.getLabels n) m t (u.isDefault n)) := by
  obtain ⟨ts, ws, h1, h2, h3⟩ := labels_read g _ h
  have hfin : ∀ ts', parseLabels u.disc ts' false [] = some (u.isDefault n, ws) → ∀ w : UnionB, w.disc = u.disc → ∀ m t,
      w.addCaseText ts' m t = some (w.addCase (u.getLabels n) m t (u.isDefault n)) := by
    intro ts' hp w hw m t
    rw [UnionB.addCaseText, hw, hp, Option.map_some, Option.some.injEq]
    refine addCase_congr w ?_ m t _
    rw [hw, h2]
    conv => lhs; rw [← List.map_id (u.getLabels n)]
    exact List.map_congr_left fun l hl => (kept_label hb hl).symm
  unfold labelsOf
  by_cases hdef : u.isDefault n = true
  · refine ⟨ts ++ [bytes "default"], ?_, hfin _ ?_⟩
    · rw [if_pos hdef]
      refine forAll_append g _ _ h1 ?_
      rw [forAll, hd hdef]; rfl
    · rw [h3, parseLabels, if_pos rfl, if_neg (by simp), hdef]; rfl
  · have hdef : u.isDefault n = false := by simpa using hdef
    refine ⟨ts, ?_, hfin _ ?_⟩
    · rw [hdef, if_neg (by simp), List.append_nil]; exact h1
    · have := h3 [] false []
      rw [List.append_nil] at this
      rw [this, hdef]; rfl

theorem cases_read (c : Ctx) {u : UnionB} (hb : u.Built) (root : Mod Item) (p : Loc) (f : Nat) : ∀ ms : List (String × Ty),
    (∀ e ∈ ms, Free root p e.1 ∧ Stepwise e.2 ∧ DimsBelow (2 ^ 32) e.2 ∧ evalType c root p f (specOf (localise p false e.2)) = .ok (innermost e.2) ∧
      Restorable u e.1 ∧
      (∀ v ∈ u.getLabels e.1, ∃ t, label root p f (labelText u v) = .ok t ∧ t ≠ bytes "default" ∧ (parseLabel u.disc t).map (kept u.disc) = some v) ∧
      (u.isDefault e.1 = true → label root p f (bytes "default") = .ok (bytes "default"))) →
    ∃ cs, forAll (caseOf c root p f) (ms.map fun e => caseOfMember u (e.1, localise p false e.2)) = .ok cs ∧
      ∀ w pre, UnionB.Upto u pre w → pre ++ ms = caseMembers u →
        ∃ w', addCases w cs = (w', true) ∧ UnionB.Upto u (caseMembers u) w'
  | [], _ => ⟨[], rfl, fun w pre hw he => by
      rw [List.append_nil] at he
      exact ⟨w, rfl, he ▸ hw⟩⟩
  | (n, T) :: ms, h => by
    obtain ⟨hfree, hst, hdim, hty, hres, hlab, hdef⟩ := h (n, T) (by simp)
    obtain ⟨cs, h1, h2⟩ := cases_read c hb root p f ms fun e he => h e (List.mem_cons_of_mem _ he)
    obtain ⟨ts, g1, g2⟩ := case_read hb hlab hdef
    have e1 : declr c root p f ⟨bytes n, (arrayDimensions T).map fun d => Dim.literal (dec d)⟩ = .ok (n, arrayDimensions T) := by
      rw [declr, resolveId_free c root hfree.1 hfree.2]
      simp only [Except.bind, forAll_dims root p f _ (below_dims hdim), Except.map, str_bytes]
    have e2 : caseOf c root p f (caseOfMember u (n, localise p false T)) = .ok (ts, n, T) := by
      simp only [caseOf, caseOfMember, localise_dims, g1, Except.bind, hty, e1, Except.map, declType_ok hst]
    refine ⟨(ts, n, T) :: cs, ?_, fun w pre hw he => ?_⟩
    · rw [List.map_cons, forAll, e2]
      simp only [Except.bind, h1, Except.map]
    · have hnames : (caseMembers u).map (·.1) = u.caseNames := UnionB.caseMembers_names u
      have hnd : ((caseMembers u).map (·.1)).Nodup := by
        rw [hnames]; exact (C32_labels_unambiguous hb).2.2.1.1
      have hn : n ∉ pre.map (·.1) := by
        rw [← he, List.map_append, List.nodup_append] at hnd
        intro hh
        exact hnd.2.2 _ hh n (by simp) rfl
      have hc : n ∈ u.caseNames := by rw [← hnames, ← he]; simp
      obtain ⟨k1, k2⟩ := hw.step hb (t := T) hn hc hres
      obtain ⟨w', k3, k4⟩ := h2 _ _ k2 (by rw [List.append_assoc]; exact he)
      refine ⟨w', ?_, k4⟩
      rw [addCases, g2 w hw.disc]
      generalize hx : w.addCase (u.getLabels n) n T (u.isDefault n) = x at k1 k3
      obtain ⟨x1, x2⟩ := x
      have k1 : x2 = true := k1
      subst k1
      exact k3

/-! ## The declaration -/

theorem unionNamed_ok {root m : Mod Item} {p : Loc} (hm : root.at p = some m) {x : String} (hx : Identifier x) {n : String} {d : Ty} {ms : Mems} {i : UInfo}
    (h : omGet (m.content.get .union) x.toList = some (.ty (.union n d ms i))) :
    Ev fun f => unionNamed root p f x.toList = .ok (n, d, ms.toList) := by
  refine (look_ev (lookup_here hm (ident_colon hx) (has_of_get h))).mono fun f hf => ?_
  have : fetch root .union (.found p x.toList) = some (.ty (.union n d ms i)) := by
    rw [fetch, hm, Option.bind_some]; exact h
  rw [unionNamed, hf]
  simp only [Except.bind, this]

theorem union_ev (c : Ctx) {root m : Mod Item} (hpr : Proper root) {p : Loc} (hm : root.at p = some m) {n : String} {u : UnionB}
    (h : Declarable ⟨c.char, c.wide16⟩ root p (.union n u)) :
    Ev fun f => buildUnion c root p f (bytes n) (specOf (localise p false u.disc))
      ((caseMembers u).map fun e => caseOfMember u (e.1, localise p false e.2)) = (enter p (.union n u) root, none) := by
  obtain ⟨hn, huname, hb, hdisc, hlen, hms⟩ := h
  have hco := ident_colon hn.1.1
  have hs := hasSymbol_false (free_symbol hm hn.2)
  have hi : (root.at p).isSome := by rw [hm]; rfl
  obtain ⟨w0, hnew, hw1, hw2, hw3, hw4, hw5⟩ := UnionB.new_facts (n := u.name) (UnionB.built_inv hb).check
  let v0 : Item := .ty w0.toTy
  let root1 : Mod Item := root.modify p fun _ => put .union n.toList v0 m
  have hreg : register root p .union n.toList v0 = (root1, true) := register_put hm hco (hs.1 .union) v0
  have hadds : Adds root root1 p n.toList := adds_put hm .union v0 hn.1.1 hn.2
  have hext := hadds.ext
  have hat1 : root1.at p = some (put .union n.toList v0 m) := at_modify_self _ hm
  have hp1 : Proper root1 := proper_modify hpr hm (proper_put (proper_sub hpr hm) .union v0 hn.1.1)
  have hi1 : (root1.at p).isSome := by rw [hat1]; rfl
  have hself : omGet ((put .union n.toList v0 m).content.get .union) n.toList =
      some (.ty (.union u.name u.disc .nil ⟨w0.labels, w0.defaultValue, w0.invalidValue, w0.default⟩)) := by
    rw [get_put_same (hs.1 .union)]
    show some (Item.ty w0.toTy) = _
    rw [UnionB.toTy, hw1, hw2]
    unfold caseMembers at hw3
    rw [hw3]; rfl
  have hmore : NoMore root1 root p := fun y hy i hc => Adds.constant hadds (fun m' hm' => by
    rw [hat1, Option.some.injEq] at hm'
    subst hm'
    show omGet ((m.content.set .union _).get .const) n.toList = none
    rw [get_set_other _ (by decide)]
    exact omGet_eq_none.mpr (omHas_false_iff.mp (hs.1 .const))) hy hc
  have hev : Ev fun f => ∀ e ∈ caseMembers u, evalType c root1 p f (specOf (localise p false e.2)) = .ok (innermost e.2) :=
    Ev.list fun e he => member_ev c hp1 hi1 (writable_ext hext (hms e he).2.2.1.2.2)
  have hdev := evalType_ev c hpr hi false _ (by rw [Bool.false_and]; exact hdisc)
  have hlab : Ev fun f => ∀ e ∈ caseMembers u,
      (∀ v ∈ u.getLabels e.1, ∃ t, label root1 p f (labelText u v) = .ok t ∧ t ≠ bytes "default" ∧ (parseLabel u.disc t).map (kept u.disc) = some v) ∧
      (u.isDefault e.1 = true → label root1 p f (bytes "default") = .ok (bytes "default")) := by
    refine ⟨p.length + 1, fun f hf e he => ⟨fun v hv => ?_, fun hd => ?_⟩⟩
    · exact (label_ok hb hv ((hms e he).2.2.2.2.1 v hv)).2 root1 hp1 hi1 hmore f hf
    · exact label_none (b := bytes "default") hi1 (cut_none (by decide)) (fun i hc => (hms e he).2.2.2.2.2 hd i (hmore _ (cut_none (by decide)) i (by rw [nm_bytes] at hc; exact hc))) hf
  have hnamed : Ev fun f => unionNamed root1 p f n.toList = .ok (u.name, u.disc, []) := unionNamed_ok hat1 hn.1.1 hself
  refine (hev.and (hdev.and (hlab.and hnamed))).mono ?_
  rintro f ⟨h1, h2, h3, h4⟩
  obtain ⟨cs, k1, k2⟩ := cases_read c hb root1 p f (caseMembers u) (fun e he => by
    obtain ⟨hfr, hne, hwm, hres, _⟩ := hms e he
    exact ⟨⟨hfr.1, hadds.other (fun e' => hne (String.toList_inj.mp e')) hfr.2⟩, hwm.1, hwm.2.1, h1 e he, hres, h3 e he⟩)
  obtain ⟨w', k3, k4⟩ := k2 w0 [] (UnionB.Upto.start hb hnew) rfl
  have hty : w'.toTy = u.toTy := k4.finish hb
  have hput : putUnion root1 p n.toList w' = enter p (.union n u) root := by
    rw [putUnion, hty, register_over hm hco (hs.1 .union), enter_at hm]
    cases m with
    | mk cc ii => rfl
  have hbody : bodyOf ((caseMembers u).map fun e => caseOfMember u (e.1, localise p false e.2)) =
      (caseMembers u).map fun e => caseOfMember u (e.1, localise p false e.2) := by
    match hm : caseMembers u, hlen with
    | [], h => simp at h
    | [_], h => simp at h
    | _ :: _ :: _, _ => rfl
  have hname : String.ofList (scopedName p n.toList) = u.name := huname.symm
  unfold buildUnion
  rw [resolveId_own c root p hn.1]
  simp only [orStop]
  rw [h2]
  simp only []
  rw [nm_bytes, hname, hnew]
  simp only []
  rw [show (Item.ty w0.toTy) = v0 from rfl, hreg]
  simp only []
  rw [hbody, k1]
  simp only []
  rw [h4]
  simp only [ne_eq, not_true_eq_false, if_false, hnew, k3, if_true, hput]

end Verif.Idl.Syn
