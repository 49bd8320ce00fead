import Verif.Lemmas.IdlUnion
import Verif.Lemmas.IdlLocal
import Verif.Lemmas.IdlConst
/-!
# Enumerations, and whole lists of declarations
-/

namespace Verif.Idl.Syn
open Text Gen

theorem string_trans (a b c : String) (h : a < b) (h' : b < c) : a < c := String.lt_trans h h'

theorem string_total (a b : String) (h : ¬ a < b) (h' : a ≠ b) : b < a :=
  String.not_le.mp fun h2 => h' (String.le_antisymm h2 (String.not_lt.mp h))

theorem string_irrefl (a : String) : ¬ a < a := String.lt_irrefl a

/-! ## The order of the values -/

theorem byValue_perm (e : String × Nat) : ∀ l, (byValue e l).Perm (e :: l)
  | [] => .refl _
  | x :: r => by
    rw [byValue]
    split
    · exact .refl _
    · exact ((byValue_perm e r).cons x).trans (.swap _ _ _)

theorem byValue_sorted (e : String × Nat) : ∀ l : List (String × Nat), l.Pairwise (fun a b => a.2 ≤ b.2) →
    (byValue e l).Pairwise fun a b => a.2 ≤ b.2
  | [], _ => by simp [byValue]
  | x :: r, h => by
    rw [byValue]
    have h0 := List.pairwise_cons.mp h
    split
    · rename_i hlt
      refine List.pairwise_cons.mpr ⟨fun b hb => ?_, h⟩
      rcases List.mem_cons.mp hb with rfl | hb
      · omega
      · have := h0.1 b hb; omega
    · rename_i hlt
      refine List.pairwise_cons.mpr ⟨fun b hb => ?_, byValue_sorted e r h0.2⟩
      rcases List.mem_cons.mp ((byValue_perm e r).mem_iff.mp hb) with rfl | hb
      · omega
      · exact h0.1 b hb

theorem sort_loop : ∀ (l a : List (String × Nat)), a.Pairwise (fun a b => a.2 ≤ b.2) →
    (l.foldl (fun a e => byValue e a) a).Perm (a ++ l) ∧ (l.foldl (fun a e => byValue e a) a).Pairwise fun a b => a.2 ≤ b.2
  | [], a, h => by simpa using h
  | e :: l, a, h => by
    obtain ⟨h1, h2⟩ := sort_loop l (byValue e a) (byValue_sorted e a h)
    refine ⟨h1.trans ?_, h2⟩
    exact ((byValue_perm e a).append_right l).trans (by
      rw [List.cons_append]; exact List.perm_middle.symm)

theorem sort_perm (l : List (String × Nat)) : (sortByValue l).Perm l := by
  have := (sort_loop l [] .nil).1
  rwa [List.nil_append] at this
theorem sort_sorted (l : List (String × Nat)) : (sortByValue l).Pairwise fun a b => a.2 ≤ b.2 := (sort_loop l [] .nil).2

theorem sort_values {l : List (String × Nat)} (h : (l.map (·.2)).Perm (List.range l.length)) :
    (sortByValue l).map (·.2) = List.range l.length := by
  refine List.Perm.eq_of_pairwise (le := fun a b : Nat => a ≤ b) (fun a b _ _ h h' => Nat.le_antisymm h h') ?_ ?_ (((sort_perm l).map _).trans h)
  · exact List.pairwise_map.mpr (sort_sorted l)
  · exact List.pairwise_lt_range.imp (fun h => Nat.le_of_lt h)

theorem sort_inOrder {l : List (String × Nat)} (h : (l.map (·.2)).Perm (List.range l.length)) : inOrder l = sortByValue l := by
  have hnd : (l.map (·.2)).Nodup := h.nodup_iff.mpr List.nodup_range
  rw [inOrder, ← sort_values h, List.filterMap_map]
  have : ∀ e ∈ sortByValue l, ((fun i => l.find? fun e => decide (e.2 = i)) ∘ fun x => x.2) e = some e := by
    intro e he
    have hm : e ∈ l := (sort_perm l).mem_iff.mp he
    show l.find? _ = some e
    clear h he
    induction l with
    | nil => cases hm
    | cons x r ih =>
      rw [List.map_cons, List.nodup_cons] at hnd
      rw [List.find?_cons]
      rcases List.mem_cons.mp hm with rfl | hm
      · simp
      · have : x.2 ≠ e.2 := fun e' => hnd.1 (e' ▸ List.mem_map_of_mem hm)
        simp only [this, decide_false]
        exact ih hnd.2 hm
  generalize sortByValue l = s at this
  induction s with
  | nil => rfl
  | cons x r ih =>
    rw [List.filterMap_cons_some (this x (by simp)), ih fun e he => this e (List.mem_cons_of_mem _ he)]

/-! ## The loop over the enumerators -/

theorem fold_perm {α β} [LT α] [DecidableLT α] [DecidableEq α] : ∀ (l a : List (α × β)),
    (l.foldl (fun t x => omIns x.1 x.2 t) a).Perm (a ++ l)
  | [], a => by simp
  | x :: l, a => (fold_perm l (omIns x.1 x.2 a)).trans (((omIns_perm x.1 x.2 a).append_right l).trans (by
      rw [List.cons_append]; exact List.perm_middle.symm))

theorem fold_increasing : ∀ (l a : List (String × Nat)), Increasing a → ((a ++ l).map (·.1)).Nodup →
    Increasing (l.foldl (fun t x => omIns x.1 x.2 t) a)
  | [], a, h, _ => h
  | x :: l, a, h, hn => by
    have hx : x.1 ∉ a.map (·.1) := by
      rw [List.map_append, List.nodup_append] at hn
      intro hh
      exact hn.2.2 _ hh x.1 (by simp) rfl
    refine fold_increasing l (omIns x.1 x.2 a) (omIns_increasing string_trans string_total h hx) ?_
    refine ((((omIns_perm x.1 x.2 a).append_right l).map (·.1)).nodup_iff).mpr ?_
    refine ((List.perm_middle (l₁ := a) (l₂ := l) (a := x)).map (·.1)).nodup_iff.mp hn

/-- The constants after entering enumerators. -/
def putConsts (l : List (String × Nat)) (t : List (Name × Item)) : List (Name × Item) :=
  l.foldl (fun t e => omIns e.1.toList (.const .u32 e.2) t) t

theorem enumLoop_ok {root m0 : Mod Item} {p : Loc} (hm : root.at p = some m0) :
    ∀ (l : List (String × Nat)) (k : Nat) (vals : List (String × Nat)) (c : Content Item) (i : List (Name × Option (Mod Item))),
    l.map (·.2) = List.range' k l.length → k + l.length ≤ 2 ^ 32 → ((vals ++ l).map (·.1)).Nodup →
    (∀ e ∈ l, Usable e.1 ∧ omHas c.consts e.1.toList = false) →
    enumLoop p ⟨.w4, vals, k % 2 ^ 32⟩ (root.modify p fun _ => .mk c i) (l.map fun e => bytes e.1) =
      (⟨.w4, l.foldl (fun t x => omIns x.1 x.2 t) vals, (k + l.length) % 2 ^ 32⟩,
       root.modify p fun _ => .mk { c with consts := putConsts l c.consts, fromEnum := c.fromEnum ++ l.map (·.1.toList) } i, true)
  | [], k, vals, c, i, _, _, _, _ => by simp [enumLoop, putConsts]
  | (n, v) :: l, k, vals, c, i, hv, hk, hn, hf => by
    rw [List.map_cons, List.length_cons, List.range'_succ, List.cons.injEq] at hv
    obtain ⟨hv0, hv⟩ := hv
    have hv0 : v = k := hv0
    subst hv0
    have hk' : v + (l.length + 1) ≤ 2 ^ 32 := hk
    have hmod : v % 2 ^ 32 = v := Nat.mod_eq_of_lt (by omega)
    have hnv : n ∉ vals.map (·.1) := by
      rw [List.map_append, List.nodup_append] at hn
      intro hh
      exact hn.2.2 _ hh n (by simp) rfl
    obtain ⟨hu, hc⟩ := hf (n, v) (by simp)
    have hco := ident_colon hu.1
    have hadd : (EnumB.mk .w4 vals v).addImplicit n = (⟨.w4, omIns n v vals, (v + 1) % 2 ^ 32⟩, true) := by
      have hmod' : v % 2 ^ (8 * EW.w4.size) = v := hmod
      simp only [EnumB.addImplicit, EnumB.add, hmod', Nat.lt_irrefl, if_false, omHas_false_iff.mpr hnv, omEmplace, Bool.false_eq_true]
      rfl
    have hreg := register_put (k := .const) (at_modify_self (fun _ => Mod.mk c i) hm) hco hc (.const .u32 (v : Int))
    rw [modify_comp] at hreg
    rw [List.map_cons, enumLoop, hmod, str_bytes, hadd, nm_bytes]
    have hint : ((v : Int) % 2 ^ 32) = v := by omega
    simp only [hint, hreg, if_true]
    have hnot : ∀ e ∈ l, e.1.toList ≠ n.toList := by
      intro e he e'
      have e' := String.toList_inj.mp e'
      rw [List.map_append, List.map_cons, List.nodup_append, List.nodup_cons] at hn
      exact hn.2.1.1 (by show n ∈ _; rw [← e']; exact List.mem_map_of_mem he)
    have ih := enumLoop_ok hm l (v + 1) (omIns n v vals)
      { c with consts := omIns n.toList (.const .u32 v) c.consts, fromEnum := c.fromEnum ++ [n.toList] } i hv (by omega)
      (((((omIns_perm n v vals).append_right l).map (·.1)).nodup_iff).mpr
        (((List.perm_middle (l₁ := vals) (l₂ := l) (a := (n, v))).map (·.1)).nodup_iff.mp hn))
      (fun e he => ⟨(hf e (List.mem_cons_of_mem _ he)).1, by
        have h1 := (hf e (List.mem_cons_of_mem _ he)).2
        rw [omHas_false_iff] at h1 ⊢
        rw [((omIns_perm _ _ _).map (·.1)).mem_iff, List.map_cons, List.mem_cons, not_or]
        exact ⟨hnot e he, h1⟩⟩)
    rw [modify_comp]
    have hmodify : (fun _ : Mod Item => noteFromEnum n.toList (put .const n.toList (.const .u32 v) (.mk c i))) =
        fun _ => .mk { c with consts := omIns n.toList (.const .u32 v) c.consts, fromEnum := c.fromEnum ++ [n.toList] } i := rfl
    rw [hmodify, ih]
    have hlen : v + 1 + l.length = v + (l.length + 1) := by omega
    simp only [List.foldl_cons, putConsts, List.length_cons, List.map_cons, List.append_assoc, List.singleton_append, hlen]

theorem enum_ok {root m : Mod Item} (hpr : Proper root) {p : Loc} (hm : root.at p = some m) {r : Reading} {n : String}
    {vs : List (String × Nat)} (h : Declarable r root p (.enum n vs)) :
    buildEnum root p (bytes n) ((sortByValue vs).map fun e => bytes e.1) = (enter p (.enum n vs) root, none) := by
  obtain ⟨hn, hne, hlen, hinc, hval, hfr⟩ := h
  have hperm := sort_perm vs
  have hsv := sort_values hval
  have hl : (sortByValue vs).length = vs.length := hperm.length_eq
  have hnames : ((sortByValue vs).map (·.1)).Nodup := by
    refine ((hperm.map (·.1)).nodup_iff).mpr ?_
    refine List.pairwise_map.mpr (hinc.imp ?_)
    intro a b h e
    rw [e] at h
    exact string_irrefl _ h
  have hsame := modify_same (proper_keys hpr) hm
  obtain ⟨c, i⟩ := m
  have hc : ∀ e ∈ sortByValue vs, Usable e.1 ∧ omHas c.consts e.1.toList = false := by
    intro e he
    obtain ⟨h1, _⟩ := hfr e (hperm.mem_iff.mp he)
    exact ⟨h1.1, (hasSymbol_false (free_symbol hm h1.2)).1 .const⟩
  have hloop := enumLoop_ok hm (sortByValue vs) 0 [] c i (by rw [hsv, hl, List.range_eq_range']) (by omega) (by simpa using hnames) hc
  have hvals : (sortByValue vs).foldl (fun t x => omIns x.1 x.2 t) [] = vs := by
    refine List.Perm.eq_of_pairwise (le := fun a b : String × Nat => a.1 < b.1)
      (fun a b _ _ h h' => absurd (string_trans _ _ _ h h') (string_irrefl _)) ?_ hinc ((fold_perm _ _).trans hperm)
    exact fold_increasing _ [] .nil (by simpa using hnames)
  rw [hsame] at hloop
  have hloop' : enumLoop p (EnumB.new .w4) root ((sortByValue vs).map fun e => bytes e.1) = _ := hloop
  unfold buildEnum
  rw [hloop', hvals]
  simp only [nm_bytes]
  have he : omHas c.enums n.toList = false := (hasSymbol_false (free_symbol hm hn.2)).1 .enum
  rw [register_put (at_modify_self _ hm) (ident_colon hn.1.1) (by exact he), modify_comp, enter_at hm, addDecl, sort_inOrder hval]
  rfl

/-! ## One declaration after the other -/

theorem proper_consts : ∀ (l : List (String × Nat)) (c : Content Item) (i : List (Name × Option (Mod Item))) (z : List Name),
    (∀ e ∈ l, Identifier e.1) → Proper (.mk c i) → Proper (.mk { c with consts := putConsts l c.consts, fromEnum := z } i)
  | [], c, i, z, _, hp => proper_tables (m := .mk c i) hp rfl (hp [] _ rfl).2
  | e :: l, c, i, z, h, hp => proper_consts l { c with consts := omIns e.1.toList (.const .u32 e.2) c.consts } i z
      (fun x hx => h x (List.mem_cons_of_mem _ hx))
      (proper_put (m := .mk c i) hp .const (.const .u32 e.2) (h e (by simp)))

theorem enter_proper {r : Reading} {root m : Mod Item} {p : Loc} {d : Decl} (hp : Proper root) (hm : root.at p = some m)
    (h : Declarable r root p d) : Proper (enter p d root) := by
  rw [enter_at hm]
  refine proper_modify hp hm ?_
  have hp := proper_sub hp hm
  obtain ⟨c, i⟩ := m
  cases d with
  | struct n q ms => exact proper_put (m := .mk c i) hp .struct (.ty (.struct (scopedStr p n) (Mems.ofList ms))) h.1.1.1
  | union n u => exact proper_put (m := .mk c i) hp .union (.ty u.toTy) h.1.1.1
  | «alias» n t => exact proper_put (m := .mk c i) hp .alias (.ty (.alias (scopedStr p n) t)) h.1.1.1
  | const n i' => exact proper_put (m := .mk c i) hp .const i' h.1.1.1
  | enum n vs =>
    obtain ⟨hn, hne, hlen, hinc, hval, hfr⟩ := h
    have h1 := proper_consts (inOrder vs) c i (c.fromEnum ++ (inOrder vs).map (·.1.toList)) (fun e he => by
      rw [sort_inOrder hval] at he
      exact (hfr e ((sort_perm vs).mem_iff.mp he)).1.1.1) hp
    exact proper_put h1 .enum (.ty (.enum (scopedStr p n) .w4 vs)) hn.1.1

theorem build_ev (c : Ctx) {root m : Mod Item} {p : Loc} {d : Decl} (hp : Proper root) (hm : root.at p = some m)
    (h : Declarable ⟨c.char, c.wide16⟩ root p d) :
    Ev fun f => build c f p root (defOf (localiseD p d)) = (enter p d root, none) := by
  cases d with
  | struct n q ms => exact (struct_ev c hp hm h).mono fun f hf => by rw [localiseD_struct, build]; exact hf
  | union n u => exact (union_ev c hp hm h).mono fun f hf => by rw [localiseD_union, build]; exact hf
  | enum n vs => exact Ev.of fun f => by rw [localiseD, defOf, build]; exact enum_ok hp hm h
  | «alias» n t => exact (alias_ev c hp hm h).mono fun f hf => by rw [localiseD_alias, build]; exact hf
  | const n i => exact (const_ev c hp hm h).mono fun f hf => by rw [localiseD, defOf, build]; exact hf

/-- A type that a union can have as discriminator and that can be written down can be read after `switch`. -/
theorem switch_of {r : Reading} {M : String → Ty → Prop} {T : Ty} (hc : checkDisc T = true) (hw : Writable r M T) : Switch T := by
  unfold checkDisc at hc
  cases T with
  | prim k => simp only [Ty.rget] at hc; rw [Switch]; simpa using hc
  | «alias» n t => exact hw.1
  | enum n w vs => exact hw.1
  | _ => simp [Ty.rget] at hc

theorem readable_of {r : Reading} {root : Mod Item} {p : Loc} {d : Decl} (h : Declarable r root p d) : Readable d := by
  cases d with
  | struct n p ms =>
    obtain ⟨hn, _, hp, hm⟩ := h
    exact ⟨hn.1.1, fun x hx => (hp x hx).1, fun e he => ⟨(hm e he).1.1.1, named_member (hm e he).2.2⟩⟩
  | enum n vs =>
    obtain ⟨hn, hne, hlen, hinc, hval, hfr⟩ := h
    refine ⟨hn.1.1, fun h0 => hne ?_, fun e he => (hfr e ((sort_perm vs).mem_iff.mp he)).1.1.1⟩
    have := (sort_perm vs).length_eq
    rw [h0] at this
    exact List.length_eq_zero_iff.mp this.symm
  | union n u =>
    obtain ⟨hn, _, hb, hdisc, hlen, hms⟩ := h
    refine ⟨hn.1.1, switch_of (UnionB.built_inv hb).check hdisc, fun h0 => by rw [h0] at hlen; simp at hlen, fun e he => ?_⟩
    obtain ⟨hfr, hne, hwm, hres, hlab, hdef⟩ := hms e he
    refine ⟨hfr.1.1, named_member hwm, ?_, fun v hv => (label_ok hb hv (hlab v hv)).1⟩
    unfold labelsOf
    rcases hres.1 with h1 | h1
    · simp [h1]
    · intro h0
      rw [List.append_eq_nil_iff, List.map_eq_nil_iff] at h0
      exact h1 h0.1
  | «alias» n t => exact ⟨h.1.1.1, named_member h.2⟩
  | const n i => exact ⟨h.1.1.1, plain_of h.2⟩

/-! ## What is found afterwards -/

theorem ext_consts {root m0 : Mod Item} {p : Loc} (hm : root.at p = some m0) :
    ∀ (l : List (String × Nat)) (c : Content Item) (i : List (Name × Option (Mod Item))),
    (l.map (·.1)).Nodup → (∀ e ∈ l, Identifier e.1 ∧ Unseen (root.modify p fun _ => .mk c i) p e.1.toList) →
    Ext (root.modify p fun _ => .mk c i) (root.modify p fun _ => .mk { c with consts := putConsts l c.consts } i) ∧
    (∀ y, (∀ e ∈ l, y ≠ e.1.toList) → Unseen (root.modify p fun _ => .mk c i) p y →
      Unseen (root.modify p fun _ => .mk { c with consts := putConsts l c.consts } i) p y)
  | [], c, i, _, _ => ⟨Ext.refl _, fun _ _ h => h⟩
  | e :: l, c, i, hn, h => by
    rw [List.map_cons, List.nodup_cons] at hn
    obtain ⟨hid, hsc⟩ := h e (by simp)
    have h0 := adds_put (at_modify_self (fun _ => Mod.mk c i) hm) .const (.const .u32 e.2) hid hsc
    rw [modify_comp] at h0
    have h0 : Adds (root.modify p fun _ => .mk c i)
      (root.modify p fun _ => .mk { c with consts := omIns e.1.toList (.const .u32 e.2) c.consts } i) p e.1.toList := h0
    obtain ⟨h1, h2⟩ := ext_consts hm l { c with consts := omIns e.1.toList (.const .u32 e.2) c.consts } i hn.2 (fun x hx =>
      ⟨(h x (List.mem_cons_of_mem _ hx)).1, h0.other (fun e' => hn.1 (String.toList_inj.mp e' ▸ List.mem_map_of_mem hx))
        (h x (List.mem_cons_of_mem _ hx)).2⟩)
    exact ⟨h0.ext.trans h1, fun y hy h3 => h2 y (fun x hx => hy x (List.mem_cons_of_mem _ hx)) (h0.other (hy e (by simp)) h3)⟩

theorem enum_names {r : Reading} {root : Mod Item} {p : Loc} {n : String} {vs : List (String × Nat)} (h : Declarable r root p (.enum n vs)) :
    (∀ e, e ∈ inOrder vs ↔ e ∈ vs) ∧ ((inOrder vs).map (·.1)).Nodup := by
  obtain ⟨hn, hne, hlen, hinc, hval, hfr⟩ := h
  rw [sort_inOrder hval]
  refine ⟨fun e => (sort_perm vs).mem_iff, (((sort_perm vs).map (·.1)).nodup_iff).mpr ?_⟩
  refine List.pairwise_map.mpr (hinc.imp ?_)
  intro a b h e
  rw [e] at h
  exact string_irrefl _ h

/-- The tree with the enumerators of an enumeration. -/
theorem enum_consts {r : Reading} {root : Mod Item} (hpr : Proper root) {p : Loc} {c : Content Item} {i : List (Name × Option (Mod Item))}
    (hm : root.at p = some (.mk c i)) {n : String} {vs : List (String × Nat)} (h : Declarable r root p (.enum n vs)) :
    Ext root (root.modify p fun _ => .mk { c with consts := putConsts (inOrder vs) c.consts } i) ∧
    Unseen (root.modify p fun _ => .mk { c with consts := putConsts (inOrder vs) c.consts } i) p n.toList := by
  obtain ⟨h1, h2⟩ := enum_names h
  have hsame := modify_same (proper_keys hpr) hm
  obtain ⟨h3, h4⟩ := ext_consts hm (inOrder vs) c i h2
    (fun e he => by rw [hsame]; have := (h.2.2.2.2.2 e ((h1 e).mp he)).1; exact ⟨this.1.1, this.2⟩)
  rw [hsame] at h3 h4
  exact ⟨h3, h4 n.toList (fun e he e' => (h.2.2.2.2.2 e ((h1 e).mp he)).2 (String.toList_inj.mp e').symm) h.1.2⟩

theorem enter_ext {r : Reading} {root m : Mod Item} {p : Loc} {d : Decl} (hpr : Proper root) (hm : root.at p = some m)
    (h : Declarable r root p d) : Ext root (enter p d root) := by
  rw [enter_at hm]
  obtain ⟨c, i⟩ := m
  cases d with
  | struct n q ms => exact (adds_put hm .struct (.ty (.struct (scopedStr p n) (Mems.ofList ms))) h.1.1.1 h.1.2).ext
  | union n u => exact (adds_put hm .union (.ty u.toTy) h.1.1.1 h.1.2).ext
  | «alias» n t => exact (adds_put hm .alias (.ty (.alias (scopedStr p n) t)) h.1.1.1 h.1.2).ext
  | const n i' => exact (adds_put hm .const i' h.1.1.1 h.1.2).ext
  | enum n vs =>
    obtain ⟨h1, h2⟩ := enum_consts hpr hm h
    have hm1 := at_modify_self (fun _ => Mod.mk { c with consts := putConsts (inOrder vs) c.consts } i) hm
    have hfr := (hasSymbol_false (free_symbol hm1 h2)).1 .enum
    have h3 := adds_mod (m1 := addDecl p (.enum n vs) (.mk c i)) hm1 (ident_ident h.1.1.1) h2 rfl
      (fun y => hasSymbol_put (m := .mk { c with consts := putConsts (inOrder vs) c.consts } i) (k := .enum) (x := n.toList) (v := .ty (.enum (scopedStr p n) .w4 vs)) y)
      (fun y hy j => by
        have := get_put (m := .mk { c with consts := putConsts (inOrder vs) c.consts } i) (v := .ty (.enum (scopedStr p n) .w4 vs)) hfr hy j
        refine Eq.trans ?_ this
        cases j <;> rfl)
    rw [modify_comp] at h3
    exact h1.trans h3.ext

theorem typeOf_at {root m : Mod Item} {p : Loc} (hm : root.at p = some m) (x : Name) : typeOf root false (.found p x) = some (
    match omGet m.content.aliases x with
        | some t => some t
        | none => match omGet m.content.unions x with
          | some t => some t
          | none => match omGet m.content.structs x with
            | some t => some t
            | none => omGet m.content.enums x) := by
  simp only [typeOf, hm, Bool.false_eq_true, false_and, if_false]
  cases omGet m.content.aliases x <;> cases omGet m.content.unions x <;> cases omGet m.content.structs x <;> rfl

/-- A type in a table of a module is found by its name, if no other table has the name. -/
theorem means_put {root m : Mod Item} {p : Loc} {k : Cat} (hk : k ≠ .const) {x : String} {T : Ty} (hm : root.at p = some (put k x.toList (.ty T) m))
    (hx : Usable x) (h : m.hasSymbol x.toList = false) :
    Lookup root p x.toList (.found p x.toList) ∧ typeOf root false (.found p x.toList) = some (some (.ty T)) := by
  have hs := hasSymbol_false h
  refine ⟨lookup_here hm (ident_colon hx.1) (by rw [hasSymbol_put]; simp), ?_⟩
  have n0 : ∀ j, omGet (m.content.get j) x.toList = none := fun j => omGet_eq_none.mpr (omHas_false_iff.mp (hs.1 j))
  have n1 := n0 .alias
  have n2 := n0 .union
  have n3 := n0 .struct
  have g : ∀ t : List (Name × Item), omGet t x.toList = none → omGet (omIns x.toList (.ty T) t) x.toList = some (Item.ty T) := by
    intro t ht; rw [omGet_omIns (omGet_eq_none.mp ht), if_pos rfl]
  have g4 := g _ (n0 k)
  rw [typeOf_at hm]
  unfold put
  cases m with
  | mk c i =>
  cases k with
  | const => exact absurd rfl hk
  | «alias» =>
    simp only [Content.set, Content.get, Mod.content] at n1 n2 n3 g4 ⊢
    rw [g4]
  | union =>
    simp only [Content.set, Content.get, Mod.content] at n1 n2 n3 g4 ⊢
    rw [n1]; dsimp only; rw [g4]
  | struct =>
    simp only [Content.set, Content.get, Mod.content] at n1 n2 n3 g4 ⊢
    rw [n1]; dsimp only; rw [n2]; dsimp only; rw [g4]
  | enum =>
    simp only [Content.set, Content.get, Mod.content] at n1 n2 n3 g4 ⊢
    rw [n1]; dsimp only; rw [n2]; dsimp only; rw [n3]; dsimp only; rw [g4]

theorem enter_found {r : Reading} {root m : Mod Item} {p : Loc} {d : Decl} (hpr : Proper root) (hm : root.at p = some m)
    (h : Declarable r root p d) {T : Ty} (hT : declTy p d = some T) :
    Lookup (enter p d root) p (declName d).toList (.found p (declName d).toList) ∧
      typeOf (enter p d root) false (.found p (declName d).toList) = some (some (.ty T)) := by
  rw [enter_at hm]
  have hm1 := at_modify_self (fun _ => addDecl p d m) hm
  obtain ⟨c, i⟩ := m
  cases d with
  | struct n q ms =>
    rw [declTy, Option.some.injEq] at hT; subst hT
    exact means_put (m := .mk c i) (k := .struct) (by decide) hm1 h.1.1 (free_symbol hm h.1.2)
  | union n u =>
    rw [declTy, Option.some.injEq] at hT; subst hT
    exact means_put (m := .mk c i) (k := .union) (by decide) hm1 h.1.1 (free_symbol hm h.1.2)
  | «alias» n t =>
    rw [declTy, Option.some.injEq] at hT; subst hT
    exact means_put (m := .mk c i) (k := .alias) (by decide) hm1 h.1.1 (free_symbol hm h.1.2)
  | const n i => cases hT
  | enum n vs =>
    rw [declTy, Option.some.injEq] at hT; subst hT
    obtain ⟨h1, h2⟩ := enum_consts hpr hm h
    have h3 := free_symbol (at_modify_self _ hm) h2
    exact means_put (m := .mk { c with consts := putConsts (inOrder vs) c.consts, fromEnum := c.fromEnum ++ (inOrder vs).map (·.1.toList) } i)
      (k := .enum) (by decide) hm1 h.1.1 h3

theorem put_get : ∀ (l : List (String × Nat)) (t : List (Name × Item)), (l.map (·.1)).Nodup → (∀ e ∈ l, omHas t e.1.toList = false) →
    (∀ e ∈ l, omGet (putConsts l t) e.1.toList = some (.const .u32 e.2)) ∧
    ∀ y, (∀ e ∈ l, y ≠ e.1.toList) → omGet (putConsts l t) y = omGet t y
  | [], t, _, _ => ⟨fun e he => absurd he List.not_mem_nil, fun _ _ => rfl⟩
  | e :: l, t, hn, h => by
    rw [List.map_cons, List.nodup_cons] at hn
    have ne : ∀ x ∈ l, x.1.toList ≠ e.1.toList := fun x hx e' => hn.1 (String.toList_inj.mp e' ▸ List.mem_map_of_mem hx)
    have h0 := omHas_false_iff.mp (h e (by simp))
    obtain ⟨h1, h2⟩ := put_get l (omIns e.1.toList (.const .u32 e.2) t) hn.2 (fun x hx => by
      have := omHas_false_iff.mp (h x (List.mem_cons_of_mem _ hx))
      rw [omHas_false_iff, ((omIns_perm _ _ _).map (·.1)).mem_iff, List.map_cons, List.mem_cons, not_or]
      exact ⟨ne x hx, this⟩)
    refine ⟨fun x hx => ?_, fun y hy => ?_⟩
    · rcases List.mem_cons.mp hx with rfl | hx
      · exact (h2 x.1.toList fun y hy => (ne y hy).symm).trans (by rw [omGet_omIns h0, if_pos rfl])
      · exact h1 x hx
    · refine (h2 y fun x hx => hy x (List.mem_cons_of_mem _ hx)).trans ?_
      rw [omGet_omIns h0, if_neg (hy e (by simp)).symm]


/-- The names of the constants of a declaration. -/
theorem consts_ident {r : Reading} {root : Mod Item} {p : Loc} {d : Decl} (h : Declarable r root p d) :
    ∀ e ∈ declConsts d, Identifier e.1 := by
  intro e he
  cases d with
  | enum n vs =>
    obtain ⟨x, hx, rfl⟩ := List.mem_map.mp he
    exact (h.2.2.2.2.2 x hx).1.1.1
  | const n i =>
    rw [declConsts, List.mem_singleton] at he
    subst he
    exact h.1.1.1
  | struct n q ms => cases he
  | union n u => cases he
  | «alias» n t => cases he

/-- The constants and the enumerators are constants. -/
theorem enter_consts {r : Reading} {root m : Mod Item} {p : Loc} {d : Decl} (hm : root.at p = some m)
    (h : Declarable r root p d) : ∀ e ∈ declConsts d,
      Lookup (enter p d root) p e.1.toList (.found p e.1.toList) ∧
      fetch (enter p d root) .const (.found p e.1.toList) = some e.2 := by
  intro e he
  have hid := consts_ident h e he
  rw [enter_at hm]
  have hm1 := at_modify_self (fun _ => addDecl p d m) hm
  have hg : omGet ((addDecl p d m).content.get .const) e.1.toList = some e.2 := by
    obtain ⟨c, i⟩ := m
    cases d with
    | enum n vs =>
      obtain ⟨x, hx, rfl⟩ := List.mem_map.mp he
      obtain ⟨h1, h2⟩ := enum_names h
      exact (put_get (inOrder vs) c.consts h2 (fun x hx =>
            (hasSymbol_false (free_symbol hm (h.2.2.2.2.2 x ((h1 x).mp hx)).1.2)).1 .const)).1 x ((h1 x).mpr hx)
    | const n j =>
      rw [declConsts, List.mem_singleton] at he
      subst he
      have h0 : omHas c.consts n.toList = false := (hasSymbol_false (free_symbol hm h.1.2)).1 .const
      show omGet (omIns n.toList j c.consts) n.toList = some j
      rw [omGet_omIns (omHas_false_iff.mp h0), if_pos rfl]
    | struct n q ms => cases he
    | union n u => cases he
    | «alias» n t => cases he
  refine ⟨lookup_here hm1 (ident_colon hid) (has_of_get hg), ?_⟩
  rw [fetch, hm1]
  exact hg

end Verif.Idl.Syn
