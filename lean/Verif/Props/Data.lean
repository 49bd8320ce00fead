import Verif.Lemmas.Data
import Verif.Lemmas.UnionWF
/-!
# Construction, copies, lifetime (C16, C17, C30)

`d.Holds v`: the block of the datum `d` holds a live instance of its type with value `v` (`decode`, see
`Verif.Spec.Inst`); `defVal T`: the default value.
-/

namespace Verif.Inst

/-! ## C16 -/

/-- C16, partial: constructing a datum succeeds, loses nothing, and gives a live instance with the default value in
which every part is constructed. Missing: types with a union that is not well-formed (`Ty.WF`), see
`C16_default_fails_reserved_label` and `C16_default_fails_narrow_enum`. -/
theorem C16_default_construction_partial {T : Ty} (h : T.WF) :
    ∃ d, Data.create T = .ok (d, 0) ∧ d.ty = T.rget ∧ d.Holds (defVal T) ∧ d.Tidy := create_ok h

/-- C16, partial: construction in the middle of a larger block (as it happens for members and elements) changes nothing
around the instance, whatever the memory held before. -/
theorem C16_construct_in_place_partial {T : Ty} (h : T.WF) (pre old post : List Cell) (lk : Nat)
    (ho : old.length = T.memSize) :
    ∃ new lk', construct T pre.length ⟨pre ++ old ++ post, lk⟩ = .ok ⟨pre ++ new ++ post, lk'⟩ ∧
      new.length = T.memSize ∧ decode T new = some (defVal T) := by
  obtain ⟨new, d, hr, hl, hd, _⟩ := construct_ok T h pre old post lk ho
  exact ⟨new, _, hr, hl, hd⟩

/-- C16, partial: every union a program can build can be constructed, unless its discriminator is an enumeration of 8
or 16 bits or a label is the value kept for "no member". -/
theorem C16_built_union_partial {u : UnionB} (h : u.Built) (hd : discOk u.disc)
    (hi : omGet u.labels u.invalidValue = none) (hm : ∀ m ∈ u.agg.members.tail, m.ty.WF) :
    ∃ d, Data.create u.toTy = .ok (d, 0) ∧ d.Holds (defVal u.toTy) := by
  obtain ⟨d, h1, _, h2, _⟩ := create_ok (u.built_wf h hd hi hm)
  exact ⟨d, h1, h2⟩

/-- A union over a 32-bit integer: the default case "s" holds a string, case 1 a sequence. -/
def exU : UnionB :=
  match UnionB.new "U" (.prim .i32) with
  | some u => ((u.addCase [1] "q" (.seq (.prim .u16) 0) false).1.addCase [] "s" (.str .s8 0) true).1
  | none => ⟨"", Agg.empty, [], 0, 0, 0, 0, 0⟩

theorem exU_built : exU.Built := .add _ _ _ _ (.add _ _ _ _ (.new "U" (.prim .i32) rfl))

theorem exU_wf : exU.toTy.WF := by
  refine exU.built_wf exU_built ?_ (by decide) ?_
  · show discOk (.prim .i32); simp [discOk, Ty.rget, PK.isFloat]
  · intro m hm
    have : m ∈ [(⟨"q", .seq (.prim .u16) 0, 4⟩ : SMem), ⟨"s", .str .s8 0, 4⟩] := hm
    simp only [List.mem_cons, List.not_mem_nil, or_false] at this
    rcases this with rfl | rfl <;> simp [Ty.WF]

/-- The default value of that union: the string selected and empty. -/
example : ∃ d, Data.create exU.toTy = .ok (d, 0) ∧ d.Holds (.un (.bytes [255, 255, 255, 127]) "s" (.str [])) := by
  obtain ⟨d, h1, h2⟩ := C16_built_union_partial exU_built (by show discOk (.prim .i32); simp [discOk, Ty.rget, PK.isFloat])
    (by decide) (by
      intro m hm
      have : m ∈ [(⟨"q", .seq (.prim .u16) 0, 4⟩ : SMem), ⟨"s", .str .s8 0, 4⟩] := hm
      simp only [List.mem_cons, List.not_mem_nil, or_false] at this
      rcases this with rfl | rfl <;> simp [Ty.WF])
  exact ⟨d, h1, h2⟩

/-- C16 fails: when a label is the value kept for "no member" (which `add_case_member` accepts), the constructed datum
claims to have that member selected although it was never constructed; assigning to it then destroys a string that is
not there. -/
theorem C16_default_fails_reserved_label :
    ∃ u : UnionB, u.Built ∧ (∃ (u0 : UnionB) (l : List Int) (n : String) (t : Ty), u0.Built ∧ u0.addCase l n t false = (u, true)) ∧
      ∃ d lk, Data.create u.toTy = .ok (d, lk) ∧ (∀ v, ¬ d.Holds v) ∧
        d.write [.member "s"] (.value (.str .s8 [65])) = .error .ub := by
  have hb : ∀ u0, UnionB.new "U" (.prim .i32) = some u0 → u0.Built := fun u0 h => .new _ _ h
  obtain ⟨u0, hu0⟩ : ∃ u0, UnionB.new "U" (.prim .i32) = some u0 := ⟨_, rfl⟩
  refine ⟨(u0.addCase [2147483646] "s" (.str .s8 0) false).1, .add _ _ _ _ (hb _ hu0),
    ⟨u0, [2147483646], "s", .str .s8 0, hb _ hu0, ?_⟩, ?_⟩
  · cases hu0; decide
  · cases hu0
    refine ⟨_, _, rfl, ?_, rfl⟩
    rintro v ⟨_, hv⟩
    exact absurd (show (none : Option Val) = some v from hv) (by simp)

/-- C16 fails: a discriminator that is an enumeration of 8 bits is written as 32 bits, past the end of the block when
the members are small. -/
theorem C16_default_fails_narrow_enum :
    ∃ u : UnionB, u.Built ∧ Data.create u.toTy = .error .ub := by
  obtain ⟨u0, hu0⟩ : ∃ u0, UnionB.new "U" (.enum "E" .w1 [("A", 0)]) = some u0 := ⟨_, rfl⟩
  refine ⟨(u0.addCase [0] "a" (.prim .u8) false).1, .add _ _ _ _ (.new _ _ hu0), ?_⟩
  cases hu0; rfl

/-! ## C17 -/

/-- C17, partial: copying a datum gives one that holds exactly the same value. Missing: types with unions that are not
well-formed, types that are not `Copyable` (see the negative theorems), and values with an unselected union, which are
refused (`C17_unselected_refused`). -/
theorem C17_copy_exact_partial {d : Data} {v : Val} (ha : d.ty.rget = d.ty) (h : d.ty.WF) (hc : d.ty.Copyable)
    (hv : d.Holds v) (hs : v.Selected) :
    ∃ e lk, Data.copyOf d = .ok (e, lk) ∧ e.ty = d.ty ∧ e.Holds v ∧
      (∀ q u, d.Reads q u → e.Reads q u) ∧ (d.ty.Tight → lk = 0) := by
  obtain ⟨e, lk, h1, h2, h3, h4⟩ := copyOf_ok h hc hv hs ha
  refine ⟨e, lk, h1, h2, h3, ?_, fun ht => (h4 ht).1⟩
  rintro q u ⟨t, cs, hr, hd⟩
  have hd1 := locate_reads q d.ty h [] d.cells [] v hv.2
  have he1 := locate_reads q d.ty h [] e.cells [] v (h2 ▸ h3.2)
  simp only [List.nil_append, List.append_nil, List.length_nil] at hd1 he1
  cases hval : valAt q d.ty v with
  | none =>
    have := hd1.2 hval
    rw [Data.read, this] at hr; cases hr
  | some z =>
    obtain ⟨t1, x1, -, e1, e2⟩ := hd1.1 z hval
    rw [Data.read, e1] at hr; cases hr
    rw [hd] at e2; cases e2
    obtain ⟨t2, x2, -, e3, e4⟩ := he1.1 u hval
    exact ⟨t2, x2, by rw [Data.read, h2]; exact e3, e4⟩

/-- C17, partial: a copy into the middle of any block reads the instance wherever it is in the source block and changes
only the target. -/
theorem C17_copy_in_place_partial {T : Ty} (h : T.WF) (hc : T.Copyable) {src : List Cell} {v : Val}
    (hv : decode T src = some v) (hs : v.Selected) (spre spost pre old post : List Cell) (lk : Nat)
    (ho : old.length = T.memSize) :
    ∃ new lk', copy T (spre ++ src ++ spost) spre.length pre.length ⟨pre ++ old ++ post, lk⟩ =
        .ok ⟨pre ++ new ++ post, lk'⟩ ∧ new.length = T.memSize ∧ decode T new = some v := by
  obtain ⟨new, d, hr, hl, hd, _⟩ := copy_ok T h hc src v hv hs spre spost pre old post lk ho
  exact ⟨new, _, hr, hl, hd⟩

/-- The variable a statement defines, changes or ends. -/
def Op.target : Op → List Nat
  | .create x _ => [x]
  | .convert x _ _ _ => [x]
  | .copy x _ => [x]
  | .move x y => [x, y]
  | .assign x _ => [x]
  | .write x _ _ => [x]
  | .dispose x => [x]

theorem exec_frame {w w' : World} {op : Op} {z : Nat} (h : w.exec op = .ok w') (hz : z ∉ op.target) :
    w'.vars z = w.vars z := by
  have key : ∀ x d lk, z ≠ x → (w.set x d lk).vars z = w.vars z := fun x d lk hx => if_neg hx
  cases op with
  | create x T =>
    simp only [Op.target, List.mem_singleton] at hz
    simp only [World.exec] at h
    split at h
    · cases e : Data.create T with
      | error _ => rw [e] at h; cases h
      | ok r => rw [e] at h; cases h; exact key _ _ _ hz
    · cases h
  | convert x y q T =>
    simp only [Op.target, List.mem_singleton] at hz
    simp only [World.exec] at h
    split at h
    · cases e : w.fetch y q with
      | error _ => rw [e] at h; cases h
      | ok s =>
        rw [e] at h
        simp only [Except.bind] at h
        cases e2 : Data.convert T s.1 s.2 with
        | error _ => rw [e2] at h; cases h
        | ok r => rw [e2] at h; cases h; exact key _ _ _ hz
    · cases h
  | copy x y =>
    simp only [Op.target, List.mem_singleton] at hz
    simp only [World.exec] at h
    split at h
    · rename_i d _ _
      cases e : Data.copyOf d with
      | error _ => rw [e] at h; cases h
      | ok r => rw [e] at h; cases h; exact key _ _ _ hz
    · cases h
  | move x y =>
    simp only [Op.target, List.mem_cons, List.not_mem_nil, or_false, not_or] at hz
    simp only [World.exec] at h
    split at h
    · rename_i d _ _
      cases e : Data.moveOf d with
      | error _ => rw [e] at h; cases h
      | ok r =>
        rw [e] at h; cases h
        simp only [World.set, if_neg hz.1, if_neg hz.2]
    · cases h
  | assign x y =>
    simp only [Op.target, List.mem_singleton] at hz
    simp only [World.exec] at h
    split at h
    · rename_i d e _ _
      split at h
      · cases e : Data.assignSelf d with
        | error _ => rw [e] at h; cases h
        | ok r => rw [e] at h; cases h; exact key _ _ _ hz
      · split at h
        · cases e2 : Data.assignOver d e.ty e.cells with
          | error _ => rw [e2] at h; cases h
          | ok r => rw [e2] at h; cases h; exact key _ _ _ hz
        · cases h
    · cases h
  | write x p a =>
    simp only [Op.target, List.mem_singleton] at hz
    simp only [World.exec] at h
    split at h
    · rename_i d _
      cases e : a.resolve w with
      | error _ => rw [e] at h; cases h
      | ok o =>
        rw [e] at h
        simp only [Except.bind] at h
        cases e2 : Data.write d p o with
        | error _ => rw [e2] at h; cases h
        | ok r => rw [e2] at h; cases h; exact key _ _ _ hz
    · cases h
  | dispose x =>
    simp only [Op.target, List.mem_singleton] at hz
    simp only [World.exec] at h
    split at h
    · rename_i d _
      cases e : Data.dispose d with
      | error _ => rw [e] at h; cases h
      | ok r => rw [e] at h; cases h; exact key _ _ _ hz
    · cases h

theorem run_frame {z : Nat} : (ops : List Op) → (w w' : World) → w.run ops = .ok w' → (∀ op ∈ ops, z ∉ op.target) →
    w'.vars z = w.vars z
  | [], w, w', h, _ => by rw [World.run] at h; cases h; rfl
  | op :: ops, w, w', h, hz => by
    rw [World.run] at h
    cases e : w.exec op with
    | error _ => rw [e] at h; cases h
    | ok w1 =>
      rw [e] at h
      rw [run_frame ops w1 w' h fun o ho => hz o (by simp [ho]), exec_frame e (hz op (by simp))]

/-- C17, partial: after `DynamicData x(y)` both hold the same value, and whatever is done later with `y` and other
variables leaves the copy as it is, even when `y` is destroyed; and the other way round. (That no block is shared
between two data is a property of the memory model, see the head of `Verif.Model.Inst` for why the code allows it.) -/
theorem C17_copy_independent_partial {w w1 w2 : World} {x y : Nat} {d : Data} {v : Val} (hy : w.vars y = some d)
    (ha : d.ty.rget = d.ty) (h : d.ty.WF) (hc : d.ty.Copyable) (hv : d.Holds v) (hs : v.Selected)
    (hx : w.vars x = none) (h1 : w.exec (.copy x y) = .ok w1) (ops : List Op) (h2 : w1.run ops = .ok w2) :
    ((∀ op ∈ ops, x ∉ op.target) → ∃ e, w2.vars x = some e ∧ e.Holds v) ∧
    ((∀ op ∈ ops, y ∉ op.target) → w2.vars y = some d) := by
  have hxy : y ≠ x := by rintro rfl; rw [hx] at hy; cases hy
  obtain ⟨e, lk, hr, _, hh, _⟩ := copyOf_ok h hc hv hs ha
  simp only [World.exec, hx, hy, hr, Except.map] at h1
  cases h1
  constructor
  · intro hz
    rw [run_frame ops _ _ h2 hz]
    exact ⟨e, if_pos rfl, hh⟩
  · intro hz
    rw [run_frame ops _ _ h2 hz]
    exact (if_neg hxy).trans hy

/-- C17: the copy of a datum with an unselected union outside its collections is refused. -/
theorem C17_unselected_refused {d : Data} {v : Val} (h : d.ty.WF) (hc : d.ty.Copyable) (hv : d.Holds v)
    (hs : ¬ v.Selected) : Data.copyOf d = .error .refused := copyOf_refused h hc hv hs

/-- C17: such data exist: a new union without default. -/
example : ∃ w, World.empty.run [.create 0 (.union "U" (.prim .i32) (.cons "a" (.prim .u8) .nil)
      ⟨[(1, "a")], 2147483647, 2147483646, 2147483646⟩)] = .ok w ∧ w.exec (.copy 1 0) = .error .refused :=
  ⟨_, rfl, rfl⟩

/-- A union over a 32-bit integer with default member `a`. -/
def exD : Ty := .union "U" (.prim .i32) (.cons "a" (.prim .u8) .nil)
  ⟨[(2147483647, "a")], 2147483647, 2147483646, 2147483647⟩

/-- C17 fails: copying a sequence whose elements are of an alias of a union type uses the alias as if it were the
union. -/
theorem C17_copy_fails_alias_of_union :
    ∃ w, World.empty.run [.create 0 (.seq (.alias "A" exD) 0), .write 0 [] (.resize 1)] = .ok w ∧
      w.exec (.copy 1 0) = .error .ub := ⟨_, rfl, rfl⟩

/-- C17 fails: copying a sequence of 8-bit enumerators reads 32 bits of each. -/
theorem C17_copy_fails_narrow_enum :
    ∃ w, World.empty.run [.create 0 (.seq (.enum "E" .w1 [("A", 0)]) 0), .write 0 [] (.resize 1)] = .ok w ∧
      w.exec (.copy 1 0) = .error .ub := ⟨_, rfl, rfl⟩

/-- A structure with a string, a sequence of strings and a union, its sequence filled, can be copied. -/
def exS : Ty := .struct "S" (.cons "s" (.str .s8 0) (.cons "q" (.seq (.str .s8 0) 0) (.cons "u" exD .nil)))

example : ∃ w w' e, World.empty.run [.create 0 exS, .write 0 [.member "q"] (.pushHost (.str .s8 [65, 66])),
      .write 0 [.member "q"] (.pushHost (.str .s8 [67])), .write 0 [.member "s"] (.value (.str .s8 [68]))] = .ok w ∧
    w.run [.copy 1 0, .dispose 0] = .ok w' ∧ w'.vars 1 = some e ∧
    e.Holds (.list [.str [68], .coll [.str [65, 66], .str [67]], .un (.bytes [255, 255, 255, 127]) "a" (.bytes [0])]) ∧
    w'.leaked = 0 :=
  ⟨_, _, _, rfl, rfl, rfl, ⟨rfl, rfl⟩, rfl⟩

theorem exS_ok : exS.WF ∧ exS.Copyable ∧ exS.Tight ∧ exS.rget = exS := by
  refine ⟨?_, ?_, ?_, rfl⟩
  · simp only [exS, exD, Ty.WF, Mems.WF, and_true, true_and]
    refine ⟨by simp [discOk, Ty.rget, PK.isFloat], ⟨by decide, ?_, by decide, by decide, by decide⟩⟩
    intro l n h
    have : l = 2147483647 ∧ n = "a" := by
      simp only [UInfo.case, omGet, List.find?] at h
      split at h
      · rename_i hl; simp at hl h; exact ⟨hl.symm, h.symm⟩
      · cases h
    obtain ⟨rfl, rfl⟩ := this
    exact ⟨by decide, rfl⟩
  · simp [exS, exD, Ty.Copyable, Mems.Copyable, Ty.Plain]
  · simp [exS, exD, Ty.Tight, Mems.Tight, Ty.Light]

/-! ## C30 -/

/-- C30, partial: whatever program of allowed statements ran before, an allowed statement is executed without undefined
behaviour: no object is used before construction or after destruction, nothing outside the blocks is touched. Missing:
exactly what `Allowed` excludes, see the negative theorems below. -/
theorem C30_no_undefined_behaviour_partial {w : World} {op : Op} (h : Reach w) (ha : Allowed w op) :
    (∃ w', w.exec op = .ok w') ∨ w.exec op = .error .refused := by
  rcases exec_ok (reach_ok h) ha with hr | ⟨w', hr, _⟩
  · exact .inr hr
  · exact .inl ⟨w', hr⟩

/-- C30, partial: at every moment every string, sequence and map that was created is either alive in some variable or
was destroyed, exactly once: the number of owning objects overwritten or dropped without destruction is 0, every
variable holds a live instance (or, moved from, owns nothing). -/
theorem C30_no_leak_partial {w : World} (h : Reach w) :
    w.leaked = 0 ∧ ∀ x d, w.vars x = some d →
      (d.init = true → (∃ v, d.Holds v) ∧ d.Tidy) ∧ (d.init = false → owned d.cells = 0) := by
  obtain ⟨h0, hx⟩ := reach_ok h
  exact ⟨h0, fun x d hd => (hx x d hd).2.2.2⟩

/-- C30, partial: the end of a variable returns everything it owns. -/
theorem C30_dispose_returns_all_partial {w : World} {x : Nat} {d : Data} (h : Reach w) (hx : w.vars x = some d) :
    d.dispose = .ok 0 := by
  obtain ⟨hw, _, _, hi, h0⟩ := (reach_ok h).2 x d hx
  cases he : d.init with
  | true => obtain ⟨⟨v, hv⟩, ht⟩ := hi he; exact dispose_ok hw hv ht
  | false => simp [Data.dispose, he, Except.map, h0 he]

theorem exec_assign {w : World} {x y : Nat} {d e : Data} (hx : w.vars x = some d) (hy : w.vars y = some e) (h : x ≠ y)
    (ht : d.ty = e.ty) : w.exec (.assign x y) = ((destroy d.ty 0 ⟨d.cells, 0⟩).bind (copy d.ty e.cells 0 0)).map fun m =>
      w.set x (some { d with cells := m.cells }) m.leaked := by
  simp only [World.exec, hx, hy, if_neg h, Data.assignOver, ← ht, C20_compat_refl, if_true]
  cases (destroy d.ty 0 ⟨d.cells, 0⟩).bind (copy d.ty e.cells 0 0) <;> rfl

set_option maxRecDepth 8192 in
/-- A program of allowed statements: construct, push, copy, write, assign, push a part of another datum, destroy. -/
example : ∃ w d, Reach w ∧ w.vars 0 = none ∧ w.vars 1 = some d ∧
    d.Holds (.list [.str [68], .coll [.str [65, 66], .str [68]], .un (.bytes [255, 255, 255, 127]) "a" (.bytes [0])]) := by
  obtain ⟨hw, hc, ht, hr⟩ := exS_ok
  have h1 : Reach _ := .step (.create 0 exS) .empty ⟨rfl, hw, ht⟩ rfl
  have h2 : Reach _ := .step (.write 0 [.member "q"] (.pushHost (.str .s8 [65, 66]))) h1
    (by
      refine ⟨_, rfl, rfl, trivial, ?_⟩
      intro op hop; cases hop
      refine ⟨fun t _ => by simp [RefOp.Ok, Host.WF], ?_⟩
      intro v hv; cases hv; exact fun h => by cases h) rfl
  have h3 : Reach _ := .step (.copy 1 0) h2 ⟨rfl, _, rfl, rfl, hc⟩ rfl
  have h4 : Reach _ := .step (.write 0 [.member "s"] (.value (.str .s8 [68]))) h3
    (by
      refine ⟨_, rfl, rfl, trivial, ?_⟩
      intro op hop; cases hop
      refine ⟨fun t _ => by simp [RefOp.Ok, Host.WF], ?_⟩
      intro v hv; cases hv; exact fun h => by cases h) rfl
  have h5 : Reach _ := .step (.assign 1 0) h4 ⟨by decide, _, _, rfl, rfl, rfl, rfl, rfl, hc⟩
    (Eq.trans (exec_assign (x := 1) (y := 0) rfl rfl (by decide) rfl) rfl)
  have h6 : Reach _ := .step (.write 1 [.member "q"] (.push 0 [.member "s"])) h5
    (by
      refine ⟨_, rfl, rfl, ⟨_, rfl, rfl, .inl (by decide), .str .s8 0, 0, rfl, rfl⟩, ?_⟩
      intro op hop; cases hop
      refine ⟨fun t htt => ?_, ?_⟩
      · cases htt
        refine ⟨by simp [Ty.Copyable], by simp [Ty.Movable], ?_⟩
        intro w hw; cases hw; simp [Val.Selected]
      · intro v hv; cases hv; exact fun h => by cases h) rfl
  have h7 : Reach _ := .step (.dispose 0) h6 ⟨_, rfl⟩ rfl
  exact ⟨_, _, h7, rfl, rfl, rfl, rfl⟩

/-- C30 fails: self-assignment copies from the string just destroyed. -/
theorem C30_self_assignment_fails :
    ∃ w, World.empty.run [.create 0 (.str .s8 0)] = .ok w ∧ w.exec (.assign 0 0) = .error .ub := by
  refine ⟨_, rfl, ?_⟩
  simp [World.exec, World.set, World.empty, Data.assignSelf, compat, Ty.rget]
  rfl

/-- C30 fails: after a move the old datum is not destroyed, although its contents were only copied: a string longer than
15 characters is lost. -/
theorem C30_move_leaks :
    ∃ w w', World.empty.run [.create 0 (.str .s8 0), .write 0 [] (.value (.str .s8 (List.replicate 20 65)))] = .ok w ∧
      w.leaked = 0 ∧ w.run [.move 1 0, .dispose 1, .dispose 0] = .ok w' ∧ w'.leaked = 1 :=
  ⟨_, _, rfl, rfl, rfl, rfl⟩

/-- C30 fails: elements that own memory when default-constructed (here strings with a bound above 15) are constructed
twice when a sequence is resized, and copied over when it is copied. -/
theorem C30_bounded_contents_leak :
    ∃ w, World.empty.run [.create 0 (.seq (.str .s8 20) 0), .write 0 [] (.resize 1), .copy 1 0, .dispose 0, .dispose 1]
      = .ok w ∧ w.leaked = 2 := ⟨_, rfl, rfl⟩

/-- A union without default whose member `q` is a sequence. -/
def exQ : Ty := .union "U" (.prim .i32) (.cons "q" (.seq (.prim .u16) 0) .nil)
  ⟨[(1, "q")], 2147483647, 2147483646, 2147483646⟩

set_option maxRecDepth 4096 in
/-- C30 fails: growing a sequence of unions moves a selected sequence over memory where none was constructed, after
destroying what is not there. -/
theorem C30_growth_fails_union_of_sequence :
    ∃ w, World.empty.run [.create 0 (.seq exQ 0), .write 0 [] (.resize 1),
        .write 0 [.index 0, .member "q"] .touch] = .ok w ∧ w.exec (.write 0 [] (.resize 2)) = .error .ub :=
  ⟨_, rfl, rfl⟩

/-- C30 fails: assignment between two union types that are `EQUALS` although their labels differ copies one member with
the type of another. -/
theorem C30_assign_fails_swapped_labels :
    ∃ (d e : Data) (v w : Val), d.ty.WF ∧ e.ty.WF ∧ compat d.ty e.ty = Cons.equals ∧ d.Holds v ∧ e.Holds w ∧
      w.Selected ∧ Data.assignOver d e.ty e.cells = .error .ub := by
  let T : Ty := .union "U" (.prim .u8) (.cons "a" (.str .s8 0) (.cons "b" (.prim .u8) .nil)) ⟨[(1, "a"), (2, "b")], 127, 126, 126⟩
  let S : Ty := .union "U" (.prim .u8) (.cons "a" (.str .s8 0) (.cons "b" (.prim .u8) .nil)) ⟨[(1, "b"), (2, "a")], 127, 126, 126⟩
  refine ⟨⟨T, .raw 2 :: .raw 7 :: List.replicate 31 (.raw 0), true⟩, ⟨S, .raw 1 :: .raw 9 :: List.replicate 31 (.raw 0), true⟩,
    .un (.bytes [2]) "b" (.bytes [7]), .un (.bytes [1]) "b" (.bytes [9]), ?_, ?_, ?_, ⟨rfl, rfl⟩, ⟨rfl, rfl⟩, ?_, ?_⟩
  · simp only [T, Ty.WF, Mems.WF, and_true]
    refine ⟨by simp [discOk, Ty.rget, PK.isFloat], ⟨by decide, ?_, by decide, by decide, by decide⟩⟩
    intro l n h
    have : (l = 1 ∧ n = "a") ∨ (l = 2 ∧ n = "b") := by
      simp only [UInfo.case, omGet, List.find?] at h
      split at h
      · rename_i hl; simp at hl h; exact .inl ⟨hl.symm, h.symm⟩
      · split at h
        · rename_i hl; simp at hl h; exact .inr ⟨hl.symm, h.symm⟩
        · cases h
    rcases this with ⟨rfl, rfl⟩ | ⟨rfl, rfl⟩ <;> exact ⟨by decide, rfl⟩
  · simp only [S, Ty.WF, Mems.WF, and_true]
    refine ⟨by simp [discOk, Ty.rget, PK.isFloat], ⟨by decide, ?_, by decide, by decide, by decide⟩⟩
    intro l n h
    have : (l = 1 ∧ n = "b") ∨ (l = 2 ∧ n = "a") := by
      simp only [UInfo.case, omGet, List.find?] at h
      split at h
      · rename_i hl; simp at hl h; exact .inl ⟨hl.symm, h.symm⟩
      · split at h
        · rename_i hl; simp at hl h; exact .inr ⟨hl.symm, h.symm⟩
        · cases h
    rcases this with ⟨rfl, rfl⟩ | ⟨rfl, rfl⟩ <;> exact ⟨by decide, rfl⟩
  · simp [T, S, compat, compatMems, Cons.or, Cons.equals, Cons.none]
  · simp [Val.Selected]
  · have : compat T S = Cons.equals := by simp [T, S, compat, compatMems, Cons.or, Cons.equals, Cons.none]
    rw [Data.assignOver, if_pos this]; rfl

end Verif.Inst
