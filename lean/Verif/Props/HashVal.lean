import Verif.Props.Eq
import Verif.Lemmas.HashVal
/-!
# C74: what a hash is made of

"The hash of a datum is computed from its value alone, part by part: that of a number is the hash of its bytes, that of
a string the hash of its characters, and the hashes of the elements of an array, the entries of a map, the parts of a
pair and the members of a structure are combined from the first to the last. So data that differ in their last part
only hash differently when those parts do, and different numbers hash differently."
-/

namespace Verif.Inst

/-- C74, partial: the hash of a datum is that of its value (`hashVal`), whatever else is in memory. Missing: bounded sequences
(`C12_fails_bounded_sequence`), and unions whose labels happen to be hashes of discriminators (`C12_fails_union`); the elements
of sequences and the members of unions do not count (`C74_fails_sequence`, `C74_fails_union`). -/
theorem C74_value_partial {d : Data} {u : Val} (h : d.ty.WF) (hh : Hashable d.ty) (hu : d.Holds u) (env : HashEnv) :
    d.hash env = .ok (hashVal env.str d.ty u) := by
  have := hashVal_ok (env := env) d.ty hh h u [] d.cells [] hu.2
  simp only [List.nil_append, List.append_nil, List.length_nil] at this
  exact this

set_option maxRecDepth 4096 in
/-- The data of the example of C12 again; here is its hash. -/
example (env : HashEnv) : ∃ w d, World.empty.run [.create 0 exH, .write 0 [.member "s"] (.value (.str .s8 [65, 66]))] = .ok w ∧
    w.vars 0 = some d ∧ d.hash env = .ok (hashCombine (hashCombine (hashCombine (env.str .s8 [65, 66]) 0)
      (hashCombine (hashCombine (env.str .s8 []) (env.str .s8 [])) (env.str .s8 []))) 0) := by
  refine ⟨_, _, rfl, rfl, ?_⟩
  rw [C74_value_partial (u := .list [.str [65, 66], .coll [], .list [.str [], .str [], .str []], .coll []])
    (by show exH.WF; simp [exH, Ty.WF, Mems.WF, Ty.array])
    (by show Hashable exH; simp [exH, Hashable, HashableAll, Ty.array]) ⟨rfl, rfl⟩ env]
  rfl

/-- Numbers of up to 8 bytes that differ hash differently. -/
theorem memHash_num {k : PK} {x y : List Byte} (hk : k ≠ .f128) (hx : x.length = k.size) (hy : y.length = k.size)
    (h : memHash x = memHash y) : x = y :=
  C07_hash_injective_8 (hx.trans hy.symm) (by rw [hx]; cases k <;> first | decide | exact absurd rfl hk) h

/-- C74, partial: numbers have the same hash only if they are the same, bit by bit. Missing: `long double`, which has more bits
than a hash. -/
theorem C74_number_partial {k : PK} (hk : k ≠ .f128) {d e : Data} {u v : Val} (hd : d.ty = .prim k) (he : e.ty = .prim k)
    (hu : d.Holds u) (hv : e.Holds v) (env : HashEnv) : ∃ x y, d.hash env = .ok x ∧ e.hash env = .ok y ∧ (x = y ↔ u = v) := by
  have w1 := C74_value_partial (u := u) (by rw [hd, Ty.WF]; trivial) (by rw [hd]; trivial) hu env
  have w2 := C74_value_partial (u := v) (by rw [he, Ty.WF]; trivial) (by rw [he]; trivial) hv env
  refine ⟨_, _, w1, w2, ?_⟩
  have h1 := hu.2
  have h2 := hv.2
  rw [hd, decode] at h1
  rw [he, decode] at h2
  obtain ⟨x, rfl, l1, _⟩ := decBytes_iff.mp h1
  obtain ⟨y, rfl, l2, _⟩ := decBytes_iff.mp h2
  rw [hd, he, hashVal, hashVal]
  exact ⟨fun h => by rw [memHash_num hk l1 l2 h], fun h => by rw [h]⟩

/-- C74: two numbers. -/
example : PK.i32 ≠ .f128 ∧ (numData .i32 [1, 0, 0, 0]).ty = .prim .i32 ∧ (numData .i32 [1, 0, 0, 0]).Holds (.bytes [1, 0, 0, 0]) ∧
    (numData .i32 [0, 0, 0, 1]).Holds (.bytes [0, 0, 0, 1]) := ⟨by decide, rfl, ⟨rfl, rfl⟩, ⟨rfl, rfl⟩⟩

theorem partsHash_snoc {hs : List (BitVec 64)} {x y : BitVec 64} (h : partsHash (hs ++ [x]) = partsHash (hs ++ [y])) : x = y := by
  cases hs with
  | nil => exact h
  | cons a r =>
    simp only [List.cons_append, partsHash, List.foldl_append, List.foldl_cons, List.foldl_nil] at h
    exact hashCombine_inj h

theorem hashVals_snoc {σ : SK → List Nat → BitVec 64} : (ms : Mems) → (us : List Val) → (u : Val) → (t : Ty) →
    Mems.tyAt ms us.length = some t → hashVals σ ms (us ++ [u]) = hashVals σ ms us ++ [hashVal σ t u]
  | .nil, us, _, _, h => by rw [Mems.tyAt] at h; cases h
  | .cons n t' r, [], u, t, h => by
    rw [List.length_nil, Mems.tyAt] at h; cases h
    cases r <;> simp [hashVals]
  | .cons n t' r, v :: us, u, t, h => by
    rw [List.length_cons, Mems.tyAt] at h
    rw [List.cons_append, hashVals, hashVals, hashVals_snoc r us u t h]
    rfl

/-- C74, partial: structures that differ in their last member only have the same hash only if these members do; `f` and `g`
are data with the values of the members. -/
theorem C74_last_member_partial {n : String} {ms : Mems} {t : Ty} {d e f g : Data} {us : List Val} {u v : Val}
    (h : (Ty.struct n ms).WF) (hh : Hashable (.struct n ms)) (hd : d.ty = .struct n ms) (he : e.ty = .struct n ms)
    (ht : Mems.tyAt ms us.length = some t) (hf : f.ty = t) (hg : g.ty = t) (hu : d.Holds (.list (us ++ [u])))
    (hv : e.Holds (.list (us ++ [v]))) (hfu : f.Holds u) (hgv : g.Holds v) (env : HashEnv) :
    ∃ x y a b, d.hash env = .ok x ∧ e.hash env = .ok y ∧ f.hash env = .ok a ∧ g.hash env = .ok b ∧ (x = y ↔ a = b) := by
  have hm : ∀ (ms : Mems) (i : Nat), ms.WF → HashableAll ms → Mems.tyAt ms i = some t → t.WF ∧ Hashable t := by
    intro ms
    induction ms using Mems.rec (motive_1 := fun _ => True) with
    | nil => intro i _ _ h; rw [Mems.tyAt] at h; cases h
    | cons n t' r _ ih =>
      intro i h1 h2 h3
      rw [Mems.WF] at h1
      rw [HashableAll] at h2
      cases i with
      | zero => rw [Mems.tyAt] at h3; cases h3; exact ⟨h1.1, h2.1⟩
      | succ i => rw [Mems.tyAt] at h3; exact ih i h1.2 h2.2 h3
    | _ => trivial
  have hw := h
  have hh' := hh
  rw [Ty.WF] at hw
  rw [Hashable] at hh'
  obtain ⟨tw, th⟩ := hm ms _ hw hh' ht
  refine ⟨_, _, _, _, C74_value_partial (hd ▸ h) (hd ▸ hh) hu env, C74_value_partial (he ▸ h) (he ▸ hh) hv env,
    C74_value_partial (hf ▸ tw) (hf ▸ th) hfu env, C74_value_partial (hg ▸ tw) (hg ▸ th) hgv env, ?_⟩
  have hs : ∀ w, hashVal env.str (.struct n ms) w = partsHash (hashVals env.str ms w.parts) := fun w => by rw [hashVal]
  rw [hd, he, hf, hg]
  simp only [hs, Val.parts, hashVals_snoc ms us _ t ht]
  exact ⟨partsHash_snoc, fun h => by rw [h]⟩

/-- `struct S {string s; uint16 x;}`. -/
def exHL : Ty := .struct "S" (.cons "s" (.str .s8 0) (.cons "x" (.prim .u16) .nil))

/-- C74: two structures as in the theorem. -/
example : exHL.WF ∧ Hashable exHL ∧ ∃ w d e, World.empty.run [.create 0 exHL,
    .write 0 [.member "s"] (.value (.str .s8 [65, 66])), .copy 1 0, .write 1 [.member "x"] (.value (.num .u16 [7, 0]))] = .ok w ∧
    w.vars 0 = some d ∧ w.vars 1 = some e ∧ d.Holds (.list ([.str [65, 66]] ++ [.bytes [0, 0]])) ∧
    e.Holds (.list ([.str [65, 66]] ++ [.bytes [7, 0]])) ∧ (numData .u16 [7, 0]).Holds (.bytes [7, 0]) := by
  refine ⟨?_, ?_, _, _, _, rfl, rfl, rfl, ⟨rfl, rfl⟩, ⟨rfl, rfl⟩, ⟨rfl, rfl⟩⟩
  · simp [exHL, Ty.WF, Mems.WF]
  · simp [exHL, Hashable, HashableAll]

/-- C74, partial: the same for arrays of strings, structures and the like. -/
theorem C74_last_element_partial {n : String} {c : Ty} {m : Nat} {d e f g : Data} {us : List Val} {u v : Val}
    (hc : c.isConstructed = true) (h : (Ty.arr n c m).WF) (hh : Hashable c) (hd : d.ty = .arr n c m) (he : e.ty = .arr n c m)
    (hf : f.ty = c) (hg : g.ty = c) (hu : d.Holds (.list (us ++ [u]))) (hv : e.Holds (.list (us ++ [v])))
    (hfu : f.Holds u) (hgv : g.Holds v) (env : HashEnv) :
    ∃ x y a b, d.hash env = .ok x ∧ e.hash env = .ok y ∧ f.hash env = .ok a ∧ g.hash env = .ok b ∧ (x = y ↔ a = b) := by
  have hw := h
  rw [Ty.WF] at hw
  have hha : Hashable (.arr n c m) := by rw [Hashable]; exact hh
  refine ⟨_, _, _, _, C74_value_partial (hd ▸ h) (hd ▸ hha) hu env, C74_value_partial (he ▸ h) (he ▸ hha) hv env,
    C74_value_partial (hf ▸ hw) (hf ▸ hh) hfu env, C74_value_partial (hg ▸ hw) (hg ▸ hh) hgv env, ?_⟩
  rw [hd, he, hf, hg, hashVal, hashVal]
  simp only [Val.parts, hc, Bool.true_eq_false, false_and, if_false, List.map_append, List.map_cons, List.map_nil]
  exact ⟨partsHash_snoc, fun h => by rw [h]⟩

/-- C74: two arrays as in the theorem. -/
example : (Ty.str .s8 0).isConstructed = true ∧ ((Ty.str .s8 0).array 2).WF ∧ ∃ w d e, World.empty.run
    [.create 0 ((Ty.str .s8 0).array 2), .copy 1 0, .write 1 [.index 1] (.value (.str .s8 [65]))] = .ok w ∧
    w.vars 0 = some d ∧ w.vars 1 = some e ∧ d.Holds (.list ([.str []] ++ [.str []])) ∧
    e.Holds (.list ([.str []] ++ [.str [65]])) := by
  refine ⟨rfl, ?_, _, _, _, rfl, rfl, rfl, ⟨rfl, rfl⟩, ⟨rfl, rfl⟩⟩
  simp [Ty.array, Ty.WF]

/-- C74 fails in general: whatever is in an unbounded sequence, its hash is 0. -/
theorem C74_fails_sequence (env : HashEnv) : ∃ w d e, World.empty.run [.create 0 (.seq (.prim .u16) 0), .copy 1 0,
    .write 1 [] (.pushHost (.num .u16 [7, 0]))] = .ok w ∧ w.vars 0 = some d ∧ w.vars 1 = some e ∧
    d.Holds (.coll []) ∧ e.Holds (.coll [.bytes [7, 0]]) ∧ d.eq e = .ok false ∧ d.hash env = .ok 0 ∧ e.hash env = .ok 0 :=
  ⟨_, _, _, rfl, rfl, rfl, ⟨rfl, rfl⟩, ⟨rfl, rfl⟩, rfl, rfl, rfl⟩

/-- `union U switch (int32) {case 1: uint8 a;}`. -/
def exHU : Ty := .union "U" (.prim .i32) (.cons "a" (.prim .u8) .nil) ⟨[(1, "a")], 2 ^ 31 - 1, 2 ^ 31 - 2, 2 ^ 31 - 2⟩

/-- C74 fails in general: the value of the selected member of a union does not count. -/
theorem C74_fails_union (env : HashEnv) : ∃ w d e, World.empty.run [.create 0 exHU,
    .write 0 [.member "a"] (.value (.num .u8 [5])), .copy 1 0, .write 1 [.member "a"] (.value (.num .u8 [6]))] = .ok w ∧
    w.vars 0 = some d ∧ w.vars 1 = some e ∧ d.Holds (.un (.bytes [1, 0, 0, 0]) "a" (.bytes [5])) ∧
    e.Holds (.un (.bytes [1, 0, 0, 0]) "a" (.bytes [6])) ∧ d.eq e = .ok false ∧
    ∃ x, d.hash env = .ok x ∧ e.hash env = .ok x := by
  refine ⟨_, _, _, rfl, rfl, rfl, ⟨rfl, rfl⟩, ⟨rfl, rfl⟩, rfl, ?_⟩
  have hl : memHash [1, 0, 0, 0] ≠ 1 := by
    unfold memHash hash64
    rw [hashLoop_short (by decide) (by decide)]
    decide
  have key : ∀ z : Byte, Data.hash env ⟨exHU, rawCells [1, 0, 0, 0, z], true⟩ = .ok (memHash [1, 0, 0, 0]) := by
    intro z
    have h1 := bytes_at env [] (rawCells [z]) [1, 0, 0, 0] 4 rfl
    rw [Data.hash]
    show instHash env exHU (rawCells [1, 0, 0, 0, z]) 0 = _
    rw [exHU, instHash]
    rw [show instHash env (.prim .i32) (rawCells [1, 0, 0, 0, z]) 0 = .ok (memHash [1, 0, 0, 0]) from by
      rw [instHash]; exact raw_hash h1]
    have : omGet [((1 : Int), "a")] (memHash [1, 0, 0, 0]).toInt = none := by
      unfold memHash hash64
      rw [hashLoop_short (by decide) (by decide)]
      decide
    simp only [Except.bind, this]
  exact ⟨_, key 5, key 6⟩

end Verif.Inst
