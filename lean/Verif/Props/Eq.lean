import Verif.Lemmas.InstHash
import Verif.Lemmas.Names
import Verif.Props.Access
import Verif.Props.Hash
/-!
# Equality, hashes and names of data (C19, C12, C50)

`Same false T u v` (Verif.Spec.Eq): all leaves of the values agree, numbers in the sense of `==`.
-/

namespace Verif.Inst

theorem eq_same {d e : Data} {u v : Val} (h : d.ty.WF) (ht : e.ty = d.ty) (hu : d.Holds u) (hv : e.Holds v) :
    ∃ b, d.eq e = .ok b ∧ (b = true ↔ Same true d.ty u v) := by
  have hv' := hv.2
  rw [ht] at hv'
  obtain ⟨b, h1, h2⟩ := compare_ok d.ty h [] d.cells [] [] e.cells [] u v hu.2 hv'
  simp only [List.nil_append, List.append_nil, List.length_nil] at h1
  refine ⟨b, ?_, h2⟩
  rw [Data.eq]
  split
  · rw [if_pos (by rw [ht])]; exact h1
  · exact h1

/-! ## C19 -/

/-- C19, partial: comparing two data of one type never fails, and the answer is whether all corresponding leaves agree.
Missing: types with collections of floating point numbers (`C19_fails_negative_zero`) and types that are not
well-formed. -/
theorem C19_leafwise_partial {d e : Data} {u v : Val} (h : d.ty.WF) (hf : NoFloatElems d.ty) (ht : e.ty = d.ty)
    (hu : d.Holds u) (hv : e.Holds v) : ∃ b, d.eq e = .ok b ∧ d.ne e = .ok (!b) ∧ (b = true ↔ Same false d.ty u v) := by
  obtain ⟨b, h1, h2⟩ := eq_same h ht hu hv
  refine ⟨b, h1, by rw [Data.ne, h1]; rfl, h2.trans ?_⟩
  exact same_bw d.ty hf h u v ⟨_, hu.2⟩ ⟨_, ht ▸ hv.2⟩

/-- C19: with collections of floating point numbers too, comparing two data of one type never fails, and the answer is
whether all corresponding leaves agree, direct elements of collections byte by byte. -/
theorem C19_defined_partial {d e : Data} {u v : Val} (h : d.ty.WF) (ht : e.ty = d.ty) (hu : d.Holds u) (hv : e.Holds v) :
    ∃ b, d.eq e = .ok b ∧ d.ne e = .ok (!b) ∧ (b = true ↔ Same true d.ty u v) := by
  obtain ⟨b, h1, h2⟩ := eq_same h ht hu hv
  exact ⟨b, h1, by rw [Data.ne, h1]; rfl, h2⟩

/-- C19, partial: equality is symmetric. -/
theorem C19_symmetric_partial {d e : Data} {u v : Val} (h : d.ty.WF) (ht : e.ty = d.ty) (hu : d.Holds u) (hv : e.Holds v) :
    d.eq e = e.eq d := by
  obtain ⟨b, h1, h2⟩ := eq_same h ht hu hv
  obtain ⟨c, h3, h4⟩ := eq_same (ht ▸ h : e.ty.WF) ht.symm hv hu
  rw [h1, h3]
  rw [ht] at h4
  have : b = true ↔ c = true := h2.trans ((⟨same_symm _ _ _, same_symm _ _ _⟩ : _ ↔ _).trans h4.symm)
  cases b <;> cases c <;> simp_all

/-- C19, partial: equality is transitive. -/
theorem C19_transitive_partial {d e f : Data} {u v w : Val} (h : d.ty.WF) (he : e.ty = d.ty) (hf : f.ty = d.ty)
    (hu : d.Holds u) (hv : e.Holds v) (hw : f.Holds w) (h1 : d.eq e = .ok true) (h2 : e.eq f = .ok true) :
    d.eq f = .ok true := by
  obtain ⟨a, e1, i1⟩ := eq_same h he hu hv
  obtain ⟨b, e2, i2⟩ := eq_same (he ▸ h : e.ty.WF) (hf.trans he.symm) hv hw
  obtain ⟨c, e3, i3⟩ := eq_same h hf hu hw
  rw [h1] at e1; cases e1
  rw [h2] at e2; cases e2
  rw [he] at i2
  rw [e3, i3.mpr (same_trans _ _ _ _ (i1.mp rfl) (i2.mp rfl))]

/-- C19, partial: a datum in which no number is a `nan` equals itself, and every datum with the same value. -/
theorem C19_reflexive_partial {d e : Data} {u : Val} (h : d.ty.WF) (ht : e.ty = d.ty) (hu : d.Holds u) (hv : e.Holds u)
    (hn : NoNan d.ty u) : d.eq e = .ok true := by
  obtain ⟨b, e1, i1⟩ := eq_same h ht hu hv
  rw [e1, i1.mpr (same_refl d.ty h u ⟨_, hu.2⟩ hn)]

/-- C19, partial: without floating point numbers, two data are equal exactly if they have the same value. -/
theorem C19_value_partial {d e : Data} {u v : Val} (h : d.ty.WF) (hf : NoFloats d.ty) (ht : e.ty = d.ty)
    (hu : d.Holds u) (hv : e.Holds v) : d.eq e = .ok true ↔ u = v := by
  obtain ⟨b, e1, i1⟩ := eq_same h ht hu hv
  rw [e1, ← same_eq (bw := true) d.ty hf h u v ⟨_, hu.2⟩ ⟨_, ht ▸ hv.2⟩, ← i1]
  constructor
  · intro h; cases h; rfl
  · intro h; rw [h]

/-- C19, partial: without floating point numbers, two data are equal exactly if no sequence of accesses can tell them
apart. -/
theorem C19_observational_partial {d e : Data} {u v : Val} (h : d.ty.WF) (hf : NoFloats d.ty) (ht : e.ty = d.ty)
    (hu : d.Holds u) (hv : e.Holds v) :
    d.eq e = .ok true ↔ ∀ (q : List Step) (w : Val), d.Reads q w ↔ e.Reads q w := by
  rw [C19_value_partial h hf ht hu hv]
  constructor
  · rintro rfl q w
    rw [(reads_iff h hu q).1 w, (reads_iff (ht ▸ h : e.ty.WF) hv q).1 w, ht]
  · intro hr
    have h1 := (hr [] u).mp (((reads_iff h hu []).1 u).mpr (by rw [valAt]))
    have h2 := ((reads_iff (ht ▸ h : e.ty.WF) hv []).1 u).mp h1
    rw [valAt] at h2
    exact (Option.some.inj h2).symm

set_option maxRecDepth 4096 in
/-- C19: data as in the theorems, of a type with all kinds of parts. -/
example : ∃ w d e, World.empty.run [.create 0 exS, .create 1 exS, .write 0 [.member "q"] (.resize 2)] = .ok w ∧
    w.vars 0 = some d ∧ w.vars 1 = some e ∧ exS.WF ∧ NoFloats exS ∧ NoFloatElems exS ∧ d.eq e = .ok false ∧ d.eq d = .ok true := by
  refine ⟨_, _, _, rfl, rfl, rfl, exS_ok.1, ?_, ?_, rfl, rfl⟩
  · simp [exS, exD, NoFloats, NoFloatsAll, PK.isFloat]
  · simp [exS, exD, NoFloatElems, NoFloatElemsAll]

/-- The floating point number with these bytes. -/
def numData (k : PK) (bs : List Byte) : Data := ⟨.prim k, rawCells bs, true⟩
/-- The array of two `float`s with these bytes. -/
def arrData (bs : List Byte) : Data := ⟨(Ty.prim .f32).array 2, rawCells bs, true⟩

/-- C19 fails in general: a `nan` differs from itself, an array of two of them does not. -/
theorem C19_fails_nan :
    (numData .f32 [0, 0, 192, 127]).Holds (.bytes [0, 0, 192, 127]) ∧
    (numData .f32 [0, 0, 192, 127]).eq (numData .f32 [0, 0, 192, 127]) = .ok false ∧
    (arrData [0, 0, 192, 127, 0, 0, 192, 127]).eq (arrData [0, 0, 192, 127, 0, 0, 192, 127]) = .ok true := by
  refine ⟨⟨rfl, rfl⟩, rfl, rfl⟩

/-- C19 fails in general: 0.0 equals -0.0, but the arrays (0.0, 1.0) and (-0.0, 1.0) differ. -/
theorem C19_fails_negative_zero :
    (numData .f32 [0, 0, 0, 0]).eq (numData .f32 [0, 0, 0, 128]) = .ok true ∧
    (arrData [0, 0, 0, 0, 0, 0, 128, 63]).eq (arrData [0, 0, 0, 128, 0, 0, 128, 63]) = .ok false ∧
    Same false ((Ty.prim .f32).array 2) (.list [.bytes [0, 0, 0, 0], .bytes [0, 0, 128, 63]])
      (.list [.bytes [0, 0, 0, 128], .bytes [0, 0, 128, 63]]) := by
  refine ⟨rfl, rfl, ?_⟩
  rw [Ty.array, Same]
  simp only [Bool.false_and, Bool.false_eq_true, if_false]
  refine ⟨rfl, ?_⟩
  intro i u v h1 h2
  match i, h1, h2 with
  | 0, h1, h2 => cases h1; cases h2; rfl
  | 1, h1, h2 => cases h1; cases h2; rfl
  | i + 2, h1, _ => cases h1

/-! ## C12 -/

/-- C12, partial: equal data have equal hashes, whatever else is in memory. Missing: floating point numbers
(`C12_fails_negative_zero`), bounded sequences (`C12_fails_bounded_sequence`), unions whose labels happen to be hashes
of discriminators (`C12_fails_union`), and types that are not well-formed. -/
theorem C12_equal_hash_partial {d e : Data} {u v : Val} (h : d.ty.WF) (hf : NoFloats d.ty) (hh : Hashable d.ty)
    (ht : e.ty = d.ty) (hu : d.Holds u) (hv : e.Holds v) (he : d.eq e = .ok true) (env env' : HashEnv)
    (hs : env.str = env'.str) : ∃ x, d.hash env = .ok x ∧ e.hash env' = .ok x := by
  have huv := (C19_value_partial h hf ht hu hv).mp he
  subst huv
  obtain ⟨x, hx⟩ := hash_ok (σ := env'.str) d.ty hh h u
  refine ⟨x, ?_, ?_⟩
  · have := hx env hs [] d.cells [] hu.2
    simp only [List.nil_append, List.append_nil, List.length_nil] at this
    exact this
  · have := hx env' rfl [] e.cells [] (ht ▸ hv.2)
    rw [← ht] at this
    simp only [List.nil_append, List.append_nil, List.length_nil] at this
    exact this

/-- A structure with a string, a map, an array and a sequence. -/
def exH : Ty := .struct "S" (.cons "s" (.str .s8 0) (.cons "m" (.map (.prim .u16) (.str .s8 0) 0)
  (.cons "a" ((Ty.str .s8 0).array 3) (.cons "q" (.seq (.prim .u16) 0) .nil))))

set_option maxRecDepth 4096 in
/-- C12: data as in the theorem. -/
example : exH.WF ∧ NoFloats exH ∧ Hashable exH ∧ ∃ w d, World.empty.run [.create 0 exH,
    .write 0 [.member "s"] (.value (.str .s8 [65, 66]))] = .ok w ∧ w.vars 0 = some d ∧ d.eq d = .ok true := by
  refine ⟨?_, ?_, ?_, _, _, rfl, rfl, rfl⟩
  · simp [exH, Ty.WF, Mems.WF, Ty.array]
  · simp [exH, NoFloats, NoFloatsAll, Ty.array, PK.isFloat]
  · simp [exH, Hashable, HashableAll, Ty.array]

theorem raw_hash {env : HashEnv} {cs : List Cell} {a n : Nat} {bs : List Byte} (h : env.bytes cs a n = .ok bs) :
    env.raw cs a n = .ok (memHash bs) := by
  rw [HashEnv.raw, h]; rfl

theorem num_hash {env : HashEnv} {k : PK} {bs : List Byte} (h : bs.length = k.size) :
    (numData k bs).hash env = .ok (memHash bs) := by
  rw [Data.hash, numData, instHash]
  have := bytes_at env [] [] bs k.size h
  simp only [List.nil_append, List.append_nil, List.length_nil] at this
  exact raw_hash this

/-- C12 fails in general: 0.0 and -0.0 are equal and have different hashes. -/
theorem C12_fails_negative_zero (env : HashEnv) : ∃ x y,
    (numData .f64 [0, 0, 0, 0, 0, 0, 0, 0]).eq (numData .f64 [0, 0, 0, 0, 0, 0, 0, 128]) = .ok true ∧
    (numData .f64 [0, 0, 0, 0, 0, 0, 0, 0]).hash env = .ok x ∧
    (numData .f64 [0, 0, 0, 0, 0, 0, 0, 128]).hash env = .ok y ∧ x ≠ y := by
  refine ⟨memHash [0, 0, 0, 0, 0, 0, 0, 0], memHash [0, 0, 0, 0, 0, 0, 0, 128], ?_, num_hash rfl, num_hash rfl, ?_⟩
  · have : primEq .f64 [0, 0, 0, 0, 0, 0, 0, 0] [0, 0, 0, 0, 0, 0, 0, 128] = true := by decide
    show (Except.ok (primEq .f64 _ _) : M Bool) = _
    rw [this]
  intro h
  exact absurd (C07_hash_injective_8 (by rfl) (by decide) h) (by decide)

theorem hashLoop_step {h : BitVec 64} {a b c d e f g i : Byte} {x : List Byte} :
    hashLoop h (a :: b :: c :: d :: e :: f :: g :: i :: x) = hashLoop (hashRound h (leWord [a, b, c, d, e, f, g, i])) x := by
  rw [hashLoop, if_pos (by simp)]; rfl

theorem hashLoop_nil {h : BitVec 64} : hashLoop h [] = h := by
  rw [hashLoop]; rfl

theorem hashRound_inj_left {g h v : BitVec 64} (e : hashRound g v = hashRound h v) : g = h := by
  have := hashM_inj e
  rw [BitVec.xor_comm g, BitVec.xor_comm h] at this
  exact xor_left_cancel this

/-- An empty bounded sequence of numbers. -/
def seqData : Data := ⟨.seq (.prim .u8) 4, .coll false (.prim .u8) 0 4 (zeroed 4) :: List.replicate (seqSize - 1) .tail, true⟩

theorem seq_hash {env : HashEnv} {bs : List Byte} (h : env.bytes seqData.cells 0 seqSize = .ok bs) :
    seqData.hash env = .ok (memHash bs) := by
  rw [Data.hash, seqData, instHash, if_pos (by decide)]
  rw [if_neg (by decide)]
  exact raw_hash h

set_option maxRecDepth 8192 in
/-- C12 fails in general: the hash of a bounded sequence of numbers depends on the bytes of the `SequenceInstance` object
(addresses on the heap), not on the elements. -/
theorem C12_fails_bounded_sequence : ∃ (env env' : HashEnv) (x y : BitVec 64),
    seqData.Holds (.coll []) ∧ seqData.eq seqData = .ok true ∧
    env.str = env'.str ∧ seqData.hash env = .ok x ∧ seqData.hash env' = .ok y ∧ x ≠ y := by
  refine ⟨⟨fun _ _ => 0, fun _ _ => 0⟩, ⟨fun _ _ => 0, fun _ a => if a = 0 then 1 else 0⟩,
    memHash (List.replicate seqSize 0), memHash (1 :: List.replicate (seqSize - 1) 0), ⟨rfl, rfl⟩, rfl, rfl, seq_hash rfl, seq_hash rfl, ?_⟩
  intro h
  have h1 := mix_inj h
  simp only [seqSize, List.replicate, hashLoop_step, hashLoop_nil] at h1
  have h2 := hashRound_inj (hashRound_inj_left (hashRound_inj_left (hashRound_inj_left (hashRound_inj_left (hashRound_inj_left h1)))))
  revert h2; decide

set_option maxRecDepth 8192 in
/-- C12 fails in general: a bounded sequence of strings is read as if it were a string itself. -/
theorem C12_fails_sequence_of_strings (env : HashEnv) : ∃ d, Data.create (.seq (.str .s8 0) 4) = .ok (d, 0) ∧
    d.Holds (.coll []) ∧ d.hash env = .error .ub :=
  ⟨_, rfl, ⟨rfl, rfl⟩, rfl⟩

/-- The hash of the 8 bytes of the label 1. -/
theorem one_hash : memHash [1, 0, 0, 0, 0, 0, 0, 0] = 0xae5b636a7dd6f6ec#64 := by
  unfold memHash hash64
  rw [hashLoop_short (by decide) (by decide)]
  decide

/-- `union U switch (int64) {case -5882999179200497940: uint16 b; case 1: uint8 a;}`; the first label is the hash of the
second one. -/
def exUH : Ty := .union "U" (.prim .i64) (.cons "a" (.prim .u8) (.cons "b" (.prim .u16) .nil))
  ⟨[(-5882999179200497940, "b"), (1, "a")], 2 ^ 63 - 1, 2 ^ 63 - 2, 2 ^ 63 - 2⟩

/-- Its member `a` is 5; the second byte of the memory for members is `x`. -/
def unData (x : Byte) : Data := ⟨exUH, rawCells [1, 0, 0, 0, 0, 0, 0, 0, 5, x], true⟩

theorem hashCombine_inj {h x y : BitVec 64} (e : hashCombine h x = hashCombine h y) : x = y := by
  have h1 := xor_left_cancel e
  have h2 : ∀ a b c d : BitVec 64, a + b + c + d = a + (b + c + d) := by intros; simp only [BitVec.add_assoc]
  rw [h2, h2] at h1
  exact (BitVec.add_left_inj _).mp h1

/-- C12 fails in general: the hash of a union takes the hash of the discriminator for a label; here it finds a member that
is not the selected one, and reads memory that does not belong to the value. -/
theorem C12_fails_union (env : HashEnv) : (∃ u : UnionB, u.Built ∧ u.toTy = exUH) ∧
    (∀ z ∈ [(0 : Byte), 1], ∃ w, World.empty.run [.create 0 exUH, .write 0 [.member "b"] (.value (.num .u16 [9, z])),
      .write 0 [.member "a"] (.value (.num .u8 [5]))] = .ok w ∧ w.vars 0 = some (unData z)) ∧ ∃ x y,
    (unData 0).Holds (.un (.bytes [1, 0, 0, 0, 0, 0, 0, 0]) "a" (.bytes [5])) ∧
    (unData 1).Holds (.un (.bytes [1, 0, 0, 0, 0, 0, 0, 0]) "a" (.bytes [5])) ∧
    (unData 0).eq (unData 1) = .ok true ∧
    (unData 0).hash env = .ok x ∧ (unData 1).hash env = .ok y ∧ x ≠ y := by
  have hh : ∀ z, (unData z).hash env = .ok (hashCombine 0xae5b636a7dd6f6ec#64 (memHash [5, z])) := by
    intro z
    rw [Data.hash]
    show instHash env exUH (unData z).cells 0 = _
    rw [exUH, instHash]
    have h1 := bytes_at env [] (rawCells [5, z]) [1, 0, 0, 0, 0, 0, 0, 0] 8 rfl
    have h2 := bytes_at env (rawCells [1, 0, 0, 0, 0, 0, 0, 0]) [] [5, z] 2 rfl
    rw [show instHash env (.prim .i64) (unData z).cells 0 = .ok 0xae5b636a7dd6f6ec#64 from (by
      rw [← one_hash, instHash]; exact raw_hash h1)]
    have h3 : omGet [((-5882999179200497940 : Int), "b"), (1, "a")] (0xae5b636a7dd6f6ec#64).toInt = some "b" := by decide
    simp only [Except.bind, h3]
    have h4 : instHashCase env (.cons "a" (.prim .u8) (.cons "b" (.prim .u16) .nil)) "b" (unData z).cells (0 + (Ty.prim .i64).memSize)
        = .ok (memHash [5, z]) := by
      rw [instHashCase, if_neg (by decide), instHashCase, if_pos rfl, instHash]; exact raw_hash h2
    rw [h4]; rfl
  refine ⟨?_, ?_, _, _, ⟨rfl, rfl⟩, ⟨rfl, rfl⟩, rfl, hh 0, hh 1, ?_⟩
  · obtain ⟨u0, hu0⟩ : ∃ u0, UnionB.new "U" (.prim .i64) = some u0 := ⟨_, rfl⟩
    refine ⟨((u0.addCase [1] "a" (.prim .u8) false).1.addCase [-5882999179200497940] "b" (.prim .u16) false).1,
      .add _ _ _ _ (.add _ _ _ _ (.new "U" (.prim .i64) hu0)), ?_⟩
    cases hu0; rfl
  · intro z hz
    simp only [List.mem_cons, List.not_mem_nil, or_false] at hz
    rcases hz with rfl | rfl <;> exact ⟨_, rfl, rfl⟩
  intro h
  exact absurd (C07_hash_injective_8 (by rfl) (by decide) (hashCombine_inj h)) (by decide)

/-! ## C50 -/

/-- C50, partial: arrays made from primitive and string types, sequences of them, and arrays made dimension by dimension
(`ArrayType(content, dimension)`) have equal names only if they are the same type. Missing: arrays made with several dimensions
at once (`C50_fails_multi`), content types named by the user. -/
theorem C50_name_identifies_partial {c c' : Ty} {n n' : Nat} (h : Canon c) (h' : Canon c')
    (he : (c.array n).name = (c'.array n').name) : c = c' ∧ n = n' := by
  have := Canon.name_inj (.array n h) (.array n' h') he
  simp only [Ty.array, Ty.arr.injEq] at this
  exact ⟨this.2.1, this.2.2⟩

/-- C50, partial: comparing two such arrays, of the same type or not, is never undefined and says whether they are
arrays of the same type with the same elements. -/
theorem C50_comparison_partial {d e : Data} {u v : Val} {c c' : Ty} {n n' : Nat} (h : Canon c) (h' : Canon c')
    (hd : d.ty = c.array n) (he : e.ty = c'.array n') (hw : d.ty.WF) (hu : d.Holds u) (hv : e.Holds v) :
    ∃ b, d.eq e = .ok b ∧ (b = true ↔ d.ty = e.ty ∧ Same true d.ty u v) := by
  by_cases ht : d.ty.name = e.ty.name
  · obtain ⟨rfl, rfl⟩ := C50_name_identifies_partial h h' (hd ▸ he ▸ ht)
    have hde : e.ty = d.ty := he.trans hd.symm
    obtain ⟨b, h1, h2⟩ := eq_same hw hde hu hv
    exact ⟨b, h1, h2.trans ⟨fun h => ⟨hde.symm, h⟩, fun h => h.2⟩⟩
  · refine ⟨false, ?_, ?_⟩
    · rw [Data.eq]
      rw [hd] at ht ⊢
      rw [Ty.array] at ht ⊢
      simp only [ht, if_false]
    · constructor
      · intro h; cases h
      · rintro ⟨h, -⟩; exact absurd (congrArg Ty.name h) ht

/-- C50: arrays as in the theorems, with different and with equal names. -/
example : Canon ((Ty.str .s8 10).array 3) ∧ Canon (.seq (.prim .u8) 3) ∧
    (((Ty.str .s8 10).array 3).array 2).name ≠ (((Ty.str .s8 10).array 2).array 3).name ∧ (((Ty.str .s8 10).array 3).array 2).WF := by
  refine ⟨.array _ (.str _ _), .seq _ (.prim _), ?_, ?_⟩
  · intro h
    have := C50_name_identifies_partial (.array _ (.str _ _)) (.array _ (.str _ _)) h
    exact absurd this.2 (by decide)
  · simp [Ty.array, Ty.WF]

/-- C50 is false: `uint8[2][3]` and `uint8[2][4]` have the same name, and comparing the second with the first
reads memory behind the end of the first. -/
theorem C50_fails_multi :
    ((Ty.prim .u8).arrayMulti 2 [3]).name = ((Ty.prim .u8).arrayMulti 2 [4]).name ∧
    (Ty.prim .u8).arrayMulti 2 [3] ≠ (Ty.prim .u8).arrayMulti 2 [4] ∧
    ∃ d e, Data.create ((Ty.prim .u8).arrayMulti 2 [4]) = .ok (d, 0) ∧
      Data.create ((Ty.prim .u8).arrayMulti 2 [3]) = .ok (e, 0) ∧ d.eq e = .error .ub := by
  refine ⟨rfl, ?_, _, _, rfl, rfl, rfl⟩
  simp [Ty.arrayMulti]

/-- C50 is false for content named by the user too: two structures called `X`. -/
theorem C50_fails_same_name :
    ((Ty.struct "X" (.cons "a" (.prim .u32) .nil)).array 2).name = ((Ty.struct "X" (.cons "a" (.prim .u8) .nil)).array 2).name ∧
    ∃ d e, Data.create ((Ty.struct "X" (.cons "a" (.prim .u32) .nil)).array 2) = .ok (d, 0) ∧
      Data.create ((Ty.struct "X" (.cons "a" (.prim .u8) .nil)).array 2) = .ok (e, 0) ∧ d.eq e = .error .ub :=
  ⟨rfl, _, _, rfl, rfl, rfl⟩

end Verif.Inst
