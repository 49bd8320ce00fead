import Verif.Lemmas.EqFloat
import Verif.Props.Eq
/-! # Equality and hashes of data with floating point numbers (C19, C12) -/

namespace Verif.Inst

/-- C19, partial: a datum without zeros, `nan`s and `long double`s outside of collections of numbers is equal to
exactly the data with the same value. -/
theorem C19_value_floats_partial {d e : Data} {u v : Val} (h : d.ty.WF) (ht : e.ty = d.ty) (hu : d.Holds u) (hv : e.Holds v)
    (hz : NoZero d.ty u) : (d.eq e = .ok true → u = v) ∧ (NoNan d.ty u → (d.eq e = .ok true ↔ u = v)) := by
  have h1 : d.eq e = .ok true → u = v := by
    intro he
    obtain ⟨b, e1, i1⟩ := eq_same h ht hu hv
    rw [e1] at he; cases he
    exact same_nonzero d.ty h u v ⟨_, hu.2⟩ ⟨_, ht ▸ hv.2⟩ hz (i1.mp rfl)
  refine ⟨h1, fun hn => ⟨h1, ?_⟩⟩
  rintro rfl
  exact C19_reflexive_partial h ht hu hv hn

/-- C12, partial: equal data have equal hashes also where there are floating point numbers, as long as none of them is a
zero (`C12_fails_negative_zero`) or a `long double` (`C12_fails_long_double`) outside of a collection of numbers. -/
theorem C12_equal_hash_floats_partial {d e : Data} {u v : Val} (h : d.ty.WF) (hh : Hashable d.ty) (ht : e.ty = d.ty)
    (hu : d.Holds u) (hv : e.Holds v) (hz : NoZero d.ty u) (he : d.eq e = .ok true) (env env' : HashEnv)
    (hs : env.str = env'.str) : ∃ x, d.hash env = .ok x ∧ e.hash env' = .ok x := by
  have huv := (C19_value_floats_partial h ht hu hv hz).1 he
  subst huv
  obtain ⟨x, hx⟩ := hash_ok (σ := env'.str) d.ty hh h u
  refine ⟨x, ?_, ?_⟩
  · have := hx env hs [] d.cells [] hu.2
    simp only [List.nil_append, List.append_nil, List.length_nil] at this
    exact this
  · have := hx env' rfl [] e.cells [] (ht ▸ hv.2)
    rw [← ht] at this
    simp only [List.nil_append, List.append_nil, List.length_nil] at this
    exact this

/-- `struct F {float x; sequence<double> q; map<uint8_t, float> m;};` -/
def exF : Ty := .struct "F" (.cons "x" (.prim .f32) (.cons "q" (.seq (.prim .f64) 0) (.cons "m" (.map (.prim .u8) (.prim .f32) 0) .nil)))

set_option maxRecDepth 4096 in
/-- C12, C19: data as in the theorems; the number is 1.5, the sequence holds two zeros. -/
example : exF.WF ∧ Hashable exF ∧ ∃ w d, World.empty.run [.create 0 exF,
    .write 0 [.member "x"] (.value (.num .f32 [0, 0, 192, 63])), .write 0 [.member "q"] (.resize 2)] = .ok w ∧
    w.vars 0 = some d ∧ d.eq d = .ok true ∧
    ∃ u, d.Holds u ∧ NoZero exF u ∧ NoNan exF u := by
  refine ⟨?_, ?_, _, _, rfl, rfl, rfl, _, ⟨rfl, rfl⟩, ?_, ?_⟩
  · simp [exF, Ty.WF, Mems.WF]
  · simp [exF, Hashable, HashableAll]
  · simp [exF, NoZero, NoZeroAll, isZero, leNat, Ty.isConstructed]
  · simp [exF, NoNan, NoNanAll, isNan, leNat]

/-- C12 fails for `long double`: two numbers that differ only in the bytes of padding are equal, and have different
hashes. -/
theorem C12_fails_long_double (env : HashEnv) : ∃ x y,
    (numData .f128 [0, 0, 0, 0, 0, 0, 0, 128, 255, 63, 0, 0, 0, 0, 0, 0]).eq
      (numData .f128 [0, 0, 0, 0, 0, 0, 0, 128, 255, 63, 1, 0, 0, 0, 0, 0]) = .ok true ∧
    (numData .f128 [0, 0, 0, 0, 0, 0, 0, 128, 255, 63, 0, 0, 0, 0, 0, 0]).hash env = .ok x ∧
    (numData .f128 [0, 0, 0, 0, 0, 0, 0, 128, 255, 63, 1, 0, 0, 0, 0, 0]).hash env = .ok y ∧ x ≠ y := by
  refine ⟨_, _, ?_, num_hash rfl, num_hash rfl, ?_⟩
  · have : primEq .f128 [0, 0, 0, 0, 0, 0, 0, 128, 255, 63, 0, 0, 0, 0, 0, 0]
        [0, 0, 0, 0, 0, 0, 0, 128, 255, 63, 1, 0, 0, 0, 0, 0] = true := by decide
    show (Except.ok (primEq .f128 _ _) : M Bool) = _
    rw [this]
  intro h
  have h1 := mix_inj h
  simp only [hashLoop_step, hashLoop_nil] at h1
  have h2 := hashRound_inj h1
  revert h2; decide

end Verif.Inst
