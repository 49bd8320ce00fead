import Verif.Model.ArrayText
import Verif.Spec.ArrayText
import Verif.Lemmas.Text
import Verif.Lemmas.Inst
/-!
# Array dimensions through IDL (C47)
-/

namespace Verif.Text

theorem dropWhile_dec (n : Nat) (r : Bytes) (hr : 10 ≤ digit (r.headD 0)) :
    (dec n ++ r).dropWhile (fun c => digit c < 10) = r := by
  have hstop : ∀ r : Bytes, 10 ≤ digit (r.headD 0) → r.dropWhile (fun c => digit c < 10) = r := by
    intro r h
    cases r with
    | nil => rfl
    | cons c r => rw [List.dropWhile_cons, if_neg]; simp only [List.headD_cons] at h; simp; omega
  have key : ∀ n r, (dec n ++ r).dropWhile (fun c => digit c < 10) = r.dropWhile (fun c => digit c < 10) := by
    intro n
    induction n using Nat.strongRecOn with
    | ind n ih =>
      intro r
      rw [dec]
      split
      · rename_i h
        show ((48 + n) :: r).dropWhile _ = _
        rw [List.dropWhile_cons, if_pos]
        simp only [decide_eq_true_eq]; rw [digit_code (by omega)]; exact h
      · rw [List.append_assoc, ih (n / 10) (by omega)]
        show ((48 + n % 10) :: r).dropWhile _ = _
        rw [List.dropWhile_cons, if_pos]
        simp only [decide_eq_true_eq]; rw [digit_code (by omega)]; omega
  rw [key, hstop r hr]

theorem atoi_dec {n : Nat} (h : n < 2 ^ 31) (r : Bytes) (hr : 10 ≤ digit (r.headD 0)) : atoi (dec n ++ r) = some (n : Int) := by
  have hs := scan_dec n r
  have hend : scan 10 n r = n := by
    cases r with
    | nil => rfl
    | cons c r => rw [scan, if_neg]; simp only [List.headD_cons] at hr; omega
  obtain ⟨d, t, h1, h2, h3, h4⟩ := dec_head n
  rw [hend, h1, List.cons_append] at hs
  unfold atoi strtoll
  rw [h1, List.cons_append, magnitude_digit h2 (by omega), hs]
  simp only [Bool.false_eq_true, if_false]
  rw [if_neg (show ¬ 2 ^ 63 ≤ n by omega), if_pos (by omega)]

/-- The largest dimension a declarator can read. -/
def Declarator.limit : Declarator → Nat
  | .typedef => 2 ^ 31
  | .member => 2 ^ 32

theorem readDim_dec (w : Declarator) {n : Nat} (h : n < w.limit) (r : Bytes) :
    readDim w (dec n ++ 93 :: r) = some n := by
  have hr : 10 ≤ digit ((93 :: r).headD 0) := by rw [List.headD_cons]; decide
  cases w with
  | typedef =>
    have h' : n < 2 ^ 31 := h
    rw [readDim, atoi_dec h' _ hr]; simp only [Option.map_some]; congr 1; omega
  | member =>
    have h' : n < 2 ^ 32 := h
    rw [readDim, stoul_dec (by omega) _ hr]; simp only [Option.map_some]; congr 1; omega

theorem readDims_print (w : Declarator) : ∀ (ds : List Nat) (f : Nat), (∀ d ∈ ds, d < w.limit) → ds.length ≤ f →
    readDims w f (printDims ds) = some ds
  | [], f, _, _ => by cases f <;> rfl
  | d :: ds, f, h, hf => by
    cases f with
    | zero => simp at hf
    | succ f =>
      have e : printDims (d :: ds) = 91 :: (dec d ++ 93 :: printDims ds) := by simp [printDims]
      rw [e, readDims, if_pos rfl, dropWhile_dec d _ (by simp only [List.headD_cons]; decide)]
      simp only
      rw [readDim_dec w (h d (List.mem_cons_self ..)),
        readDims_print w ds f (fun x hx => h x (List.mem_cons_of_mem _ hx)) (by simpa using hf)]
      rfl

theorem below_dims {m : Nat} : ∀ {A : Ty}, DimsBelow m A → ∀ d ∈ arrayDimensions A, d < m
  | .arr _ c d, h, x, hx => by
    rw [arrayDimensions] at hx
    rcases List.mem_cons.mp hx with rfl | hx
    · exact h.1
    · exact below_dims h.2 x hx
  | .prim _, _, _, hx => by cases hx
  | .enum _ _ _, _, _, hx => by cases hx
  | .str _ _, _, _, hx => by cases hx
  | .seq _ _, _, _, hx => by cases hx
  | .map _ _ _, _, _, hx => by cases hx
  | .pair _ _, _, _, hx => by cases hx
  | .alias _ _, _, _, hx => by cases hx
  | .struct _ _, _, _, hx => by cases hx
  | .union _ _ _ _, _, _, hx => by cases hx

theorem getArrayType_cons (d : Nat) {ds : List Nat} (h : ds ≠ []) (t : Ty) :
    getArrayType (d :: ds) t = (getArrayType ds t).map fun a => Ty.array a d := by
  unfold getArrayType
  rw [List.reverse_cons]
  cases hr : ds.reverse with
  | nil => simp at hr; exact absurd hr h
  | cons b r => simp [List.foldl_append]

theorem getArrayType_shape (c : Ty) : ∀ (n : String) (d : Nat), ∃ B,
    getArrayType (arrayDimensions (.arr n c d)) (innermost (.arr n c d)) = some B ∧ SameShape (.arr n c d) B ∧
    (Stepwise (.arr n c d) → B = .arr n c d) := by
  induction c using Ty.ind with
  | arr n' c' d' ih =>
    intro n d
    obtain ⟨B, h1, h2, h3⟩ := ih n' d'
    refine ⟨Ty.array B d, ?_, .arr _ _ _ h2, ?_⟩
    · rw [arrayDimensions, getArrayType_cons d (by simp [arrayDimensions])]
      rw [show innermost (.arr n (.arr n' c' d') d) = innermost (.arr n' c' d') from rfl, h1]; rfl
    · rintro ⟨hs, hs'⟩
      rw [h3 hs']; exact hs.symm
  | _ =>
    intro n d
    exact ⟨Ty.array _ d, rfl, .arr _ _ _ (.refl _), fun h => h.1.symm⟩

/-- C47, partial: the dimensions of an array printed after the name of a member (or alias) and parsed again give an array
type with the same dimensions in the same order and the same innermost content; the same type if it was built dimension
by dimension. Missing: dimensions from 2^31 on in a `typedef`, which `atoi` cannot read, and arrays inside of a sequence or
map, whose dimensions are not printed (`C47_violated_nested`). -/
theorem C47_dimensions_partial (w : Declarator) (n : String) (c : Ty) (d : Nat) (h : DimsBelow w.limit (.arr n c d)) :
    let text := printDims (arrayDimensions (.arr n c d))
    ∃ ds B, readDims w text.length text = some ds ∧ getArrayType ds (innermost c) = some B ∧ SameShape (.arr n c d) B ∧
      (Stepwise (.arr n c d) → B = .arr n c d) := by
  intro text
  obtain ⟨B, h1, h2, h3⟩ := getArrayType_shape c n d
  have hlen : ∀ ds : List Nat, ds.length ≤ (printDims ds).length := by
    intro ds
    induction ds with
    | nil => simp
    | cons x ds ih =>
      have e : printDims (x :: ds) = 91 :: (dec x ++ 93 :: printDims ds) := by simp [printDims]
      rw [e]; simp; omega
  exact ⟨_, B, readDims_print w _ _ (below_dims h) (hlen _), h1, h2, h3⟩

/-- A matrix. -/
example : ∃ ds B, readDims .member 20 (bytes "[2][30]") = some ds ∧ getArrayType ds (.prim .i32) = some B ∧
    ds = [2, 30] ∧ B = Ty.array (Ty.array (.prim .i32) 30) 2 :=
  ⟨_, _, rfl, rfl, rfl, rfl⟩

/-- It is an instance of the theorem. -/
example : DimsBelow Declarator.member.limit (Ty.array (Ty.array (.prim .i32) 30) 2) ∧
    Stepwise (Ty.array (Ty.array (.prim .i32) 30) 2) ∧
    printDims (arrayDimensions (Ty.array (Ty.array (.prim .i32) 30) 2)) = bytes "[2][30]" := by
  refine ⟨⟨by decide, by decide, trivial⟩, ⟨rfl, rfl, trivial⟩, ?_⟩
  simp only [Ty.array, arrayDimensions, printDims, List.flatMap_cons, List.flatMap_nil]
  rw [show dec 2 = [50] by rw [dec]; rfl, show dec 30 = [51, 48] by rw [dec, dec]; rfl]
  decide

/-- C47 does not hold inside of collections: a sequence of arrays has the same text as a sequence of the content. -/
theorem C47_violated_nested (t : Ty) (d b : Nat) :
    Ty.seq (Ty.array t d) b ≠ Ty.seq t b ∧ typeName (.seq (Ty.array t d) b) = typeName (.seq t b) := by
  refine ⟨?_, rfl⟩
  intro h
  have h1 : Ty.array t d = t := (Ty.seq.inj h).1
  have := congrArg sizeOf h1
  simp [Ty.array] at this
  omega

end Verif.Text
