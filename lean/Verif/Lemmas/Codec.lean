import Verif.Spec.Codec
/-! # Conversion of texts -/

namespace Verif.Codec

theorem write8_eq (c : Nat) : write8 c = utf8 c := by
  unfold write8 utf8 lowBits
  simp only [Nat.reducePow]

theorem write16_eq (c : Nat) : write16 c = utf16 c := by
  unfold write16 utf16 lowBits
  simp only [Nat.reducePow]

theorem read16_utf16 {c : Nat} (h : Scalar c) (r : List Nat) : read16 (utf16 c ++ r) = .char c (utf16 c).length := by
  unfold utf16 lowBits
  unfold Scalar at h
  split
  · rename_i hc
    have h1 : ¬ high c := by unfold high; omega
    have h2 : ¬ low c := by unfold low; omega
    simp [read16, h1, h2]
  · rename_i hc
    simp only [Nat.reducePow] at hc ⊢
    have h1 : high (0xD800 + (c - 65536) / 1024) := by unfold high; omega
    have h2 : low (0xDC00 + (c - 65536) % 1024) := by unfold low; omega
    simp only [List.cons_append, List.nil_append, read16, h1, h2, if_true, List.length_cons, List.length_nil]
    exact congrArg (fun x => Read.char x 2) (by omega)

theorem read8_utf8 {c : Nat} (h : Scalar c) (r : List Nat) : read8 (utf8 c ++ r) = .char c (utf8 c).length := by
  unfold utf8 lowBits
  unfold Scalar at h
  simp only [Nat.reducePow]
  split
  · rename_i hc
    simp [read8, hc]
  · split
    · rename_i h1 h2
      simp only [List.cons_append, List.nil_append, read8, List.length_cons, List.length_nil]
      rw [if_neg (by omega), if_neg (by omega), if_pos (by omega), if_pos (by unfold cont; omega)]
      exact congrArg (fun x => Read.char x 2) (by omega)
    · split
      · rename_i h1 h2 h3
        simp only [List.cons_append, List.nil_append, read8, List.length_cons, List.length_nil]
        rw [if_neg (by omega), if_neg (by omega), if_neg (by omega), if_pos (by omega),
          if_neg (by unfold cont; omega), if_pos (by unfold cont; omega)]
        exact congrArg (fun x => Read.char x 3) (by omega)
      · rename_i h1 h2 h3
        simp only [List.cons_append, List.nil_append, read8, List.length_cons, List.length_nil]
        rw [if_neg (by omega), if_neg (by omega), if_neg (by omega), if_neg (by omega), if_pos (by omega),
          if_neg (by unfold cont; omega), if_neg (by unfold cont; omega), if_pos (by unfold cont; omega)]
        exact congrArg (fun x => Read.char x 4) (by omega)

/-- The facet reads `src` and writes `dst`. -/
structure Sound (k : Codec) (src dst : Nat → List Nat) : Prop where
  read : ∀ c, Scalar c → ∀ r, k.read (src c ++ r) = .char c (src c).length
  write : ∀ c, k.write c = dst c
  pos : ∀ c, 1 ≤ (dst c).length
  le : ∀ c, (dst c).length ≤ 4
  ne : ∀ c, 1 ≤ (src c).length

theorem utf8_length (c : Nat) : 1 ≤ (utf8 c).length ∧ (utf8 c).length ≤ 4 := by
  unfold utf8
  split
  · simp
  · split
    · simp
    · split <;> simp

theorem utf16_length (c : Nat) : 1 ≤ (utf16 c).length ∧ (utf16 c).length ≤ 4 := by
  unfold utf16
  split <;> simp

theorem out8_sound : Sound out8 utf16 utf8 :=
  ⟨fun _ h r => read16_utf16 h r, write8_eq, fun c => (utf8_length c).1, fun c => (utf8_length c).2,
    fun c => (utf16_length c).1⟩

theorem in16_sound : Sound in16 utf8 utf16 :=
  ⟨fun _ h r => read8_utf8 h r, write16_eq, fun c => (utf16_length c).1, fun c => (utf16_length c).2,
    fun c => (utf8_length c).1⟩

/-- The status when nothing more can be converted, `tail` being left. -/
def endStatus (k : Codec) (room : Nat) (tail : List Nat) : Status :=
  if tail = [] then .done
  else if k.stops = true ∧ room = 0 then .more
  else match k.read tail with
    | .invalid => .error
    | _ => .more

/-- A call of the facet on a text followed by something that is no character. -/
theorem translate_text {k : Codec} {src dst : Nat → List Nat} (hk : Sound k src dst) {tail : List Nat}
    (ht : ∀ c n, k.read tail ≠ .char c n) : (cs : List Nat) → (∀ c ∈ cs, Scalar c) → (fuel room : Nat) →
    (cs.flatMap src ++ tail).length ≤ fuel → ∃ a b st, cs = a ++ b ∧
      translate k fuel room (cs.flatMap src ++ tail) = (b.flatMap src ++ tail, a.flatMap dst, st) ∧
      (a.flatMap dst).length ≤ room ∧
      ((b = [] ∧ st = endStatus k (room - (a.flatMap dst).length) tail) ∨
        (∃ c b', b = c :: b' ∧ st = .more ∧ room < (a.flatMap dst).length + (dst c).length))
  | [], _, fuel, room, hf => by
    refine ⟨[], [], endStatus k room tail, rfl, ?_, Nat.zero_le _, .inl ⟨rfl, rfl⟩⟩
    simp only [List.flatMap_nil, List.nil_append] at hf ⊢
    unfold endStatus
    cases fuel with
    | zero =>
      have : tail = [] := by cases tail <;> simp at hf ⊢
      subst this
      rfl
    | succ fuel =>
      rw [translate]
      cases tail with
      | nil => rfl
      | cons x t =>
        simp only [List.isEmpty_cons, Bool.false_eq_true, if_false, reduceCtorEq, Bool.and_eq_true, decide_eq_true_eq]
        by_cases hs : k.stops = true ∧ room = 0
        · rw [if_pos hs, if_pos hs]
        · rw [if_neg hs, if_neg hs]
          cases hr : k.read (x :: t) with
          | char c n => exact absurd hr (ht c n)
          | incomplete => rfl
          | invalid => rfl
  | c :: cs, hc, fuel, room, hf => by
    have hne := hk.ne c
    have hsc : Scalar c := hc c (List.mem_cons_self ..)
    rw [List.flatMap_cons] at hf ⊢
    simp only [List.length_append] at hf
    cases fuel with
    | zero => omega
    | succ fuel =>
      have hemp : (src c ++ cs.flatMap src ++ tail).isEmpty = false := by
        cases e : src c with
        | nil => rw [e] at hne; simp at hne
        | cons x t => rfl
      have hread : k.read (src c ++ cs.flatMap src ++ tail) = .char c (src c).length := by
        rw [List.append_assoc]; exact hk.read c hsc _
      rw [translate, hemp]
      simp only [Bool.false_eq_true, if_false]
      by_cases hs : (k.stops && decide (room = 0)) = true
      · rw [if_pos hs]
        simp only [Bool.and_eq_true, decide_eq_true_eq] at hs
        refine ⟨[], c :: cs, .more, rfl, by simp, by simp, .inr ⟨c, cs, rfl, rfl, ?_⟩⟩
        have := hk.pos c
        simp only [List.flatMap_nil, List.length_nil]; omega
      · rw [if_neg hs, hread]
        simp only [hk.write]
        by_cases hroom : (dst c).length ≤ room
        · rw [if_pos hroom]
          have hdrop : (src c ++ cs.flatMap src ++ tail).drop (src c).length = cs.flatMap src ++ tail := by
            rw [List.append_assoc, List.drop_left]
          rw [hdrop]
          obtain ⟨a, b, st, rfl, h1, h2, h3⟩ := translate_text hk ht cs (fun x hx => hc x (List.mem_cons_of_mem _ hx)) fuel
            (room - (dst c).length) (by simp only [List.length_append]; omega)
          refine ⟨c :: a, b, st, rfl, ?_, ?_, ?_⟩
          · rw [h1]; simp
          · rw [List.flatMap_cons, List.length_append]; omega
          · rw [List.flatMap_cons, List.length_append]
            rcases h3 with ⟨rfl, h4⟩ | ⟨c', b', rfl, h4, h5⟩
            · refine .inl ⟨rfl, ?_⟩
              rw [h4, Nat.sub_sub]
            · exact .inr ⟨c', b', rfl, h4, by omega⟩
        · rw [if_neg hroom]
          exact ⟨[], c :: cs, .more, rfl, by simp, by simp, .inr ⟨c, cs, rfl, rfl, by simp; omega⟩⟩

theorem run_succ {k : Codec} {n : Nat} {s s' : St} (h : step k s = .goesOn s') : run k (n + 1) s = run k n s' := by
  rw [run, h]

theorem run_one {k : Codec} {s : St} {o : List (Option Nat)} (h : step k s = .returns o) : run k 1 s = .returns o := by
  rw [run, h]

theorem run_throw {k : Codec} {s : St} (h : step k s = .throws) : run k 1 s = .throws := by
  rw [run, h]

theorem buffer_eq (w : List Nat) (buf : List (Option Nat)) (hw : w.length ≤ 64) (hb : buf.length = 64) :
    (w.map some ++ buf.drop w.length).length = 64 ∧
    (w.map some ++ buf.drop w.length).take w.length = w.map some ∧
    (w.map some ++ buf.drop w.length).take bufferSize = w.map some ++ buf.drop w.length := by
  have h1 : (w.map some ++ buf.drop w.length).length = 64 := by simp [hb]; omega
  refine ⟨h1, ?_, ?_⟩
  · rw [List.take_left' (by simp)]
  · exact List.take_of_length_le (by rw [h1]; exact Nat.le_refl _)

/-- What one iteration does on a text. -/
theorem step_text {k : Codec} {src dst : Nat → List Nat} (hk : Sound k src dst) {tail : List Nat}
    (ht : ∀ c n, k.read tail ≠ .char c n) {cs : List Nat} (hc : ∀ c ∈ cs, Scalar c) {buf out : List (Option Nat)}
    (hb : buf.length = 64) : ∃ a b st buf', cs = a ++ b ∧ buf'.length = 64 ∧ (a.flatMap dst).length ≤ 64 ∧
      (∃ g, buf' = (a.flatMap dst).map some ++ g) ∧
      step k ⟨cs.flatMap src ++ tail, buf, out⟩ = (match st with
        | .done => .returns (out ++ (a.flatMap dst).map some)
        | .more => .goesOn ⟨b.flatMap src ++ tail, buf', out ++ buf'⟩
        | .error => .throws) ∧
      ((b = [] ∧ st = endStatus k (64 - (a.flatMap dst).length) tail) ∨
        (∃ c b', b = c :: b' ∧ st = .more ∧ 64 < (a.flatMap dst).length + (dst c).length)) := by
  obtain ⟨a, b, st, rfl, h1, h2, h3⟩ := translate_text hk ht cs hc _ bufferSize (Nat.le_refl _)
  obtain ⟨e1, e2, e3⟩ := buffer_eq (a.flatMap dst) buf h2 hb
  refine ⟨a, b, st, _, rfl, e1, h2, ⟨_, rfl⟩, ?_, h3⟩
  unfold step
  simp only [h1]
  cases st with
  | done => simp only [e2]
  | more => simp only [e3]
  | error => rfl

theorem flatMap_length_append {f : Nat → List Nat} (a b : List Nat) :
    ((a ++ b).flatMap f).length = (a.flatMap f).length + (b.flatMap f).length := by
  rw [List.flatMap_append, List.length_append]

/-- Two ways to cut a text at exactly 64 units are the same. -/
theorem cut_unique {dst : Nat → List Nat} (hp : ∀ c, 1 ≤ (dst c).length) {a b : List Nat} (hab : (a.flatMap dst).length ≤ 64)
    (hfull : ∀ c b', b = c :: b' → 64 < (a.flatMap dst).length + (dst c).length) {a' b' : List Nat}
    (he : a ++ b = a' ++ b') (h' : (a'.flatMap dst).length = 64) (hb : b ≠ []) : a = a' ∧ b = b' := by
  rcases List.append_eq_append_iff.mp he with ⟨d, h1, h2⟩ | ⟨d, h1, h2⟩
  · -- a' = a ++ d
    subst h1
    rw [flatMap_length_append] at h'
    cases d with
    | nil => simp at h2 ⊢; exact h2
    | cons c d =>
      have := hfull c _ h2
      rw [List.flatMap_cons, List.length_append] at h'
      omega
  · -- a = a' ++ d
    subst h1
    rw [flatMap_length_append] at hab
    cases d with
    | nil => simp at h2 ⊢; exact h2.symm
    | cons c d =>
      have := hp c
      rw [List.flatMap_cons, List.length_append] at hab
      omega

theorem aligned_inv {dst : Nat → List Nat} {cs : List Nat} (h : Aligned dst cs) :
    (cs.flatMap dst).length ≤ 64 ∨ ∃ a b, cs = a ++ b ∧ (a.flatMap dst).length = 64 ∧ Aligned dst b := by
  cases h with
  | last h => exact .inl h
  | piece h1 h2 => exact .inr ⟨_, _, rfl, h1, h2⟩

/-- The conversion of a text returns something at least as long as the text should be, exactly the right thing if the
text is aligned, and something longer otherwise. -/
theorem converts_text {k : Codec} {src dst : Nat → List Nat} (hk : Sound k src dst) (hnil : ∀ c n, k.read [] ≠ .char c n) :
    (m : Nat) → (cs : List Nat) → cs.length ≤ m → (∀ c ∈ cs, Scalar c) → (buf out : List (Option Nat)) → buf.length = 64 →
    ∃ n o, run k n ⟨cs.flatMap src, buf, out⟩ = .returns (out ++ o) ∧ (cs.flatMap dst).length ≤ o.length ∧
      (o.length = (cs.flatMap dst).length → Aligned dst cs) ∧ (Aligned dst cs → o = (cs.flatMap dst).map some)
  | m, cs, hm, hc, buf, out, hb => by
    obtain ⟨a, b, st, buf', rfl, g1, g2, ⟨g, g3⟩, g4, g5⟩ := step_text hk hnil hc (out := out) hb
    simp only [List.append_nil] at g4
    rcases g5 with ⟨rfl, rfl⟩ | ⟨c, b', rfl, rfl, hfull⟩
    · simp only [List.append_nil] at *
      rw [endStatus, if_pos rfl] at g4
      refine ⟨1, (a.flatMap dst).map some, run_one g4, by simp, fun _ => .last g2, fun _ => rfl⟩
    · have ha : a ≠ [] := by
        rintro rfl
        have := hk.le c
        simp at hfull
        omega
      cases m with
      | zero => simp at hm
      | succ m =>
        have hlen : (c :: b').length ≤ m := by
          have : 1 ≤ a.length := by cases a <;> simp at ha ⊢
          rw [List.length_append] at hm
          omega
        obtain ⟨n, o, h1, h2, h3, h4⟩ := converts_text hk hnil m (c :: b') hlen
          (fun x hx => hc x (List.mem_append_right _ hx)) buf' (out ++ buf') g1
        refine ⟨n + 1, buf' ++ o, by rw [run_succ g4, h1, List.append_assoc], ?_, ?_, ?_⟩
        · rw [flatMap_length_append, List.length_append]; omega
        · intro he
          rw [flatMap_length_append, List.length_append] at he
          exact .piece (by omega) (h3 (by omega))
        · intro hal
          have hcut : ∀ x y, c :: b' = x :: y → 64 < (a.flatMap dst).length + (dst x).length := by
            intro x y h; cases h; exact hfull
          rcases aligned_inv hal with hs | ⟨a', b'', he, hl, hal'⟩
          · rw [flatMap_length_append, List.flatMap_cons, List.length_append] at hs
            omega
          · obtain ⟨rfl, rfl⟩ := cut_unique hk.pos g2 hcut he hl (by simp)
            rw [h4 hal', List.flatMap_append, List.map_append, g3]
            have : g = [] := by
              have := congrArg List.length g3
              rw [g1, List.length_append, List.length_map, hl] at this
              cases g with
              | nil => rfl
              | cons x y => simp at this
            rw [this, List.append_nil]

theorem run_det {k : Codec} {s : St} {o : List (Option Nat)} : (n m : Nat) → run k n s = .returns o → ∀ o', run k m s = .returns o' → o = o' := by
  intro n
  induction n generalizing s with
  | zero => intro m h; cases h
  | succ n ih =>
    intro m h o' h'
    cases m with
    | zero => cases h'
    | succ m =>
      rw [run] at h h'
      cases hs : step k s with
      | goesOn s' => rw [hs] at h h'; exact ih m h o' h'
      | returns x => rw [hs] at h h'; cases h; cases h'; rfl
      | throws => rw [hs] at h; cases h

theorem returns_not_throws {k : Codec} {s : St} {o : List (Option Nat)} : (n m : Nat) → run k n s = .returns o →
    run k m s ≠ .throws := by
  intro n
  induction n generalizing s with
  | zero => intro m h; cases h
  | succ n ih =>
    intro m h h'
    cases m with
    | zero => cases h'
    | succ m =>
      rw [run] at h h'
      cases hs : step k s with
      | goesOn s' => rw [hs] at h h'; exact ih m h h'
      | returns x => rw [hs] at h'; cases h'
      | throws => rw [hs] at h; cases h

/-- With an incomplete character at the end the loop goes on forever. -/
theorem diverges_text {k : Codec} {src dst : Nat → List Nat} (hk : Sound k src dst) {tail : List Nat} (hne : tail ≠ [])
    (ht : k.read tail = .incomplete) : (n : Nat) → (cs : List Nat) → (∀ c ∈ cs, Scalar c) → (buf out : List (Option Nat)) →
    buf.length = 64 → ∃ s, run k n ⟨cs.flatMap src ++ tail, buf, out⟩ = .goesOn s
  | 0, _, _, _, _, _ => ⟨_, rfl⟩
  | n + 1, cs, hc, buf, out, hb => by
    obtain ⟨a, b, st, buf', rfl, g1, g2, g3, g4, g5⟩ := step_text hk (fun c n h => by rw [ht] at h; cases h) hc (out := out) hb
    have hst : st = .more := by
      rcases g5 with ⟨rfl, rfl⟩ | ⟨_, _, _, rfl, _⟩
      · simp only [endStatus, if_neg hne, ht, ite_self]
      · rfl
    subst hst
    rw [run_succ g4]
    exact diverges_text hk hne ht n b (fun x hx => hc x (List.mem_append_right _ hx)) buf' _ g1

/-- With an ill-formed character at the end there is an exception. -/
theorem throws_text {k : Codec} {src dst : Nat → List Nat} (hk : Sound k src dst) {tail : List Nat} (hne : tail ≠ [])
    (ht : k.read tail = .invalid) : (m : Nat) → (cs : List Nat) → cs.length ≤ m → (∀ c ∈ cs, Scalar c) →
    (buf out : List (Option Nat)) → buf.length = 64 → ∃ n, run k n ⟨cs.flatMap src ++ tail, buf, out⟩ = .throws
  | m, cs, hm, hc, buf, out, hb => by
    obtain ⟨a, b, st, buf', rfl, g1, g2, g3, g4, g5⟩ := step_text hk (fun c n h => by rw [ht] at h; cases h) hc (out := out) hb
    have last : ∀ (buf out : List (Option Nat)), buf.length = 64 → ∃ n, run k n ⟨tail, buf, out⟩ = .throws := by
      intro buf out hb
      obtain ⟨a, b, st, buf', h0, g1, g2, g3, g4, g5⟩ := step_text hk (tail := tail) (cs := [])
        (fun c n h => by rw [ht] at h; cases h) (fun c hc => by simp at hc) (out := out) hb
      obtain ⟨rfl, rfl⟩ := List.append_eq_nil_iff.mp h0.symm
      rcases g5 with ⟨_, rfl⟩ | ⟨_, _, h, _⟩
      · simp only [List.flatMap_nil, List.nil_append, endStatus, if_neg hne, ht, List.length_nil, Nat.sub_zero] at g4
        rw [if_neg (by omega)] at g4
        exact ⟨1, run_throw g4⟩
      · cases h
    rcases g5 with ⟨rfl, rfl⟩ | ⟨c, b', rfl, rfl, hfull⟩
    · simp only [endStatus, if_neg hne, ht] at g4
      by_cases hcond : k.stops = true ∧ 64 - (a.flatMap dst).length = 0
      · rw [if_pos hcond] at g4
        simp only [List.flatMap_nil, List.nil_append] at g4
        obtain ⟨n, hn⟩ := last buf' (out ++ buf') g1
        exact ⟨n + 1, by rw [run_succ g4]; exact hn⟩
      · rw [if_neg hcond] at g4
        exact ⟨1, run_throw g4⟩
    · have ha : a ≠ [] := by
        rintro rfl
        have := hk.le c
        simp at hfull
        omega
      cases m with
      | zero => simp at hm
      | succ m =>
        have hlen : (c :: b').length ≤ m := by
          have : 1 ≤ a.length := by cases a <;> simp at ha ⊢
          rw [List.length_append] at hm
          omega
        obtain ⟨n, hn⟩ := throws_text hk hne ht m (c :: b') hlen (fun x hx => hc x (List.mem_append_right _ hx)) buf' (out ++ buf') g1
        exact ⟨n + 1, by rw [run_succ g4]; exact hn⟩

end Verif.Codec
