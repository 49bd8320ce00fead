import Verif.Model.IdlBuild
import Verif.Spec.IdlAny
import Verif.Lemmas.ModuleTree
/-!
# The lookup of a name without four colons in a row ends
-/

namespace Verif.Idl

variable {τ : Type}

theorem cut_shorter {s h t : Name} (e : cut s = some (h, t)) : t.length < s.length := by
  rw [cut_some e]; simp; omega

/-- No empty part but the first. -/
def NoGap (s : Name) : Prop := ¬ [':', ':', ':', ':'] <:+: s

theorem NoGap.tail {s h t : Name} (hs : NoGap s) (e : cut s = some (h, t)) : NoGap t ∧ ∀ u, cut t ≠ some ([], u) := by
  have hc := cut_some e
  refine ⟨fun hi => hs ?_, fun u hu => hs ?_⟩
  · rw [hc]; obtain ⟨a, b, rfl⟩ := hi
    exact ⟨h ++ ':' :: ':' :: a, b, by simp⟩
  · rw [hc, cut_some hu]
    exact ⟨h, u, by simp⟩

/-- A name in one part. -/
theorem ends_plain {root : Mod τ} {x orig : Name} (hx : cut x = none) : ∀ (p : Loc), ∃ f r, resolve root f p x orig true = some r
  | [] => by
    cases hm : root.at [] with
    | none => exact ⟨1, .ub, by simp [resolve, hm]⟩
    | some m =>
      by_cases hs : m.hasSymbol x = true
      · exact ⟨1, _, by simp [resolve, hm, hx, hs]; rfl⟩
      · exact ⟨1, _, by simp [resolve, hm, hx, hs]; rfl⟩
  | n :: p => by
    obtain ⟨f, r, h⟩ := ends_plain (root := root) (orig := orig) hx p
    cases hm : root.at (n :: p) with
    | none => exact ⟨1, .ub, by simp [resolve, hm]⟩
    | some m =>
      by_cases hs : m.hasSymbol x = true
      · exact ⟨1, _, by simp [resolve, hm, hx, hs]; rfl⟩
      · exact ⟨f + 1, r, by simp [resolve, hm, hx, hs, h]⟩

/-- On the way down. -/
theorem ends_down {root : Mod τ} {orig : Name} (n : Nat) : ∀ (s : Name) (p : Loc), s.length = n → NoGap s → (∀ u, cut s ≠ some ([], u)) →
    ∃ f r, resolve root f p s orig false = some r := by
  induction n using Nat.strongRecOn with
  | ind n ih =>
  intro s p hl hs h0
  by_cases he : s = orig
  · exact ⟨1, .fail, by simp [resolve, he]⟩
  cases hm : root.at p with
  | none => exact ⟨1, .ub, by simp [resolve, hm, he]⟩
  | some m =>
  cases hc : cut s with
  | none =>
    by_cases hsym : m.hasSymbol s = true
    · exact ⟨1, _, by simp [resolve, hm, hc, hsym, he]; rfl⟩
    · by_cases hp : p = []
      · subst hp; exact ⟨1, .fail, by simp [resolve, hm, hc, hsym, he]⟩
      · obtain ⟨f, r, h⟩ := ends_plain (root := root) (orig := orig) hc p.tail
        exact ⟨f + 1, r, by simp [resolve, hm, hc, hsym, he, hp, h]⟩
  | some e =>
    obtain ⟨hd, tl⟩ := e
    have hne : hd ≠ [] := by rintro rfl; exact h0 tl hc
    obtain ⟨k1, k2⟩ := hs.tail hc
    obtain ⟨f, r, h⟩ := ih tl.length (by rw [← hl]; exact cut_shorter hc) tl (hd :: p) rfl k1 k2
    refine ⟨f + 1, ?_⟩
    rw [resolve]
    simp only [hm, hc, he, and_false, if_false, hne, h]
    by_cases h1 : omHas m.inner hd = true
    · by_cases h2 : p.head? = some hd
      · simp only [h1, h2, and_self, if_true]
        cases r <;> simp
      · simp [h1, h2]
    · simp [h1]

/-- From the start. -/
theorem ends_start {root : Mod τ} {s : Name} (hs : NoGap s) : ∀ (p : Loc), ∃ f r, resolve root f p s s true = some r := by
  intro p
  induction p with
  | nil =>
    cases hm : root.at [] with
    | none => exact ⟨1, .ub, by simp [resolve, hm]⟩
    | some m =>
    cases hc : cut s with
    | none => exact ends_plain hc []
    | some e =>
      obtain ⟨hd, tl⟩ := e
      obtain ⟨k1, k2⟩ := hs.tail hc
      by_cases hne : hd = []
      · obtain ⟨f, r, h⟩ := ends_down (root := root) (orig := s) tl.length tl [] rfl k1 k2
        exact ⟨f + 1, r, by simp [resolve, hm, hc, hne, h]⟩
      · obtain ⟨f, r, h⟩ := ends_down (root := root) (orig := s) tl.length tl [hd] rfl k1 k2
        refine ⟨f + 1, ?_⟩
        rw [resolve]
        simp only [hm, hc, hne, if_false, Bool.true_eq_false, false_and, h]
        by_cases h1 : omHas m.inner hd = true <;> simp [h1]
  | cons n p ih =>
    obtain ⟨g, q, hg⟩ := ih
    cases hm : root.at (n :: p) with
    | none => exact ⟨1, .ub, by simp [resolve, hm]⟩
    | some m =>
    cases hc : cut s with
    | none => exact ends_plain hc (n :: p)
    | some e =>
      obtain ⟨hd, tl⟩ := e
      obtain ⟨k1, k2⟩ := hs.tail hc
      by_cases hne : hd = []
      · exact ⟨g + 1, q, by simp [resolve, hm, hc, hne, hg]⟩
      · obtain ⟨f, r, h⟩ := ends_down (root := root) (orig := s) tl.length tl (hd :: n :: p) rfl k1 k2
        have hg' := resolve_le root (Nat.le_max_left g f) hg
        have h' := resolve_le root (Nat.le_max_right g f) h
        refine ⟨max g f + 1, ?_⟩
        rw [resolve]
        simp only [hm, hc, hne, if_false, Bool.true_eq_false, false_and, h', hg']
        by_cases h1 : omHas m.inner hd = true
        · by_cases h2 : n = hd
          · simp only [h1, h2, List.head?_cons, and_self, if_true]
            cases r <;> simp
          · simp [h1, h2]
        · simp [h1, hg']

/-- A name without four colons in a row has a lookup that ends. -/
theorem lookup_ends (root : Mod τ) (p : Loc) {s : Name} (hs : NoGap s) : ∃ r, Lookup root p s r := by
  obtain ⟨f, r, h⟩ := ends_start (root := root) hs p
  exact ⟨r, f, h⟩

end Verif.Idl
