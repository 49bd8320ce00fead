import Verif.Model.Deps
/-!
# The types the dependency tree looks at are those `for_each` visits
-/

namespace Verif.Idl.Dep
open Verif.Inst

/-- A visitor that notes the type of every node it is shown. -/
def noteTypes : TVisitor (List Ty) := fun n l => (l ++ [n.self.ty], none)

theorem andThen_note {w v : Walk (List Ty)} {a b l : List Ty} (hw : w l = .ok (l ++ a, none))
    (hv : v (l ++ a) = .ok (l ++ a ++ b, none)) : (w.andThen v) l = .ok (l ++ (a ++ b), none) := by
  simp only [Walk.andThen, hw, Except.bind]
  rw [← List.append_assoc]
  exact hv

mutual
theorem twalk_note : ∀ (T : Ty) (n : TNode) (l : List Ty),
    twalk noteTypes T n l = .ok (l ++ seen T n.self.ty, none)
  | .prim _, n, l => by simp [twalk, tcall, noteTypes, seen]
  | .enum _ _ _, n, l => by simp [twalk, tcall, noteTypes, seen]
  | .str _ _, n, l => by simp [twalk, tcall, noteTypes, seen]
  | .seq c _, n, l => by
    have := twalk_note c (n.child c 0 none) (l ++ [n.self.ty])
    exact andThen_note (a := [n.self.ty]) rfl this
  | .arr _ c _, n, l => by
    have := twalk_note c (n.child c 0 none) (l ++ [n.self.ty])
    exact andThen_note (a := [n.self.ty]) rfl this
  | .map k v _, n, l => by
    let m := n.child (.pair k v) 0 none
    have hk := twalk_note k (m.child k 0 m.pairMember) (l ++ [n.self.ty] ++ [.pair k v])
    have hv := twalk_note v (m.child v 1 m.pairMember) (l ++ [n.self.ty] ++ [.pair k v] ++ seen k k)
    exact andThen_note (a := [n.self.ty]) rfl (andThen_note (a := [.pair k v]) rfl (andThen_note hk hv))
  | .pair x y, n, l => by
    have hk := twalk_note x (n.child x 0 n.pairMember) (l ++ [n.self.ty])
    have hv := twalk_note y (n.child y 1 n.pairMember) (l ++ [n.self.ty] ++ seen x x)
    simp only [twalk, twalkPair]
    exact andThen_note (a := [n.self.ty]) rfl (andThen_note hk hv)
  | .alias _ t, n, l => twalk_note t n l
  | .struct _ ms, n, l => andThen_note (a := [n.self.ty]) rfl (twalkAll_note ms 0 n (l ++ [n.self.ty]))
  | .union _ d ms _, n, l => by
    have hd := twalk_note d (n.child d 0 (some discName)) (l ++ [n.self.ty])
    exact andThen_note (a := [n.self.ty]) rfl
      (andThen_note hd (twalkAll_note ms 1 n (l ++ [n.self.ty] ++ seen d d)))
theorem twalkAll_note : ∀ (ms : Mems) (i : Nat) (n : TNode) (l : List Ty),
    twalkAll noteTypes ms i n l = .ok (l ++ seenAll ms, none)
  | .nil, i, n, l => by simp [twalkAll, Walk.done, seenAll]
  | .cons x t r, i, n, l => by
    have ht := twalk_note t (n.child t i (some x)) l
    exact andThen_note ht (twalkAll_note r (i + 1) n (l ++ seen t t))
end

/-- The types `seen` lists are those `for_each` shows to its visitor, in the same order. -/
theorem seen_typeForEach (T : Ty) : typeForEach T noteTypes [] = .ok (seen T T, some true) := by
  have := twalk_note T (.root T) []
  rw [List.nil_append] at this
  simp only [typeForEach, this]
  rfl

end Verif.Idl.Dep
