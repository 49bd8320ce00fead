import Verif.Spec.IdlSound
import Verif.Lemmas.AnyKeep
import Verif.Lemmas.UnionWF
/-!
# Every type a text makes is made properly
-/

namespace Verif
open Inst

theorem Mems.made_iff : ∀ {ms : Mems}, ms.Made ↔ ∀ e ∈ ms.toList, e.2.Made
  | .nil => by simp [Mems.Made, Mems.toList]
  | .cons x t r => by
    rw [Mems.Made, Mems.toList, Mems.made_iff]
    simp

theorem Mems.toList_of (l : List (String × Ty)) : (Mems.ofList l).toList = l := by
  induction l with
  | nil => rfl
  | cons e l ih => obtain ⟨a, b⟩ := e; rw [Mems.ofList, Mems.toList, ih]

theorem Mems.of_toList : ∀ (ms : Mems), Mems.ofList ms.toList = ms
  | .nil => rfl
  | .cons x t r => by rw [Mems.toList, Mems.ofList, Mems.of_toList r]

theorem Ty.Made.rget : ∀ {t : Ty}, t.Made → t.rget.Made
  | .alias n t, h => by rw [Ty.rget]; rw [Ty.Made] at h; exact Ty.Made.rget h
  | .prim _, h | .enum _ _ _, h | .str _ _, h | .seq _ _, h | .arr _ _ _, h | .map _ _ _, h | .pair _ _, h | .struct _ _, h
  | .union _ _ _ _, h => h

theorem wf_of_made {T : Ty} : T.Made → T.Unreserved → T.WF := by
  induction T using Ty.ind with
  | prim k => intro _ _; rw [Ty.WF]; trivial
  | enum n w vs => intro _ _; rw [Ty.WF]; trivial
  | str k b => intro _ _; rw [Ty.WF]; trivial
  | seq c b ih => intro h k; rw [Ty.Made] at h; rw [Ty.Unreserved] at k; rw [Ty.WF]; exact ih h k
  | arr n c d ih => intro h k; rw [Ty.Made] at h; rw [Ty.Unreserved] at k; rw [Ty.WF]; exact ih h k
  | map a b n ih1 ih2 => intro h k; rw [Ty.Made] at h; rw [Ty.Unreserved] at k; rw [Ty.WF]; exact ⟨ih1 h.1 k.1, ih2 h.2 k.2⟩
  | pair a b ih1 ih2 => intro h k; rw [Ty.Made] at h; rw [Ty.Unreserved] at k; rw [Ty.WF]; exact ⟨ih1 h.1 k.1, ih2 h.2 k.2⟩
  | als n t ih => intro h k; rw [Ty.Made] at h; rw [Ty.Unreserved] at k; rw [Ty.WF]; exact ih h k
  | struct n ms ih =>
    intro h k; rw [Ty.Made] at h; rw [Ty.Unreserved] at k; rw [Ty.WF]
    exact mems ms ih h.2 k
  | union n d ms i ihd ih =>
    intro h k
    rw [Ty.Made] at h; rw [Ty.Unreserved] at k
    obtain ⟨⟨u, hb, hu⟩, hd, hm⟩ := h
    have hms := mems ms ih hm k.2
    rw [← hu]
    have hu' := hu
    rw [UnionB.toTy, Ty.union.injEq] at hu'
    obtain ⟨_, e2, e3, e4⟩ := hu'
    refine UnionB.built_wf hb ?_ ?_ ?_
    · have hc := (UnionB.built_inv hb).check
      rw [e2] at hc ⊢
      have hr := hd.rget
      unfold checkDisc at hc
      unfold discOk
      split at hc
      · rename_i e; rw [e]; simpa using hc
      · rename_i e; rw [e] at hr ⊢; rw [Ty.Made] at hr; exact hr.1
      · cases hc
    · rw [← e4] at k; exact k.1
    · intro m hmm
      have : (m.name, m.ty) ∈ ms.toList := by
        rw [← e3, Mems.toList_of]
        exact List.mem_map.mpr ⟨m, hmm, rfl⟩
      exact all_wf hms _ this
where
  mems : ∀ (ms : Mems), ms.Forall (fun t => t.Made → t.Unreserved → t.WF) → ms.Made → ms.Unreserved → ms.WF
    | .nil, _, _, _ => by rw [Mems.WF]; trivial
    | .cons x t r, h, hm, hu => by
      rw [Mems.Made] at hm; rw [Mems.Unreserved] at hu; rw [Mems.WF]
      exact ⟨h.1 hm.1 hu.1, mems r h.2 hm.2 hu.2⟩
  all_wf : ∀ {ms : Mems}, ms.WF → ∀ e ∈ ms.toList, e.2.WF
    | .nil, _, e, he => by cases he
    | .cons x t r, h, e, he => by
      rw [Mems.WF] at h
      rw [Mems.toList, List.mem_cons] at he
      rcases he with rfl | he
      · exact h.1
      · exact all_wf h.2 e he

end Verif

namespace Verif.Idl.Syn
open Text

/-- An entry that is made properly, if it is a type. -/
def MadeAt (_ : Loc) (_ : Cat) (_ : Name) (i : Item) : Prop := ∀ t, i = .ty t → t.Made

variable {E : CExpr → Prop} {c : Ctx} {root : Mod Item} {p : Loc} {f : Nat}

theorem bind_inv {α β} {x : Except Stop α} {k : α → Except Stop β} {b : β} (h : x.bind k = .ok b) : ∃ a, x = .ok a ∧ k a = .ok b := by
  cases x with
  | error e => cases h
  | ok a => exact ⟨a, rfl, h⟩

theorem map_inv {α β} {x : Except Stop α} {k : α → β} {b : β} (h : x.map k = .ok b) : ∃ a, x = .ok a ∧ k a = b := by
  cases x with
  | error e => cases h
  | ok a => exact ⟨a, rfl, Except.ok.inj h⟩

theorem forAll_inv {α β} {g : α → Except Stop β} : ∀ {l : List α} {l' : List β}, forAll g l = .ok l' → ∀ y ∈ l', ∃ x ∈ l, g x = .ok y
  | [], l', h, y, hy => by
    rw [forAll] at h; cases h; cases hy
  | a :: l, l', h, y, hy => by
    rw [forAll] at h
    obtain ⟨b, h1, h2⟩ := bind_inv h
    obtain ⟨bs, h3, h4⟩ := map_inv h2
    subst h4
    rcases List.mem_cons.mp hy with rfl | hy
    · exact ⟨a, by simp, h1⟩
    · obtain ⟨x, hx, e⟩ := forAll_inv h3 y hy
      exact ⟨x, List.mem_cons_of_mem _ hx, e⟩

theorem typeOf_made (hr : All MadeAt root) {b : Bool} {r : Res} {t : Ty} (h : typeOf root b r = some (some (.ty t))) : t.Made := by
  unfold typeOf at h
  split at h
  · rename_i q x
    cases hm : root.at q with
    | none => simp [hm] at h
    | some m =>
      have key : ∀ k i, omGet (m.content.get k) x = some i → entry root q k x = some i := fun k i e => by
        rw [entry, hm]; exact e
      simp only [hm] at h
      cases h1 : omGet m.content.aliases x with
      | some i => simp only [h1] at h; split at h <;> cases h; exact hr q .alias x _ (key .alias _ h1) t rfl
      | none =>
      cases h2 : omGet m.content.unions x with
      | some i => simp only [h1, h2] at h; split at h <;> cases h; exact hr q .union x _ (key .union _ h2) t rfl
      | none =>
      cases h3 : omGet m.content.structs x with
      | some i => simp only [h1, h2, h3] at h; split at h <;> cases h; exact hr q .struct x _ (key .struct _ h3) t rfl
      | none =>
        simp only [h1, h2, h3] at h
        split at h
        · cases h
        · exact hr q .enum x _ (key .enum _ (Option.some.inj h)) t rfl
  · cases h

theorem evalType_made (hr : All MadeAt root) : ∀ {t : TSpec} {T : Ty}, evalType c root p f t = .ok T → T.Made
  | .prim k, T, h => by cases k <;> cases h <;> (rw [Ty.Made]; trivial)
  | .any, T, h => by cases h
  | .fixed, T, h => by cases h
  | .name t, T, h => by
    obtain ⟨r, _, h2⟩ := bind_inv (show (look root p f (nm t)).bind _ = .ok T from h)
    split at h2
    · cases h2; exact typeOf_made hr ‹_›
    · cases h2
    · cases h2
  | .string none, T, h => by cases h; rw [Ty.Made]; trivial
  | .string (some t), T, h => by
    simp only [evalType] at h
    obtain ⟨a, _, h2⟩ := bind_inv h
    cases a with
    | some i => obtain ⟨_, _, rfl⟩ := map_inv h2; rw [Ty.Made]; trivial
    | none => obtain ⟨_, _, rfl⟩ := map_inv h2; rw [Ty.Made]; trivial
  | .wstring none, T, h => by cases h; rw [Ty.Made]; trivial
  | .wstring (some t), T, h => by
    obtain ⟨_, _, rfl⟩ := map_inv (show (intBound t).map _ = .ok T from h); rw [Ty.Made]; trivial
  | .seq t n, T, h => by
    simp only [evalType] at h
    obtain ⟨a, h1, h2⟩ := bind_inv h
    cases n with
    | none => cases h2; rw [Ty.Made]; exact evalType_made hr h1
    | some d => obtain ⟨_, _, rfl⟩ := map_inv h2; rw [Ty.Made]; exact evalType_made hr h1
  | .map k v n, T, h => by
    simp only [evalType] at h
    obtain ⟨a, h1, h2⟩ := bind_inv h
    obtain ⟨b, h3, h4⟩ := bind_inv h2
    cases n with
    | none => cases h4; rw [Ty.Made]; exact ⟨evalType_made hr h1, evalType_made hr h3⟩
    | some d => obtain ⟨_, _, rfl⟩ := map_inv h4; rw [Ty.Made]; exact ⟨evalType_made hr h1, evalType_made hr h3⟩

theorem declType_made {t : Ty} (h : t.Made) (ds : List Nat) : (declType t ds).Made := by
  unfold declType getArrayType
  have harr : ∀ {t : Ty} (n : Nat), t.Made → (Ty.array t n).Made := by
    intro t n h; unfold Ty.array; rw [Ty.Made]; exact h
  split
  · exact h
  · rename_i b r _
    show (r.foldl (fun a d => Ty.array a d) (Ty.array t b)).Made
    have : ∀ (r : List Nat) {t : Ty}, t.Made → (r.foldl (fun a d => Ty.array a d) t).Made := by
      intro r
      induction r with
      | nil => intro t h; exact h
      | cons d r ih => intro t h; exact ih (harr d h)
    exact this r (harr b h)

/-- Members of different names, whose types are made properly. -/
def GoodMems (l : List (String × Ty)) : Prop := (l.map (·.1)).Nodup ∧ ∀ e ∈ l, e.2.Made

theorem GoodMems.snoc {l : List (String × Ty)} (h : GoodMems l) {n : String} {t : Ty} (hn : l.any (·.1 == n) = false) (ht : t.Made) :
    GoodMems (l ++ [(n, t)]) := by
  have hn' : n ∉ l.map (·.1) := by
    intro hm
    obtain ⟨e, he, rfl⟩ := List.mem_map.mp hm
    have := List.any_eq_false.mp hn e he
    simp at this
  refine ⟨?_, fun e he => ?_⟩
  · rw [List.map_append, List.nodup_append]
    refine ⟨h.1, by simp, fun a ha b hb => ?_⟩
    rintro rfl
    rw [List.map_cons, List.map_nil, List.mem_singleton] at hb
    have hb : a = n := hb
    exact hn' (hb ▸ ha)
  · rcases List.mem_append.mp he with he | he
    · exact h.2 e he
    · rw [List.mem_singleton] at he; subst he; exact ht

theorem addDeclrs_good {t : Ty} (ht : t.Made) : ∀ {l : List (String × List Nat)} {acc r : List (String × Ty)}, GoodMems acc → addDeclrs t acc l = .ok r → GoodMems r
  | [], acc, r, ha, h => by cases h; exact ha
  | (n, ds) :: l, acc, r, ha, h => by
    unfold addDeclrs at h
    split at h
    · cases h
    · exact addDeclrs_good ht (ha.snoc (Bool.eq_false_iff.mpr ‹¬ _›) (declType_made ht ds)) h

theorem members_good (hr : All MadeAt root) : ∀ {l : List (TSpec × List Declr)} {acc r : List (String × Ty)}, GoodMems acc → members c root p f acc l = .ok r → GoodMems r
  | [], acc, r, ha, h => by cases h; exact ha
  | (t, ds) :: l, acc, r, ha, h => by
    rw [members] at h
    obtain ⟨T, h1, h2⟩ := bind_inv h
    obtain ⟨ds', h3, h4⟩ := bind_inv h2
    obtain ⟨acc', h5, h6⟩ := bind_inv h4
    exact members_good hr (addDeclrs_good (evalType_made hr h1) ha h5) h6

theorem addAll_good : ∀ {l m : List (String × Ty)}, (∀ e ∈ l, e.2.Made) → GoodMems m → GoodMems (addAll m l).1
  | [], m, _, hm => hm
  | e :: l, m, hl, hm => by
    unfold addAll
    split
    · exact hm
    · exact addAll_good (fun x hx => hl x (List.mem_cons_of_mem _ hx)) (hm.snoc (Bool.eq_false_iff.mpr ‹¬ _›) (hl e (by simp)))

theorem structMembers_good (hr : All MadeAt root) {x : Name} {l : List (String × Ty)} (h : structMembers root p f x = .ok l) : GoodMems l := by
  obtain ⟨r, _, h2⟩ := bind_inv h
  split at h2
  · rename_i n ms e
    cases h2
    cases r with
    | found q y =>
      have := hr q .struct y _ e _ rfl
      rw [Ty.Made] at this
      exact ⟨this.1, Mems.made_iff.mp this.2⟩
    | fail => cases e
    | ub => cases e
  · cases h2

theorem parentMembers_good (hr : All MadeAt root) {q : Option Bytes} {l : Option (List (String × Ty))} (h : parentMembers root p f q = .ok l) : GoodMems (l.getD []) := by
  cases q with
  | none => cases h; exact ⟨by simp, by simp⟩
  | some q =>
    obtain ⟨m, h1, rfl⟩ := map_inv (show (structMembers root p f (nm q)).map some = .ok l from h)
    exact structMembers_good hr h1

theorem new_made {n : String} {d : Ty} {u : UnionB} (hd : d.Made) (h : UnionB.new n d = some u) : u.toTy.Made := by
  have e : u.toTy = .union u.name u.disc (Mems.ofList (u.agg.members.tail.map fun m => (m.name, m.ty))) ⟨u.labels, u.defaultValue, u.invalidValue, u.default⟩ := rfl
  rw [e, Ty.Made]
  refine ⟨⟨u, .new _ _ h, rfl⟩, by rw [(new_same h).2]; exact hd, ?_⟩
  unfold UnionB.new at h
  split at h
  · cases h; trivial
  · cases h

theorem addCase_members (u : UnionB) (ls : List Int) (n : String) (t : Ty) (b : Bool) :
    ∀ m ∈ (u.addCase ls n t b).1.agg.members, m ∈ u.agg.members ∨ m.ty = t := by
  have hadd : ∀ (ha : u.Accepts ls n b), ∀ m ∈ (u.added ls n t).agg.members, m ∈ u.agg.members ∨ m.ty = t := by
    intro ha m hm
    have : (u.added ls n t).agg.members = u.agg.members ++ [⟨n, t, u.disc.memSize⟩] := UnionB.insert_members ha.2.2.2
    rw [this] at hm
    rcases List.mem_append.mp hm with hm | hm
    · exact .inl hm
    · rw [List.mem_singleton] at hm; subst hm; exact .inr rfl
  rcases UnionB.addCase_cases u ls n t b with ⟨_, he⟩ | ⟨ha, _, he⟩ | ⟨ha, _, _, he⟩ | ⟨ha, _, hdef, he⟩
  · rw [he]; exact fun m hm => .inl hm
  · rw [he]; exact hadd ha
  · rw [he]; exact hadd ha
  · rw [he]; exact hadd ha

theorem addCases_members : ∀ {l : List (List Bytes × String × Ty)} {u : UnionB}, (∀ e ∈ l, e.2.2.Made) → (∀ m ∈ u.agg.members, m.ty.Made) →
    ∀ m ∈ (addCases u l).1.agg.members, m.ty.Made
  | [], u, _, hu => hu
  | (ls, n, t) :: r, u, hl, hu => by
    have hk : ∀ u' b, u.addCaseText ls n t = some (u', b) → ∀ m ∈ u'.agg.members, m.ty.Made := by
      intro u' b h m hm
      unfold UnionB.addCaseText at h
      rw [Option.map_eq_some_iff] at h
      obtain ⟨x, _, h2⟩ := h
      have h1 := addCase_members u x.2 n t x.1
      rw [h2] at h1
      rcases h1 m hm with h | h
      · exact hu m h
      · rw [h]; exact hl (ls, n, t) (by simp)
    unfold addCases
    split
    · exact hu
    · rename_i u' h; exact hk u' _ h
    · rename_i u' h; exact addCases_members (fun e he => hl e (List.mem_cons_of_mem _ he)) (hk u' _ h)

theorem unionNamed_made (hr : All MadeAt root) {x : Name} {n : String} {d : Ty} {l : List (String × Ty)} (h : unionNamed root p f x = .ok (n, d, l)) : d.Made := by
  obtain ⟨r, _, h2⟩ := bind_inv h
  split at h2
  · rename_i n ms u e
    cases h2
    cases r with
    | found q y =>
      have := hr q .union y _ e _ rfl
      rw [Ty.Made] at this
      exact this.2.1
    | fail => cases e
    | ub => cases e
  · cases h2

theorem enumLoop_good {p : Loc} : ∀ {ids : List Bytes} {e e' : EnumB} {r r' : Mod Item} {b : Bool}, (e.vals.map (·.1)).Nodup → enumLoop p e r ids = (e', r', b) →
    (e'.vals.map (·.1)).Nodup
  | [], e, e', r, r', b, h, hs => by cases hs; exact h
  | t :: ids, e, e', r, r', b, h, hs => by
    unfold enumLoop at hs
    have hk : ∀ x y, e.addImplicit (str t) = (x, y) → (x.vals.map (·.1)).Nodup := by
      intro x y hx
      unfold EnumB.addImplicit EnumB.add at hx
      simp only at hx
      split at hx
      · cases hx; exact h
      · split at hx
        · cases hx; exact h
        · cases hx
          simp only
          unfold omEmplace
          split
          · exact h
          · refine omIns_keys_nodup h ?_
            rename_i hk _ 
            simpa [omHas_iff] using hk
    split at hs
    · rename_i h1; cases hs; exact hk _ _ h1
    · rename_i h1; exact enumLoop_good (hk _ _ h1) hs

theorem literalValue_made {t : Ty} {l : Lit} {i : Item} (h : literalValue t l = .ok i) : ∀ T, i ≠ .ty T := by
  intro T e
  subst e
  unfold literalValue at h
  split at h
  all_goals first
    | (simp at h; done)
    | (split at h <;> simp at h)

theorem solveExpr_made (hr : All MadeAt root) {t : Ty} : ∀ {e : CExpr} {i : Item}, solveExpr root p f t e = .ok i → ∀ T, i = .ty T → T.Made
  | .lit l, i, hs => fun T e => absurd e (literalValue_made hs T)
  | .name x, i, hs => by
    simp only [solveExpr] at hs
    obtain ⟨a, h1, h2⟩ := bind_inv hs
    obtain ⟨r, _, rfl⟩ := map_inv h1
    unfold namedValue at h2
    split at h2
    · rename_i j hj
      split at h2
      · cases h2
        cases r with
        | found q y => exact hr q .const y _ hj
        | fail => cases hj
        | ub => cases hj
      · cases h2
    · split at h2
      · cases h2; intro T e; cases e
      · cases h2
  | .un u e, i, hs => by
    simp only [solveExpr] at hs
    obtain ⟨x, h1, h2⟩ := bind_inv hs
    split at h2
    · unfold negItem at h2
      split at h2
      · rename_i a _
        cases hn : Ops.neg a <;> rw [hn] at h2 <;> cases h2
        intro T e; cases e
      · cases h2
    · cases h2; exact solveExpr_made hr h1
  | .bin o l r, i, hs => by
    simp only [solveExpr] at hs
    obtain ⟨x, h1, h2⟩ := bind_inv hs
    obtain ⟨y, h3, h4⟩ := bind_inv h2
    unfold binItem at h4
    split at h4
    · rename_i a b _ _
      cases hn : Ops.binop o a b <;> rw [hn] at h4 <;> cases h4
      intro T e; cases e
    · cases h4

theorem step_made {root root' : Mod Item} (h : Step E c root root') (hr : All MadeAt root) : All MadeAt root' := by
  have hreg : ∀ (p : Loc) (k : Cat) (x : Name) (t : Ty) (rep : Bool), t.Made → All MadeAt (register root p k x (.ty t) rep).1 := by
    intro p k x t rep ht
    exact hr.register _ _ _ _ _ fun _ _ t' e => by cases e; exact ht
  have hc : ∀ (p : Loc) (k : Cat) (x : Name) (i : Item) (rep : Bool), (∀ t, i ≠ .ty t) → All MadeAt (register root p k x i rep).1 := by
    intro p k x i rep hi
    exact hr.register _ _ _ _ _ fun _ _ t' e => absurd e (hi t')
  cases h with
  | struct p x => exact hreg _ _ _ _ _ (by rw [Ty.Made]; exact ⟨by simp [Mems.toList], by trivial⟩)
  | fill h1 h2 h3 _ =>
    refine hreg _ _ _ _ _ ?_
    have := addAll_good (members_good hr ⟨by simp, by simp⟩ h2).2 (parentMembers_good hr h1)
    rw [Ty.Made, Mems.toList_of, Mems.made_iff, Mems.toList_of]
    exact this
  | union hd hu => exact hreg _ _ _ _ _ (new_made (evalType_made hr hd) hu)
  | @cases p f x cs l n d u h1 h2 _ hu =>
    refine hreg _ _ _ _ _ ?_
    have hd := unionNamed_made hr h2
    have hl : ∀ e ∈ l, e.2.2.Made := by
      intro e he
      obtain ⟨x, _, h3⟩ := forAll_inv h1 e he
      obtain ⟨ls, _, h4⟩ := bind_inv h3
      obtain ⟨t, h5, h6⟩ := bind_inv h4
      obtain ⟨d, _, rfl⟩ := map_inv h6
      exact declType_made (evalType_made hr h5) _
    have hm := addCases_members (u := u) hl (by
      unfold UnionB.new at hu
      split at hu
      · cases hu
        intro m hm
        have : m ∈ [(⟨discName, d, 0⟩ : SMem)] := hm
        rw [List.mem_singleton] at this; subst this; exact hd
      · cases hu)
    obtain ⟨k1, k2, k3⟩ := addCases_same l (.new _ _ hu)
    have e : ∀ u : UnionB, u.toTy = .union u.name u.disc (Mems.ofList (u.agg.members.tail.map fun m => (m.name, m.ty))) ⟨u.labels, u.defaultValue, u.invalidValue, u.default⟩ := fun _ => rfl
    rw [e, Ty.Made]
    refine ⟨⟨_, k3, rfl⟩, by rw [k2, (new_same hu).2]; exact hd, ?_⟩
    rw [Mems.made_iff, Mems.toList_of]
    intro y hy
    obtain ⟨m, hm', rfl⟩ := List.mem_map.mp hy
    exact hm m (List.mem_of_mem_tail hm')
  | enumerator p x v => exact hc _ _ _ _ _ (by simp)
  | note x hp => exact hr.note hp x
  | enum x he => exact hreg _ _ _ _ _ (by rw [Ty.Made]; exact ⟨rfl, enumLoop_good (by simp [EnumB.new]) he⟩)
  | const x he _ hs =>
    refine hr.register _ _ _ _ _ fun _ _ t ht => ?_
    exact (solveExpr_made hr hs t ht)
  | «alias» x ds r ht =>
    unfold createAlias
    split
    · exact hr
    · exact hreg _ _ _ _ _ (by rw [Ty.Made]; exact declType_made (evalType_made hr ht) ds)
  | module hm hs => exact hr.module hm hs

theorem steps_made {root root' : Mod Item} (h : Steps E c root root') (hr : All MadeAt root) : All MadeAt root' := by
  induction h with
  | refl => exact hr
  | tail _ hs ih => exact step_made hs ih

end Verif.Idl.Syn
