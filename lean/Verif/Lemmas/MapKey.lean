import Verif.Lemmas.MapMem
import Verif.Lemmas.RefDef
/-! # Entries of maps and accesses by key -/

namespace Verif.Inst

theorem ordered_congr {H : Val → BitVec 64} {es fs : List Val} (h : es.map keyOf = fs.map keyOf) (ho : Ordered H es) :
    Ordered H fs := by
  have e : ∀ gs : List Val, Ordered H gs ↔ (gs.map keyOf).Pairwise fun x y => H x < H y := by
    intro gs; unfold Ordered; rw [List.pairwise_map]
  rw [e] at ho ⊢
  rw [← h]; exact ho

/-- Looking for a key in entries in order. -/
theorem lookup_mid {H : Val → BitVec 64} {A B : List Val} {e : Val} (ho : Ordered H (A ++ e :: B)) (u : Val) :
    lookup H u (A ++ e :: B) = if H u = H (keyOf e) then some (valueOf e) else lookup H u (A ++ B) := by
  unfold lookup
  by_cases h : H u = H (keyOf e)
  · rw [if_pos h]
    have hA : A.find? (fun f => decide (H (keyOf f) = H u)) = none := by
      rw [List.find?_eq_none]
      intro x hx hd
      have := (List.pairwise_append.mp ho).2.2 x hx e (by simp)
      rw [of_decide_eq_true hd, h] at this
      have := BitVec.lt_def.mp this
      omega
    rw [List.find?_append, hA, List.find?_cons, decide_eq_true h.symm]
    rfl
  · rw [if_neg h, List.find?_append, List.find?_append, List.find?_cons, decide_eq_false (fun h' => h h'.symm)]

theorem lookup_none {H : Val → BitVec 64} {u : Val} {es : List Val} : lookup H u es = none ↔ entryAt H u es = none := by
  unfold lookup entryAt
  rw [Option.map_eq_none_iff, List.find?_eq_none, List.findIdx?_eq_none_iff]
  simp

/-- The entry found. -/
theorem entryAt_some {H : Val → BitVec 64} {u : Val} {es : List Val} {i : Nat} (h : entryAt H u es = some i) :
    ∃ e, es[i]? = some e ∧ H (keyOf e) = H u ∧ lookup H u es = some (valueOf e) := by
  unfold entryAt at h
  obtain ⟨h1, h2, h3⟩ := List.findIdx?_eq_some_iff_getElem.mp h
  refine ⟨es[i], List.getElem?_eq_getElem h1, of_decide_eq_true h2, ?_⟩
  unfold lookup
  have : es.find? (fun f => decide (H (keyOf f) = H u)) = some es[i] :=
    List.find?_eq_some_iff_getElem.mpr ⟨h2, i, h1, rfl, fun j hj => by simpa using h3 j hj⟩
  rw [this]
  rfl

theorem lookup_iff {H : Val → BitVec 64} {u : Val} {es : List Val} :
    (lookup H u es).isSome = true ↔ ∃ e ∈ es, H (keyOf e) = H u := by
  unfold lookup
  rw [Option.isSome_map, List.find?_isSome]
  simp

/-- Entries are pairs. -/
theorem entries_pairs {k v : Ty} {b : Nat} {cs : List Cell} {es : List Val} (h : decode (.map k v b) cs = some (.coll es))
    {i : Nat} {e : Val} (hi : es[i]? = some e) : ∃ a z, e = .list [a, z] := by
  obtain ⟨size, cap, blk, vs, he, h1, h2, h3, h4, rfl⟩ := map_decode.mp h
  have he : es = vs.take size := by simpa using he
  subst he
  have hvl := decN_length h4
  obtain ⟨hlt, -⟩ := List.getElem?_eq_some_iff.mp hi
  rw [List.length_take] at hlt
  rw [List.getElem?_take_of_lt (by omega)] at hi
  obtain ⟨x, sl, y, w, e1, e2, e3, e4, e5⟩ := decN_slot h3 h4 (i := i) (by omega)
  rw [e5] at hi; cases hi
  rw [decode_pair] at e4
  obtain ⟨a, z, rfl, -, -⟩ := decPair_iff.mp e4
  exact ⟨a, z, rfl⟩

/-- Where the value of the entry is. -/
theorem editAt_entry {g : Ty → Val → Out} {q : List Step} {k v : Ty} {b i : Nat} {es : List Val} {a z0 z : Val}
    (hi : es[i]? = some (.list [a, z0])) (hz : editAt false g q v z0 = .ok z) :
    editAt false g (.key i :: q) (.map k v b) (.coll es) = .ok (.coll (es.set i (.list [a, z]))) := by
  rw [editAt_child rfl rfl]
  simp only [child, Ty.rget, elem, hi, hz, Out.map, putElem]

/-- Replacing the value of an entry. -/
theorem set_entry {H : Val → BitVec 64} {es : List Val} {i : Nat} {a z0 z : Val} (ho : Ordered H es)
    (hi : es[i]? = some (.list [a, z0])) : Ordered H (es.set i (.list [a, z])) ∧
      ∀ u, lookup H u (es.set i (.list [a, z])) = if H u = H a then some z else lookup H u es := by
  obtain ⟨hlt, he⟩ := List.getElem?_eq_some_iff.mp hi
  have hes : es = es.take i ++ .list [a, z0] :: es.drop (i + 1) := by
    rw [← he, ← List.drop_eq_getElem_cons hlt, List.take_append_drop]
  have hset : es.set i (.list [a, z]) = es.take i ++ .list [a, z] :: es.drop (i + 1) := by
    rw [List.set_eq_take_append_cons_drop, if_pos hlt]
  have ho2 : Ordered H (es.set i (.list [a, z])) := by
    refine ordered_congr ?_ ho
    conv => lhs; rw [hes]
    rw [hset]
    simp [keyOf]
  refine ⟨ho2, fun u => ?_⟩
  rw [hset] at ho2 ⊢
  have l1 : lookup H u (es.take i ++ .list [a, z] :: es.drop (i + 1)) =
      if H u = H a then some z else lookup H u (es.take i ++ es.drop (i + 1)) := lookup_mid ho2 u
  rw [l1]
  by_cases h : H u = H a
  · rw [if_pos h, if_pos h]
  · rw [if_neg h, if_neg h]
    rw [hes] at ho
    have l2 : lookup H u (es.take i ++ .list [a, z0] :: es.drop (i + 1)) =
      if H u = H a then some z0 else lookup H u (es.take i ++ es.drop (i + 1)) := lookup_mid ho u
    rw [if_neg h, ← hes] at l2
    exact l2.symm

/-- A new entry. -/
theorem addEntry_lookup {H : Val → BitVec 64} {es : List Val} {e : Val} (ho : Ordered H es)
    (hn : entryAt H (keyOf e) es = none) :
    ∃ p, p ≤ es.length ∧ addEntry H e es = es.take p ++ e :: es.drop p ∧
      entryAt H (keyOf e) (addEntry H e es) = some p ∧ Ordered H (addEntry H e es) ∧
      ∀ u, lookup H u (addEntry H e es) = if H u = H (keyOf e) then some (valueOf e) else lookup H u es := by
  have hm : ∀ i j, i < j → j < es.length → (H (keyOf (es[i]?.getD (.list [])))).toNat <
      (H (keyOf (es[j]?.getD (.list [])))).toNat := fun i j hij hj => ordered_lt ho hij hj
  rcases findPlaceM_spec (hs := fun i => .ok (H (keyOf (es[i]?.getD (.list [])))).toNat) (x := (H (keyOf e)).toNat)
    (size := es.length) (fun _ _ => rfl) hm with ⟨p, p1, p2, p3⟩ | ⟨p, p1, p2, p3, p4⟩
  · rw [entryAt_pos ho p1 p2] at hn; cases hn
  · obtain ⟨a1, a2, a3, a4⟩ := addEntry_pos (e := e) p1 p2 p3
    refine ⟨p, p1, a1, a3, a4 ho, fun u => ?_⟩
    have := a4 ho
    rw [a1] at this ⊢
    rw [lookup_mid this, List.take_append_drop]

/-- What `operator[](key)` followed by an operation does to the entries. -/
theorem keySpec_eq {H : Val → BitVec 64} {g : Ty → Val → Out} {q : List Step} {k v : Ty} {b : Nat} {es : List Val} {u z : Val}
    {cs : List Cell} (hd : decode (.map k v b) cs = some (.coll es)) (ho : Ordered H es)
    (hroom : lookup H u es ≠ none ∨ b = 0 ∨ es.length < b)
    (hz : editAt false g q v ((lookup H u es).getD (defVal v)) = .ok z) :
    ∃ es', keySpec H u v b (fun i => editAt false g (.key i :: q) (.map k v b)) (.coll es) = .ok (.coll es') ∧ Ordered H es' ∧
      es'.length = es.length + (if lookup H u es = none then 1 else 0) ∧
      ∀ u', lookup H u' es' = if H u' = H u then some z else lookup H u' es := by
  simp only [keySpec, if_pos ho]
  cases hent : entryAt H u es with
  | some i =>
    obtain ⟨e, h1, h2, h3⟩ := entryAt_some hent
    obtain ⟨a, z0, rfl⟩ := entries_pairs hd h1
    simp only [valueOf] at h3
    rw [h3, Option.getD_some] at hz
    obtain ⟨s1, s2⟩ := set_entry (z := z) ho h1
    simp only [keyOf] at h2
    rw [h2] at s2
    exact ⟨_, editAt_entry h1 hz, s1, by rw [List.length_set, if_neg (by simp [h3])]; rfl, s2⟩
  | none =>
    have hln := lookup_none.mpr hent
    rw [hln, Option.getD_none] at hz
    obtain ⟨p, p1, p2, p3, p4, p5⟩ := addEntry_lookup (e := .list [u, defVal v]) ho hent
    simp only [keyOf] at p3
    simp only []
    rw [if_pos (hroom.resolve_left (fun h => h hln)), p3]
    simp only []
    have hg : (addEntry H (.list [u, defVal v]) es)[p]? = some (.list [u, defVal v]) := by
      rw [p2, List.getElem?_append_right (by simp)]
      rw [show p - (es.take p).length = 0 by simp; omega]; rfl
    obtain ⟨s1, s2⟩ := set_entry (z := z) p4 hg
    refine ⟨_, editAt_entry hg hz, s1, ?_, fun u' => ?_⟩
    · rw [List.length_set, p2, if_pos hln]; simp; omega
    · have p6 : lookup H u' (addEntry H (.list [u, defVal v]) es) = if H u' = H u then some (defVal v) else lookup H u' es := p5 u'
      rw [s2, p6]
      by_cases h : H u' = H u
      · rw [if_pos h, if_pos h]
      · rw [if_neg h, if_neg h, if_neg h]

theorem keySpec_full {H : Val → BitVec 64} {g : Nat → Val → Out} {v : Ty} {b : Nat} {es : List Val} {u : Val} (ho : Ordered H es)
    (hn : lookup H u es = none) (hb : b ≠ 0) (hf : b ≤ es.length) : keySpec H u v b g (.coll es) = .refused := by
  simp only [keySpec, if_pos ho, lookup_none.mp hn]
  rw [if_neg (by omega)]

/-- Changing the map at the end of a path. -/
def atMap (k v : Ty) (b : Nat) (g : Val → Out) (T : Ty) : Val → Out := if T = .map k v b then g else fun _ => .undef

theorem atMap_keeps {k v : Ty} {b : Nat} {g : Val → Out} : KeepsNum (atMap k v b g) := by
  intro k' bs w _ h
  unfold atMap at h
  rw [if_neg (by simp)] at h
  cases h

theorem atMap_self {k v : Ty} {b : Nat} {g : Val → Out} : atMap k v b g (.map k v b) = g := if_pos rfl

/-- A change of the map at the end of a path, seen from the outside. -/
theorem mapEdit_ok {d : Data} {v : Val} {p : List Step} {k val : Ty} {b : Nat} {es es' : List Val} {cl : Prop}
    {f : Ty → Nat → Mem → M Mem} {g : Val → Out} (h : d.ty.WF) (hv : d.Holds v) (hp : valAt p d.ty v = some (.coll es))
    (ht : typeAt p d.ty = some (.map k val b))
    (hf : EditsTo (decode (.map k val b)) (tidy (.map k val b)) cl (f (.map k val b)) g) (hg : g (.coll es) = .ok (.coll es')) :
    ∃ new lk v', withRef false p d.ty f 0 ⟨d.cells, 0⟩ = .ok ⟨new, lk⟩ ∧ decode d.ty new = some v' ∧
      valAt p d.ty v' = some (.coll es') ∧ (∀ q, Apart p q d.ty → ∀ x, valAt q d.ty v = some x → valAt q d.ty v' = some x) ∧
      (cl → tidy d.ty d.cells → lk = 0 ∧ tidy d.ty new) := by
  have hE := withRef_edits (ro := false) (cl := cl) (f := f) (g := atMap k val b g) p d.ty h (fun t ht' _ => by
    rw [ht] at ht'; cases ht'
    rw [atMap_self]; exact hf)
  obtain ⟨v', he⟩ := editAt_defined (ro := false) (g := atMap k val b g) p d.ty h d.cells v _ _ _ hv.2 hp ht
    (by rw [atMap_self]; exact hg)
  have := (hE [] d.cells [] 0 v hv.2).2 v' he
  simp only [List.nil_append, List.append_nil, List.length_nil, Nat.zero_add] at this
  obtain ⟨new, lk, r1, r2, r3, r4⟩ := this
  refine ⟨new, lk, v', r1, r3, ?_, fun q hq x hx => valAt_editAt_apart p q d.ty v v' x hq he hx, r4⟩
  obtain ⟨t1, u1, w1, e1, e2, e3, e4⟩ := valAt_editAt atMap_keeps p d.ty v v' he
  rw [ht] at e1; cases e1
  have := e2 _ hp; subst this
  rw [atMap_self, hg] at e3; cases e3
  exact e4

/-- An operation refused at the end of a path. -/
theorem editAt_refuses {ro : Bool} {g : Ty → Val → Out} : (p : List Step) → (T : Ty) → T.WF → (cs : List Cell) →
    (v u : Val) → (t : Ty) → decode T cs = some v → valAt p T v = some u → typeAt p T = some t → g t u = .refused →
    editAt ro g p T v = .refused
  | [], T, hw, cs, v, u, t, hv, hu, ht, hg => by
    rw [valAt] at hu; cases hu
    rw [typeAt] at ht; cases ht
    exact hg
  | s :: p, T, hw, cs, v, u, t, hv, hu, ht, hg => by
    have hwS := WF_rget T hw
    cases hr : T.rget.isUnion with
    | true =>
      cases hT : T.rget <;> rw [hT] at hr <;> simp only [Ty.isUnion, Bool.false_eq_true] at hr
      rename_i n d ms i
      rw [hT, Ty.WF] at hwS
      have hv' := hv
      rw [← decode_rget, hT] at hv'
      obtain ⟨bs, rest, hb, hl, rfl, hcase⟩ := decode_union_inv hwS.1 hv'
      cases s with
      | member nm =>
        simp only [valAt, typeAt, hT] at hu ht
        rcases hcase with ⟨hc, rfl⟩ | ⟨x, t', w', hc, hf', hd', rfl⟩
        · cases hu
        · simp only [] at hu
          split at hu
          · rename_i hx
            subst hx
            rw [hf'] at hu ht
            simp only [Option.bind_some] at hu ht
            obtain ⟨l, hl⟩ := firstLabel_some hc
            have hz := editAt_refuses (ro := ro) (g := g) p t' (find_WF hwS.2.2 hf') _ w' u t hd' hu ht hg
            simp only [editAt, hT, hf', hl, Val.isCase, decide_true, Bool.not_true, Bool.and_false, Bool.false_eq_true,
              if_false, caseVal, if_true, hz, Out.map]
          · cases hu
      | index j => simp [valAt, hT, child] at hu
      | key j => simp [valAt, hT, child] at hu
    | false =>
      have hone := locate_reads [s] T hw [] cs [] v hv
      rw [valAt_child rfl hr] at hu
      rw [typeAt_child rfl hr] at ht
      rw [editAt_child rfl hr]
      cases hc : child T.rget s with
      | none => rw [hc] at hu
      | some q =>
        rw [hc] at hu ht
        simp only [Option.bind_some] at hu ht
        cases he : elem T.rget v q.1 with
        | none => rw [he] at hu; cases hu
        | some z =>
          rw [he] at hu
          simp only [Option.bind_some] at hu
          have hval : valAt [s] T v = some z := by
            rw [valAt_child rfl hr, hc]; simp only [Option.bind_some, he, valAt]
          obtain ⟨t1, x, ht1, -, hdx⟩ := hone.1 z hval
          rw [typeAt_child rfl hr, hc] at ht1
          simp only [Option.bind_some, typeAt, Option.some.injEq] at ht1
          subst ht1
          rw [decode_rget] at hdx
          have hy := editAt_refuses (ro := ro) (g := g) p q.2 (child_WF hwS hc) x z u t hdx hu ht hg
          simp only [he, hy, Out.map]

/-- A refused change of the map at the end of a path. -/
theorem mapEdit_refused {d : Data} {v : Val} {p : List Step} {k val : Ty} {b : Nat} {es : List Val} {cl : Prop}
    {f : Ty → Nat → Mem → M Mem} {g : Val → Out} (h : d.ty.WF) (hv : d.Holds v) (hp : valAt p d.ty v = some (.coll es))
    (ht : typeAt p d.ty = some (.map k val b))
    (hf : EditsTo (decode (.map k val b)) (tidy (.map k val b)) cl (f (.map k val b)) g) (hg : g (.coll es) = .refused) :
    withRef false p d.ty f 0 ⟨d.cells, 0⟩ = .error .refused := by
  have hE := withRef_edits (ro := false) (cl := cl) (f := f) (g := atMap k val b g) p d.ty h (fun t ht' _ => by
    rw [ht] at ht'; cases ht'
    rw [atMap_self]; exact hf)
  have he := editAt_refuses (ro := false) (g := atMap k val b g) p d.ty h d.cells v _ _ hv.2 hp ht
    (by rw [atMap_self]; exact hg)
  have := (hE [] d.cells [] 0 v hv.2).1 he
  simpa only [List.nil_append, List.append_nil, List.length_nil] using this

end Verif.Inst
