import Verif.Lemmas.Iterate
import Verif.Props.WalkWrite
/-!
# C72: loops that write
-/

namespace Verif.Inst

variable {σ : Type}

/-- C72: `for (auto e : d) …` over an array, a sequence, a string or a map, whatever the body does to its elements and to `d` itself,
as long as nothing of it is refused: it ends, with what `loopV` says in `d` and in the variables of the body; nothing but `d` is
changed, and nothing is lost. -/
theorem C72_loop_partial {b : Body σ} {vb : VBody σ} {T : Ty} (hf : b.Follows vb T) (ha : vb.Able T) (hw : T.WF) {c : Ty} (hT : elemTy T = some c)
    {pre old post : List Cell} {lk : Nat} {v w : Val} {s s' : σ} {t : Option Throw} (hv : decode T old = some v)
    (h : loopV vb T v s = some (w, s', t)) :
    ∃ new d, forIt b T pre.length ⟨pre ++ old ++ post, lk⟩ s = .ok (⟨pre ++ new ++ post, lk + d⟩, s', t) ∧
      new.length = old.length ∧ decode T new = some w ∧ (T.Tight → tidy T old → d = 0 ∧ tidy T new) := by
  have hc : isColl T = true := by cases T <;> first | rfl | cases hT
  have := editsW_iff.mp (loop_edits hf ha hw (cl := T.Tight) id ⟨c, .inl hT⟩) pre old post lk v hv s w s' t h
  simpa only [forIt, hc, if_true] using this

/-- C72: and `for (auto m : d.items()) …` over the members of a structure. -/
theorem C72_items_partial {b : Body σ} {vb : VBody σ} {n : String} {ms : Mems} (hf : b.Follows vb (.struct n ms)) (ha : vb.Able (.struct n ms)) (hw : ms.WF)
    {pre old post : List Cell} {lk : Nat} {v w : Val} {s s' : σ} {t : Option Throw} (hv : decode (.struct n ms) old = some v)
    (h : loopV vb (.struct n ms) v s = some (w, s', t)) :
    ∃ new d, forItems b (.struct n ms) pre.length ⟨pre ++ old ++ post, lk⟩ s = .ok (⟨pre ++ new ++ post, lk + d⟩, s', t) ∧
      new.length = old.length ∧ decode (.struct n ms) new = some w ∧ (ms.Tight → tidy (.struct n ms) old → d = 0 ∧ tidy (.struct n ms) new) := by
  have := editsW_iff.mp (loop_edits hf ha (T := .struct n ms) (by rw [Ty.WF]; exact hw) (cl := ms.Tight) (fun h => by rw [Ty.Tight]; exact h)
    ⟨.prim .u8, .inr rfl⟩) pre old post lk v hv s w s' t h
  exact this

/-- C72: other types are refused. -/
theorem C72_refused (b : Body σ) (T : Ty) (a : Nat) (m : Mem) (s : σ) :
    (elemTy T = none → forIt b T a m s = .error .refused) ∧
    ((∀ n ms, T ≠ .struct n ms) → (∀ n d ms i, T ≠ .union n d ms i) → forItems b T a m s = .error .refused) := by
  constructor
  · intro h
    have : isColl T = false := by cases T <;> first | rfl | cases h
    simp [forIt, this]
  · intro h1 h2
    have : isAggr T = false := by
      cases T <;> first | rfl | exact absurd rfl (h1 _ _) | exact absurd rfl (h2 _ _ _ _)
    simp [forItems, this]

/-! ## What it comes to -/

theorem looks_loop {vb : VBody σ} {f : Val → σ → σ} (h : vb.Looks f) {T : Ty} (hT : ∀ i, i < (elems T v).length → (partTy T i).isSome)
    (hs : ∀ i u, (elems T v)[i]? = some u → setElem T v i u = v) (s : σ) :
    loopV vb T v s = some (v, (elems T v).foldl (fun s u => f u s) s, none) := by
  have key : ∀ k i s, i + k = (elems T v).length →
      roundsV vb T i k v s = some (v, ((elems T v).drop i).foldl (fun s u => f u s) s, none) := by
    intro k
    induction k with
    | zero => intro i s hi; rw [List.drop_eq_nil_of_le (by omega)]; rfl
    | succ k ih =>
      intro i s hi
      have hlt : i < (elems T v).length := by omega
      obtain ⟨⟨n, t⟩, hp⟩ := Option.isSome_iff_exists.mp (hT i hlt)
      have hu : (elems T v)[i]? = some (elems T v)[i] := List.getElem?_eq_getElem hlt
      have hr : roundV vb T i v s = some (v, f (elems T v)[i] s, none) := by
        unfold roundV
        rw [hp, hu]
        simp only [h.1, h.2, editAll, hs i _ hu]
      rw [roundsV, hr]
      simp only
      rw [ih (i + 1) _ (by omega), List.drop_eq_getElem_cons hlt]
      rfl
  have := key (elems T v).length 0 s (by omega)
  rwa [List.drop_zero] at this

theorem looks_able {vb : VBody σ} {f : Val → σ → σ} (h : vb.Looks f) (T : Ty) : vb.Able T := by
  constructor
  · intro i n t _ v s x hx; rw [h.1] at hx; cases hx
  · intro v s x hx; rw [h.2] at hx; cases hx

theorem set_self {α : Type} {l : List α} {i : Nat} {x : α} (h : l[i]? = some x) : l.set i x = l := by
  refine List.ext_getElem? fun j => ?_
  rw [List.getElem?_set]
  split
  · rename_i hj
    subst hj
    rw [h]
    split
    · rfl
    · rename_i hn
      rw [List.getElem?_eq_none (by omega)] at h
      cases h
  · rfl

theorem setElem_self {T : Ty} {v : Val} (hs : ∀ k b us, T = .str k b → v = .str us → ∀ u ∈ us, u < 256 ^ (charOf k).size) {i : Nat} {u : Val}
    (hu : (elems T v)[i]? = some u) : setElem T v i u = v := by
  by_cases hl : ∃ vs, v = .list vs ∨ v = .coll vs
  · obtain ⟨vs, rfl | rfl⟩ := hl
    · have e : (elems T (.list vs)) = vs := by cases T <;> rfl
      rw [e] at hu
      have : setElem T (.list vs) i u = .list (vs.set i u) := by cases T <;> rfl
      rw [this, set_self hu]
    · have e : (elems T (.coll vs)) = vs := by cases T <;> rfl
      rw [e] at hu
      have : setElem T (.coll vs) i u = .coll (vs.set i u) := by cases T <;> rfl
      rw [this, set_self hu]
  · cases v with
    | list vs => exact absurd ⟨vs, .inl rfl⟩ hl
    | coll vs => exact absurd ⟨vs, .inr rfl⟩ hl
    | str us =>
      cases T with
      | str k b =>
        rw [elems, List.getElem?_map] at hu
        cases hx : us[i]? with
        | none => rw [hx] at hu; cases hu
        | some x =>
          rw [hx] at hu
          cases hu
          rw [setElem, leNat_leBytes, Nat.mod_eq_of_lt (hs k b us rfl rfl x (List.mem_of_getElem? hx)), set_self hx]
      | _ => rfl
    | _ => cases T <;> rfl

/-- C72: a loop whose body writes nothing is shown the elements in order, each once, and leaves the value as it is. (The code units
of a string are those of its type.) -/
theorem C72_looks {b : Body σ} {vb : VBody σ} {f : Val → σ → σ} (h : vb.Looks f) {T : Ty} (hf : b.Follows vb T) (hw : T.WF) {c : Ty}
    (hT : elemTy T = some c) {pre old post : List Cell} {lk : Nat} {v : Val} (hv : decode T old = some v)
    (hs : ∀ k b us, T = .str k b → v = .str us → ∀ u ∈ us, u < 256 ^ (charOf k).size) (s : σ) :
    ∃ new d, forIt b T pre.length ⟨pre ++ old ++ post, lk⟩ s =
        .ok (⟨pre ++ new ++ post, lk + d⟩, (elems T v).foldl (fun s u => f u s) s, none) ∧
      new.length = old.length ∧ decode T new = some v ∧ (T.Tight → tidy T old → d = 0 ∧ tidy T new) :=
  C72_loop_partial hf (looks_able h T) hw hT hv
    (looks_loop h (fun i _ => by cases T <;> first | rfl | cases hT) (fun _ _ => setElem_self hs) s)

/-- C72: and `items()` of a structure. -/
theorem C72_looks_items {b : Body σ} {vb : VBody σ} {f : Val → σ → σ} (h : vb.Looks f) {n : String} {ms : Mems} (hf : b.Follows vb (.struct n ms))
    (hw : ms.WF) {pre old post : List Cell} {lk : Nat} {vs : List Val} (hv : decode (.struct n ms) old = some (.list vs)) (s : σ) :
    ∃ new d, forItems b (.struct n ms) pre.length ⟨pre ++ old ++ post, lk⟩ s =
        .ok (⟨pre ++ new ++ post, lk + d⟩, vs.foldl (fun s u => f u s) s, none) ∧
      new.length = old.length ∧ decode (.struct n ms) new = some (.list vs) ∧
      (ms.Tight → tidy (.struct n ms) old → d = 0 ∧ tidy (.struct n ms) new) := by
  refine C72_items_partial hf (looks_able h _) hw hv (looks_loop h (fun i hi => ?_) (fun _ _ => setElem_self (fun _ _ _ h => by cases h)) s)
  have hl : vs.length = ms.length := by
    rw [decode] at hv
    cases e : decodeAll ms old with
    | none => rw [e] at hv; cases hv
    | some ws => rw [e] at hv; cases hv; exact decodeAll_count e
  simp only [elems] at hi
  rw [hl] at hi
  have : (ms.toList[i]?).isSome := by
    rw [← mems_get]
    exact mems_get_isSome hi
  simp [partTy, this]

/-- C72: a loop whose body makes every element `g` of it makes every element `g` of it, each once: what one round writes, no
other round sees. -/
theorem C72_map {vb : VBody Unit} {T : Ty} {g : Val → Val} {v : Val} {vs : List Val} (hv : v = .list vs ∨ v = .coll vs)
    (hT : ∀ i, i < vs.length → (partTy T i).isSome) (h : vb.Maps T g vs) : loopV vb T v () = some (mapElems T g v, (), none) := by
  obtain ⟨K, hK, hel, hset, hmap⟩ : ∃ K : List Val → Val, v = K vs ∧ (∀ us, elems T (K us) = us) ∧
      (∀ us i x, setElem T (K us) i x = K (us.set i x)) ∧ mapElems T g (K vs) = K (vs.map g) := by
    rcases hv with rfl | rfl
    · exact ⟨Val.list, rfl, fun us => by cases T <;> rfl, fun us i x => by cases T <;> rfl, rfl⟩
    · exact ⟨Val.coll, rfl, fun us => by cases T <;> rfl, fun us i x => by cases T <;> rfl, rfl⟩
  subst hK
  rw [hmap]
  have key : ∀ k i, i + k = vs.length →
      roundsV vb T i k (K ((vs.take i).map g ++ vs.drop i)) () = some (K (vs.map g), (), none) := by
    intro k
    induction k with
    | zero =>
      intro i hi
      rw [List.drop_eq_nil_of_le (by omega), List.append_nil, List.take_of_length_le (by omega)]
      rfl
    | succ k ih =>
      intro i hi
      have hlt : i < vs.length := by omega
      obtain ⟨⟨n, t⟩, hp⟩ := Option.isSome_iff_exists.mp (hT i hlt)
      have hl : ((vs.take i).map g).length = i := by simp; omega
      have hu : ((vs.take i).map g ++ vs.drop i)[i]? = some vs[i] := by
        rw [List.getElem?_append_right (by omega), hl, Nat.sub_self, List.getElem?_drop]
        simp [hlt]
      have he := h.1 i n t hp vs[i] (List.getElem?_eq_getElem hlt)
      have hs : ((vs.take i).map g ++ vs.drop i).set i (g vs[i]) = (vs.take (i + 1)).map g ++ vs.drop (i + 1) := by
        rw [List.set_append, if_neg (by omega), hl, Nat.sub_self, List.drop_eq_getElem_cons hlt, List.set_cons_zero,
          List.take_add_one, List.getElem?_eq_getElem hlt]
        simp only [Option.toList, List.map_append, List.map_cons, List.map_nil, List.append_assoc, List.singleton_append]
      have hr : roundV vb T i (K ((vs.take i).map g ++ vs.drop i)) () =
          some (K ((vs.take (i + 1)).map g ++ vs.drop (i + 1)), (), none) := by
        unfold roundV
        rw [hp, hel, hu]
        simp only [he, h.2, editAll, hset, hs]
      rw [roundsV, hr]
      exact ih (i + 1) (by omega)
  have := key vs.length 0 (by omega)
  rw [loopV, hel]
  simpa using this

/-- C72: the same for the characters of a string. -/
theorem C72_map_string {vb : VBody Unit} {k : SK} {b : Nat} {g : Val → Val} {us : List Nat}
    (h : vb.Maps (.str k b) g (elems (.str k b) (.str us))) :
    loopV vb (.str k b) (.str us) () = some (mapElems (.str k b) g (.str us), (), none) := by
  let hh : Nat → Nat := fun u => match g (.bytes (leBytes (charOf k).size u)) with
    | .bytes bs => leNat bs
    | _ => u
  have hm : mapElems (.str k b) g (.str us) = .str (us.map hh) := rfl
  rw [hm]
  have key : ∀ j i, i + j = us.length →
      roundsV vb (.str k b) i j (.str ((us.take i).map hh ++ us.drop i)) () = some (.str (us.map hh), (), none) := by
    intro j
    induction j with
    | zero =>
      intro i hi
      rw [List.drop_eq_nil_of_le (by omega), List.append_nil, List.take_of_length_le (by omega)]
      rfl
    | succ j ih =>
      intro i hi
      have hlt : i < us.length := by omega
      have hl : ((us.take i).map hh).length = i := by simp; omega
      have hu : (elems (.str k b) (.str ((us.take i).map hh ++ us.drop i)))[i]? = some (.bytes (leBytes (charOf k).size us[i])) := by
        rw [elems, List.getElem?_map, List.getElem?_append_right (by omega), hl, Nat.sub_self, List.getElem?_drop]
        simp [hlt]
      have he := h.1 i none _ rfl (.bytes (leBytes (charOf k).size us[i])) (by simp [elems, hlt])
      have hs : setElem (.str k b) (.str ((us.take i).map hh ++ us.drop i)) i (g (.bytes (leBytes (charOf k).size us[i]))) =
          .str ((us.take (i + 1)).map hh ++ us.drop (i + 1)) := by
        have e : ((us.take i).map hh ++ us.drop i).set i (hh us[i]) = (us.take (i + 1)).map hh ++ us.drop (i + 1) := by
          rw [List.set_append, if_neg (by omega), hl, Nat.sub_self, List.drop_eq_getElem_cons hlt, List.set_cons_zero,
            List.take_add_one, List.getElem?_eq_getElem hlt]
          simp only [Option.toList, List.map_append, List.map_cons, List.map_nil, List.append_assoc, List.singleton_append]
        rw [← e]
        have e0 : ((us.take i).map hh ++ us.drop i)[i]? = some us[i] := by
          rw [List.getElem?_append_right (by omega), hl, Nat.sub_self, List.getElem?_drop]
          simp [hlt]
        cases hg : g (.bytes (leBytes (charOf k).size us[i])) with
        | bytes bs => have : hh us[i] = leNat bs := by simp only [hh, hg]
                      rw [this]; rfl
        | _ => have : hh us[i] = us[i] := by simp only [hh, hg]
               rw [this, set_self e0]; rfl
      have hr : roundV vb (.str k b) i (.str ((us.take i).map hh ++ us.drop i)) () =
          some (.str ((us.take (i + 1)).map hh ++ us.drop (i + 1)), (), none) := by
        unfold roundV
        rw [show partTy (.str k b) i = some (none, (Ty.prim (charOf k)).rget) from rfl, hu]
        simp only [he, h.2, editAll, hs]
      rw [roundsV, hr]
      exact ih (i + 1) (by omega)
  have := key us.length 0 (by omega)
  rw [loopV, elems, List.length_map]
  simpa using this

/-- The body that looks at what it is shown with `value<…>()` and so on. -/
def VBody.body {σ : Type} (vb : VBody σ) (T : Ty) : Body σ where
  elem n t cs s := match decode t cs with
    | some v => vb.elem n t v s
    | none => ([], s)
  rest cs s := match decode T cs with
    | some v => vb.rest v s
    | none => ([], s, none)

theorem VBody.body_follows (vb : VBody σ) (T : Ty) : (vb.body T).Follows vb T := by
  constructor
  · intro n t cs v s h; simp only [VBody.body, h]
  · intro cs v s h; simp only [VBody.body, h]

/-- `for (auto e : d) e = f(e);` on numbers. -/
def setNums (f : PK → List Byte → List Byte) : VBody Unit where
  elem _ t v _ := match t, v with
    | .prim k, .bytes bs => ([([], .value (.num k (f k bs)))], ())
    | _, _ => ([], ())
  rest _ _ := ([], (), none)

/-- The number changed. -/
def onNum (f : PK → List Byte → List Byte) (k : PK) : Val → Val
  | .bytes bs => .bytes (f k bs)
  | v => v

theorem setNums_able {f : PK → List Byte → List Byte} (hf : ∀ k bs, (f k bs).length = k.size) (T : Ty) : (setNums f).Able T := by
  constructor
  · intro i n t _ v s x hx u hu
    simp only [setNums] at hx
    split at hx
    · simp only [List.mem_singleton] at hx
      subst hx
      exact hf _ _
    · cases hx
  · intro v s x hx; cases hx

/-- C72: `for (auto e : d) e = f(e);` on an array or a sequence of numbers does what it says: every element is replaced by
`f` of it, once, and nothing else is changed. -/
theorem C72_numbers {f : PK → List Byte → List Byte} (hf : ∀ k bs, (f k bs).length = k.size) {T : Ty} {k : PK} {c : Ty}
    (hT : (∃ n i, T = .arr n c i) ∨ ∃ b, T = .seq c b) (hc : c.rget = .prim k) (hw : T.WF)
    {pre old post : List Cell} {lk : Nat} {v : Val} {vs : List Val} (hv : decode T old = some v) (hvs : v = .list vs ∨ v = .coll vs) :
    ∃ new d, forIt ((setNums f).body T) T pre.length ⟨pre ++ old ++ post, lk⟩ () = .ok (⟨pre ++ new ++ post, lk + d⟩, (), none) ∧
      new.length = old.length ∧ decode T new = some (mapElems T (onNum f k) v) ∧ (T.Tight → tidy T old → d = 0 ∧ tidy T new) := by
  have he : elemTy T = some c := by rcases hT with ⟨n, i, rfl⟩ | ⟨b, rfl⟩ <;> rfl
  have hp : ∀ i, partTy T i = some (none, .prim k) := by
    intro i
    rcases hT with ⟨n, j, rfl⟩ | ⟨b, rfl⟩ <;> simp [partTy, elemTy, hc]
  refine C72_loop_partial (VBody.body_follows _ _) (setNums_able hf T) hw he hv (C72_map hvs (fun i _ => by rw [hp]; rfl) ⟨?_, fun _ _ => rfl⟩)
  intro i n t ht e _
  rw [hp] at ht
  cases ht
  cases e <;> simp [setNums, editAll, editAt, onNum, Ty.rget, RefOp.spec, Host.fits]

/-- C72: `for (auto c : s) c = f(c);` on a string changes every character once, and nothing else. -/
theorem C72_chars {f : PK → List Byte → List Byte} (hf : ∀ k bs, (f k bs).length = k.size) {k : SK} {b : Nat}
    {pre old post : List Cell} {lk : Nat} {us : List Nat} (hv : decode (.str k b) old = some (.str us)) :
    ∃ new d, forIt ((setNums f).body (.str k b)) (.str k b) pre.length ⟨pre ++ old ++ post, lk⟩ () =
        .ok (⟨pre ++ new ++ post, lk + d⟩, (), none) ∧ new.length = old.length ∧
      decode (.str k b) new = some (.str (us.map fun u => leNat (f (charOf k) (leBytes (charOf k).size u)))) ∧
      ((Ty.str k b).Tight → tidy (.str k b) old → d = 0 ∧ tidy (.str k b) new) := by
  refine C72_loop_partial (VBody.body_follows _ _) (setNums_able hf _) (by simp [Ty.WF]) rfl hv
    (C72_map_string (g := onNum f (charOf k)) ⟨?_, fun _ _ => rfl⟩)
  intro i n t ht e he
  cases ht
  rw [elems, List.getElem?_map] at he
  cases hu : us[i]? with
  | none => rw [hu] at he; cases he
  | some u =>
    rw [hu] at he
    cases he
    simp [setNums, editAll, editAt, onNum, Ty.rget, RefOp.spec, Host.fits]

/-- `for (auto e : d) d.push(e.value<T>());`, with the number last read as variable. -/
def appender (k : PK) : VBody (List Byte) where
  elem _ _ v s := match v with
    | .bytes bs => ([], bs)
    | _ => ([], s)
  rest _ s := (if s.length = k.size then [([], .pushHost (.num k s))] else [], s, none)

theorem appender_able (k : PK) (T : Ty) : (appender k).Able T := by
  constructor
  · intro i n t _ v s x hx
    simp only [appender] at hx
    split at hx <;> cases hx
  · intro v s x hx u _
    simp only [appender] at hx
    split at hx
    · rename_i h
      simp only [List.mem_singleton] at hx
      subst hx
      exact h
    · cases hx

theorem appender_loop {k : PK} {c : Ty} (hc : c = .prim k) {xs : List (List Byte)} (hl : ∀ x ∈ xs, x.length = k.size) (s : List Byte) :
    ∃ s', loopV (appender k) (.seq c 0) (.coll (xs.map .bytes)) s = some (.coll ((xs ++ xs).map .bytes), s', none) := by
  subst hc
  have key : ∀ j i s, i + j = xs.length → ∃ s',
      roundsV (appender k) (.seq (.prim k) 0) i j (.coll ((xs ++ xs.take i).map .bytes)) s =
        some (.coll ((xs ++ xs).map .bytes), s', none) := by
    intro j
    induction j with
    | zero =>
      intro i s hi
      rw [List.take_of_length_le (by omega)]
      exact ⟨s, rfl⟩
    | succ j ih =>
      intro i s hi
      have hlt : i < xs.length := by omega
      obtain ⟨s', hs'⟩ := ih (i + 1) xs[i] (by omega)
      have hu : ((xs ++ xs.take i).map Val.bytes)[i]? = some (.bytes xs[i]) := by
        rw [List.getElem?_map, List.getElem?_append_left hlt, List.getElem?_eq_getElem hlt]
        rfl
      have hset : ((xs ++ xs.take i).map Val.bytes).set i (.bytes xs[i]) = (xs ++ xs.take i).map Val.bytes := by
        refine List.ext_getElem? fun j => ?_
        rw [List.getElem?_set]
        split
        · rename_i h
          subst h
          rw [hu]
          split
          · rfl
          · rename_i h; exact absurd (by simp; omega) h
        · rfl
      have hr : roundV (appender k) (.seq (.prim k) 0) i (.coll ((xs ++ xs.take i).map .bytes)) s =
          some (.coll ((xs ++ xs.take (i + 1)).map .bytes), xs[i], none) := by
        have ha : (xs ++ xs.take (i + 1)).map Val.bytes = (xs ++ xs.take i).map Val.bytes ++ [.bytes xs[i]] := by
          rw [List.take_add_one, List.getElem?_eq_getElem hlt, ← List.append_assoc, List.map_append]
          rfl
        rw [ha]
        generalize (xs ++ xs.take i).map Val.bytes = ws at hu hset
        unfold roundV
        simp only [partTy, elemTy, Option.map_some, elems, Ty.rget, hu, appender, editAll, setElem, hset,
          hl _ (List.getElem_mem hlt), if_true, editAt]
        simp [RefOp.spec, Host.fits, Ty.rget, Ty.isEnumerated]
      refine ⟨s', ?_⟩
      rw [roundsV, hr]
      exact hs'
  have := key xs.length 0 s (by omega)
  rw [List.take_zero, List.append_nil] at this
  rw [loopV]
  simpa [elems] using this

/-- C72: `for (auto e : d) d.push(e.value<T>());` on an unbounded sequence of numbers ends, although every round makes the sequence
longer; afterwards the sequence is there twice. -/
theorem C72_append {k : PK} {xs : List (List Byte)} (hl : ∀ x ∈ xs, x.length = k.size) {pre old post : List Cell} {lk : Nat}
    (hv : decode (.seq (.prim k) 0) old = some (.coll (xs.map .bytes))) (s : List Byte) :
    ∃ new s' d, forIt ((appender k).body (.seq (.prim k) 0)) (.seq (.prim k) 0) pre.length ⟨pre ++ old ++ post, lk⟩ s =
        .ok (⟨pre ++ new ++ post, lk + d⟩, s', none) ∧
      new.length = old.length ∧ decode (.seq (.prim k) 0) new = some (.coll ((xs ++ xs).map .bytes)) ∧
      (tidy (.seq (.prim k) 0) old → d = 0 ∧ tidy (.seq (.prim k) 0) new) := by
  obtain ⟨s', hs'⟩ := appender_loop rfl hl s
  obtain ⟨new, d, h1, h2, h3, h4⟩ := C72_loop_partial (VBody.body_follows (appender k) _) (appender_able k _)
    (by simp [Ty.WF]) rfl hv hs'
  exact ⟨new, s', d, h1, h2, h3, h4 (by simp [Ty.Tight, Ty.Light])⟩

/-! ## Examples -/

/-- C72: what the theorems say of a loop over [1, 2] that pushes what it reads, and of one that adds one to every byte. -/
example : ((forIt ((appender .u8).body exSeq.ty) exSeq.ty 0 ⟨exSeq.cells, 0⟩ []).toOption.map fun r =>
    (match decode exSeq.ty r.1.cells with
      | some (.coll [.bytes a, .bytes b, .bytes c, .bytes d]) => [a, b, c, d]
      | _ => [], r.2.1)) = some ([[1], [2], [1], [2]], [2]) ∧
    ((forIt ((setNums bump).body exSeq.ty) exSeq.ty 0 ⟨exSeq.cells, 0⟩ ()).toOption.map fun r =>
    match decode exSeq.ty r.1.cells with
      | some (.coll [.bytes a, .bytes b]) => [a, b]
      | _ => []) = some [[2], [3]] := by decide +kernel

/-- C72: the hypotheses. -/
example : exSeq.ty.WF ∧ exSeq.Holds (.coll ([[1], [2]].map .bytes)) ∧ (∀ x ∈ [[1], [2]], x.length = PK.u8.size) ∧
    loopV (appender .u8) exSeq.ty (.coll ([[1], [2]].map .bytes)) [] = some (.coll ([[1], [2], [1], [2]].map .bytes), [2], none) :=
  ⟨by simp [exSeq, Ty.WF], ⟨rfl, rfl⟩, by decide, rfl⟩

/-- Counts, and leaves after the second round. -/
def counter : VBody Nat where
  elem _ _ _ s := ([], s + 1)
  rest _ s := ([], s, if s = 2 then some .other else none)

/-- C72: a body that leaves the loop, over [1, 2, 1]; one that only looks; and `items()` of a structure with a number, a sequence and a
union, of which `setNums` changes the number. -/
example : loopV counter exSeq.ty (.coll ([[1], [2], [1]].map .bytes)) 0 = some (.coll ([[1], [2], [1]].map .bytes), 2, some .other) ∧
    VBody.Looks ⟨fun _ _ _ s => ([], s + 1), fun _ s => ([], s, none)⟩ (fun _ (s : Nat) => s + 1) ∧
    (exWd.ty.isStruct = true ∧ exWd.Holds (.list [.bytes [7], .coll [.bytes [1], .bytes [2]], .un (.bytes [5]) "a" (.bytes [9])]) ∧
      loopV (setNums bump) exWd.ty (.list [.bytes [7], .coll [.bytes [1], .bytes [2]], .un (.bytes [5]) "a" (.bytes [9])]) () =
        some (.list [.bytes [8], .coll [.bytes [1], .bytes [2]], .un (.bytes [5]) "a" (.bytes [9])], (), none)) :=
  ⟨rfl, ⟨fun _ _ _ _ => rfl, fun _ _ => rfl⟩, rfl, ⟨rfl, rfl⟩, rfl⟩

/-- The string "ab". -/
def exAb : List Cell := objCells (.str .s8 [97, 98] false) strSize

set_option maxRecDepth 4096 in
/-- C72: `C72_chars` for "ab". -/
example : decode (.str .s8 0) exAb = some (.str [97, 98]) ∧
    (forIt ((setNums fun k bs => match k, bs with | .c8, [c] => [c - 32] | k, _ => List.replicate k.size 0).body (.str .s8 0))
      (.str .s8 0) 0 ⟨exAb, 0⟩ ()).toOption.map (fun r => (decode (.str .s8 0) r.1.cells).map fun
        | .str us => us
        | _ => []) = some (some [65, 66]) := ⟨rfl, by decide +kernel⟩

/-- Empties what it walks over, in the first round. -/
def emptier (src : List Cell) : Body Unit where
  elem _ _ _ _ := ([], ())
  rest _ _ := ([([], .assign src)], (), none)

/-- Like `exSeq` and `exKeys`, but empty. -/
def exNoSeq : Data := ⟨exSeq.ty, objCells (.coll false (.prim .u8) 0 0 []) seqSize, true⟩
def exNoKeys : Data := ⟨exKeys.ty, objCells (.coll true (.pair (.prim .u8) (.prim .u8)) 0 0 []) seqSize, true⟩

/-- C72 fails for a body that makes the collection shorter: the loop goes on to the end that it asked for in the beginning. For a
sequence, something is thrown that no documentation mentions; for a map, it is undefined behaviour. -/
theorem C72_shrinks_fails :
    (exSeq.Holds (.coll [.bytes [1], .bytes [2]]) ∧ exNoSeq.Holds (.coll []) ∧
      forIt (emptier exNoSeq.cells) exSeq.ty 0 ⟨exSeq.cells, 0⟩ () = .error .refused) ∧
    (exKeys.Holds (.coll [.list [.bytes [1], .bytes [10]], .list [.bytes [2], .bytes [20]]]) ∧ exNoKeys.Holds (.coll []) ∧
      forIt (emptier exNoKeys.cells) exKeys.ty 0 ⟨exKeys.cells, 0⟩ () = .error .ub) :=
  ⟨⟨⟨rfl, rfl⟩, ⟨rfl, rfl⟩, rfl⟩, ⟨rfl, rfl⟩, ⟨rfl, rfl⟩, rfl⟩

/-- `for (auto e : d) e[0] = 7;` -/
def sevens : Body Unit where
  elem _ _ _ _ := ([([.index 0], .value (.num .u8 [7]))], ())
  rest _ _ := ([], (), none)

/-- C72: the pairs that a loop over a map gets are writable, their keys, too: a map can be left with the same key twice. -/
theorem C72_keys_fails : (∃ m, forIt sevens exKeys.ty 0 ⟨exKeys.cells, 0⟩ () = .ok (m, (), none) ∧
    decode exKeys.ty m.cells = some (.coll [.list [.bytes [7], .bytes [10]], .list [.bytes [7], .bytes [20]]])) ∧
    exKeys.Holds (.coll [.list [.bytes [1], .bytes [10]], .list [.bytes [2], .bytes [20]]]) :=
  ⟨⟨_, rfl, rfl⟩, rfl, rfl⟩

/-- `for (auto m : d.items()) if (m.member().name() == "discriminator") m.data() = 1;` -/
def relabel : Body Unit where
  elem n _ _ _ := (if n = some discName then [([], .value (.num .u8 [1]))] else [], ())
  rest _ _ := ([], (), none)

/-- C72 fails for `items()` of a union: the discriminator that it gives out can be written to, without the member being changed:
afterwards the union says that its member is the number `a`, where the string `s` still is. -/
theorem C72_items_union_fails : exSwitchD.Holds (.un (.bytes [0]) "s" (.str [104])) ∧
    ∃ m, forItems relabel exSwitch 0 ⟨exSwitchD.cells, 0⟩ () = .ok (m, (), none) ∧ decode exSwitch m.cells = none :=
  ⟨⟨rfl, rfl⟩, _, rfl, rfl⟩

end Verif.Inst
