import Verif.Spec.Dict
import Verif.Props.HashVal
import Verif.Props.MapMem
/-!
# C76: maps from numbers are dictionaries

"A map whose keys are numbers of up to 8 bytes behaves as a dictionary: after `m[key] = value` the key has this value, and every
other key has what it had before; `at(key)` gives the value that was assigned last and is refused for a key that never was; `has_key`
says which; the size is the number of different keys."

C59 has the same up to keys with equal hashes, which different numbers do not have.
-/

namespace Verif.Inst

/-- The hash of a number. -/
def numHash (u : Val) : BitVec 64 := memHash u.rawBytes

theorem numHash_of (env : HashEnv) (k : PK) : HashOf env (.prim k) numHash := by
  intro cs u hd
  have := hashVal_ok (env := env) (.prim k) trivial (by rw [Ty.WF]; trivial) u [] cs [] hd
  simp only [List.nil_append, List.append_nil, List.length_nil] at this
  rw [this, hashVal, numHash]

theorem numHash_inj {k : PK} (hk : k ≠ .f128) {u v : Val} (hu : IsNumber k u) (hv : IsNumber k v) (h : numHash u = numHash v) : u = v := by
  obtain ⟨x, lx, rfl⟩ := hu
  obtain ⟨y, ly, rfl⟩ := hv
  rw [memHash_num hk lx ly h]

theorem isNumber_of {k : PK} {cs : List Cell} {u : Val} (h : decode (.prim k) cs = some u) : IsNumber k u := by
  rw [decode] at h
  obtain ⟨b, rfl, hl, _⟩ := decBytes_iff.mp h
  exact ⟨b, hl, rfl⟩

/-- Entries of a map from numbers. -/
def Entries (k : PK) (es : List Val) : Prop := ∀ e ∈ es, ∃ a b, e = .list [a, b] ∧ IsNumber k a

theorem lookup_mem {k : PK} (hk : k ≠ .f128) {es : List Val} (ho : Ordered numHash es) (he : Entries k es) {u z : Val} (hu : IsNumber k u) :
    lookup numHash u es = some z ↔ .list [u, z] ∈ es := by
  unfold lookup
  constructor
  · intro h
    cases h1 : es.find? (fun f => decide (numHash (keyOf f) = numHash u)) with
    | none => rw [h1] at h; cases h
    | some e =>
      rw [h1] at h
      have hm := List.mem_of_find?_eq_some h1
      have hp := List.find?_some h1
      obtain ⟨a, b, rfl, ha⟩ := he e hm
      rw [numHash_inj hk ha hu (of_decide_eq_true hp)] at hm
      simp only [Option.map_some, valueOf, Option.some.injEq] at h
      rw [← h]; exact hm
  · intro h
    cases h1 : es.find? (fun f => decide (numHash (keyOf f) = numHash u)) with
    | none =>
      have := List.find?_eq_none.mp h1 _ h
      simp [keyOf] at this
    | some e =>
      have hm := List.mem_of_find?_eq_some h1
      have hp := List.find?_some h1
      obtain ⟨a, b, rfl, ha⟩ := he e hm
      have := numHash_inj hk ha hu (of_decide_eq_true hp)
      subst this
      simp only [Option.map_some, valueOf, Option.some.injEq]
      obtain ⟨i, hi, ei⟩ := List.getElem_of_mem hm
      obtain ⟨j, hj, ej⟩ := List.getElem_of_mem h
      have hpw := List.pairwise_iff_getElem.mp ho
      rcases Nat.lt_trichotomy i j with hlt | rfl | hlt
      · have := hpw i j hi hj hlt
        rw [ei, ej] at this
        exact absurd this (by simp [keyOf])
      · rw [ei] at ej; cases ej; rfl
      · have := hpw j i hj hi hlt
        rw [ei, ej] at this
        exact absurd this (by simp [keyOf])

theorem entries_of {d : Data} {p : List Step} {k : PK} {val : Ty} {b : Nat} {v : Val} {es : List Val} (h : d.ty.WF) (hv : d.Holds v)
    (ht : typeAt p d.ty = some (.map (.prim k) val b)) (hm : MapOk (.prim k) val) (hp : d.Reads p (.coll es)) : Entries k es := by
  have hval := ((reads_iff h hv p).1 _).mp hp
  obtain ⟨t1, cs, ht1, -, hd⟩ := (locate_reads p d.ty h [] d.cells [] v hv.2).1 _ hval
  rw [ht] at ht1; cases ht1
  have hwf : (Ty.map (.prim k) val b).WF := by rw [Ty.WF]; exact ⟨hm.wfk, hm.wfv⟩
  obtain ⟨us, e, hus⟩ := hasTy_cases hwf ⟨_, hd⟩
  cases e
  intro e he
  obtain ⟨a, c, rfl, ⟨x, hx⟩, _⟩ := hus e he
  exact ⟨a, c, rfl, isNumber_of hx⟩

theorem dict_lookup {d : Data} {p : List Step} {k : PK} (hk : k ≠ .f128) {f : Val → Option Val} {es : List Val} {u : Val}
    (he : Entries k es) (hf : ∀ u z, f u = some z ↔ .list [u, z] ∈ es) (ho : Ordered numHash es) (hu : IsNumber k u) :
    lookup numHash u es = f u := by
  apply Option.ext
  intro z
  rw [lookup_mem hk ho he hu, hf]

/-- C76: a map without entries is the empty dictionary. -/
theorem C76_empty {d : Data} {v : Val} {p : List Step} (hv : d.Holds v) (hp : d.Reads p (.coll [])) : Dict d p (fun _ => none) 0 :=
  ⟨⟨v, hv⟩, [], hp, rfl, fun u z => by simp, List.Pairwise.nil⟩

/-- C76, partial: `has_key` says whether a key has a value, `at` gives this value (or a part of it), and is refused if there is none.
Missing: keys of 16 bytes and of other types (see C59), the conditions `MapOk`. -/
theorem C76_read_partial {env : HashEnv} {d : Data} {p q : List Step} {k : PK} {val : Ty} {b n : Nat} {f : Val → Option Val}
    {src : List Cell} {u : Val} (hk : k ≠ .f128) (h : d.ty.WF) (ht : typeAt p d.ty = some (.map (.prim k) val b))
    (hm : MapOk (.prim k) val) (hd : Dict d p f n) (hu : decode (.prim k) src = some u) :
    d.hasKey env p (.prim k) src = .ok (f u).isSome ∧
    (∀ z w, f u = some z → valAt q val z = some w → ∃ t x, d.readKey env p src q = .ok (t, x) ∧ decode t x = some w) ∧
    (f u = none → d.readKey env p src q = .error .refused) := by
  obtain ⟨⟨v, hv⟩, es, hr, hn, hf, ho⟩ := hd
  have he := entries_of h hv ht hm hr
  have hl := dict_lookup (d := d) (p := p) hk he hf ho (isNumber_of hu)
  obtain ⟨h1, h2, h3⟩ := C59_lookup_partial (q := q) h hv hr ht hm (numHash_of env k) ho hu
  rw [hl] at h2 h3
  refine ⟨?_, fun z w hz hw => h2 z hz w hw, h3⟩
  rw [h1 (.prim k) (C20_compat_refl _)]
  congr 1
  rw [Bool.eq_iff_iff, decide_eq_true_eq, Option.isSome_iff_exists]
  constructor
  · rintro ⟨e, hm', hh⟩
    obtain ⟨a, c, rfl, ha⟩ := he e hm'
    have := numHash_inj hk ha (isNumber_of hu) hh
    subst this
    exact ⟨c, (hf _ _).mpr hm'⟩
  · rintro ⟨z, hz⟩
    exact ⟨_, (hf u z).mp hz, rfl⟩

/-- C76, partial: writing through `m[key]` (to the value or a part of it) gives the key the value that the write makes of its old one, or
of the default value if it is new; every other key has what it had before, the size grows by one just if the key is new, nothing else
of the datum changes, and no memory is lost if the values own none. It works for all keys that are there, and for new ones as long as
there is room. Missing: as above; losing no memory in general (`C59_insert_leaks`). -/
theorem C76_write_partial {env : HashEnv} {d : Data} {p q : List Step} {k : PK} {val t : Ty} {b n : Nat} {f g : Val → Option Val}
    {src : List Cell} {u z : Val} {op : RefOp} (hk : k ≠ .f128) (h : d.ty.WF) (ht : typeAt p d.ty = some (.map (.prim k) val b))
    (hm : MapOk (.prim k) val) (hd : Dict d p f n) (hu : decode (.prim k) src = some u) (hroom : f u ≠ none ∨ b = 0 ∨ n < b)
    (hq : typeAt q val = some t) (hop : op.Ok t) (hz : editAt false op.spec q val ((f u).getD (defVal val)) = .ok z)
    (hg : Sets f u z g) :
    ∃ d' lk, d.writeKey env p src q op = .ok (d', lk) ∧ d'.ty = d.ty ∧ Dict d' p g (n + if (f u).isSome then 0 else 1) ∧
      (∀ r, Apart p r d.ty → ∀ x, d.Reads r x → d'.Reads r x) ∧ (val.Flat → d.Tidy → lk = 0 ∧ d'.Tidy) := by
  obtain ⟨⟨v, hv⟩, es, hr, hn, hf, ho⟩ := hd
  have he := entries_of h hv ht hm hr
  have hnum := isNumber_of hu
  have hl := dict_lookup (d := d) (p := p) hk he hf ho hnum
  have hs : u.Selected := by obtain ⟨bs, _, rfl⟩ := hnum; rw [Val.Selected]; trivial
  obtain ⟨d', lk, es', w1, w2, ⟨v', w3⟩, w4, w5, w6, w7, w8, w9⟩ := C59_write_partial (q := q) h hv hr ht hm (numHash_of env k) ho hu hs
    (by rw [hl, hn]; exact hroom) hq hop (by rw [hl]; exact hz)
  have he' := entries_of (d := d') (w2 ▸ h) w3 (w2 ▸ ht) hm w4
  refine ⟨d', lk, w1, w2, ⟨⟨v', w3⟩, es', w4, ?_, fun x y => ?_, w5⟩, w8, fun h1 h2 => w9 trivial h1 h2⟩
  · rw [w6, hl, hn]
    cases f u <;> rfl
  · have hbad : ∀ (es : List Val), Entries k es → .list [x, y] ∈ es → IsNumber k x := by
      intro es hE hmem
      obtain ⟨a, c, e, ha⟩ := hE _ hmem
      cases e; exact ha
    by_cases hx : x = u
    · subst hx
      rw [← lookup_mem hk w5 he' hnum, w7, if_pos rfl, hg.1]
    · rw [hg.2 x hx]
      constructor
      · intro hfx
        have hxn := hbad es he ((hf x y).mp hfx)
        rw [← lookup_mem hk w5 he' hxn, w7, if_neg (fun e => hx (numHash_inj hk hxn hnum e)), dict_lookup (d := d) (p := p) hk he hf ho hxn]
        exact hfx
      · intro hmem
        have hxn := hbad es' he' hmem
        rw [← lookup_mem hk w5 he' hxn, w7, if_neg (fun e => hx (numHash_inj hk hxn hnum e)), dict_lookup (d := d) (p := p) hk he hf ho hxn] at hmem
        exact hmem

theorem copyable_rget' : (T : Ty) → T.Copyable → T.rget.Copyable
  | .alias _ t, h => by rw [Ty.Copyable] at h; rw [Ty.rget]; exact copyable_rget' t h
  | .prim _, h | .enum _ _ _, h | .str _ _, h | .seq _ _, h | .arr _ _ _, h | .map _ _ _, h | .pair _ _, h
  | .struct _ _, h | .union _ _ _ _, h => h

/-- C76, partial: after any assignments to a map without a bound, each key has the value it was given last, and the keys that were given
none have what they had before. Missing: as above. -/
theorem C76_history_partial {env : HashEnv} {p : List Step} {k : PK} {val : Ty} (hk : k ≠ .f128) (hm : MapOk (.prim k) val) :
    ∀ (l : List (List Cell × List Cell)) (us : List (Val × Val)) {d : Data} {f : Val → Option Val} {n : Nat}, d.ty.WF →
      typeAt p d.ty = some (.map (.prim k) val 0) → Dict d p f n →
      l.map (fun s => (decode (.prim k) s.1, decode val s.2)) = us.map (fun x => (some x.1, some x.2)) → (∀ x ∈ us, x.2.Selected) →
      ∃ d' n', assignAll env p l d = .ok d' ∧ d'.ty = d.ty ∧ Dict d' p (fun u => (lastAssigned us u).or (f u)) n' ∧
        (∀ r, Apart p r d.ty → ∀ x, d.Reads r x → d'.Reads r x) := by
  intro l
  induction l with
  | nil =>
    intro us d f n h ht hd hl hs
    cases us with
    | cons x us => cases hl
    | nil => exact ⟨d, n, rfl, rfl, by simpa [lastAssigned] using hd, fun r _ x hx => hx⟩
  | cons s l ih =>
    intro us d f n h ht hd hl hs
    cases us with
    | nil => cases hl
    | cons y us =>
      simp only [List.map_cons, List.cons.injEq, Prod.mk.injEq] at hl
      obtain ⟨⟨h1, h2⟩, hl⟩ := hl
      classical
      have hres : editAt false (RefOp.assign s.2).spec [] val ((f y.1).getD (defVal val)) = .ok y.2 := by
        rw [editAt, RefOp.spec, decode_rget, h2]
      obtain ⟨d1, lk, w1, w2, w3, w4, w5⟩ := C76_write_partial (env := env) (q := []) (op := .assign s.2) (t := val.rget) hk h ht hm hd h1
        (.inr (.inl rfl)) (by rw [typeAt]) ⟨copyable_rget' _ hm.copyv, fun w hw => by rw [decode_rget, h2] at hw; cases hw; exact hs y (by simp)⟩ hres
        (g := fun x => if x = y.1 then some y.2 else f x) ⟨if_pos rfl, fun x hx => if_neg hx⟩
      obtain ⟨d', n', v1, v2, v3, v4⟩ := ih us (d := d1) (w2 ▸ h) (w2 ▸ ht) w3 hl (fun x hx => hs x (by simp [hx]))
      refine ⟨d', n', ?_, v2.trans w2, ?_, fun r hr x hx => v4 r (w2 ▸ hr) x (w4 r hr x hx)⟩
      · rw [assignAll, w1]; exact v1
      · have e : (fun u => (lastAssigned (y :: us) u).or (f u)) = fun u => (lastAssigned us u).or (if u = y.1 then some y.2 else f u) := by
          funext u
          simp only [lastAssigned, List.reverse_cons, List.find?_append]
          cases us.reverse.find? (fun x => decide (x.1 = u)) with
          | some x => rfl
          | none =>
            by_cases hu : u = y.1
            · subst hu; simp
            · simp [hu, Ne.symm hu]
        rw [e]; exact v3

/-- A map from numbers of 16 bits to those of 8 bits, with room for 2 entries. -/
def exDict : Ty := .struct "S" (.cons "x" (.prim .u32) (.cons "m" (.map (.prim .u16) (.prim .u8) 2) .nil))

theorem exDict_ok : MapOk (.prim .u16) (.prim .u8) := by
  refine ⟨?_, ?_, ?_, ?_, ?_, ?_, ?_⟩
  all_goals simp [Hashable, Ty.WF, Ty.Copyable, Ty.Movable]

theorem exDict_wf : exDict.WF := by simp [exDict, Ty.WF, Mems.WF, Mems.names]

open Classical in
/-- C76: a map that was just created; two keys are entered and one of them changed: each has the value it got last, a third one is
not there, and there is no room for it. -/
example (env : HashEnv) : ∃ w d d1 d2 d3 lk1 lk2 lk3, World.empty.run [.create 0 exDict] = .ok w ∧ w.vars 0 = some d ∧
    d.writeKey env [.member "m"] (rawCells [1, 0]) [] (.value (.num .u8 [7])) = .ok (d1, lk1) ∧
    d1.writeKey env [.member "m"] (rawCells [0, 1]) [] (.value (.num .u8 [8])) = .ok (d2, lk2) ∧
    d2.writeKey env [.member "m"] (rawCells [1, 0]) [] (.value (.num .u8 [9])) = .ok (d3, lk3) ∧
    Dict d3 [.member "m"] (fun u => if u = .bytes [1, 0] then some (.bytes [9]) else if u = .bytes [0, 1] then some (.bytes [8]) else none) 2 ∧
    d3.hasKey env [.member "m"] (.prim .u16) (rawCells [2, 0]) = .ok false ∧
    (∃ t x, d3.readKey env [.member "m"] (rawCells [1, 0]) [] = .ok (t, x) ∧ decode t x = some (.bytes [9])) := by
  have ht : typeAt [.member "m"] exDict = some (.map (.prim .u16) (.prim .u8) 2) := rfl
  have hok : ∀ b, RefOp.Ok (.value (.num .u8 [b])) (.prim .u8) := fun b => rfl
  obtain ⟨d, hd1, hd2⟩ : ∃ d, (∃ w, World.empty.run [.create 0 exDict] = .ok w ∧ w.vars 0 = some d) ∧ d.ty = exDict ∧
      Dict d [.member "m"] (fun _ => none) 0 :=
    ⟨_, ⟨_, rfl, rfl⟩, rfl, C76_empty (v := .list [.bytes [0, 0, 0, 0], .coll []]) ⟨rfl, rfl⟩ ⟨_, _, rfl, rfl⟩⟩
  obtain ⟨w, hw1, hw2⟩ := hd1
  obtain ⟨hty, hD⟩ := hd2
  obtain ⟨d1, lk1, a1, a2, a3, -⟩ := C76_write_partial (env := env) (q := []) (op := .value (.num .u8 [7])) (t := .prim .u8)
    (g := fun u => if u = .bytes [1, 0] then some (.bytes [7]) else none) (z := .bytes [7]) (src := rawCells [1, 0])
    (by decide) (hty ▸ exDict_wf) (hty ▸ ht) exDict_ok hD rfl
    (.inr (.inr (by decide))) rfl (hok 7) rfl ⟨if_pos rfl, fun x hx => if_neg hx⟩
  have h1 : d1.ty = exDict := a2.trans hty
  obtain ⟨d2, lk2, b1, b2, b3, -⟩ := C76_write_partial (env := env) (q := []) (op := .value (.num .u8 [8])) (t := .prim .u8)
    (g := fun u => if u = .bytes [0, 1] then some (.bytes [8]) else if u = .bytes [1, 0] then some (.bytes [7]) else none)
    (u := .bytes [0, 1]) (z := .bytes [8]) (src := rawCells [0, 1])
    (by decide) (h1 ▸ exDict_wf) (h1 ▸ ht) exDict_ok a3 rfl
    (.inr (.inr (by decide))) rfl (hok 8) (by simp [editAt, RefOp.spec, Ty.rget, Host.fits]) ⟨if_pos rfl, fun x hx => if_neg hx⟩
  have h2 : d2.ty = exDict := b2.trans h1
  obtain ⟨d3, lk3, c1, c2, c3, -⟩ := C76_write_partial (env := env) (q := []) (op := .value (.num .u8 [9])) (t := .prim .u8)
    (g := fun u => if u = .bytes [1, 0] then some (.bytes [9]) else if u = .bytes [0, 1] then some (.bytes [8]) else none)
    (u := .bytes [1, 0]) (z := .bytes [9]) (src := rawCells [1, 0])
    (by decide) (h2 ▸ exDict_wf) (h2 ▸ ht) exDict_ok b3 rfl
    (.inl (by simp)) rfl (hok 9) (by simp [editAt, RefOp.spec, Ty.rget, Host.fits])
    ⟨if_pos rfl, fun x hx => by simp only [if_neg hx]⟩
  have h3 : d3.ty = exDict := c2.trans h2
  have c3' : Dict d3 [.member "m"] (fun u => if u = .bytes [1, 0] then some (.bytes [9]) else if u = .bytes [0, 1] then some (.bytes [8])
      else none) 2 := by simpa using c3
  refine ⟨w, d, d1, d2, d3, lk1, lk2, lk3, hw1, hw2, a1, b1, c1, c3', ?_, ?_⟩
  · rw [(C76_read_partial (env := env) (q := []) (src := rawCells [2, 0]) (u := .bytes [2, 0]) (by decide) (h3 ▸ exDict_wf) (h3 ▸ ht)
      exDict_ok c3' rfl).1]
    simp
  · exact (C76_read_partial (env := env) (q := []) (src := rawCells [1, 0]) (u := .bytes [1, 0]) (by decide) (h3 ▸ exDict_wf) (h3 ▸ ht)
      exDict_ok c3' rfl).2.1 (.bytes [9]) (.bytes [9]) (by simp) rfl

/-- C76: assignments to a map without a bound. -/
example (env : HashEnv) : ∃ w d d', World.empty.run [.create 0 (.map (.prim .u16) (.prim .u8) 0)] = .ok w ∧ w.vars 0 = some d ∧
    assignAll env [] [(rawCells [1, 0], rawCells [7]), (rawCells [2, 0], rawCells [8]), (rawCells [1, 0], rawCells [9])] d = .ok d' ∧
    ∃ n, Dict d' [] (lastAssigned [(.bytes [1, 0], .bytes [7]), (.bytes [2, 0], .bytes [8]), (.bytes [1, 0], .bytes [9])]) n := by
  obtain ⟨d, ⟨w, hw1, hw2⟩, hty, hD⟩ : ∃ d, (∃ w, World.empty.run [.create 0 (.map (.prim .u16) (.prim .u8) 0)] = .ok w ∧ w.vars 0 = some d) ∧
      d.ty = .map (.prim .u16) (.prim .u8) 0 ∧ Dict d [] (fun _ => none) 0 :=
    ⟨_, ⟨_, rfl, rfl⟩, rfl, C76_empty (v := .coll []) ⟨rfl, rfl⟩ ⟨_, _, rfl, rfl⟩⟩
  obtain ⟨d', n', a1, -, a3, -⟩ := C76_history_partial (env := env) (k := .u16) (by decide) exDict_ok
    [(rawCells [1, 0], rawCells [7]), (rawCells [2, 0], rawCells [8]), (rawCells [1, 0], rawCells [9])]
    [(.bytes [1, 0], .bytes [7]), (.bytes [2, 0], .bytes [8]), (.bytes [1, 0], .bytes [9])]
    (hty ▸ (by simp [Ty.WF])) (by rw [hty]; rfl) hD rfl (by simp [Val.Selected])
  exact ⟨w, d, d', hw1, hw2, a1, n', by simpa using a3⟩

end Verif.Inst
