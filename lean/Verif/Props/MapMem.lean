import Verif.Lemmas.MapKey
import Verif.Props.Access
/-!
# Access to maps by key (C59)

`d.writeKey env p src q op`: `d…[key]… op`, `p` being the path to the map, `src` the memory of the datum `key`, `q` the path
from the value of the entry. `d.readKey`, `d.hasKey`, `d.insertPair`: `at`, `has_key`, `insert`. All act on memory; the
value of a map is the list of its entries. `H` is the hash function of the keys, `lookup H u es` the value the entries
`es` give to the key `u`.
-/

namespace Verif.Inst

/-- C59: `hash()` of a key is a function of its value. -/
theorem C59_hash_of (env : HashEnv) {k : Ty} (hk : Hashable k) (hw : k.WF) : ∃ H, HashOf env k H := by
  refine ⟨fun u => (hash_ok (σ := env.str) k hk hw u).choose, ?_⟩
  intro cs u hd
  have hh := (hash_ok (σ := env.str) k hk hw u).choose_spec
  have h1 : instHash env k ([] ++ cs ++ []) ([] : List Cell).length = .ok (hash_ok (σ := env.str) k hk hw u).choose :=
    hh env rfl [] cs [] hd
  simpa only [List.nil_append, List.append_nil, List.length_nil] using h1

/-- C59, partial: `has_key` tells whether an entry with a key of the same hash exists; `at` gives a reference to the value
of this entry, and is refused when there is none. Missing: maps that are not in order (`C59_write_partial` keeps them in
order), keys that are not `Hashable`, and that different keys have different hashes. -/
theorem C59_lookup_partial {env : HashEnv} {d : Data} {v : Val} {p q : List Step} {k val : Ty} {b : Nat} {es : List Val}
    {H : Val → BitVec 64} {src : List Cell} {u : Val} (h : d.ty.WF) (hv : d.Holds v) (hp : d.Reads p (.coll es))
    (ht : typeAt p d.ty = some (.map k val b)) (hm : MapOk k val) (hH : HashOf env k H) (ho : Ordered H es)
    (hu : decode k src = some u) :
    (∀ S, compat k S = Cons.equals → d.hasKey env p S src = .ok (decide (∃ e ∈ es, H (keyOf e) = H u))) ∧
    (∀ z, lookup H u es = some z → ∀ w, valAt q val z = some w →
      ∃ t x, d.readKey env p src q = .ok (t, x) ∧ decode t x = some w) ∧
    (lookup H u es = none → d.readKey env p src q = .error .refused) := by
  have hval := ((reads_iff h hv p).1 _).mp hp
  have hl := locate_reads p d.ty h [] d.cells [] v hv.2
  simp only [List.nil_append, List.append_nil, List.length_nil] at hl
  obtain ⟨t1, cs, ht1, hr, hd⟩ := hl.1 _ hval
  rw [ht] at ht1; cases ht1
  have hf := findKey_ok (post := []) hm.hash hm.wfk hH hu hd ho [] []
  simp only [List.nil_append, List.append_nil, List.length_nil] at hf
  refine ⟨fun S hS => ?_, fun z hz w hw => ?_, fun hn => ?_⟩
  · unfold Data.hasKey Data.read
    rw [hr]
    simp only [Except.bind, mapHasKey, if_pos hS]
    rw [hf]
    simp only [Except.map]
    congr 1
    have e1 : (entryAt H u es).isSome = (lookup H u es).isSome := by
      cases h1 : entryAt H u es with
      | none => rw [lookup_none.mpr h1]; rfl
      | some i => obtain ⟨e, -, -, h2⟩ := entryAt_some h1; rw [h2]; rfl
    rw [e1, Bool.eq_iff_iff, lookup_iff, decide_eq_true_iff]
  · cases h1 : entryAt H u es with
    | none => rw [lookup_none.mpr h1] at hz; cases hz
    | some i =>
      obtain ⟨e, g1, g2, g3⟩ := entryAt_some h1
      obtain ⟨a, z0, rfl⟩ := entries_pairs hd g1
      rw [hz] at g3
      simp only [valueOf, Option.some.injEq] at g3
      subst g3
      have hwf : (Ty.map k val b).WF := by rw [Ty.WF]; exact ⟨hm.wfk, hm.wfv⟩
      have hl2 := locate_reads (.key i :: q) (.map k val b) hwf [] cs [] _ hd
      simp only [List.nil_append, List.append_nil, List.length_nil] at hl2
      obtain ⟨t2, x, -, e2, e3⟩ := hl2.1 w (by
        rw [valAt_child rfl rfl]
        simp only [child, Ty.rget, Option.bind_some, elem, g1, hw])
      refine ⟨t2, x, ?_, e3⟩
      unfold Data.readKey Data.read
      rw [hr]
      simp only [Except.bind, mapAt]
      rw [hf, h1]
      exact e2
  · unfold Data.readKey Data.read
    rw [hr]
    simp only [Except.bind, mapAt]
    rw [hf, lookup_none.mp hn]

/-- C59, partial: `d…[key]… op`. If the key has an entry, or there is room for one more, `op` is done on the value of the
entry of this key (a new one has the default value); afterwards the key gives the new value, every other key what it gave
before, the entries are in order, there is one more of them just if the key was new, and nothing else of the datum has
changed. Nothing is lost if neither keys nor values own heap memory. Missing: the conditions `MapOk`; a key type that is
not the one of the map is not refused (`C59_fails_wrong_key`); losing no memory in general (`C59_insert_leaks`). -/
theorem C59_write_partial {env : HashEnv} {d : Data} {v : Val} {p q : List Step} {k val t : Ty} {b : Nat} {es : List Val}
    {H : Val → BitVec 64} {src : List Cell} {u z : Val} {op : RefOp} (h : d.ty.WF) (hv : d.Holds v) (hp : d.Reads p (.coll es))
    (ht : typeAt p d.ty = some (.map k val b)) (hm : MapOk k val) (hH : HashOf env k H) (ho : Ordered H es)
    (hu : decode k src = some u) (hs : u.Selected) (hroom : lookup H u es ≠ none ∨ b = 0 ∨ es.length < b)
    (hq : typeAt q val = some t) (hop : op.Ok t)
    (hz : editAt false op.spec q val ((lookup H u es).getD (defVal val)) = .ok z) :
    ∃ d' lk es', d.writeKey env p src q op = .ok (d', lk) ∧ d'.ty = d.ty ∧ (∃ v', d'.Holds v') ∧ d'.Reads p (.coll es') ∧
      Ordered H es' ∧ es'.length = es.length + (if lookup H u es = none then 1 else 0) ∧
      (∀ u', lookup H u' es' = if H u' = H u then some z else lookup H u' es) ∧
      (∀ r, Apart p r d.ty → ∀ x, d.Reads r x → d'.Reads r x) ∧
      (k.Flat → val.Flat → d.Tidy → lk = 0 ∧ d'.Tidy) := by
  have hval := ((reads_iff h hv p).1 _).mp hp
  have hl := locate_reads p d.ty h [] d.cells [] v hv.2
  obtain ⟨t1, cs, ht1, -, hd⟩ := hl.1 _ hval
  rw [ht] at ht1; cases ht1
  have hwf : (Ty.map k val b).WF := by rw [Ty.WF]; exact ⟨hm.wfk, hm.wfv⟩
  have hF : ∀ i, EditsTo (decode (.map k val b)) (tidy (.map k val b)) (Ty.pair k val).Flat
      (withRef false (.key i :: q) (.map k val b) op.run) (editAt false op.spec (.key i :: q) (.map k val b)) := fun i => by
    refine withRef_edits _ _ hwf fun t' ht' hwt => ?_
    rw [typeAt_child rfl rfl] at ht'
    simp only [child, Ty.rget, Option.bind_some] at ht'
    rw [hq] at ht'; cases ht'
    refine edits_clean (refOp_edits op t hwt hop) fun hf => typeAt_tight q val t (flat_tight _ ?_) hq
    rw [Ty.Flat] at hf; exact hf.2
  have hE := key_edits (b := b) (post := []) hm.hash hm.wfk hm.wfv hm.copyk hm.copyv hm.movek hm.movev hH hu hs id hF
  rw [List.append_nil] at hE
  obtain ⟨es', k1, k2, k3, k4⟩ := keySpec_eq hd ho hroom hz
  obtain ⟨new, lk, v', m1, m2, m3, m4, m5⟩ := mapEdit_ok (f := fun T a m => (mapSlot env src T a m).bind fun r =>
    withRef false (.key r.2 :: q) T op.run a r.1) h hv hval ht hE k1
  have hh : ({ d with cells := new } : Data).Holds v' := ⟨hv.1, m2⟩
  have hri := fun r => (reads_iff (d := { d with cells := new }) h hh r).1
  refine ⟨{ d with cells := new }, lk, es', ?_, rfl, ⟨v', hh⟩, (hri p _).mpr m3, k2, k3, k4, fun r hr x hx => ?_, fun f1 f2 htd => ?_⟩
  · unfold Data.writeKey
    rw [m1]; rfl
  · exact (hri r _).mpr (m4 r hr x (((reads_iff h hv r).1 x).mp hx))
  · exact m5 (by rw [Ty.Flat]; exact ⟨f1, f2⟩) htd

/-- C59, partial: a new key for a full map is refused. Missing: as above. -/
theorem C59_full_refused_partial {env : HashEnv} {d : Data} {v : Val} {p q : List Step} {k val t : Ty} {b : Nat} {es : List Val}
    {H : Val → BitVec 64} {src : List Cell} {u : Val} {op : RefOp} (h : d.ty.WF) (hv : d.Holds v) (hp : d.Reads p (.coll es))
    (ht : typeAt p d.ty = some (.map k val b)) (hm : MapOk k val) (hH : HashOf env k H) (ho : Ordered H es)
    (hu : decode k src = some u) (hs : u.Selected) (hn : lookup H u es = none) (hb : b ≠ 0) (hf : b ≤ es.length)
    (hq : typeAt q val = some t) (hop : op.Ok t) : d.writeKey env p src q op = .error .refused := by
  have hval := ((reads_iff h hv p).1 _).mp hp
  have hwf : (Ty.map k val b).WF := by rw [Ty.WF]; exact ⟨hm.wfk, hm.wfv⟩
  have hF : ∀ i, EditsTo (decode (.map k val b)) (tidy (.map k val b)) False
      (withRef false (.key i :: q) (.map k val b) op.run) (editAt false op.spec (.key i :: q) (.map k val b)) := fun i => by
    refine withRef_edits _ _ hwf fun t' ht' hwt => ?_
    rw [typeAt_child rfl rfl] at ht'
    simp only [child, Ty.rget, Option.bind_some] at ht'
    rw [hq] at ht'; cases ht'
    exact edits_clean (refOp_edits op t hwt hop) fun hf => hf.elim
  have hE := key_edits (b := b) (post := []) hm.hash hm.wfk hm.wfv hm.copyk hm.copyv hm.movek hm.movev hH hu hs (fun f => f.elim) hF
  rw [List.append_nil] at hE
  have := mapEdit_refused (f := fun T a m => (mapSlot env src T a m).bind fun r =>
    withRef false (.key r.2 :: q) T op.run a r.1) h hv hval ht hE (keySpec_full ho hn hb hf)
  unfold Data.writeKey
  rw [this]; rfl

/-- C59, partial: `insert(pair)`. A full map stays as it is; otherwise a new key gets the default value (not the value of the
pair, see `C11_insert_loses_value`) and the other keys keep theirs; a key that is there already is refused (the
documentation says `false`). Missing: as above. -/
theorem C59_insert_partial {env : HashEnv} {d : Data} {v : Val} {p : List Step} {k val S : Ty} {b : Nat} {es : List Val}
    {H : Val → BitVec 64} {x post : List Cell} {u : Val} (h : d.ty.WF) (hv : d.Holds v) (hp : d.Reads p (.coll es))
    (ht : typeAt p d.ty = some (.map k val b)) (hm : MapOk k val) (hH : HashOf env k H) (ho : Ordered H es)
    (hS : compat (.pair k val) S = Cons.equals) (hu : decode k x = some u) (hs : u.Selected) :
    (∀ y, lookup H u es = some y → b = 0 ∨ es.length < b → d.insertPair env p S (x ++ post) = .error .refused) ∧
    (lookup H u es = none ∨ (b ≠ 0 ∧ b ≤ es.length) →
      ∃ d' lk es', d.insertPair env p S (x ++ post) = .ok (d', lk) ∧ d'.ty = d.ty ∧ (∃ v', d'.Holds v') ∧ d'.Reads p (.coll es') ∧
        Ordered H es' ∧
        (if b = 0 ∨ es.length < b then
          es'.length = es.length + 1 ∧ ∀ u', lookup H u' es' = if H u' = H u then some (defVal val) else lookup H u' es
          else es' = es) ∧
        (∀ r, Apart p r d.ty → ∀ y, d.Reads r y → d'.Reads r y) ∧ (k.Flat → val.Flat → d.Tidy → lk = 0 ∧ d'.Tidy)) := by
  have hval := ((reads_iff h hv p).1 _).mp hp
  have hE := insert_edits (env := env) (b := b) (post := post) hm.hash hm.wfk hm.wfv hm.copyk hm.copyv hm.movek hm.movev hH hu hs hS
  constructor
  · intro y hy hroom
    have := mapEdit_refused (f := fun T a m => (mapInsert env S (x ++ post) T a m).map (·.1)) h hv hval ht hE (by
      simp only [if_pos ho, if_pos hroom]
      rw [if_neg]
      intro hn
      rw [lookup_none.mpr hn] at hy; cases hy)
    unfold Data.insertPair
    rw [this]; rfl
  · intro hc
    have main : ∃ es', (match Val.coll es with
        | .coll es =>
          if Ordered H es then
            if b = 0 ∨ es.length < b then
              if entryAt H u es = none then Out.ok (.coll (addEntry H (.list [u, defVal val]) es)) else .refused
            else .ok (.coll es)
          else .undef
        | _ => .undef) = .ok (.coll es') ∧ Ordered H es' ∧
        (if b = 0 ∨ es.length < b then
          es'.length = es.length + 1 ∧ ∀ u', lookup H u' es' = if H u' = H u then some (defVal val) else lookup H u' es
          else es' = es) := by
      simp only [if_pos ho]
      by_cases hroom : b = 0 ∨ es.length < b
      · have hn : entryAt H u es = none := lookup_none.mp (hc.resolve_right (by omega))
        obtain ⟨i, p1, p2, p3, p4, p5⟩ := addEntry_lookup (e := .list [u, defVal val]) ho hn
        simp only [if_pos hroom, if_pos hn]
        exact ⟨_, rfl, p4, by rw [p2]; simp; omega, p5⟩
      · simp only [if_neg hroom]
        exact ⟨es, rfl, ho, rfl⟩
    obtain ⟨es', k1, k2, k3⟩ := main
    obtain ⟨new, lk, v', m1, m2, m3, m4, m5⟩ := mapEdit_ok (f := fun T a m => (mapInsert env S (x ++ post) T a m).map (·.1))
      h hv hval ht hE k1
    have hh : ({ d with cells := new } : Data).Holds v' := ⟨hv.1, m2⟩
    have hri := fun r => (reads_iff (d := { d with cells := new }) h hh r).1
    refine ⟨{ d with cells := new }, lk, es', ?_, rfl, ⟨v', hh⟩, (hri p _).mpr m3, k2, k3, fun r hr y hy => ?_, fun f1 f2 htd => ?_⟩
    · unfold Data.insertPair
      rw [m1]; rfl
    · exact (hri r _).mpr (m4 r hr y (((reads_iff h hv r).1 y).mp hy))
    · exact m5 (by rw [Ty.Flat]; exact ⟨f1, f2⟩) htd

/-! ## Cases and failures -/

/-- A hash function for strings: the first character. (The standard leaves `std::hash` open.) -/
def mapEnv : HashEnv := ⟨fun _ us => BitVec.ofNat 64 (us.headD 0), fun _ _ => 0⟩

/-- The hash of a string value under `mapEnv`. -/
def mapH : Val → BitVec 64
  | .str us => BitVec.ofNat 64 (us.headD 0)
  | _ => 0

/-- A structure with a map from strings to numbers, at most two entries. -/
def mapT : Ty := .struct "S" (.cons "n" (.prim .u8) (.cons "m" (.map (.str .s8 0) (.prim .u8) 2) .nil))

/-- The memory of a string. -/
def mapKey (us : List Nat) : List Cell := Host.cells (.str .s8 us)

set_option maxRecDepth 8192 in
/-- C59: `s["m"]["b"] = 7; s["m"]["a"] = 5`: the entries are in order of the hashes; both keys are found, `"c"` is not, a third
key is refused, and writing again to one of the first two is not. -/
example : ∃ d d1 d2, World.empty.run [.create 0 mapT] = .ok d ∧
    (d.vars 0).map (fun d => d.writeKey mapEnv [.member "m"] (mapKey [98]) [] (.value (.num .u8 [7]))) = some (.ok (d1, 0)) ∧
    d1.writeKey mapEnv [.member "m"] (mapKey [97]) [] (.value (.num .u8 [5])) = .ok (d2, 0) ∧
    d2.Reads [.member "m"] (.coll [.list [.str [97], .bytes [5]], .list [.str [98], .bytes [7]]]) ∧
    d2.readKey mapEnv [.member "m"] (mapKey [98]) [] = .ok (.prim .u8, [.raw 7]) ∧
    d2.readKey mapEnv [.member "m"] (mapKey [99]) [] = .error .refused ∧
    d2.writeKey mapEnv [.member "m"] (mapKey [99]) [] (.value (.num .u8 [1])) = .error .refused ∧
    (d2.writeKey mapEnv [.member "m"] (mapKey [97]) [] (.value (.num .u8 [1]))).isOk = true :=
  ⟨_, _, _, rfl, rfl, rfl, ⟨_, _, rfl, rfl⟩, rfl, rfl, rfl, rfl⟩

theorem mapH_ok : HashOf mapEnv (.str .s8 0) mapH := by
  intro cs u hd
  rw [decode] at hd
  obtain ⟨us, hh, rfl, hb, rfl⟩ := decStr_iff.mp hd
  have := peekStr_at .s8 us hh [] []
  simp only [List.nil_append, List.append_nil, List.length_nil] at this
  rw [instHash, this]
  rfl

theorem mapT_ok : MapOk (.str .s8 0) (.prim .u8) ∧ mapT.WF := by
  refine ⟨⟨?_, ?_, ?_, ?_, ?_, ?_, ?_⟩, ?_⟩ <;>
    simp [Hashable, Ty.WF, Mems.WF, mapT, Ty.Copyable, Ty.Movable]

/-- C59: what the theorems ask for holds there; the path leads to the map, the entries are in order. -/
example : MapOk (.str .s8 0) (.prim .u8) ∧ mapT.WF ∧ HashOf mapEnv (.str .s8 0) mapH ∧
    typeAt [.member "m"] mapT = some (.map (.str .s8 0) (.prim .u8) 2) ∧
    Ordered mapH [.list [.str [97], .bytes [5]], .list [.str [98], .bytes [7]]] ∧
    decode (.str .s8 0) (mapKey [98]) = some (.str [98]) ∧ (Val.str [98]).Selected ∧
    lookup mapH (.str [98]) [.list [.str [97], .bytes [5]], .list [.str [98], .bytes [7]]] = some (.bytes [7]) ∧
    compat (.pair (.str .s8 0) (.prim .u8)) (.pair (.str .s8 0) (.prim .u8)) = Cons.equals ∧
    RefOp.Ok (.value (.num .u8 [7])) (.prim .u8) :=
  ⟨mapT_ok.1, mapT_ok.2, mapH_ok, rfl, by decide, rfl, by simp [Val.Selected], rfl, C20_compat_refl _, rfl⟩

/-- C59: keys and values that own nothing, in a datum that is tidy. -/
example : MapOk (.prim .u8) (.prim .u8) ∧ (Ty.prim .u8).Flat ∧ ∃ d, World.empty.run [.create 0 (.map (.prim .u8) (.prim .u8) 0)] = .ok d ∧
    ∃ x, d.vars 0 = some x ∧ x.Tidy := by
  refine ⟨⟨?_, ?_, ?_, ?_, ?_, ?_, ?_⟩, ?_, _, rfl, _, rfl, ?_⟩
  all_goals simp [Hashable, Ty.WF, Ty.Copyable, Ty.Movable, Ty.Flat]
  exact ⟨trivial, fun _ => rfl⟩

set_option maxRecDepth 8192 in
/-- C59 fails for keys that own memory: entering a key before others moves entries, `move_instance` of a string copies it
(C30_move_leaks), and the string left behind is overwritten. -/
theorem C59_insert_leaks :
    ∃ w d d1 d2, World.empty.run [.create 0 (.map (.str .s8 0) (.prim .u8) 0)] = .ok w ∧ w.vars 0 = some d ∧
      d.writeKey mapEnv [] (mapKey [99]) [] .touch = .ok (d1, 0) ∧
      d1.writeKey mapEnv [] (mapKey (List.replicate 20 98)) [] .touch = .ok (d2, 0) ∧
      ∃ d3, d2.writeKey mapEnv [] (mapKey [97]) [] .touch = .ok (d3, 1) :=
  ⟨_, _, _, _, rfl, rfl, rfl, rfl, _, rfl⟩

set_option maxRecDepth 8192 in
/-- C59 fails for keys of another type: `operator[]` and `at` take any datum for a key, and read its memory as if it were of
the type of the keys; `has_key` refuses it. -/
theorem C59_fails_wrong_key :
    ∃ w d, World.empty.run [.create 0 (.map (.str .s8 0) (.prim .u8) 0)] = .ok w ∧ w.vars 0 = some d ∧
      (∃ d1, d.writeKey mapEnv [] (mapKey [98]) [] .touch = .ok (d1, 0) ∧
        d1.writeKey mapEnv [] (rawCells [1, 0, 0, 0]) [] .touch = .error .ub ∧
        d1.readKey mapEnv [] (rawCells [1, 0, 0, 0]) [] = .error .ub ∧
        d1.hasKey mapEnv [] (.prim .u32) (rawCells [1, 0, 0, 0]) = .error .refused) := by
  refine ⟨_, _, rfl, rfl, _, rfl, rfl, rfl, ?_⟩
  have h : compat (.str .s8 0) (.prim .u32) ≠ Cons.equals := by simp [compat]; decide
  exact if_neg h

end Verif.Inst
