import Verif.Model.Seq
/-!
# Maps: `MapInstance` and `MapType`

The storage of a map is a buffer of (key, value) pairs kept sorted by the hash of the key; it has the
same fields as the buffer of a sequence, so `SeqInst` is reused. `hash` is `content_->first().hash`
(a `uint64_t`), a parameter here. `d` is the pair `construct_instance` leaves in a slot. `prim` tells
whether key and value are both primitive (then `memmove` replaces element-wise moves).

As for sequences `none` is undefined behaviour, and slots overwritten without being destroyed
(MapInstance.hpp 148-150) are not tracked. The 64-bit products of `get_element` do not wrap. A block
size of 0 (key and value empty structures) is not special-cased: the loop of `find_place` compares
pointers (`current == start`), which here are indices.
-/

namespace Verif

variable {κ υ : Type}

namespace MapInst

/-- Hash of the key in slot `i` (`hash(get_element(i))`, MapInstance.hpp 450-454, 432-436). -/
def hashAt (hash : κ → Nat) (l : List (κ × υ)) (i : Nat) : Nat :=
  (l[i]?.map (fun p => hash p.1)).getD 0

/-- The binary search loop of `find_place` (MapInstance.hpp 379-416): the final `icurrent` and the
index of `end`. `icurrent != istart` is `istart < icurrent` because `istart ≤ iend`; the inner test
`current == start` never holds when the loop is entered. -/
def findLoop (hs : Nat → Nat) (x istart iend : Nat) : Nat × Nat :=
  let c := (istart + iend) / 2
  if istart < c then
    if x = hs c then (c, iend)
    else if x > hs c then findLoop hs x c iend
    else findLoop hs x istart c
  else (c, iend)
termination_by iend - istart
decreasing_by all_goals omega

/-- `find_place` (MapInstance.hpp 361-430); the index of the slot, `none` for `nullptr`. -/
def findPlace (hash : κ → Nat) (s : SeqInst (κ × υ)) (key : κ) (exact : Bool) : Option Nat :=
  if s.size = 0 then (if exact then none else some 0)
  else
    let l := s.buf.getD []
    let r := findLoop (hashAt hash l) (hash key) 0 s.size
    let ch := hashAt hash l r.1
    if hash key = ch then some r.1
    else if hash key < ch then (if exact then none else some r.1)
    else (if exact then none else some r.2)

/-- `get_key_index` (MapInstance.hpp 438-448); `none` is the failed assertion. -/
def keyIndex (hash : κ → Nat) (s : SeqInst (κ × υ)) (key : κ) : Option Nat :=
  if s.buf = none then some 0 else findPlace hash s key true

/-- Number of slots `move_content(new, memory_, true)` moves (MapInstance.hpp 303-335): all of them
for constructed types (in either branch), `size_ - get_key_index(memory_)` for primitive ones. -/
def moveCount (hash : κ → Nat) (prim : Bool) (s : SeqInst (κ × υ)) (old : List (κ × υ)) : Option Nat :=
  if prim then
    match old with
    | [] => none
    | p :: _ => (keyIndex hash s p.1).map (s.size - ·)
  else some s.size

/-- `realloc` (MapInstance.hpp 219-232). A failed assertion inside `move_content` counts as
undefined (it would leak the new buffer). -/
def realloc (hash : κ → Nat) (prim : Bool) (block : Nat) (d : κ × υ) (s : SeqInst (κ × υ))
    (desired bounds : Nat) : Option (SeqInst (κ × υ)) :=
  let newCap := if bounds = 0 then desired else min desired bounds
  match SeqInst.initMem block d newCap with
  | none => none
  | some nb =>
    match s.buf with
    | none => some { s with buf := nb, cap := SeqInst.u32 newCap }
    | some old =>
      match moveCount hash prim s old with
      | none => none
      | some cnt =>
        match nb with
        | none => if cnt = 0 then some { s with buf := none, cap := SeqInst.u32 newCap } else none
        | some new =>
          if cnt ≤ new.length ∧ cnt ≤ old.length then
            some { s with buf := some (old.take cnt ++ new.drop cnt), cap := SeqInst.u32 newCap,
                          moved := s.moved + cnt }
          else none

/-- `create_place` (MapInstance.hpp 345-359) with the shift of `move_content` (303-335) by one slot.
Result: the buffer with room at the returned index. Outer `none`: undefined; inner `none`: "Key
already exists". Source and target of the shift lie in the same buffer, so `check_overlap` (337-343)
holds and `size_ - get_key_index(place)` slots are moved, last first. -/
def createPlace (hash : κ → Nat) (s : SeqInst (κ × υ)) (key : κ) :
    Option (Option (List (κ × υ) × Nat)) :=
  match s.buf, findPlace hash s key false with
  | some l, some p =>
    if s.size = 0 ∨ p = s.size ∨ hash key ≠ hashAt hash l p then
      if p ≠ s.size then
        match l[p]? with
        | none => none
        | some slot =>
          match keyIndex hash s slot.1 with
          | none => none
          | some ki =>
            let cnt := s.size - ki
            if p + 1 + cnt ≤ l.length then
              some (some (l.take (p + 1) ++ (l.drop p).take cnt ++ l.drop (p + 1 + cnt), p))
            else none
      else some (some (l, p))
    else some none
  | _, _ => none

/-- `insert` (MapInstance.hpp 139-155). Inner `none`: the assertion of `create_place` failed; the
state returned is then the reallocated one. -/
def insert (hash : κ → Nat) (prim : Bool) (block : Nat) (d : κ × υ) (s : SeqInst (κ × υ))
    (src : SeqInst.Src κ) (bounds : Nat) : Option (SeqInst (κ × υ) × Option Nat) :=
  let grow := s.buf = none ∨ s.size = s.cap
  let s' := if grow then realloc hash prim block d s (if s.cap > 0 then SeqInst.u32 (s.cap * 2) else 1)
              bounds else some s
  match s' with
  | none => none
  | some s' =>
    let key : Option κ := match src with
      | .ext k => some k
      | .own i => if grow then none else (s'.buf.getD [])[i]?.map (·.1)
    match key with
    | none => none
    | some key =>
      match createPlace hash s' key with
      | none => none
      | some none => some (s', none)
      | some (some (l, p)) =>
        if p < l.length then
          some ({ s' with buf := some (l.set p (key, d.2)), size := SeqInst.u32 (s'.size + 1) }, some p)
        else none

end MapInst

/-- A map datum: the bounds of its `MapType` and the instance. (MapType.hpp 32, MapInstance.hpp 213-217) -/
structure MapData (κ υ : Type) where
  bounds : Nat
  inst : SeqInst (κ × υ)

/-- The operations on map data. (the client side of DynamicData.hpp 936-995) -/
inductive MapOp (κ υ : Type)
  /-- `insert(pair)` (DynamicData.hpp 970-980) -/
  | insert (k : κ) (v : υ)
  /-- `insert` of a pair that is an element of this map -/
  | insertOwn (i : Nat)
  /-- `data[key]` (DynamicData.hpp 936-952), the result not being used -/
  | touch (k : κ)
  /-- `data[key] = value` -/
  | set (k : κ) (v : υ)
  /-- `data.at(key) = value` (DynamicData.hpp 245-257, 959-963) -/
  | atSet (k : κ) (v : υ)
  /-- continue with a copy of the datum (MapType.hpp 85-90; the copy constructors of `MapInstance`,
  MapInstance.hpp 59-92 and 256-301, are those of `SequenceInstance`) -/
  | copy
  /-- continue with the datum converted to a map with another bound (MapType.hpp 92-119) -/
  | convert (bounds : Nat)

namespace MapData

/-- `DynamicData(MapType)`: `construct_instance` (MapType.hpp 79-83). -/
def new (block : Nat) (d : κ × υ) (bounds : Nat) : Option (MapData κ υ) :=
  match SeqInst.construct block d (SeqInst.u32 bounds) with
  | none => none
  | some i => some ⟨SeqInst.u32 bounds, i⟩

/-- `insert_instance` (MapType.hpp 225-234). The result is the state and the index of the new pair,
if any. -/
def insertInstance (hash : κ → Nat) (prim : Bool) (block : Nat) (d : κ × υ) (s : MapData κ υ)
    (src : SeqInst.Src κ) : Option (MapData κ υ × Option Nat) :=
  if s.inst.size < s.bounds ∨ s.bounds = 0 then
    match MapInst.insert hash prim block d s.inst src s.bounds with
    | none => none
    | some (i, r) => some (⟨s.bounds, i⟩, r)
  else some (s, none)

/-- Get the slot of a key, creating it if necessary (DynamicData.hpp 943-950). -/
def slotOf (hash : κ → Nat) (prim : Bool) (block : Nat) (d : κ × υ) (s : MapData κ υ) (k : κ) :
    Option (MapData κ υ × Option Nat) :=
  match MapInst.findPlace hash s.inst k true with
  | some p => some (s, some p)
  | none => insertInstance hash prim block d s (.ext k)

/-- Write the value part of slot `p`. (assignment through the reference of DynamicData.hpp 951) -/
def putVal (s : MapData κ υ) (p : Nat) (v : υ) : Option (MapData κ υ) :=
  match s.inst.buf with
  | none => none
  | some l =>
    match l[p]? with
    | none => none
    | some q => some ⟨s.bounds, { s.inst with buf := some (l.set p (q.1, v)) }⟩

/-- Value associated to a key: `at(key)` (DynamicData.hpp 245-257); `none` is the failed
assertion. -/
def lookup (hash : κ → Nat) (s : MapData κ υ) (k : κ) : Option υ :=
  (MapInst.findPlace hash s.inst k true).bind (fun p => ((s.inst.buf.getD [])[p]?).map (·.2))

/-- `has_key` (DynamicData.hpp 984-995, MapInstance.hpp 176-180). -/
def hasKey (hash : κ → Nat) (s : MapData κ υ) (k : κ) : Bool :=
  (MapInst.findPlace hash s.inst k true).isSome

/-- The pairs in iteration order (MapType.hpp 198-209). -/
def elements (s : MapData κ υ) : List (κ × υ) := (s.inst.buf.getD []).take s.inst.size

/-- One operation; the `Bool` tells whether it was accepted. (dispatches to DynamicData.hpp 936-995) -/
def step (hash : κ → Nat) (prim : Bool) (block : Nat) (d : κ × υ) (s : MapData κ υ) :
    MapOp κ υ → Option (MapData κ υ × Bool)
  | .insert k _ =>
    match insertInstance hash prim block d s (.ext k) with
    | none => none
    | some (s', r) => some (s', r.isSome)
  | .insertOwn i =>
    if i < s.inst.size then
      match insertInstance hash prim block d s (.own i) with
      | none => none
      | some (s', r) => some (s', r.isSome)
    else some (s, false)
  | .touch k =>
    match slotOf hash prim block d s k with
    | none => none
    | some (s', r) => some (s', r.isSome)
  | .set k v =>
    match slotOf hash prim block d s k with
    | none => none
    | some (s', none) => some (s', false)
    | some (s', some p) =>
      match putVal s' p v with
      | none => none
      | some s'' => some (s'', true)
  | .atSet k v =>
    match MapInst.findPlace hash s.inst k true with
    | none => some (s, false)
    | some p =>
      match putVal s p v with
      | none => none
      | some s'' => some (s'', true)
  | .copy =>
    match s.inst.copy block d with
    | none => none
    | some i => some (⟨s.bounds, i⟩, true)
  | .convert b =>
    match s.inst.copyFrom block d id (SeqInst.u32 b) with
    | none => none
    | some i => some (⟨SeqInst.u32 b, i⟩, true)

/-- Run a history. (a client of DynamicData.hpp 936-995) -/
def run (hash : κ → Nat) (prim : Bool) (block : Nat) (d : κ × υ) (s : MapData κ υ) :
    List (MapOp κ υ) → Option (MapData κ υ × List Bool)
  | [] => some (s, [])
  | op :: ops =>
    match step hash prim block d s op with
    | none => none
    | some (s', b) =>
      match run hash prim block d s' ops with
      | none => none
      | some (s'', bs) => some (s'', b :: bs)

end MapData

end Verif
