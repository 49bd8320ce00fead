import Verif.Model.Data
import Verif.Model.InstHash
/-!
# Maps in memory

The operations of `MapInstance` that look at keys (find, insert), function by function, on the memory of
`Verif.Model.Inst`, and the accesses of `DynamicData` by key. (The lists of `Verif.Model.MapInst` abstract from the
memory; here the entries are cells, and every move of an entry is done by `move_instance`.)

Simplifications: as in `Verif.Model.Inst` sizes are unbounded naturals and objects do not overlap; pointers into the
block are indices of slots (for a block size of 0 all pointers into the block are equal in the code; such a map has at
most one entry); the block is freed and allocated again at another address, so `check_overlap` fails in `realloc`.
The key is not stored in the map itself (see `C06_self_insert_undefined` for that).
-/

namespace Verif.Inst

/-- `hash(get_element(i))` (MapInstance.hpp 432-436, 450-454). -/
def slotHash (env : HashEnv) (k : Ty) (bs : Nat) (blk : List Cell) (i : Nat) : M Nat :=
  (instHash env k blk (i * bs)).map BitVec.toNat

/-- The loop of `find_place` (MapInstance.hpp 379-416): the final `icurrent`, the index of `end`, and `current_hash`.
The first argument bounds the number of rounds, the distance of `istart` and `iend` is always enough. -/
def findLoopM (hs : Nat → M Nat) (x : Nat) : Nat → Nat → Nat → M (Nat × Nat × Nat)
  | 0, _, _ => .error .ub
  | f + 1, istart, iend =>
    (hs ((istart + iend) / 2)).bind fun h =>
      if (istart + iend) / 2 ≠ istart then
        if x = h then .ok ((istart + iend) / 2, iend, h)
        else if x > h then findLoopM hs x f ((istart + iend) / 2) iend
        else findLoopM hs x f istart ((istart + iend) / 2)
      else .ok ((istart + iend) / 2, iend, h)

/-- `find_place` (MapInstance.hpp 361-430): index of the slot, `none` for `nullptr`. `x` is the hash of the key. -/
def findPlaceM (hs : Nat → M Nat) (x : M Nat) (size : Nat) (exact : Bool) : M (Option Nat) :=
  if size = 0 then .ok (if exact then none else some 0)
  else x.bind fun x => (findLoopM hs x size 0 size).map fun r =>
    if x = r.2.2 then some r.1
    else if x < r.2.2 then (if exact then none else some r.1)
    else (if exact then none else some r.2.1)

/-- `get_key_index` (MapInstance.hpp 438-448) of a pointer to the key in slot `i`. -/
def keyIndexM (hs : Nat → M Nat) (size i : Nat) : M Nat :=
  (findPlaceM hs (hs i) size true).bind fun
    | some p => .ok p
    | none => .error .refused

/-- `realloc` (MapInstance.hpp 219-232) with `move_content` (303-335) into the new block and `free_memory` (456-471), for
a capacity that is not 0. `memory_` is null just when the capacity is 0. -/
def reallocMap (env : HashEnv) (k v : Ty) (o : Coll) (cap : Nat) : M (Coll × Nat) :=
  let bs := k.memSize + v.memSize
  (initBlock (construct (.pair k v)) bs cap).bind fun blk =>
    (if o.cap = 0 then .ok blk
    else if k.isConstructed || v.isConstructed then
      loop (fun i m => move true (.pair k v) o.block (i * bs) (i * bs) m) 0 o.size blk
    else (keyIndexM (slotHash env k bs o.block) o.size 0).bind fun ki =>
      (peekRaw o.block 0 ((o.size - ki) * bs)).bind fun bytes => put blk 0 (rawCells bytes)).bind fun blk =>
    (loopDown (fun i m => destroy (.pair k v) (i * bs) m) o.cap ⟨o.block, 0⟩).map fun old =>
      ({ o with cap := cap, block := blk.cells }, blk.leaked + old.leaked + owned old.cells)

/-- `move_content(place + block_size_, place, true)` (MapInstance.hpp 303-335): the entries from slot `p` on go up by one
slot, the last one first. Here `check_overlap` (337-343) holds. Each entry is moved over the live entry above it. -/
def shiftMap (env : HashEnv) (k v : Ty) (size p : Nat) (m : Mem) : M Mem :=
  let bs := k.memSize + v.memSize
  (keyIndexM (slotHash env k bs m.cells) size p).bind fun ki =>
    if k.isConstructed || v.isConstructed then
      loopDown (fun j m => move true (.pair k v) m.cells (p * bs + j * bs) (p * bs + bs + j * bs) m) (size - ki) m
    else (peekRaw m.cells (p * bs) ((size - ki) * bs)).bind fun bytes => put m (p * bs + bs) (rawCells bytes)

/-- `create_place` (MapInstance.hpp 345-359); `x` is the hash of the key. -/
def createPlaceM (env : HashEnv) (k v : Ty) (size : Nat) (x : M Nat) (m : Mem) : M (Mem × Nat) :=
  let hs := slotHash env k (k.memSize + v.memSize) m.cells
  (findPlaceM hs x size false).bind fun
    | none => .error .ub
    | some p =>
      (if size = 0 ∨ p = size then .ok true else x.bind fun x => (hs p).map fun h => decide (x ≠ h)).bind fun ok =>
        if ok then
          (if p ≠ size then shiftMap env k v size p m else .ok m).map fun m => (m, p)
        else .error .refused

/-- `insert` (MapInstance.hpp 139-155) of the key at the start of `src`: the object, the index of the new entry, the
number of owning objects lost. The key is copied and the value constructed over the entry that was in the slot. -/
def insertMap (env : HashEnv) (src : List Cell) (k v : Ty) (b : Nat) (o : Coll) : M (Coll × Nat × Nat) :=
  let bs := k.memSize + v.memSize
  (if o.cap = 0 ∨ o.size = o.cap then reallocMap env k v o (boundedCap (if o.cap > 0 then o.cap * 2 else 1) b)
    else .ok (o, 0)).bind fun (o, lk) =>
    (createPlaceM env k v o.size ((instHash env k src 0).map BitVec.toNat) ⟨o.block, 0⟩).bind fun (m, p) =>
      (copy k src 0 (p * bs) m).bind fun m =>
        (construct v (p * bs + k.memSize) m).map fun m =>
          ({ o with size := o.size + 1, block := m.cells }, p, lk + m.leaked)

/-- `insert_instance` (MapType.hpp 225-234): the index of the new entry, `none` for `nullptr`. -/
def insertInstanceM (env : HashEnv) (src : List Cell) (k v : Ty) (b : Nat) (a : Nat) (m : Mem) : M (Mem × Option Nat) :=
  (peekColl true m.cells a).bind fun o =>
    if o.content = .pair k v then
      if o.size < b ∨ b = 0 then
        (insertMap env src k v b o).bind fun (o, p, lk) =>
          (setColl true o a m).map fun m => ({ m with leaked := m.leaked + lk }, some p)
      else .ok (m, none)
    else .error .outside

/-- `get_instance_at(instance, key)` (MapType.hpp 146-151, MapInstance.hpp 160-164): the index of the entry. -/
def findKey (env : HashEnv) (src : List Cell) (k v : Ty) (cs : List Cell) (a : Nat) : M (Option Nat) :=
  (peekColl true cs a).bind fun o =>
    if o.content = .pair k v then
      findPlaceM (slotHash env k (k.memSize + v.memSize) o.block) ((instHash env k src 0).map BitVec.toNat) o.size true
    else .error .outside

/-- `operator[](key)` of a writable reference (DynamicData.hpp 936-952), the datum `key` having the memory `src`: the
entry the result refers to. The type of the key is not looked at. -/
def mapSlot (env : HashEnv) (src : List Cell) (T : Ty) (a : Nat) (m : Mem) : M (Mem × Nat) :=
  match T with
  | .map k v b =>
    (findKey env src k v m.cells a).bind fun
      | some i => .ok (m, i)
      | none => (insertInstanceM env src k v b a m).bind fun
        | (m, some i) => .ok (m, i)
        | (_, none) => .error .refused
  | _ => .error .refused

/-- `at(key)` (DynamicData.hpp 245-257): the entry the result refers to. -/
def mapAt (env : HashEnv) (src : List Cell) (T : Ty) (cs : List Cell) (a : Nat) : M Nat :=
  match T with
  | .map k v _ => (findKey env src k v cs a).bind fun
      | some i => .ok i
      | none => .error .refused
  | _ => .error .refused

/-- `has_key(key)` (DynamicData.hpp 984-995), `S` being the type of the key. -/
def mapHasKey (env : HashEnv) (S : Ty) (src : List Cell) (T : Ty) (cs : List Cell) (a : Nat) : M Bool :=
  match T with
  | .map k v _ => if compat k S = Cons.equals then (findKey env src k v cs a).map Option.isSome else .error .refused
  | _ => .error .refused

/-- `insert(pair)` (DynamicData.hpp 970-980), `S` being the type of the pair: the address of the pair is passed on as the
address of the key. -/
def mapInsert (env : HashEnv) (S : Ty) (src : List Cell) (T : Ty) (a : Nat) (m : Mem) : M (Mem × Bool) :=
  match T with
  | .map k v b => if compat (.pair k v) S = Cons.equals then
      (insertInstanceM env src k v b a m).map fun r => (r.1, r.2.isSome)
    else .error .refused
  | _ => .error .refused

/-- `x…[key]… op`: follow the path `p`, get the entry of the key, go on along `q` from its value and do `op` there.
(DynamicData.hpp 884-952) -/
def Data.writeKey (env : HashEnv) (d : Data) (p : List Step) (src : List Cell) (q : List Step) (op : RefOp) :
    M (Data × Nat) :=
  (withRef false p d.ty (fun T a m => (mapSlot env src T a m).bind fun r =>
    withRef false (.key r.2 :: q) T op.run a r.1) 0 ⟨d.cells, 0⟩).map fun m => ({ d with cells := m.cells }, m.leaked)

/-- `x….insert(pair)`, the result being dropped. (DynamicData.hpp 970-980) -/
def Data.insertPair (env : HashEnv) (d : Data) (p : List Step) (S : Ty) (src : List Cell) : M (Data × Nat) :=
  (withRef false p d.ty (fun T a m => (mapInsert env S src T a m).map (·.1)) 0 ⟨d.cells, 0⟩).map fun m =>
    ({ d with cells := m.cells }, m.leaked)

/-- `x….has_key(key)` through readable references. (DynamicData.hpp 984-995) -/
def Data.hasKey (env : HashEnv) (d : Data) (p : List Step) (S : Ty) (src : List Cell) : M Bool :=
  (d.read p).bind fun r => mapHasKey env S src r.1 r.2 0

/-- `x….at(key)…` through readable references: type and memory of the part read. (DynamicData.hpp 156-257) -/
def Data.readKey (env : HashEnv) (d : Data) (p : List Step) (src : List Cell) (q : List Step) : M (Ty × List Cell) :=
  (d.read p).bind fun r => (mapAt env src r.1 r.2 0).bind fun i => locate (.key i :: q) r.1 r.2 0

end Verif.Inst
