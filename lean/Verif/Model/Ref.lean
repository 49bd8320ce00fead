import Verif.Model.Inst
import Verif.Model.Compat
/-!
# References into a datum

`ReadableDynamicDataRef` and `WritableDynamicDataRef`: access paths, the union selection behind them, and
the operations available at the end of a path; on the memory of `Verif.Model.Inst`.

Simplification: the entry of a map that `at(key)`/`operator[](key)` finds is given by its position (the
lookup itself is the subject of `Verif.Model.MapInst`); the source of `push` and of an assignment is a
block of memory that is not part of the datum written to, except in `Data.assignSelf`.
-/

namespace Verif.Inst

/-- One access: `[name]`, `[index]`, or the value of an entry of a map.
(DynamicData.hpp 156-217, 245-257, 884-963) -/
inductive Step where
  | member (n : String)
  | index (i : Nat)
  | key (i : Nat)
  deriving DecidableEq, Repr

/-- `member(name).offset()` and `.type()` of a structure: members are laid out one after the other
(StructType.hpp 55-62, AggregationType.hpp 61-66; see `Verif.Model.Builder` and C13). -/
def Mems.locate : Mems → String → Option (Nat × Ty)
  | .nil, _ => none
  | .cons x t r, n => if x = n then some (0, t) else (locate r n).map fun p => (p.1 + t.memSize, p.2)

/-- `member(index)` of a structure (AggregationType.hpp 50-55). -/
def Mems.locateAt : Mems → Nat → Option (Nat × Ty)
  | .nil, _ => none
  | .cons _ t _, 0 => some (0, t)
  | .cons _ t r, i + 1 => (locateAt r i).map fun p => (p.1 + t.memSize, p.2)

/-- Replace the object at `a` by the same object with other contents.
(assignments to the fields of SequenceInstance.hpp 211-215) -/
def setColl (isMap : Bool) (o : Coll) (a : Nat) (m : Mem) : M Mem :=
  if a + seqSize ≤ m.cells.length then
    .ok ⟨m.cells.take a ++ objCells (.coll isMap o.content o.size o.cap o.block) seqSize ++ m.cells.drop (a + seqSize),
      m.leaked⟩
  else .error .ub

/-- Work on the block of the sequence or map at `a`. (access through `memory_`, SequenceInstance.hpp 211-215) -/
def inBlock (isMap : Bool) (c : Ty) (g : Coll → Mem → M Mem) (a : Nat) (m : Mem) : M Mem :=
  (peekColl isMap m.cells a).bind fun o =>
    if o.content = c then
      (g o ⟨o.block, 0⟩).bind fun blk =>
        (setColl isMap { o with block := blk.cells } a m).map fun m => { m with leaked := m.leaked + blk.leaked }
    else .error .outside

/-- The character type of a string type: its content type (StringType.hpp 41-50). -/
def SK.char : SK → PK
  | .s8 => .c8
  | .ws => .wc
  | .s16 => .c16

/-- The string with another character at position `i`. (assignment to `(*str)[i]`, StringType.hpp 166-172) -/
def Cell.setChar (i u : Nat) : Cell → Cell
  | .str k us h => .str k (us.set i u) h
  | c => c

/-- Work on the character at position `i` of the string at `a`: `&(*str)[i]` (StringType.hpp 166-172), after the check
against `size()` (DynamicData.hpp 185-186). Simplification: the character is taken out of the string and put back
afterwards. -/
def inStr (k : SK) (i : Nat) (g : Nat → Mem → M Mem) (a : Nat) (m : Mem) : M Mem :=
  (peekStr k m.cells a).bind fun us =>
    match us[i]? with
    | some u =>
      (g 0 ⟨rawCells (leBytes (SK.char k).size u), 0⟩).bind fun c =>
        (peekRaw c.cells 0 (SK.char k).size).map fun bs =>
          ⟨m.cells.modify a (Cell.setChar i (leNat bs)), m.leaked + c.leaked⟩
    | none => .error .refused

/-! ## Union selection -/

/-- `activate_member` (UnionType.hpp 932-948); the case member has offset `disc.memSize`. -/
def activate (d : Ty) (ms : Mems) (i : UInfo) (n : String) (a : Nat) (m : Mem) : M Mem :=
  (readLabel d m.cells a).bind fun l =>
    match omGet i.labels l with
    | some x =>
      if x = n then .ok m
      else (destroyCase ms x (a + d.memSize) m).bind (constructCase ms n (a + d.memSize))
    | none => constructCase ms n (a + d.memSize) m

/-- The first label, in the order of `labels_`, of a member (UnionType.hpp 883-892). -/
def firstLabel (i : UInfo) (n : String) : Option Int := (i.labels.find? fun p => p.2 = n).map (·.1)

/-- `select_case` (UnionType.hpp 878-894). -/
def selectCase (d : Ty) (ms : Mems) (i : UInfo) (n : String) (a : Nat) (m : Mem) : M Mem :=
  match firstLabel i n with
  | some l => (activate d ms i n a m).bind fun m => writeLabel d m a l
  | none => .ok m

/-- `select_disc(instance, value)` (UnionType.hpp 852-876). `labels_.at(value)` throws for an unknown label. -/
def selectDisc (d : Ty) (i : UInfo) (value : Int) (a : Nat) (m : Mem) : M Mem :=
  if omGet i.labels value = none ∧ i.default = i.invalidValue then .ok m -- 857-861, the result is ignored
  else
    (readLabel d m.cells a).bind fun l =>
      match omGet i.labels l with
      | some x =>
        match omGet i.labels value with
        | some y => if x = y then writeLabel d m a value else .error .refused
        | none => .error .refused
      | none => writeLabel d m a value

/-! ## Paths -/

/-- Follow a path and do `f` there (DynamicData.hpp 156-217, 245-257, 665-693, 884-905, 936-952, 959-963); `ro` for
the access through a readable reference. A reference sees through aliases (DynamicData.hpp 633-638). -/
def withRef (ro : Bool) : List Step → Ty → (Ty → Nat → Mem → M Mem) → Nat → Mem → M Mem
  | [], T, f, a, m => f T.rget a m
  | s :: p, T, f, a, m =>
    match T.rget, s with
    | .struct _ ms, .member n =>
      match Mems.locate ms n with
      | some (off, t) => withRef ro p t f (a + off) m
      | none => .error .refused
    | .struct _ ms, .index i =>
      match Mems.locateAt ms i with
      | some (off, t) => withRef ro p t f (a + off) m
      | none => .error .refused
    | .arr _ c d, .index i => if i < d then withRef ro p c f (a + i * c.memSize) m else .error .refused
    | .pair x _, .index 0 => withRef ro p x f a m
    | .pair x y, .index 1 => withRef ro p y f (a + x.memSize) m
    | .seq c _, .index i =>
      inBlock false c (fun o blk => if i < o.size then withRef ro p c f (i * c.memSize) blk else .error .refused) a m
    | .str k _, .index i => inStr k i (withRef ro p (.prim (SK.char k)) f) a m
    | .map k v _, .key i =>
      inBlock true (.pair k v) (fun o blk =>
        if i < o.size then withRef ro p v f (i * (k.memSize + v.memSize) + k.memSize) blk else .error .refused) a m
    | .union _ d ms i, .member n =>
      match ms.find? n with
      | some t =>
        (if ro then (readLabel d m.cells a).bind fun l => if omGet i.labels l = some n then .ok m else .error .refused
          else .ok m).bind fun m =>
        (selectCase d ms i n a m).bind (withRef ro p t f (a + d.memSize))
      | none => .error .refused
    | _, _ => .error .refused

/-- The cells a path through readable references leads to, and their type (same lines). Here the label is left
alone; `withRef true` shows that the code rewrites it. (DynamicData.hpp 156-217, 245-257, 665-693) -/
def locate : List Step → Ty → List Cell → Nat → M (Ty × List Cell)
  | [], T, cs, a => (peek cs a T.memSize).map fun x => (T.rget, x)
  | s :: p, T, cs, a =>
    match T.rget, s with
    | .struct _ ms, .member n =>
      match Mems.locate ms n with
      | some (off, t) => locate p t cs (a + off)
      | none => .error .refused
    | .struct _ ms, .index i =>
      match Mems.locateAt ms i with
      | some (off, t) => locate p t cs (a + off)
      | none => .error .refused
    | .arr _ c d, .index i => if i < d then locate p c cs (a + i * c.memSize) else .error .refused
    | .pair x _, .index 0 => locate p x cs a
    | .pair x y, .index 1 => locate p y cs (a + x.memSize)
    | .seq c _, .index i =>
      (peekColl false cs a).bind fun o =>
        if o.content = c then if i < o.size then locate p c o.block (i * c.memSize) else .error .refused
        else .error .outside
    | .str k _, .index i =>
      (peekStr k cs a).bind fun us =>
        match us[i]? with
        | some u => locate p (.prim (SK.char k)) (rawCells (leBytes (SK.char k).size u)) 0
        | none => .error .refused
    | .map k v _, .key i =>
      (peekColl true cs a).bind fun o =>
        if o.content = .pair k v then
          if i < o.size then locate p v o.block (i * (k.memSize + v.memSize) + k.memSize) else .error .refused
        else .error .outside
    | .union _ d ms i, .member n =>
      match ms.find? n with
      | some t => (readLabel d cs a).bind fun l =>
          if omGet i.labels l = some n then locate p t cs (a + d.memSize) else .error .refused
      | none => .error .refused
    | _, _ => .error .refused

/-! ## Operations at the end of a path -/

/-- A value of the host language (`PrimitiveOrString`, DynamicData.hpp 48-58): a number of some primitive type, or a
string. -/
inductive Host where
  | num (k : PK) (bs : List Byte)
  | str (k : SK) (us : List Nat)

/-- The memory of a host variable. (`&t` in DynamicData.hpp 1024, 1046) -/
def Host.cells : Host → List Cell
  | .num _ bs => rawCells bs
  | .str k us => objCells (.str k us (decide (us.length > SK.sso k))) strSize

/-- The assertions of `value(t)` (DynamicData.hpp 1000-1021). For an enumeration only the size of the host type is
compared. -/
def Host.fits : Host → Ty → Bool
  | .num k _, .prim l => decide (k = l)
  | .num k bs, .enum _ w vals => decide (k.size = w.size) && vals.any fun p => p.2 == leNat bs
  | .str k _, .str l _ => decide (k = l)
  | _, _ => false

/-- `value(t)` (DynamicData.hpp 1000-1025). -/
def setValue (h : Host) (T : Ty) (a : Nat) (m : Mem) : M Mem :=
  if h.fits T then (destroy T a m).bind (copy T h.cells 0 a) else .error .refused

/-- `WritableDynamicDataRef::operator =` (DynamicData.hpp 819-825) from a datum in another block: no check. -/
def assignRef (src : List Cell) (T : Ty) (a : Nat) (m : Mem) : M Mem :=
  (destroy T a m).bind (copy T src 0 a)

/-- `realloc` (SequenceInstance.hpp 217-230), `move_content` (297-315) and `free_memory` (317-332), for a capacity
that is not 0. -/
def reallocColl (c : Ty) (o : Coll) (cap : Nat) : M (Coll × Nat) :=
  (initBlock (construct c) c.memSize cap).bind fun blk =>
    (if c.isConstructed then
      loop (fun i m => move true c o.block (i * c.memSize) (i * c.memSize) m) 0 o.size blk
    else (peekRaw o.block 0 (o.size * c.memSize)).bind fun bytes => put blk 0 (rawCells bytes)).bind fun blk =>
      (if c.isConstructed then loopDown (fun i m => destroy c (i * c.memSize) m) o.cap ⟨o.block, 0⟩
        else .ok ⟨o.block, 0⟩).map fun old =>
        ({ o with cap := cap, block := blk.cells }, blk.leaked + old.leaked + owned old.cells)

/-- `realloc` applies the bound (SequenceInstance.hpp 221). -/
def boundedCap (desired bounds : Nat) : Nat := if bounds = 0 then desired else min desired bounds

/-- `push` of the value in `src` (DynamicData.hpp 1032-1066, SequenceType.hpp 212-221, SequenceInstance.hpp 149-164). -/
def push (src : List Cell) (T : Ty) (a : Nat) (m : Mem) : M Mem :=
  match T with
  | .seq c b =>
    (peekColl false m.cells a).bind fun o =>
      if o.content = c then
        if o.size < b ∨ b = 0 then
          (if o.size = o.cap then reallocColl c o (boundedCap (if o.cap > 0 then o.cap * 2 else 1) b) else .ok (o, 0)).bind
            fun (o, lk) =>
              (copy c src 0 (o.size * c.memSize) ⟨o.block, 0⟩).bind fun blk =>
                (setColl false { o with size := o.size + 1, block := blk.cells } a m).map fun m =>
                  { m with leaked := m.leaked + lk + blk.leaked }
        else .error .refused
      else .error .outside
  | _ => .error .refused

/-- `push(t)` of a host value (DynamicData.hpp 1032-1049): the kinds must agree. -/
def pushHost (h : Host) (T : Ty) (a : Nat) (m : Mem) : M Mem :=
  match T with
  | .seq c b =>
    match h, c with
    | .num k _, .prim l => if k = l then push h.cells (.seq c b) a m else .error .refused
    | .str k _, .str l _ => if k = l then push h.cells (.seq c b) a m else .error .refused
    | _, _ => .error .refused
  | _ => .error .refused

/-- `resize(n)` (DynamicData.hpp 1075-1087, SequenceType.hpp 227-232, SequenceInstance.hpp 169-187): the new elements are constructed a second
time. -/
def resize (n : Nat) (T : Ty) (a : Nat) (m : Mem) : M Mem :=
  match T with
  | .seq c b =>
    if b = 0 ∨ b ≥ n then
      (peekColl false m.cells a).bind fun o =>
        if o.content = c then
          if o.size ≥ n then .ok m
          else (reallocColl c o (boundedCap n b)).bind fun (o, lk) =>
            (loop (fun i m => construct c (i * c.memSize) m) o.size (n - o.size) ⟨o.block, 0⟩).bind fun blk =>
              (setColl false { o with size := n, block := blk.cells } a m).map fun m =>
                { m with leaked := m.leaked + lk + blk.leaked }
        else .error .outside
    else .error .refused
  | _ => .error .refused

/-- `d(value)` (DynamicData.hpp 911-917). -/
def setDisc (value : Int) (T : Ty) (a : Nat) (m : Mem) : M Mem :=
  match T with
  | .union _ d _ i => selectDisc d i value a m
  | _ => .error .refused

/-- `d(ref)` (DynamicData.hpp 923-929, UnionType.hpp 843-850): the label is read as a discriminator of the type of the
argument, the datum of type `S` in `src`. -/
def setDiscRef (S : Ty) (src : List Cell) (T : Ty) (a : Nat) (m : Mem) : M Mem :=
  match T with
  | .union _ d _ i => (readLabel S src 0).bind fun l => selectDisc d i l a m
  | _ => .error .refused

/-- What a program does at the end of a path. `touch`: nothing, but the path itself selects union members.
(DynamicData.hpp 819-825, 911-929, 1000-1087) -/
inductive RefOp where
  | touch
  | value (h : Host)
  | assign (src : List Cell)
  | push (src : List Cell)
  | pushHost (h : Host)
  | resize (n : Nat)
  | disc (value : Int)
  | discRef (S : Ty) (src : List Cell)

/-- Run it. (dispatches to DynamicData.hpp 819-825, 911-929, 1000-1087) -/
def RefOp.run : RefOp → Ty → Nat → Mem → M Mem
  | .touch, _, _, m => .ok m
  | .value h, T, a, m => setValue h T a m
  | .assign src, T, a, m => assignRef src T a m
  | .push src, T, a, m => Inst.push src T a m
  | .pushHost h, T, a, m => Inst.pushHost h T a m
  | .resize n, T, a, m => Inst.resize n T a m
  | .disc v, T, a, m => setDisc v T a m
  | .discRef S src, T, a, m => setDiscRef S src T a m

end Verif.Inst
