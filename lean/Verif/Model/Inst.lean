import Verif.Model.Ty
import Verif.Model.OMap
import Verif.Model.Builder
import Verif.Model.Hash
/-!
# Instances in memory

The virtual functions of `Instanceable` (construct, copy, copy from another type, move, destroy,
compare, hash), function by function, on a flat memory.

A memory is a list of cells addressed by natural numbers; every access is checked and an access out of
the block, a read of an indeterminate byte or the use of an object where there is none is `Err.ub`.
`std::string`, `SequenceInstance` and `MapInstance` objects occupy as many cells as their `sizeof`: the
head cell carries the object, the others are `tail`. A collection carries its own block (`memory_`):
every constructor the code uses allocates a fresh one (SequenceInstance.hpp 55, 65, 97;
MapInstance.hpp 56, 66, 86), so no two objects share a block. The move constructors that would steal a
block are never selected, because the callers cast to a pointer to `const` first
(SequenceType.hpp 124, MapType.hpp 130, StringType.hpp 106).

Leaks are counted: `leaked` is the number of objects owning heap memory that were overwritten, or
dropped with the block that held them, without being destroyed.

Simplifications: sizes are unbounded naturals (the 32-bit counters of the collections are the subject of
`Verif.Model.Seq`); source and target are different memories (the code never copies inside one block
except in `MapInstance::create_place`, which is the subject of `Verif.Model.MapInst`); the padding of
`long double` is treated as part of the value; a `bool` holding a byte other than 0 and 1 counts as
true.
-/

namespace Verif.Inst

/-- `uint8_t` (the unit of `instance_`, DynamicData.hpp 653) -/
abbrev Byte := BitVec 8

/-- One byte of memory. (the memory `instance_` points to, DynamicData.hpp 653) -/
inductive Cell where
  /-- a byte with a determinate value -/
  | raw (b : Byte)
  /-- a byte of a destroyed object -/
  | junk
  /-- first byte of a `std::basic_string` holding `units`; `heap` tells whether it owns a buffer on the
  heap (its capacity exceeds the small string capacity). -/
  | str (k : SK) (units : List Nat) (heap : Bool)
  /-- first byte of a `SequenceInstance` or `MapInstance` (`isMap`): `content_`, `size_`, `capacity_` and
  the block `memory_` points to. -/
  | coll (isMap : Bool) (content : Ty) (size cap : Nat) (block : List Cell)
  /-- any further byte of such an object -/
  | tail

/-- A block of memory and the number of owning objects lost so far.
(the memory `instance_` points to, DynamicData.hpp 653) -/
structure Mem where
  cells : List Cell
  leaked : Nat

/-- Why an operation does not complete: undefined behaviour, an `xtypes_assert`, or a situation outside
the model (a collection whose own content type is not the one of the type it is accessed with).
(Assert.hpp 113-168) -/
inductive Err where
  | ub | refused | outside
  deriving DecidableEq, Repr

/-- Result of an operation. (Assert.hpp 113-168) -/
abbrev M := Except Err

/-- Whether the object starting at this cell owns heap memory.
(strings: StringType.hpp 56-60; collections: SequenceInstance.hpp 211-215) -/
def Cell.owning : Cell → Bool
  | .str _ _ h => h
  | .coll _ _ _ cap _ => decide (0 < cap)
  | _ => false

/-- Is it a `tail`? (memory model, not code) -/
def Cell.isTail : Cell → Bool
  | .tail => true
  | _ => false

/-- Number of owning objects in a range of cells. (memory model, not code) -/
def owned (cs : List Cell) : Nat := cs.countP Cell.owning

/-- Overwrite the cells from address `a` on: a placement `new` or an assignment through a pointer. Owning
objects that were there are lost. (e.g. PrimitiveType.hpp 120, StringType.hpp 59, SequenceType.hpp 78) -/
def put (m : Mem) (a : Nat) (cs : List Cell) : M Mem :=
  if a + cs.length ≤ m.cells.length then
    .ok ⟨m.cells.take a ++ cs ++ m.cells.drop (a + cs.length),
      m.leaked + owned ((m.cells.drop a).take cs.length)⟩
  else .error .ub

/-- The same after a destructor ran: nothing is lost. (e.g. StringType.hpp 109-113) -/
def clear (m : Mem) (a n : Nat) : M Mem :=
  if a + n ≤ m.cells.length then
    .ok ⟨m.cells.take a ++ List.replicate n .junk ++ m.cells.drop (a + n), m.leaked⟩
  else .error .ub

/-- Read `n` cells. (memory model, not code) -/
def peek (cs : List Cell) (a n : Nat) : M (List Cell) :=
  if a + n ≤ cs.length then .ok ((cs.drop a).take n) else .error .ub

/-- The bytes of cells that all have determinate values. (memory model, not code) -/
def rawBytes : List Cell → M (List Byte)
  | [] => .ok []
  | .raw b :: r => (rawBytes r).map (b :: ·)
  | _ :: _ => .error .ub

/-- Read `n` bytes. (memory model, not code) -/
def peekRaw (cs : List Cell) (a n : Nat) : M (List Byte) := (peek cs a n).bind rawBytes

/-- Bytes as cells. (memory model, not code) -/
def rawCells (bs : List Byte) : List Cell := bs.map Cell.raw

/-- The cells of an object of `n` bytes. (memory model, not code) -/
def objCells (c : Cell) (n : Nat) : List Cell := c :: List.replicate (n - 1) .tail

/-- `*reinterpret_cast<const std::basic_string<CHAR_T>*>(source)` (StringType.hpp 63-70) -/
def peekStr (k : SK) (cs : List Cell) (a : Nat) : M (List Nat) :=
  (peek cs a strSize).bind fun
    | .str k' us _ :: t => if k' = k ∧ t.all Cell.isTail = true then .ok us else .error .ub
    | _ => .error .ub

/-- The fields of a `SequenceInstance` or `MapInstance`. (SequenceInstance.hpp 211-215, MapInstance.hpp 213-217) -/
structure Coll where
  content : Ty
  size : Nat
  cap : Nat
  block : List Cell

/-- `*reinterpret_cast<const SequenceInstance*>(source)` (or `MapInstance`). Both have the same size.
(SequenceType.hpp 81-86, MapType.hpp 85-90) -/
def peekColl (isMap : Bool) (cs : List Cell) (a : Nat) : M Coll :=
  (peek cs a seqSize).bind fun
    | .coll im c s cap b :: t => if im = isMap ∧ t.all Cell.isTail = true then .ok ⟨c, s, cap, b⟩ else .error .ub
    | _ => .error .ub

/-! ## Scalars -/

/-- Bytes as a little-endian number.
(how `*reinterpret_cast<T*>(instance)` reads memory, PrimitiveType.hpp 128-133) -/
def leNat : List Byte → Nat
  | [] => 0
  | b :: r => b.toNat + 256 * leNat r

/-- `n` little-endian bytes of a number, modulo `256 ^ n`.
(how `*reinterpret_cast<T*>(instance)` writes memory, PrimitiveType.hpp 128-133) -/
def leBytes : Nat → Nat → List Byte
  | 0, _ => []
  | n + 1, x => BitVec.ofNat 8 x :: leBytes n (x / 256)

/-- Kinds with a sign: `char` and `wchar_t` are signed on the modelled platform. (PrimitiveType.hpp 45-59) -/
def signedK : PK → Bool
  | .i8 | .i16 | .i32 | .i64 | .c8 | .wc => true
  | _ => false

/-- The integer the bytes of an integral kind denote. (PrimitiveType.hpp 135-210) -/
def intVal (k : PK) (bs : List Byte) : Int :=
  if signedK k && decide (2 ^ (8 * k.size - 1) ≤ leNat bs) then (leNat bs : Int) - 2 ^ (8 * k.size)
  else leNat bs

/-- Conversion of an integer to an integral kind: modulo `2^width`; to `bool`: "is not zero".
(PrimitiveType.hpp 135-210) -/
def intBytes (k : PK) (z : Int) : List Byte :=
  if k = .bool then leBytes 1 (if z = 0 then 0 else 1)
  else leBytes k.size (z % 2 ^ (8 * k.size)).toNat

/-- Conversions from and to floating point kinds are left unspecified. -/
opaque floatConv (src dst : PK) (bs : List Byte) : List Byte := bs

/-- Exactly `n` bytes. (memory model, not code) -/
def fixLen (n : Nat) (bs : List Byte) : List Byte := (bs ++ List.replicate n 0).take n

/-- `*reinterpret_cast<T*>(target) = *reinterpret_cast<const U*>(source)` (PrimitiveType.hpp 155-210) for
the source kind `k` and the target kind `l`. -/
def convert (k l : PK) (bs : List Byte) : List Byte :=
  if k = l then bs
  else if k.isFloat || l.isFloat then fixLen l.size (floatConv k l bs)
  else intBytes l (intVal k bs)

/-- The primitive kind an enumeration is stored as (EnumerationType.hpp 66-72). -/
def EW.kind : EW → PK
  | .w1 => .u8 | .w2 => .u16 | .w4 => .u32

/-- `==` on floating point values, on their bits: `nan` differs from everything, the two zeros are equal.
`e`, `f`: widths of exponent and fraction. (PrimitiveType.hpp 220-225) -/
def floatBitsEq (e f : Nat) (x y : Nat) : Bool :=
  let nan (v : Nat) := decide (v / 2 ^ f % 2 ^ e = 2 ^ e - 1) && decide (v % 2 ^ f ≠ 0)
  let zero (v : Nat) := decide (v % 2 ^ (e + f) = 0)
  !nan x && !nan y && (decide (x = y) || (zero x && zero y))

/-- `*reinterpret_cast<const T*>(instance) == *reinterpret_cast<const T*>(other_instance)`
(PrimitiveType.hpp 220-225). For `long double` the ten significant bytes are compared, with the integer
bit counted in the fraction (`2^63` alone is the fraction of an infinity). -/
def primEq (k : PK) (x y : List Byte) : Bool :=
  match k with
  | .f32 => floatBitsEq 8 23 (leNat x) (leNat y)
  | .f64 => floatBitsEq 11 52 (leNat x) (leNat y)
  | .f128 =>
    let v (b : List Byte) := leNat b % 2 ^ 63 + leNat b / 2 ^ 64 % 2 ^ 16 * 2 ^ 63
    floatBitsEq 15 63 (v x) (v y)
  | _ => decide (x = y)

/-! ## Union labels -/

/-- `current_label(type, instance)` (UnionType.hpp 748-840). Note that an enumeration is always read as
`uint32_t`. -/
def readLabel (disc : Ty) (cs : List Cell) (a : Nat) : M Int :=
  match disc.rget with
  | .prim .bool => (peekRaw cs a 1).map fun bs => shrinkLabel (intVal .i8 bs) 1
  | .prim .i64 => (peekRaw cs a 8).map fun bs => intVal .i64 bs
  | .prim k => if k.isFloat then .error .refused
    else (peekRaw cs a k.size).map fun bs => shrinkLabel (intVal k bs) k.size
  | .enum _ w _ => (peekRaw cs a 4).map fun bs => shrinkLabel (intVal .u32 bs) w.size
  | _ => .error .refused

/-- The bytes a label is stored as (UnionType.hpp 650-742); an enumeration always as `uint32_t`. -/
def labelBytes (disc : Ty) (l : Int) : M (List Byte) :=
  match disc.rget with
  | .prim .bool => .ok (leBytes 1 (l % 256).toNat)
  | .prim k => if k.isFloat then .error .refused else .ok (leBytes k.size (l % 2 ^ (8 * k.size)).toNat)
  | .enum _ _ _ => .ok (leBytes 4 (l % 2 ^ 32).toNat)
  | _ => .error .refused

/-- `current_label(instance, new_value)` (UnionType.hpp 636-745). -/
def writeLabel (disc : Ty) (m : Mem) (a : Nat) (l : Int) : M Mem :=
  (labelBytes disc l).bind fun bs => put m a (rawCells bs)

/-! ## Loops -/

/-- `for (i = first; i < first + n; i++)` (e.g. ArrayType.hpp 107-115) -/
def loop (f : Nat → Mem → M Mem) : Nat → Nat → Mem → M Mem
  | _, 0, m => .ok m
  | i, n + 1, m => (f i m).bind (loop f (i + 1) n)

/-- `for (i = n - 1; i >= 0; i--)` (e.g. ArrayType.hpp 198-209) -/
def loopDown (f : Nat → Mem → M Mem) : Nat → Mem → M Mem
  | 0, m => .ok m
  | n + 1, m => (f n m).bind (loopDown f n)

/-- Comparison of `n` elements without short circuit (ArrayType.hpp 218-223, SequenceInstance.hpp 127-132,
MapInstance.hpp 116-121). -/
def loopAll (f : Nat → M Bool) : Nat → Nat → M Bool
  | _, 0 => .ok true
  | i, n + 1 => (f i).bind fun b => (loopAll f (i + 1) n).map fun r => b && r

/-! ## Small string capacities, and the strings -/

/-- Capacity of a string without heap memory (libstdc++): 15, 3 and 7 units.
(the standard library used by StringType.hpp 51-60) -/
def SK.sso : SK → Nat
  | .s8 => 15 | .ws => 3 | .s16 => 7

/-- `new (target) std::basic_string(…)` (StringType.hpp 56-70) -/
def putStr (m : Mem) (a : Nat) (k : SK) (us : List Nat) (heap : Bool) : M Mem :=
  put m a (objCells (.str k us heap) strSize)

/-- At most `bounds` units, all of them when unbounded (StringType.hpp 69-70). -/
def clip (bounds : Nat) (us : List Nat) : List Nat := if bounds > 0 then us.take bounds else us

/-! ## Collections -/

/-- `init_memory` (SequenceInstance.hpp 232-252, MapInstance.hpp 234-254) for a null `memory`: zeroed
memory, then `construct_instance` on every one of the `cap` slots. -/
def initBlock (construct : Nat → Mem → M Mem) (bs cap : Nat) : M Mem :=
  loop (fun i m => construct (i * bs) m) 0 cap ⟨List.replicate (cap * bs) (.raw 0), 0⟩

/-- Number of elements `copy_content` transfers (SequenceInstance.hpp 258-272, MapInstance.hpp 263-275). The
reallocation of 274-278 (277-281) cannot happen: this number never exceeds `cap` and the block is there. -/
def copyCount (cap ocap osize bounds : Nat) : Nat :=
  let mc := if min cap ocap = 0 then max cap ocap else min cap ocap
  let ms := if mc = 0 then osize else min mc osize
  if bounds ≠ 0 then min ms bounds else ms

/-- The loop of `copy_content` (SequenceInstance.hpp 280-294, MapInstance.hpp 283-300): element by element, or
`memcpy` when `fast`. `elem sa ta` copies one element from `sa` in the source block. -/
def copyContent (elem : Nat → Nat → Mem → M Mem) (fast : Bool) (bs obs n : Nat) (src : List Cell)
    (blk : Mem) : M Mem :=
  if fast then (peekRaw src 0 (n * bs)).bind fun bytes => put blk 0 (rawCells bytes)
  else loop (fun i m => elem (i * obs) (i * bs) m) 0 n blk

/-- The copy constructors (SequenceInstance.hpp 58-71 with `bounds = 0`, 78-103; MapInstance.hpp 59-72, 78-92):
`c` is the content type of the new object, `bs` its block size, `o` the source object, `obs` its block
size. -/
def cloneColl (isMap : Bool) (c : Ty) (bs obs : Nat) (o : Coll) (bounds : Nat) (fast : Bool)
    (construct : Nat → Mem → M Mem) (elem : Nat → Nat → Mem → M Mem) (ta : Nat) (m : Mem) : M Mem :=
  let cap := if bounds = 0 then o.cap else min o.cap bounds
  let size := if bounds = 0 then o.size else min o.size bounds
  (initBlock construct bs cap).bind fun blk =>
    if cap = 0 then put m ta (objCells (.coll isMap c size cap []) seqSize)
    else
      let n := copyCount cap o.cap o.size size
      (copyContent elem fast bs obs n o.block blk).bind fun blk =>
        (put m ta (objCells (.coll isMap c n cap blk.cells) seqSize)).map fun m =>
          { m with leaked := m.leaked + blk.leaked }

/-- The constructor (SequenceInstance.hpp 37-56, MapInstance.hpp 37-57). -/
def newColl (isMap : Bool) (c : Ty) (bs bounds : Nat) (construct : Nat → Mem → M Mem) (ta : Nat)
    (m : Mem) : M Mem :=
  (initBlock construct bs bounds).bind fun blk =>
    (put m ta (objCells (.coll isMap c 0 bounds blk.cells) seqSize)).map fun m =>
      { m with leaked := m.leaked + blk.leaked }

/-- The destructor (SequenceInstance.hpp 317-332, MapInstance.hpp 456-471): every slot of the block is
destroyed (when the content type is constructed; a pair always is), then the block is freed: what is
left in it is lost. -/
def deleteColl (constructed : Bool) (bs : Nat) (o : Coll) (destroy : Nat → Mem → M Mem) (a : Nat)
    (m : Mem) : M Mem :=
  (if constructed then loopDown (fun i m => destroy (i * bs) m) o.cap ⟨o.block, 0⟩ else .ok ⟨o.block, 0⟩).bind
    fun blk => (clear m a seqSize).map fun m =>
      { m with leaked := m.leaked + blk.leaked + owned blk.cells }

/-! ## `construct_instance` -/

mutual
/-- `construct_instance(instance)`: PrimitiveType.hpp 117-121, StringType.hpp 56-61, SequenceType.hpp 75-79,
ArrayType.hpp 107-115, MapType.hpp 79-83, PairType.hpp 90-95, AliasType.hpp 63-67, StructType.hpp 94-101,
UnionType.hpp 253-270. -/
def construct : Ty → Nat → Mem → M Mem
  | .prim k, a, m => put m a (rawCells (List.replicate k.size 0))
  | .enum _ w _, a, m => put m a (rawCells (List.replicate w.size 0))
  | .str k b, a, m => putStr m a k [] (decide (b > SK.sso k))
  | .seq c b, a, m => newColl false c c.memSize b (construct c) a m
  | .arr _ c d, a, m => loop (fun i m => construct c (a + i * c.memSize) m) 0 d m
  | .map k v b, a, m => newColl true (.pair k v) (k.memSize + v.memSize) b
      (fun a m => (construct k a m).bind (construct v (a + k.memSize))) a m
  | .pair x y, a, m => (construct x a m).bind (construct y (a + x.memSize))
  | .alias _ t, a, m => construct t a m
  | .struct _ ms, a, m => constructAll ms a m
  | .union _ d ms i, a, m =>
    (construct d a m).bind fun m =>
      if i.default ≠ i.invalidValue then
        match omGet i.labels i.default with
        | some n => (constructCase ms n (a + d.memSize) m).bind fun m => writeLabel d m a i.default
        | none => .error .refused
      else writeLabel d m a i.invalidValue
/-- The members of a structure, from the first. (StructType.hpp 97-100) -/
def constructAll : Mems → Nat → Mem → M Mem
  | .nil, _, m => .ok m
  | .cons _ t r, a, m => (construct t a m).bind (constructAll r (a + t.memSize))
/-- The member with the given name. (UnionType.hpp 259-269) -/
def constructCase : Mems → String → Nat → Mem → M Mem
  | .nil, _, _, _ => .error .refused
  | .cons x t r, n, a, m => if x = n then construct t a m else constructCase r n a m
end

/-! ## `copy_instance_from_type` -/

mutual
/-- What a source type is looked through to when the target is not an aggregation: aliases, then structures
of one member, as long as there are any (PrimitiveType.hpp 140-153 and the same lines of the other
types). The first member has offset 0. -/
def unwrap : Ty → Ty
  | .alias _ t => unwrap t
  | .struct n ms => unwrapMems n ms
  | t => t
/-- See `unwrap`. (the same lines) -/
def unwrapMems : String → Mems → Ty
  | _, .cons _ t .nil => unwrap t
  | n, ms => .struct n ms
end

/-- Copy of a scalar from a source of another type (PrimitiveType.hpp 135-210): an enumeration is read as
`uint32_t` whatever its width. -/
def copyScalar (k : PK) (o : Ty) (sm : List Cell) (sa ta : Nat) (m : Mem) : M Mem :=
  match unwrap o with
  | .prim l => (peekRaw sm sa l.size).bind fun bs => put m ta (rawCells (convert l k bs))
  | .enum _ _ _ => (peekRaw sm sa 4).bind fun bs => put m ta (rawCells (convert .u32 k bs))
  | _ => .error .refused

/-- `PairType::copy_instance_from_type` after its checks (PairType.hpp 125-129), given the copies of the two
parts: note that the source of the second part is found with the size of the *target's* first part. -/
def copyPair (first second : Nat → Nat → Mem → M Mem) (s1 : Nat) (sa ta : Nat) (m : Mem) : M Mem :=
  (first sa ta m).bind (second (sa + s1) (ta + s1))

mutual
/-- `copy_instance_from_type(target, source, other)`: PrimitiveType.hpp 135-210, StringType.hpp 72-99,
SequenceType.hpp 88-113, ArrayType.hpp 135-177, MapType.hpp 92-119, PairType.hpp 105-130, AliasType.hpp 76-82,
StructType.hpp 113-152, UnionType.hpp 283-315. -/
def copyFrom : Ty → Ty → List Cell → Nat → Nat → Mem → M Mem
  | .prim k, o, sm, sa, ta, m => copyScalar k o sm sa ta m
  | .enum _ w _, o, sm, sa, ta, m => copyScalar (EW.kind w) o sm sa ta m
  | .str k b, o, sm, sa, ta, m =>
    match unwrap o with
    | .str k' _ => if k' = k then
        (peekStr k sm sa).bind fun us => putStr m ta k (clip b us) (decide ((clip b us).length > SK.sso k))
      else .error .refused
    | _ => .error .refused
  | .seq c b, o, sm, sa, ta, m =>
    match unwrap o with
    | .seq _ _ => (peekColl false sm sa).bind fun o =>
        cloneColl false c c.memSize o.content.memSize o b
          (!c.isConstructed && decide (c.memSize = o.content.memSize)) (construct c)
          (copyFrom c o.content o.block) ta m
    | _ => .error .refused
  | .arr _ c d, o, sm, sa, ta, m =>
    match unwrap o with
    | .arr _ oc od =>
      if c.isConstructed || decide (c.memSize ≠ oc.memSize) then
        loop (fun i m => copyFrom c oc sm (sa + i * oc.memSize) (ta + i * c.memSize) m) 0 (min d od) m
      else (peekRaw sm sa (min d od * c.memSize)).bind fun bs => put m ta (rawCells bs)
    | _ => .error .refused
  | .map k v b, o, sm, sa, ta, m =>
    match unwrap o with
    | .map ok ov _ =>
      if (Ty.pair k v).name = (Ty.pair ok ov).name then
        (peekColl true sm sa).bind fun o =>
          if o.content = .pair k v then
            cloneColl true (.pair k v) (k.memSize + v.memSize) (k.memSize + v.memSize) o b
              (!k.isConstructed && !v.isConstructed)
              (fun a m => (construct k a m).bind (construct v (a + k.memSize)))
              (copyPair (copyFrom k k o.block) (copyFrom v v o.block) k.memSize) ta m
          else .error .outside
      else .error .refused
    | _ => .error .refused
  | .pair x y, o, sm, sa, ta, m =>
    match unwrap o with
    | .pair ox oy => copyPair (copyFrom x ox sm) (copyFrom y oy sm) x.memSize sa ta m
    | _ => .error .refused
  | .alias _ t, o, sm, sa, ta, m => copyFrom t o sm sa ta m
  | .struct _ ms, o, sm, sa, ta, m =>
    match o.rget with
    | .struct _ os => copyFromAll ms os sm sa ta m
    | o' => copyFromOnly ms o' sm sa ta m
  | .union _ d ms i, o, sm, sa, ta, m =>
    match o with
    | .alias _ t => match t.rget with
      | .union _ _ _ _ => .error .ub -- 300: the alias itself is cast to `UnionType`
      | _ => .error .refused
    | .union _ od _ _ =>
      (copyFrom d od sm sa ta m).bind fun m =>
        (readLabel d m.cells ta).bind fun l =>
          match omGet i.labels l with
          | some n => copyFromCase ms n sm (sa + d.memSize) (ta + d.memSize) m
          | none => .ok m
    | _ => .error .refused
/-- The member loop of a structure (StructType.hpp 134-151). When the source has run out of members the next
target member is constructed; the iterator is then moved past the end and dereferenced for any further
member. -/
def copyFromAll : Mems → Mems → List Cell → Nat → Nat → Mem → M Mem
  | .nil, _, _, _, _, m => .ok m
  | .cons _ t r, .cons _ u s, sm, sa, ta, m =>
    (copyFrom t u sm sa ta m).bind (copyFromAll r s sm (sa + u.memSize) (ta + t.memSize))
  | .cons _ t .nil, .nil, _, _, ta, m => construct t ta m
  | .cons _ t (.cons _ _ _), .nil, _, _, ta, m => (construct t ta m).bind fun _ => .error .ub
/-- A structure from something that is not one: only for a single member (StructType.hpp 122-132). -/
def copyFromOnly : Mems → Ty → List Cell → Nat → Nat → Mem → M Mem
  | .cons _ t .nil, o, sm, sa, ta, m => copyFrom t o sm sa ta m
  | _, _, _, _, _, _ => .error .refused
/-- The case member of a union (UnionType.hpp 309-313): the source is taken to be of the target's own type. -/
def copyFromCase : Mems → String → List Cell → Nat → Nat → Mem → M Mem
  | .nil, _, _, _, _, _ => .error .refused
  | .cons x t r, n, sm, sa, ta, m => if x = n then copyFrom t t sm sa ta m else copyFromCase r n sm sa ta m
end

/-! ## `copy_instance` -/

mutual
/-- `copy_instance(target, source)`: PrimitiveType.hpp 128-133, StringType.hpp 63-70, SequenceType.hpp 81-86,
ArrayType.hpp 117-133, MapType.hpp 85-90, PairType.hpp 97-103, AliasType.hpp 69-74, StructType.hpp 103-111,
UnionType.hpp 272-281. -/
def copy : Ty → List Cell → Nat → Nat → Mem → M Mem
  | .prim k, sm, sa, ta, m => (peekRaw sm sa k.size).bind fun bs => put m ta (rawCells bs)
  | .enum _ w _, sm, sa, ta, m => (peekRaw sm sa w.size).bind fun bs => put m ta (rawCells bs)
  | .str k b, sm, sa, ta, m =>
    (peekStr k sm sa).bind fun us => putStr m ta k (clip b us) (decide ((clip b us).length > SK.sso k))
  | .seq c _, sm, sa, ta, m =>
    (peekColl false sm sa).bind fun o =>
      if o.content = c then
        cloneColl false c c.memSize c.memSize o 0 (!c.isConstructed) (construct c) (copyFrom c c o.block) ta m
      else .error .outside
  | .arr _ c d, sm, sa, ta, m =>
    if c.isConstructed then
      loop (fun i m => copy c sm (sa + i * c.memSize) (ta + i * c.memSize) m) 0 d m
    else (peekRaw sm sa (d * c.memSize)).bind fun bs => put m ta (rawCells bs)
  | .map k v _, sm, sa, ta, m =>
    (peekColl true sm sa).bind fun o =>
      if o.content = .pair k v then
        cloneColl true (.pair k v) (k.memSize + v.memSize) (k.memSize + v.memSize) o 0
          (!k.isConstructed && !v.isConstructed)
          (fun a m => (construct k a m).bind (construct v (a + k.memSize)))
          (copyPair (copyFrom k k o.block) (copyFrom v v o.block) k.memSize) ta m
      else .error .outside
  | .pair x y, sm, sa, ta, m => copyPair (copy x sm) (copy y sm) x.memSize sa ta m
  | .alias _ t, sm, sa, ta, m => copy t sm sa ta m
  | .struct _ ms, sm, sa, ta, m => copyAll ms sm sa ta m
  | .union _ d ms i, sm, sa, ta, m =>
    (copy d sm sa ta m).bind fun m =>
      (readLabel d sm sa).bind fun l =>
        match omGet i.labels l with
        | some n => copyCase ms n sm (sa + d.memSize) (ta + d.memSize) m
        | none => .error .refused
/-- The members of a structure. (StructType.hpp 107-110) -/
def copyAll : Mems → List Cell → Nat → Nat → Mem → M Mem
  | .nil, _, _, _, m => .ok m
  | .cons _ t r, sm, sa, ta, m =>
    (copy t sm sa ta m).bind (copyAll r sm (sa + t.memSize) (ta + t.memSize))
/-- The member with the given name. (UnionType.hpp 272-281) -/
def copyCase : Mems → String → List Cell → Nat → Nat → Mem → M Mem
  | .nil, _, _, _, _, _ => .error .refused
  | .cons x t r, n, sm, sa, ta, m => if x = n then copy t sm sa ta m else copyCase r n sm sa ta m
end

/-! ## `destroy_instance` -/

mutual
/-- `destroy_instance(instance)`: PrimitiveType.hpp 123-126, StringType.hpp 109-113, SequenceType.hpp 127-131,
ArrayType.hpp 198-209, MapType.hpp 133-137, PairType.hpp 141-146, AliasType.hpp 92-96, StructType.hpp 165-172,
UnionType.hpp 332-342. -/
def destroy : Ty → Nat → Mem → M Mem
  | .prim _, _, m => .ok m
  | .enum _ _ _, _, m => .ok m
  | .str k _, a, m => (peekStr k m.cells a).bind fun _ => clear m a strSize
  | .seq c _, a, m => (peekColl false m.cells a).bind fun o =>
      if o.content = c then deleteColl c.isConstructed c.memSize o (destroy c) a m else .error .outside
  | .arr _ c d, a, m =>
    if c.isConstructed then loopDown (fun i m => destroy c (a + i * c.memSize) m) d m else .ok m
  | .map k v _, a, m => (peekColl true m.cells a).bind fun o =>
      if o.content = .pair k v then deleteColl true (k.memSize + v.memSize) o
        (fun a m => (destroy k a m).bind (destroy v (a + k.memSize))) a m else .error .outside
  | .pair x y, a, m => (destroy x a m).bind (destroy y (a + x.memSize))
  | .alias _ t, a, m => destroy t a m
  | .struct _ ms, a, m => destroyAll ms a m
  | .union _ d ms i, a, m =>
    (destroy d a m).bind fun m => (readLabel d m.cells a).bind fun l =>
      match omGet i.labels l with
      | some n => destroyCase ms n (a + d.memSize) m
      | none => .ok m
/-- The members of a structure, from the last. (StructType.hpp 168-171) -/
def destroyAll : Mems → Nat → Mem → M Mem
  | .nil, _, m => .ok m
  | .cons _ t r, a, m => (destroyAll r (a + t.memSize) m).bind (destroy t a)
/-- The member with the given name. (UnionType.hpp 332-342) -/
def destroyCase : Mems → String → Nat → Mem → M Mem
  | .nil, _, _, _ => .error .refused
  | .cons x t r, n, a, m => if x = n then destroy t a m else destroyCase r n a m
end

/-! ## `move_instance` -/

mutual
/-- `move_instance(target, source, initialized)`: PrimitiveType.hpp 212-218, StringType.hpp 101-107 (the bound is
not applied), SequenceType.hpp 115-125, ArrayType.hpp 179-196, MapType.hpp 121-131, PairType.hpp 132-139,
AliasType.hpp 84-90, StructType.hpp 154-163, UnionType.hpp 317-330. Strings and collections are in fact copied,
see the head of this file; the source stays as it is. -/
def move (init : Bool) : Ty → List Cell → Nat → Nat → Mem → M Mem
  | .prim k, sm, sa, ta, m => (peekRaw sm sa k.size).bind fun bs => put m ta (rawCells bs)
  | .enum _ w _, sm, sa, ta, m => (peekRaw sm sa w.size).bind fun bs => put m ta (rawCells bs)
  | .str k _, sm, sa, ta, m =>
    (peekStr k sm sa).bind fun us => putStr m ta k us (decide (us.length > SK.sso k))
  | .seq c b, sm, sa, ta, m =>
    (if init then destroy (.seq c b) ta m else .ok m).bind fun m => copy (.seq c b) sm sa ta m
  | .arr _ c d, sm, sa, ta, m =>
    if c.isConstructed then
      loop (fun i m => move init c sm (sa + i * c.memSize) (ta + i * c.memSize) m) 0 d m
    else (peekRaw sm sa (d * c.memSize)).bind fun bs => put m ta (rawCells bs)
  | .map k v b, sm, sa, ta, m =>
    (if init then destroy (.map k v b) ta m else .ok m).bind fun m => copy (.map k v b) sm sa ta m
  | .pair x y, sm, sa, ta, m => copyPair (move init x sm) (move init y sm) x.memSize sa ta m
  | .alias _ t, sm, sa, ta, m => move init t sm sa ta m
  | .struct _ ms, sm, sa, ta, m => moveAll init ms sm sa ta m
  | .union _ d ms i, sm, sa, ta, m =>
    (move init d sm sa ta m).bind fun m =>
      (readLabel d m.cells ta).bind fun l =>
        match omGet i.labels l with
        | some n => moveCase init ms n sm (sa + d.memSize) (ta + d.memSize) m
        | none => .ok m
/-- The members of a structure. (StructType.hpp 159-162) -/
def moveAll (init : Bool) : Mems → List Cell → Nat → Nat → Mem → M Mem
  | .nil, _, _, _, m => .ok m
  | .cons _ t r, sm, sa, ta, m =>
    (move init t sm sa ta m).bind (moveAll init r sm (sa + t.memSize) (ta + t.memSize))
/-- The member with the given name. (UnionType.hpp 317-330) -/
def moveCase (init : Bool) : Mems → String → List Cell → Nat → Nat → Mem → M Mem
  | .nil, _, _, _, _, _ => .error .refused
  | .cons x t r, n, sm, sa, ta, m => if x = n then move init t sm sa ta m else moveCase init r n sm sa ta m
end

/-! ## `compare_instance` -/

/-- `operator ==` of the collections (SequenceInstance.hpp 117-138, MapInstance.hpp 106-127). -/
def eqColl (slow : Bool) (bs : Nat) (o p : Coll) (elem : Nat → M Bool) : M Bool :=
  if p.size ≠ o.size then .ok false
  else if slow then loopAll elem 0 o.size
  else (peekRaw o.block 0 (o.size * bs)).bind fun x =>
    (peekRaw p.block 0 (o.size * bs)).map fun y => decide (x = y)

mutual
/-- `compare_instance(instance, other_instance)`: PrimitiveType.hpp 220-225, StringType.hpp 115-121,
SequenceType.hpp 146-152, ArrayType.hpp 211-229, MapType.hpp 159-165, PairType.hpp 148-155, AliasType.hpp 98-103,
StructType.hpp 174-186, UnionType.hpp 344-364. -/
def compare : Ty → List Cell → Nat → List Cell → Nat → M Bool
  | .prim k, x, a, y, b => (peekRaw x a k.size).bind fun u => (peekRaw y b k.size).map fun v => primEq k u v
  | .enum _ w _, x, a, y, b => (peekRaw x a w.size).bind fun u => (peekRaw y b w.size).map fun v => decide (u = v)
  | .str k _, x, a, y, b => (peekStr k x a).bind fun u => (peekStr k y b).map fun v => decide (u = v)
  | .seq c _, x, a, y, b =>
    (peekColl false x a).bind fun o => (peekColl false y b).bind fun p =>
      if o.content = c then
        eqColl c.isConstructed c.memSize o p
          (fun i => compare c o.block (i * c.memSize) p.block (i * c.memSize))
      else .error .outside
  | .arr _ c d, x, a, y, b =>
    if c.isConstructed then
      loopAll (fun i => compare c x (a + i * c.memSize) y (b + i * c.memSize)) 0 d
    else (peekRaw x a (d * c.memSize)).bind fun u => (peekRaw y b (d * c.memSize)).map fun v => decide (u = v)
  | .map k v _, x, a, y, b =>
    (peekColl true x a).bind fun o => (peekColl true y b).bind fun p =>
      if o.content = .pair k v then
        eqColl (k.isConstructed || v.isConstructed) (k.memSize + v.memSize) o p
          (fun i => (compare k o.block (i * (k.memSize + v.memSize)) p.block (i * (k.memSize + v.memSize))).bind
            fun e => if e then compare v o.block (i * (k.memSize + v.memSize) + k.memSize) p.block
              (i * (k.memSize + v.memSize) + k.memSize) else .ok false)
      else .error .outside
  | .pair s t, x, a, y, b =>
    (compare s x a y b).bind fun e => if e then compare t x (a + s.memSize) y (b + s.memSize) else .ok false
  | .alias _ t, x, a, y, b => compare t x a y b
  | .struct _ ms, x, a, y, b => compareAll ms x a y b
  | .union _ d ms i, x, a, y, b =>
    (compare d x a y b).bind fun e =>
      if e then (readLabel d x a).bind fun l =>
        match omGet i.labels l with
        | some n => compareCase ms n x (a + d.memSize) y (b + d.memSize)
        | none => .ok true
      else .ok false
/-- The members of a structure, up to the first difference. (StructType.hpp 178-185) -/
def compareAll : Mems → List Cell → Nat → List Cell → Nat → M Bool
  | .nil, _, _, _, _ => .ok true
  | .cons _ t r, x, a, y, b =>
    (compare t x a y b).bind fun e => if e then compareAll r x (a + t.memSize) y (b + t.memSize) else .ok false
/-- The member with the given name. (UnionType.hpp 344-364) -/
def compareCase : Mems → String → List Cell → Nat → List Cell → Nat → M Bool
  | .nil, _, _, _, _, _ => .error .refused
  | .cons z t r, n, x, a, y, b => if z = n then compare t x a y b else compareCase r n x a y b
end

end Verif.Inst
