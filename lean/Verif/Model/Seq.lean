/-!
# Sequences: `SequenceInstance` and `SequenceType`

The buffer bookkeeping of a sequence, over an abstract element type `α`. `block` is the size of one
element in bytes and `d` the value `construct_instance` leaves in a slot. `none` as the result of an
operation means undefined behaviour (an access outside the buffer, or to a freed one); the `Bool`
returned beside the state is `false` when the operation is refused.

What is kept exactly: the 32-bit arithmetic of `capacity_`, `size_` and of byte counts, the
reallocation policy, the order of moves and the bounds handling. Simplification: a slot holds a value
of `α` and copying a value is exact (justified for the real element types by `Verif.Lemmas.InstMore`); elements
that are overwritten without being destroyed (SequenceInstance.hpp 159, 183, 284) are not tracked
here.
-/

namespace Verif

variable {α : Type}

/-- `SequenceInstance` (SequenceInstance.hpp 211-215). `buf` is `memory_`: `none` is `nullptr`,
otherwise the slots, all constructed by `init_memory`. `moved` is instrumentation: the number of
elements moved by reallocations so far. -/
structure SeqInst (α : Type) where
  cap : Nat
  buf : Option (List α)
  size : Nat
  moved : Nat := 0
  deriving Repr, DecidableEq

namespace SeqInst

/-- Reduction to `uint32_t`. (the type of the fields in SequenceInstance.hpp 211-215) -/
abbrev u32 (n : Nat) : Nat := n % 2 ^ 32

/-- `init_memory` (SequenceInstance.hpp 232-252) on a null pointer with argument `n`: `n *
block_size_` bytes (32-bit product) are allocated, then slot `idx` is constructed at byte `idx *
block_size_` (32-bit product) for every `idx < n`; undefined if one does not fit. -/
def initMem (block : Nat) (d : α) (n : Nat) : Option (Option (List α)) :=
  if u32 n = 0 then some none
  else if ∀ idx, idx < u32 n → u32 (idx * block) + block ≤ u32 (u32 n * block) then
    some (some (List.replicate (u32 n) d))
  else none

/-- `realloc` (SequenceInstance.hpp 217-230) with `move_content` (297-315). -/
def realloc (block : Nat) (d : α) (s : SeqInst α) (desired bounds : Nat) : Option (SeqInst α) :=
  let newCap := if bounds = 0 then desired else min desired bounds
  match initMem block d newCap with
  | none => none
  | some nb =>
    match s.buf with
    | none => some { s with buf := nb, cap := u32 newCap }
    | some old =>
      match nb with
      | none => if s.size = 0 then some { s with buf := none, cap := u32 newCap } else none
      | some new =>
        if s.size ≤ new.length ∧ s.size ≤ old.length then
          some { s with buf := some (old.take s.size ++ new.drop s.size), cap := u32 newCap,
                        moved := s.moved + s.size }
        else none

/-- Where the value to push lives: outside the sequence, or in one of its own slots
(`data.push(data[i])`), in which case the pointer is into the current buffer. (SequenceInstance.hpp 149-164) -/
inductive Src (α : Type)
  | ext (v : α)
  | own (i : Nat)

/-- `push` (SequenceInstance.hpp 149-164). A pointer into the own buffer dangles after a
reallocation. -/
def push (block : Nat) (d : α) (s : SeqInst α) (src : Src α) (bounds : Nat) : Option (SeqInst α) :=
  let grow := s.buf = none ∨ s.size = s.cap
  let s' := if grow then realloc block d s (if s.cap > 0 then u32 (s.cap * 2) else 1) bounds else some s
  match s' with
  | none => none
  | some s' =>
    match s'.buf with
    | none => none
    | some l =>
      if s'.size < l.length then
        match src with
        | .ext v => some { s' with buf := some (l.set s'.size v), size := u32 (s'.size + 1) }
        | .own i =>
          if grow then none
          else match l[i]? with
            | none => none
            | some v => some { s' with buf := some (l.set s'.size v), size := u32 (s'.size + 1) }
      else none

/-- `resize` (SequenceInstance.hpp 169-187). -/
def resize (block : Nat) (d : α) (s : SeqInst α) (n bounds : Nat) : Option (SeqInst α) :=
  if s.size ≥ n then some s
  else match realloc block d s n bounds with
    | none => none
    | some s' =>
      match s'.buf with
      | none => none
      | some l =>
        if n ≤ l.length then
          some { s' with buf := some (l.take s'.size ++ List.replicate (n - s'.size) d ++ l.drop n),
                         size := u32 n }
        else none

/-- `copy_content` (SequenceInstance.hpp 254-295), the content being converted with `f`. -/
def copyContent (block : Nat) (d : α) (f : α → α) (s other : SeqInst α) (bounds : Nat) :
    Option (SeqInst α) :=
  let minCap0 := min s.cap other.cap
  let minCap := if minCap0 = 0 then max s.cap other.cap else minCap0
  let minSize0 := if minCap = 0 then other.size else min minCap other.size
  let minSize := if bounds ≠ 0 then min minSize0 bounds else minSize0
  match (if s.buf = none ∨ minSize > s.cap then realloc block d s minSize bounds else some s) with
  | none => none
  | some s' =>
    match s'.buf, other.buf with
    | some l, some o =>
      if minSize ≤ l.length ∧ minSize ≤ o.length then
        some { s' with buf := some ((o.take minSize).map f ++ l.drop minSize), size := minSize }
      else none
    | _, _ => if minSize = 0 then some { s' with size := 0 } else none

/-- `SequenceInstance(content, capacity)` (SequenceInstance.hpp 37-56). -/
def construct (block : Nat) (d : α) (capacity : Nat) : Option (SeqInst α) :=
  match initMem block d capacity with
  | none => none
  | some b => some { cap := capacity, buf := b, size := 0 }

/-- `SequenceInstance(other)` (SequenceInstance.hpp 58-71). -/
def copy (block : Nat) (d : α) (other : SeqInst α) : Option (SeqInst α) :=
  match initMem block d other.cap with
  | none => none
  | some b =>
    let s : SeqInst α := { cap := other.cap, buf := b, size := other.size }
    if b = none then some s else copyContent block d id s other s.size

/-- `SequenceInstance(other, content, bounds)` (SequenceInstance.hpp 78-103). -/
def copyFrom (block : Nat) (d : α) (f : α → α) (other : SeqInst α) (bounds : Nat) :
    Option (SeqInst α) :=
  let cap := if bounds = 0 then other.cap else min other.cap bounds
  let size := if bounds = 0 then other.size else min other.size bounds
  match initMem block d cap with
  | none => none
  | some b =>
    let s : SeqInst α := { cap := cap, buf := b, size := size }
    if b = none then some s else copyContent block d f s other s.size

/-- `operator[]` (SequenceInstance.hpp 192-198): `none` is the failed assertion, `some none` an
access outside the buffer. -/
def get (s : SeqInst α) (i : Nat) : Option (Option α) :=
  if i < s.size then some (s.buf.bind (·[i]?)) else none

end SeqInst

/-- A sequence datum: the bounds of its `SequenceType` and the instance.
(SequenceType.hpp 32, SequenceInstance.hpp 211-215) -/
structure SeqData (α : Type) where
  bounds : Nat
  inst : SeqInst α
  deriving Repr, DecidableEq

/-- The operations on sequence data. (the client side of DynamicData.hpp 1000-1087) -/
inductive SeqOp (α : Type)
  /-- `push(value)` (DynamicData.hpp 1032-1066) -/
  | push (v : α)
  /-- `push(self[i])` -/
  | pushOwn (i : Nat)
  /-- `resize(n)` (DynamicData.hpp 1074-1087) -/
  | resize (n : Nat)
  /-- write through `operator[](i)` -/
  | set (i : Nat) (v : α)
  /-- continue with a copy of the datum (SequenceType.hpp 81-86) -/
  | copy
  /-- continue with the datum converted to another sequence type (SequenceType.hpp 88-113) -/
  | convert (f : α → α) (bounds : Nat)

namespace SeqData

/-- `DynamicData(SequenceType)`: `construct_instance` (SequenceType.hpp 75-79) reserves as many
slots as the bound. The bound is a `uint32_t`. -/
def new (block : Nat) (d : α) (bounds : Nat) : Option (SeqData α) :=
  match SeqInst.construct block d (SeqInst.u32 bounds) with
  | none => none
  | some i => some ⟨SeqInst.u32 bounds, i⟩

/-- `push_instance` (SequenceType.hpp 212-221) as called by `push` (DynamicData.hpp 1046-1047,
1063-1064): refused at the bound. -/
def push (block : Nat) (d : α) (s : SeqData α) (src : SeqInst.Src α) : Option (SeqData α × Bool) :=
  if s.inst.size < s.bounds ∨ s.bounds = 0 then
    match s.inst.push block d src s.bounds with
    | none => none
    | some i => some (⟨s.bounds, i⟩, true)
  else some (s, false)

/-- One operation. (dispatches to DynamicData.hpp 1000-1087) -/
def step (block : Nat) (d : α) (s : SeqData α) : SeqOp α → Option (SeqData α × Bool)
  | .push v => push block d s (.ext v)
  | .pushOwn i => if i < s.inst.size then push block d s (.own i) else some (s, false)
  | .resize n =>
    if s.bounds = 0 ∨ s.bounds ≥ n then
      match s.inst.resize block d n s.bounds with
      | none => none
      | some i => some (⟨s.bounds, i⟩, true)
    else some (s, false)
  | .set i v =>
    if i < s.inst.size then
      match s.inst.buf with
      | none => none
      | some l => if i < l.length then
          some (⟨s.bounds, { s.inst with buf := some (l.set i v) }⟩, true) else none
    else some (s, false)
  | .copy =>
    match s.inst.copy block d with
    | none => none
    | some i => some (⟨s.bounds, i⟩, true)
  | .convert f b =>
    match s.inst.copyFrom block d f (SeqInst.u32 b) with
    | none => none
    | some i => some (⟨SeqInst.u32 b, i⟩, true)

/-- Run a history; returns the final datum and which operations were accepted.
(a client of DynamicData.hpp 1000-1087) -/
def run (block : Nat) (d : α) (s : SeqData α) : List (SeqOp α) → Option (SeqData α × List Bool)
  | [] => some (s, [])
  | op :: ops =>
    match step block d s op with
    | none => none
    | some (s', b) =>
      match run block d s' ops with
      | none => none
      | some (s'', bs) => some (s'', b :: bs)

end SeqData

end Verif
