import Verif.Model.Data
/-!
# Who owns a block

Data and references with the blocks they point to: which constructors allocate, what the destructor deletes.

Simplifications: the contents of a block are as in `Verif.Model.Data`; only references into the block of a datum are
covered (not those to elements of sequences, maps and strings, whose memory belongs to the container); the shared
ownership of types is not modelled.
-/

namespace Verif.Inst

/-- The blocks allocated with `new uint8_t[]` that were not deleted. (DynamicData.hpp 1325, 1353, 1366, 1376) -/
abbrev Heap := Nat → Option (List Cell)

/-- `type_`, `instance_` as block and offset, `initialize_`. (DynamicData.hpp 652-654) -/
structure Handle where
  ty : Ty
  blk : Nat
  off : Nat
  init : Bool

/-- Change one block. (the effect of `new` and `delete[]`, DynamicData.hpp 1325, 1596) -/
def Heap.put (h : Heap) (b : Nat) (cs : Option (List Cell)) : Heap := fun x => if x = b then cs else h x

/-- `DynamicData(type)`, `DynamicData(data)`, `DynamicData(ref, type)`: the cells computed in `Verif.Model.Data` in a new
block, at an address where nothing is. (DynamicData.hpp 1323-1330, 1350-1371) -/
def Heap.alloc (h : Heap) (b : Nat) (d : Data) : Heap × Handle := (h.put b (some d.cells), ⟨d.ty, b, 0, d.init⟩)

/-- `operator []` on a structure by name (DynamicData.hpp 151-171, 667-693): a reference into the same block. Nothing else is
needed here. -/
def Handle.member (r : Handle) (n : String) : M Handle :=
  match r.ty with
  | .struct _ ms =>
    match Mems.locate ms n with
    | some (off, t) => .ok ⟨t.rget, r.blk, r.off + off, true⟩
    | none => .error .refused
  | _ => .error .outside

/-- `ref()`, `cref()`, and the copy of a reference (DynamicData.hpp 69, 863-866, 1600-1603). -/
def Handle.ref (r : Handle) : Handle := r

/-- `DynamicData(const ReadableDynamicDataRef&)` (DynamicData.hpp 1333-1337): all three fields are copied. -/
def Handle.dataOfRef (r : Handle) : Handle := r

/-- `DynamicData(WritableDynamicDataRef&&)` (DynamicData.hpp 1340-1344, 71-77): the new datum and the reference it was
made from, which also loses its type. -/
def Handle.dataOfMoved (r : Handle) : Handle × Handle := (r, { r with init := false })

/-- `~DynamicData()` (DynamicData.hpp 1590-1597): `delete[]` is defined for the start of a block that was not deleted yet. -/
def Heap.dispose (h : Heap) (d : Handle) : M Heap :=
  match h d.blk with
  | none => .error .ub
  | some cs =>
    (if d.init then destroy d.ty d.off ⟨cs, 0⟩ else .ok ⟨cs, 0⟩).bind fun _ =>
      if d.off = 0 then .ok (h.put d.blk none) else .error .ub

end Verif.Inst
