/-!
# Types as objects: who holds which type

A type is an object. A variable of the client is one (`StructType s("S")`); others are held by shared pointers: in a
`DynamicType::Ptr`, which the members of aggregations, contents of collections, aliases and modules are made of, and in data,
references to data, iterators and the instances of sequences and maps, which hold a `std::shared_ptr<const DynamicType>`.

What of a type is not another type (its name, bounds, dimension, the names, offsets and annotations of its members, its labels,
enumerators and size) is a name and a list of names with numbers. References (`const DynamicType&`) are numbers of objects.
-/

namespace Verif.Types


/-- The kinds that matter for the sharing of types. (TypeKind.hpp 25-75) -/
inductive Kind where
  | primitive | enumeration | alias | other
  deriving DecidableEq, Repr

/-- A type object (DynamicType.hpp 226-227 and the members of the derived classes). `next` is `next_value_` of an
`EnumerationType` (EnumerationType.hpp 74), which an `EnumeratedType` does not have; `kids` are its `DynamicType::Ptr`s (Member.hpp 128,
AggregationType.hpp 76, AliasType.hpp 187, CollectionType.hpp 62); `managed`: whether a shared pointer holds it, so that
`shared_from_this()` succeeds. -/
structure Obj where
  kind : Kind
  name : String
  own : List (String × Nat)
  next : Option Nat
  kids : List Nat
  managed : Bool
  deriving DecidableEq, Repr

/-- The objects; `none` for one that was destroyed. (no code: the memory) -/
abbrev Heap := List (Option Obj)

/-- (no code: reading an object) -/
def Heap.get (h : Heap) (i : Nat) : Option Obj := (h[i]?).join

/-- (no code: `std::make_shared` or a definition of a variable) -/
def Heap.alloc (h : Heap) (o : Obj) : Heap × Nat := (h ++ [some o], h.length)

/-- The pointers of an object are copied one after the other, in the implicit copy constructors. (AliasType.hpp 182, StructType.hpp
46-48, AggregationType.hpp 76, 136) -/
def copyAll (g : Heap → Nat → Option (Heap × Nat)) : Heap → List Nat → Option (Heap × List Nat)
  | h, [] => some (h, [])
  | h, k :: ks =>
    (g h k).bind fun (h, k) => (copyAll g h ks).map fun (h, ks) => (h, k :: ks)

/-- `Ptr(const DynamicType&)` (DynamicType.hpp 242-257) with `dont_clone_type` (332-338): a primitive type that a shared pointer
holds is shared; `g` is `clone()`. -/
def ptrWith (g : Heap → Nat → Option (Heap × Nat)) (h : Heap) (i : Nat) : Option (Heap × Nat) :=
  (h.get i).bind fun o => if o.kind = .primitive ∧ o.managed then some (h, i) else g h i

/-- `clone()` (AliasType.hpp 180-183, ArrayType.hpp 322-325, EnumeratedType.hpp 133-138, MapType.hpp 253-256, PairType.hpp 229-232,
PrimitiveType.hpp 278-282, SequenceType.hpp 259-262, StringType.hpp 189-192, StructType.hpp 285-288, UnionType.hpp 468-471): an object
held by a shared pointer, with copies of the pointers. The clone of an `EnumerationType` is an `EnumeratedType`, without `next_value_`.
The number bounds the depth. -/
def clone : Nat → Heap → Nat → Option (Heap × Nat)
  | 0, _, _ => none
  | f + 1, h, i =>
    (h.get i).bind fun o =>
      (copyAll (ptrWith (clone f)) h o.kids).map fun (h, ks) => h.alloc { o with next := none, kids := ks, managed := true }

/-- `Ptr(const DynamicType&)` (DynamicType.hpp 242-257), also for the copy constructor (262-268) and the copy assignment (272-282) of
`Ptr`, which do the same with `*ptr`. -/
def ptrOf (f : Nat) : Heap → Nat → Option (Heap × Nat) := ptrWith (clone f)

/-- `AliasType::rget` (AliasType.hpp 152-160), for a type that may be no alias (DynamicData.hpp 634-637). -/
def rget : Nat → Heap → Nat → Option Nat
  | 0, _, _ => none
  | f + 1, h, i =>
    (h.get i).bind fun o =>
      match o.kind, o.kids with
      | .alias, k :: _ => rget f h k
      | _, _ => some i

/-- The type of a datum or of a reference to data (DynamicData.hpp 626-650): shared if a shared pointer holds it, else a clone. The
instances of sequences and maps do the same, without looking through aliases (SequenceInstance.hpp 44-53, MapInstance.hpp 44-54). -/
def dataType (f : Nat) (look : Bool) (h : Heap) (i : Nat) : Option (Heap × Nat) :=
  (if look then rget f h i else some i).bind fun j => (h.get j).bind fun o => if o.managed then some (h, j) else clone f h j

/-- The state: the objects, and what variables, `Ptr`s and data hold. (no code: the client's variables) -/
structure State where
  heap : Heap := []
  vars : Nat → Option Nat := fun _ => none
  ptrs : Nat → Option Nat := fun _ => none
  data : Nat → Option Nat := fun _ => none

/-- (no code: an assignment) -/
def put (m : Nat → Option Nat) (k : Nat) (v : Option Nat) : Nat → Option Nat := fun x => if x = k then v else m x

/-- A non-const access to a type: by its variable, or by a `Ptr` (`operator ->`, DynamicType.hpp 318-321; the modules' entries are
`Ptr`s: Module.hpp 205-217, 289-301, 471-483, 535-547). -/
inductive Target where
  | var (v : Nat)
  | ptr (p : Nat)
  deriving DecidableEq

/-- What a client can do. (no code of its own; see `call`) -/
inductive Op where
  | declare (v : Nat) (k : Kind) (name : String) (own : List (String × Nat))
  | leave (v : Nat)
  | edit (t : Target) (name : String) (own : List (String × Nat))
  | enumerator (t : Target) (own : List (String × Nat)) (next : Nat)
  | addPart (t : Target) (own : List (String × Nat)) (src : Nat) (twice : Bool)
  | point (p : Nat) (src : Nat)
  | copy (p q : Nat)
  | move (p q : Nat)
  | drop (p : Nat)
  | release (p d : Nat)
  | make (d : Nat) (src : Nat) (look : Bool)
  | share (d e : Nat)
  | finish (d : Nat)

/-- (no code: what an access refers to) -/
def State.target (s : State) : Target → Option Nat
  | .var v => s.vars v
  | .ptr p => s.ptrs p

/-- What the calls do; `none` if a call is not possible or not defined, or `f` is too small.
* `declare`, `leave`: a variable of a type begins and ends (the constructors without parts).
* `edit`: `name` (DynamicType.hpp 199-203) and whatever changes no part.
* `enumerator`: `add_enumerator` (EnumerationType.hpp 32-48), which uses `next_value_`.
* `addPart`: `add_member`, `add_case`, `parent`, and the constructors with parts (StructType.hpp 54-80, AggregationType.hpp 98-103,
  108-124, Member.hpp 43-51, AliasType.hpp 29-43, CollectionType.hpp 52-58): the part is `Ptr(src)`, or a copy of it, when it goes
  through a `Member` or a `const Ptr&&`.
* `point`, `copy`, `move`, `drop`, `release`: a `Ptr` from a type, copied, moved, destroyed, `free()` (DynamicType.hpp 236-300).
* `make`, `share`, `finish`: data and references to data, iterators and instances, from a type, copied, destroyed (DynamicData.hpp
  68, 433, 486, 626-650; SequenceInstance.hpp 37-57, 61; MapInstance.hpp 37-60, 63). -/
def call (f : Nat) (s : State) : Op → Option State
  | .declare v k n own =>
    if s.vars v = none then
      let (h, i) := s.heap.alloc ⟨k, n, own, if k = .enumeration then some 0 else none, [], false⟩
      some { s with heap := h, vars := put s.vars v (some i) }
    else none
  | .leave v => (s.vars v).map fun i => { s with heap := s.heap.set i none, vars := put s.vars v none }
  | .edit t n own =>
    (s.target t).bind fun i => (s.heap.get i).map fun o => { s with heap := s.heap.set i (some { o with name := n, own := own }) }
  | .enumerator t own n =>
    (s.target t).bind fun i => (s.heap.get i).bind fun o => o.next.map fun _ =>
      { s with heap := s.heap.set i (some { o with own := own, next := some n }) }
  | .addPart t own src twice =>
    (s.target t).bind fun i => (ptrOf f s.heap src).bind fun (h, k) =>
      (if twice then ptrOf f h k else some (h, k)).bind fun (h, k) => (h.get i).bind fun o =>
        if o.kind = .primitive then none else some { s with heap := h.set i (some { o with own := own, kids := o.kids ++ [k] }) }
  | .point p src => (ptrOf f s.heap src).map fun (h, k) => { s with heap := h, ptrs := put s.ptrs p (some k) }
  | .copy p q =>
    match s.ptrs q with
    | none => some { s with ptrs := put s.ptrs p none }
    | some i => (ptrOf f s.heap i).map fun (h, k) => { s with heap := h, ptrs := put s.ptrs p (some k) }
  | .move p q => some { s with ptrs := put (put s.ptrs q none) p (s.ptrs q) }
  | .drop p => some { s with ptrs := put s.ptrs p none }
  | .release p d => some { s with data := put s.data d (s.ptrs p), ptrs := put s.ptrs p none }
  | .make d src look => (dataType f look s.heap src).map fun (h, k) => { s with heap := h, data := put s.data d (some k) }
  | .share d e => some { s with data := put s.data d (s.data e) }
  | .finish d => some { s with data := put s.data d none }

/-- The pointer number `n` of an object. (no code) -/
def kid (h : Heap) (i n : Nat) : Option Nat := (h.get i).bind fun o => o.kids[n]?

/-- `std::shared_ptr` destroys what no shared pointer holds. (no code of the library) -/
def State.Unused (s : State) (i : Nat) : Prop :=
  (∃ o, s.heap.get i = some o ∧ o.managed = true) ∧ (∀ p, s.ptrs p ≠ some i) ∧ (∀ d, s.data d ≠ some i) ∧ ∀ j n, kid s.heap j n ≠ some i

/-- A step: a call of the client, or the destruction of an object that no shared pointer holds. (The destruction may come later than
it does.) -/
inductive Step : State → Option Op → State → Prop
  | call {s s' f op} : call f s op = some s' → Step s (some op) s'
  | free {s i} : s.Unused i → Step s none { s with heap := s.heap.set i none }

end Verif.Types
