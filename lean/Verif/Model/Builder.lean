import Verif.Model.OMap
import Verif.Model.Compat
/-!
# Building structures, unions and enumerations

The mutable construction API of the types. Every function returns the state after the call and a
`Bool`: `false` when an `xtypes_assert` fails, i.e. the call is refused (Assert.hpp: an exception or
an abort, depending on the build); the returned state is then the state at that point, which a
caller that catches the exception goes on using.
-/

namespace Verif

/-- `Member` (Member.hpp 33-133). Simplification: the annotations `id_`, `key_`, `optional_` are not
modelled here (nothing in the library reads them but their own getters); `Verif.Model.Member` has them. -/
structure SMem where
  name : String
  ty : Ty
  offset : Nat
  deriving DecidableEq, Repr

/-- The state of an `AggregationType` (AggregationType.hpp 131-133). Simplification: `parent_` is not
kept here; it has no influence on data (`Verif.Model.Member` has it). -/
structure Agg where
  members : List SMem
  indexes : List (String × Nat)
  deriving DecidableEq, Repr

namespace Agg

/-- Fresh aggregation. (AggregationType.hpp 86-96) -/
def empty : Agg := ⟨[], []⟩

/-- `has_member` (AggregationType.hpp 40). -/
def has (a : Agg) (n : String) : Bool := omHas a.indexes n

/-- `insert_member` (AggregationType.hpp 102-109). -/
def insert (a : Agg) (m : SMem) : Agg × Bool :=
  if a.has m.name then (a, false)
  else (⟨a.members ++ [m], (omEmplace a.indexes m.name a.members.length).1⟩, true)

/-- `member(index)` (AggregationType.hpp 50-55); `none` is a failed assertion. -/
def at? (a : Agg) (i : Nat) : Option SMem := a.members[i]?

/-- `member(name)` (AggregationType.hpp 61-66). -/
def byName? (a : Agg) (n : String) : Option SMem :=
  match omGet a.indexes n with
  | none => none
  | some i => a.members[i]?

/-- The loop of `parent(p)` (AggregationType.hpp 113-129) on a fresh aggregation. -/
def ofParent (p : Agg) : Agg := p.members.foldl (fun a m => (a.insert m).1) empty

end Agg

/-- The state of a `StructType` (StructType.hpp 32, 292). -/
structure StructB where
  name : String
  agg : Agg
  size : Nat
  deriving DecidableEq, Repr

namespace StructB

/-- `StructType(name)` (StructType.hpp 38-44) -/
def new (n : String) : StructB := ⟨n, Agg.empty, 0⟩

/-- `StructType(name, parent)` (StructType.hpp 38-44, AggregationType.hpp 86-96) -/
def child (n : String) (p : StructB) : StructB := ⟨n, Agg.ofParent p.agg, p.size⟩

/-- `add_member` (StructType.hpp 55-62): insert, set the offset, grow. The offset of the argument
`Member` (an uninitialised field) is overwritten. -/
def addMember (s : StructB) (n : String) (t : Ty) : StructB × Bool :=
  match s.agg.insert ⟨n, t, s.size⟩ with
  | (a, false) => ({ s with agg := a }, false)
  | (a, true) => ({ s with agg := a, size := s.size + t.memSize }, true)

/-- The type denoted by the structure.
(the fields `members_`, `memory_size_`: StructType.hpp 292, AggregationType.hpp 131-133; a view, not code) -/
def toTy (s : StructB) : Ty := .struct s.name (Mems.ofList (s.agg.members.map fun m => (m.name, m.ty)))

/-- All structures a program can build: new ones, children of built ones, and the result of any
`add_member` call on them, accepted or refused. (the client of StructType.hpp 38-62, no code of its own) -/
inductive Built : StructB → Prop
  | new (n) : Built (new n)
  | child (n) {p} : Built p → Built (child n p)
  | add (n t) {s} : Built s → Built (s.addMember n t).1

end StructB

/-- `default_union_label` (UnionType.hpp 42-46): `INT64_MAX >> (8 - size) * 8`. -/
def defaultUnionLabel (size : Nat) : Int := (BitVec.ofNat 64 (2 ^ 63 - 1) >>> ((8 - size) * 8)).toInt

/-- `shrink_label` (UnionType.hpp 48-54): the value as `int64_t`, masked. -/
def shrinkLabel (v : Int) (size : Nat) : Int :=
  (BitVec.ofInt 64 v &&& (BitVec.allOnes 64 >>> ((8 - size) * 8))).toInt

/-- `check_discriminator` (UnionType.hpp 485-501). -/
def checkDisc (t : Ty) : Bool :=
  match t.rget with
  | .prim k => !k.isFloat
  | .enum _ _ _ => true
  | _ => false

/-- The state of a `UnionType` (UnionType.hpp 58, 1133-1140); member 0 is the discriminator. -/
structure UnionB where
  name : String
  agg : Agg
  labels : List (Int × String)
  size : Nat
  defaultValue : Int
  invalidValue : Int
  default : Int
  maxCase : Nat
  deriving DecidableEq, Repr

namespace UnionB

/-- `UnionType(name, discriminator)` (UnionType.hpp 64-79, 475-482); `none`: refused. -/
def new (n : String) (d : Ty) : Option UnionB :=
  if checkDisc d then
    let dv := defaultUnionLabel d.memSize
    some { name := n, agg := (Agg.empty.insert ⟨discName, d, 0⟩).1, labels := [], size := d.memSize,
           defaultValue := dv, invalidValue := dv - 1, default := dv - 1, maxCase := 0 }
  else none

/-- `disc()->type()` (UnionType.hpp 1146-1149); the discriminator is always there. -/
def disc (u : UnionB) : Ty :=
  match u.agg.members with
  | m :: _ => m.ty
  | [] => .prim .i32

/-- `check_label_value` (UnionType.hpp 504-524), for an enumeration over 32 bits (the code casts any
enumeration to that one): `true` when both assertions hold. -/
def labelAllowed (u : UnionB) (l : Int) : Bool :=
  l != u.defaultValue &&
  match u.disc.rget with
  | .enum _ _ vals => vals.any fun p => (p.2 : Int) == l % 2 ^ 32
  | _ => true

/-- The label loop (UnionType.hpp 124-136): `labels_[l] = name` for every label that is not the
default value, remembering the first such label. -/
def setLabels (name : String) (dv : Int) (dsize : Nat) :
    List Int → List (Int × String) → Int → List (Int × String) × Int
  | [], m, first => (m, first)
  | v :: vs, m, first =>
    let l := shrinkLabel v dsize
    if l ≠ dv then setLabels name dv dsize vs (omSet m l name) (if first = dv then l else first)
    else setLabels name dv dsize vs m first

/-- `add_case_member` (UnionType.hpp 90-149), following the order of its checks and updates. -/
def addCase (u : UnionB) (ls : List Int) (n : String) (t : Ty) (isDefault : Bool) : UnionB × Bool :=
  if (isDefault || !ls.isEmpty) = false then (u, false) -- 97
  else if n = discName then (u, false) -- 98
  else if ls.any (fun v => -- 100-108
      let l := shrinkLabel v u.disc.memSize
      !(u.labelAllowed l) || omHas u.labels l) then (u, false)
  else
    match u.agg.insert ⟨n, t, u.disc.memSize⟩ with -- 110-114
    | (_, false) => (u, false)
    | (a, true) =>
      let u1 := { u with agg := a }
      let u2 := if t.memSize > u.maxCase -- 117-121
        then { u1 with maxCase := t.memSize, size := u.disc.memSize + t.memSize } else u1
      let r := setLabels n u.defaultValue u.disc.memSize ls u.labels u.defaultValue -- 124-136
      let u3 := { u2 with labels := r.1 }
      if isDefault then -- 138-146
        if u.default ≠ u.invalidValue then (u3, false)
        else ({ u3 with
          default := r.2
          labels := if r.2 = u.defaultValue then omSet r.1 r.2 n else r.1 }, true)
      else (u3, true)

/-- `get_labels` (UnionType.hpp 201-213) -/
def getLabels (u : UnionB) (n : String) : List Int :=
  (u.labels.filter fun p => p.2 = n ∧ p.1 ≠ u.defaultValue).map (·.1)

/-- `is_default` (UnionType.hpp 226-235) -/
def isDefault (u : UnionB) (n : String) : Bool :=
  u.default != u.invalidValue && omGet u.labels u.default == some n

/-- `get_case_members` (UnionType.hpp 238-246) -/
def caseNames (u : UnionB) : List String := u.agg.members.tail.map (·.name)

/-- The type denoted by the union. (the fields of UnionType.hpp 1133-1140; a view, not code) -/
def toTy (u : UnionB) : Ty :=
  .union u.name u.disc (Mems.ofList (u.agg.members.tail.map fun m => (m.name, m.ty)))
    ⟨u.labels, u.defaultValue, u.invalidValue, u.default⟩

/-- All unions a program can build, including through refused calls whose exception is caught.
(the client of UnionType.hpp 64-149, no code of its own) -/
inductive Built : UnionB → Prop
  | new (n d) {u} : new n d = some u → Built u
  | add (ls n t b) {u} : Built u → Built (u.addCase ls n t b).1

end UnionB

/-- The state of an `EnumerationType<T>` (EnumerationType.hpp 29, 74): the ordered map `values_` and
`next_value_`. -/
structure EnumB where
  w : EW
  vals : List (String × Nat)
  next : Nat
  deriving DecidableEq, Repr

namespace EnumB

/-- Fresh enumeration (EnumerationType.hpp 64-74). -/
def new (w : EW) : EnumB := ⟨w, [], 0⟩

/-- `add_enumerator(name, value)` (EnumerationType.hpp 32-42, EnumeratedType.hpp 145-151). The
argument has type `T`, so it is reduced modulo the width at the call, and so is `value + 1`. -/
def add (e : EnumB) (n : String) (v : Nat) : EnumB × Bool :=
  let v := v % 2 ^ (8 * e.w.size)
  if v < e.next then (e, false)
  else if omHas e.vals n then (e, false)
  else ({ e with vals := (omEmplace e.vals n v).1, next := (v + 1) % 2 ^ (8 * e.w.size) }, true)

/-- `add_enumerator(name)` (EnumerationType.hpp 44-48). -/
def addImplicit (e : EnumB) (n : String) : EnumB × Bool := e.add n e.next

/-- `value(name)` (EnumeratedType.hpp 48-54). -/
def value (e : EnumB) (n : String) : Option Nat := omGet e.vals n

/-- `is_allowed_value` (EnumeratedType.hpp 56-66). -/
def allowed (e : EnumB) (v : Nat) : Bool := e.vals.any fun p => p.2 == v

/-- `enumerator(value)` (EnumeratedType.hpp 70-80); `""` when there is none. -/
def enumerator (e : EnumB) (v : Nat) : String :=
  match e.vals.find? (fun p => p.2 == v) with
  | some p => p.1
  | none => ""

/-- One construction call. (the client of EnumerationType.hpp 32-48, no code of its own) -/
inductive Op
  | explicit (n : String) (v : Nat)
  | implicit (n : String)

/-- Run one call. (dispatches to EnumerationType.hpp 32-48) -/
def step (e : EnumB) : Op → EnumB × Bool
  | .explicit n v => e.add n v
  | .implicit n => e.addImplicit n

/-- The enumerator a call declares when accepted. (a view of EnumerationType.hpp 32-48) -/
def declared (e : EnumB) : Op → String × Nat
  | .explicit n v => (n, v % 2 ^ (8 * e.w.size))
  | .implicit n => (n, e.next % 2 ^ (8 * e.w.size))

/-- Run a history of calls; returns the enumeration and the accepted declarations in order.
(the client of EnumerationType.hpp 32-48) -/
def run (e : EnumB) : List Op → EnumB × List (String × Nat)
  | [] => (e, [])
  | op :: ops =>
    let d := e.declared op
    match e.step op with
    | (e', true) => let (f, l) := run e' ops; (f, d :: l)
    | (e', false) => run e' ops

/-- A datum of the enumeration (its `T` in memory): `construct_instance` writes `T(0)`
(PrimitiveType.hpp 117-121). -/
def construct : Nat := 0

/-- `value(t)` on a datum of an enumeration type (DynamicData.hpp 1000-1025) with a `T` of the right
size: refused unless allowed. -/
def setValue (e : EnumB) (datum : Nat) (v : Nat) : Nat × Bool :=
  if e.allowed v then (v, true) else (datum, false)

end EnumB

end Verif
