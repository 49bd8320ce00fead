/-!
# `std::map`

The library keeps several `std::map`s. They are modelled as the list of their entries in increasing
key order; iteration is list order. Simplification: the order on `std::string` is modelled by the
order of Lean strings (both are lexicographic; they agree on UTF-8).
-/

namespace Verif

variable {α : Type} {β : Type} [LT α] [DecidableLT α] [DecidableEq α]

/-- `map.count(k) != 0` (e.g. UnionType.hpp 105, AggregationType.hpp 40) -/
def omHas (m : List (α × β)) (k : α) : Bool := m.any (fun p => p.1 == k)

/-- `map.at(k)` / `map.find(k)` (e.g. UnionType.hpp 867, AggregationType.hpp 65) -/
def omGet (m : List (α × β)) (k : α) : Option β := (m.find? (fun p => p.1 == k)).map (·.2)

/-- Insertion at the place given by the order (only used for keys that are absent).
(the insertion inside `emplace` and `operator[]`, e.g. AggregationType.hpp 102-109) -/
def omIns (k : α) (v : β) : List (α × β) → List (α × β)
  | [] => [(k, v)]
  | p :: r => if k < p.1 then (k, v) :: p :: r else p :: omIns k v r

/-- `map.emplace(k, v)`: an existing entry is kept; the `Bool` is `.second` of the result.
(e.g. AggregationType.hpp 102-109, EnumeratedType.hpp 145-151) -/
def omEmplace (m : List (α × β)) (k : α) (v : β) : List (α × β) × Bool :=
  if omHas m k then (m, false) else (omIns k v m, true)

/-- `map[k] = v`: an existing entry is overwritten. (e.g. UnionType.hpp 130) -/
def omSet (m : List (α × β)) (k : α) (v : β) : List (α × β) :=
  if omHas m k then m.map (fun p => if p.1 = k then (k, v) else p) else omIns k v m

end Verif
