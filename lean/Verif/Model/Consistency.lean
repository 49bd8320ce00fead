/-!
# TypeConsistency

Models `include/xtypes/TypeConsistency.hpp`: an enum used as a bit set, with underlying type `int`
(32 bits); `NONE = ~0` has every bit set, `EQUALS = 0` none.
-/

namespace Verif

/-- `enum class TypeConsistency` (TypeConsistency.hpp 29-60): a 32-bit set of flags. -/
abbrev Cons := BitVec 32

namespace Cons

/-- TypeConsistency.hpp 32: `NONE = ~0`. -/
def none : Cons := BitVec.allOnes 32
/-- TypeConsistency.hpp 35: `EQUALS = 0`. -/
def equals : Cons := 0#32
/-- TypeConsistency.hpp 38 -/
def sign : Cons := 1#32
/-- TypeConsistency.hpp 41 -/
def width : Cons := 2#32
/-- TypeConsistency.hpp 44 -/
def seqBounds : Cons := 4#32
/-- TypeConsistency.hpp 47 -/
def arrayBounds : Cons := 8#32
/-- TypeConsistency.hpp 50 -/
def stringBounds : Cons := 16#32
/-- TypeConsistency.hpp 53 -/
def memberNames : Cons := 32#32
/-- TypeConsistency.hpp 56 -/
def members : Cons := 64#32
/-- TypeConsistency.hpp 59 -/
def mapBounds : Cons := 128#32

/-- `operator |` (TypeConsistency.hpp 63-67): bitwise or on the underlying type. -/
def or (a b : Cons) : Cons := a ||| b

/-- `operator &` (TypeConsistency.hpp 77-81): bitwise and on the underlying type. -/
def and (a b : Cons) : Cons := a &&& b

end Cons
end Verif
