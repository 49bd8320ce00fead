/-!
# Hashing of flat memory: `Instanceable::hash64` and `hash_combine`

Bytes are `BitVec 8`, `uint64_t` is `BitVec 64`. The host is assumed little-endian (the 64-bit loads
of Instanceable.hpp 158-163 are host-order).
-/

namespace Verif

/-- The constant `m` of `hash64` (Instanceable.hpp 151). -/
def hashM : BitVec 64 := 0x880355f21e6d1965#64

/-- The multiplier of `mix` (Instanceable.hpp 203). -/
def mixM : BitVec 64 := 0x2127599bf4325c37#64

/-- The seed used by `Instanceable::hash` (Instanceable.hpp 143). -/
def hashSeed : BitVec 64 := 0x2145654af87a5b6d#64

/-- `mix` (Instanceable.hpp 199-206). -/
def mix (h : BitVec 64) : BitVec 64 :=
  let h := h ^^^ (h >>> 23)
  let h := h * mixM
  h ^^^ (h >>> 47)

/-- Up to eight bytes as a 64-bit word, first byte lowest: the 8-byte load of Instanceable.hpp 160
(little-endian host) and the `switch` of 169-178. -/
def leWord : List (BitVec 8) → BitVec 64
  | [] => 0
  | b :: bs => (b.setWidth 64) ^^^ (leWord bs <<< 8)

/-- One round: `h ^= mix(v); h *= m;` (Instanceable.hpp 161-162, 176-177). -/
def hashRound (h v : BitVec 64) : BitVec 64 := (h ^^^ mix v) * hashM

/-- The loop over whole words and the tail (Instanceable.hpp 158-179). -/
def hashLoop (h : BitVec 64) (buf : List (BitVec 8)) : BitVec 64 :=
  if 8 ≤ buf.length then hashLoop (hashRound h (leWord (buf.take 8))) (buf.drop 8)
  else if buf = [] then h
  else hashRound h (leWord buf)
termination_by buf.length
decreasing_by simp; omega

/-- `hash64` (Instanceable.hpp 146-182); `buf` is the memory `[buf, buf + len)`. -/
def hash64 (buf : List (BitVec 8)) (seed : BitVec 64) : BitVec 64 :=
  mix (hashLoop (seed ^^^ (BitVec.ofNat 64 buf.length * hashM)) buf)

/-- `Instanceable::hash` (Instanceable.hpp 139-144): the hash of a primitive, enumeration or
primitive-array instance. -/
def memHash (buf : List (BitVec 8)) : BitVec 64 := hash64 buf hashSeed

/-- `hash_combine` (Instanceable.hpp 185-190). -/
def hashCombine (result hash : BitVec 64) : BitVec 64 :=
  result ^^^ (hash + 0x9e3779b9#64 + (result <<< 6) + (result >>> 2))

end Verif
