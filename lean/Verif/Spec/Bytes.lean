/-!
# Specification: reading a byte buffer as a number

Independent of the model: the positional value of a little-endian byte string
and its two's complement reading.
-/
namespace Verif.Spec

/-- Little-endian base-256 value of a byte list. -/
def value : List Nat → Nat
  | [] => 0
  | d :: ds => d + 256 * value ds

/-- Every element is a byte. -/
def Bytes (l : List Nat) : Prop := ∀ b ∈ l, b < 256

/-- Two's complement reading of a buffer of `l.length` bytes: the integer
congruent to `value l` modulo `256 ^ l.length` in the symmetric range. -/
def svalue (l : List Nat) : Int := (value l : Int).bmod (256 ^ l.length)

end Verif.Spec
