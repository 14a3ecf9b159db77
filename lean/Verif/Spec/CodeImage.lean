import Verif.Spec.X86
/-!
# Specification: the image of a function in memory

A function is a sequence of pieces.  Each piece has an alignment, a number of bytes that may be
skipped to reach it, and items (bytes, and places that depend on the final addresses).
-/
namespace Verif.Spec.CodeImage

open X86 (Item Byte)

structure Piece where
  p2align : Nat
  maxSkip : Nat
  items : List Item
  deriving DecidableEq, Repr

/-- The directive `.p2align p,,skip` of the GNU assembler: advance to the next multiple of `2 ^ p`
unless more than `skip` bytes would have to be skipped; then do nothing. -/
def alignTo (p skip pos : Nat) : Nat :=
  let next := (pos + (2 ^ p - 1)) / 2 ^ p * 2 ^ p
  if next - pos ≤ skip then next else pos

/-- The length of an item, where a PC relative reference to a symbol takes `pc` bytes. -/
def itemLen (pc : Nat) : Item → Nat
  | .byte _ => 1
  | .reloc k _ _ => if k = 2 then pc else 4
  | .frag .. => 4

def piecesLen (pc : Nat) (l : List Item) : Nat := (l.map (itemLen pc)).sum

/-- The addresses of the pieces and the end of the last one. -/
def places (pc : Nat) : Nat → List Piece → List Nat × Nat
  | pos, [] => ([], pos)
  | pos, p :: ps =>
      let a := alignTo p.p2align p.maxSkip pos
      let r := places pc (a + piecesLen pc p.items) ps
      (a :: r.1, r.2)

/-- A number of four bytes, the least significant first. -/
def le32 (v : BitVec 32) : List Byte :=
  [v.extractLsb' 0 8, v.extractLsb' 8 8, v.extractLsb' 16 8, v.extractLsb' 24 8]

/-- The number that stands at a place. -/
def read32 (m : List Byte) (pos : Nat) : Option (BitVec 32) := do
  let a ← m[pos]?
  let b ← m[pos + 1]?
  let c ← m[pos + 2]?
  let d ← m[pos + 3]?
  some (d ++ c ++ b ++ a)

/-- What stands for an item at offset `place` of an image that starts at address `base`: a reference
to a piece is its distance from the place, a PC relative reference (kind 2) to a symbol is its
distance, any other one its address. -/
def itemBytes (addrs : List Nat) (sym : Nat → Option (BitVec 32)) (base : BitVec 32) (place : Nat) :
    Item → Option (List Byte)
  | .byte b => some [b]
  | .frag _ n off => do
      let a ← addrs[n]?
      some (le32 (BitVec.ofNat 32 a + off - BitVec.ofNat 32 place))
  | .reloc k e off => do
      let a ← sym e
      some (le32 (a + off - (if k = 2 then base + BitVec.ofNat 32 place else 0)))

/-- What stands for a sequence of items. -/
def itemsBytes (addrs : List Nat) (sym : Nat → Option (BitVec 32)) (base : BitVec 32) :
    Nat → List Item → Option (List Byte)
  | _, [] => some []
  | place, i :: l => do
      let x ← itemBytes addrs sym base place i
      let r ← itemsBytes addrs sym base (place + itemLen 4 i) l
      some (x ++ r)

/-! ## Assembler text -/

/-- Lines of assembler text. -/
inductive Line where
  | p2align (p skip : Nat)
  | byte (b : Byte)
  | long (v : BitVec 32)
  | longSym (kind sym : Nat) (off : BitVec 32)
  | call (sym : Nat) (off : BitVec 32)
  deriving DecidableEq, Repr

/-- The number of bytes of a line that is not a directive. -/
def Line.len : Line → Nat
  | .p2align .. => 0
  | .byte _ => 1
  | .long _ => 4
  | .longSym .. => 4
  | .call .. => 5

/-- The assembler: the contents with their positions. -/
def assemble : Nat → List Line → List (Nat × Line)
  | _, [] => []
  | pos, .p2align p s :: l => assemble (alignTo p s pos) l
  | pos, x :: l => (pos, x) :: assemble (pos + x.len) l

/-- The line that stands for an item at offset `place` of the function. -/
def itemLine (addrs : List Nat) (place : Nat) : Item → Option Line
  | .byte b => some (.byte b)
  | .frag _ n off => do
      let a ← addrs[n]?
      some (.long (BitVec.ofNat 32 a + off - BitVec.ofNat 32 place))
  | .reloc k e off => some (if k = 2 then .call e off else .longSym k e off)

/-- The contents for a sequence of items, with the positions. -/
def itemsLines (addrs : List Nat) (start : Nat) : Nat → List Item → Option (List (Nat × Line))
  | _, [] => some []
  | place, i :: l => do
      let x ← itemLine addrs place i
      let r ← itemsLines addrs start (place + itemLen 5 i) l
      some ((start + place, x) :: r)

/-- The contents for the pieces at their places. -/
def piecesLines (addrs : List Nat) (start : Nat) : List Nat → List Piece →
    Option (List (Nat × Line))
  | a :: as, p :: ps => do
      let x ← itemsLines addrs start a p.items
      let r ← piecesLines addrs start as ps
      some (x ++ r)
  | _, _ => some []

end Verif.Spec.CodeImage
