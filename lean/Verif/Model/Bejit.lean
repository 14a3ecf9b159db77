import Verif.Spec.CodeImage
import Verif.Model.BitFiddle
import Verif.Model.Ia32Encode
/-!
# Model of the collection of machine code (ir/be/bejit.c) with the callbacks for IA-32

The code of a function is collected fragment by fragment, laid out, and written to memory or as
assembler text.  `none` stands for a failed assertion, a `panic` or a write outside of the buffer.
Pointers have 32 bits.
-/
namespace Verif.Model.Bejit

open Spec.X86 (Item Byte)
open Spec.CodeImage (Piece Line)

/-- `dest_kind` and `dest` of `relocation_t` (ir/be/bejit.c:25-39). -/
inductive Dest where
  | fragment (num : Nat)
  | entity (sym : Nat)
  deriving DecidableEq, Repr

/-- `relocation_t` (ir/be/bejit.c:30-39); `offset` and the number of a fragment have 16 bits, the
kind 8 bits. -/
structure Reloc where
  kind : Nat
  offset : Nat
  dest : Dest
  destOffset : BitVec 32
  deriving DecidableEq, Repr

/-- `fragment_info_t` (ir/be/bejit.c:41-48) without the address, which the layout computes; the
alignment and the bytes to skip have 8 bits. -/
structure Fragment where
  len : Nat
  p2align : Nat
  maxSkip : Nat
  relocs : List Reloc
  deriving DecidableEq, Repr

/-- `X86_IMM_PCREL` (ir/be/ia32/x86_node.h:86) -/
def PCREL : Nat := 2

/-- The bytes that `obstack_blank` leaves (ir/be/bejit.c:216); `junk` gives the contents of the
memory at a position. -/
def blank (junk : Nat → Byte) (now n : Nat) : List Byte := (List.range n).map fun i => junk (now + i)

/-- `be_emit_relocation` (ir/be/bejit.c:206-217): the record. -/
def mkReloc (begin_ now kind : Nat) (dest : Dest) (off : BitVec 32) : Reloc :=
  ⟨kind % 2 ^ 8, sub32 now begin_ % 2 ^ 16, dest, off⟩

/-- The items of a fragment, one after the other: bytes are appended to the code
(ir/be/bejit.h:47-62), relocations with `be_emit_reloc_fragment` and `be_emit_reloc_entity`
(ir/be/bejit.c:219-241).  `pc` is the length given for a PC relative relocation of an entity: 4, but
5 with `emit_machcode` (ir/be/ia32/ia32_encode.c:895-908). -/
def emitItems (junk : Nat → Byte) (pc begin_ : Nat) : Nat → List Item → List Byte × List Reloc
  | _, [] => ([], [])
  | now, .byte b :: l =>
      let r := emitItems junk pc begin_ (now + 1) l
      (b :: r.1, r.2)
  | now, .frag k n off :: l =>
      let r := emitItems junk pc begin_ (now + 4) l
      (blank junk now 4 ++ r.1, mkReloc begin_ now k (.fragment (n % 2 ^ 16)) off :: r.2)
  | now, .reloc k e off :: l =>
      let len := if k = PCREL then pc else 4
      let r := emitItems junk pc begin_ (now + len) l
      (blank junk now len ++ r.1, mkReloc begin_ now k (.entity e) off :: r.2)

/-- `be_begin_fragment`, the contents, `be_finish_fragment` (ir/be/bejit.c:170-204) for each
fragment of a function, as `gen_binary_block` calls them (ir/be/ia32/ia32_encode.c:1332-1357). -/
def emitFragments (junk : Nat → Byte) (pc : Nat) : Nat → List Piece →
    Option (List Byte × List Fragment)
  | _, [] => some ([], [])
  | now, p :: ps =>
      let c := emitItems junk pc now now p.items
      if c.2.length < 2 ^ 16 then do
        let r ← emitFragments junk pc (now + c.1.length) ps
        some (c.1 ++ r.1,
          ⟨sub32 (now + c.1.length) now, p.p2align % 2 ^ 8, p.maxSkip % 2 ^ 8, c.2⟩ :: r.2)
      else none

/-- `layout_fragments` (ir/be/bejit.c:106-136): the addresses and the size of the function.
`1 << p2align` needs a number below 31. -/
def layoutFrom : Nat → List Fragment → Option (List Nat × Nat)
  | address, [] => some ([], address)
  | address, f :: fs =>
      if f.p2align < 31 then do
        let aligned ← roundUp2 address (2 ^ f.p2align)
        let address := if sub32 aligned address ≤ f.maxSkip then aligned else address
        let r ← layoutFrom (add32 address f.len) fs
        some (address :: r.1, r.2)
      else none

def layoutFragments (fs : List Fragment) : Option (List Nat × Nat) := layoutFrom 0 fs

/-- `ir_jit_function_t` (ir/be/bejit.c:56-61) -/
structure Function where
  size : Nat
  code : List Byte
  fragments : List Fragment
  addrs : List Nat
  deriving DecidableEq, Repr

/-- From `be_jit_begin_function` to `be_jit_finish_function` (ir/be/bejit.c:96-163). -/
def build (junk : Nat → Byte) (pc : Nat) (ps : List Piece) : Option Function := do
  let c ← emitFragments junk pc 0 ps
  let l ← layoutFragments c.2
  some ⟨l.2, c.1, c.2, l.1⟩

/-- `resolve_relocation_code` (ir/be/bejit.c:243-253) -/
def resolve (addrs : List Nat) (num : Nat) (off : BitVec 32) (address : Nat) :
    Option (BitVec 32) := do
  let a ← addrs[num]?
  some (BitVec.ofNat 32 a + off - BitVec.ofNat 32 address)

/-! ## To memory -/

/-- The bytes of a `uint32_t` on a little endian host. -/
def bytes32 (v : BitVec 32) : List Byte :=
  [v.setWidth 8, (v >>> 8).setWidth 8, (v >>> 16).setWidth 8, (v >>> 24).setWidth 8]

/-- `emit_relocation` (ir/be/bejit.c:255-272) with `enc_relocation_callback`
(ir/be/ia32/ia32_encode.c:1424-1448); `entAddr` is `be_jit_get_entity_addr`, `none` for -1, and
`abs` the address of the place. -/
def relocMem (addrs : List Nat) (entAddr : Nat → Option (BitVec 32)) (address : Nat)
    (abs : BitVec 32) (r : Reloc) : Option (List Byte) :=
  match r.dest with
  | .fragment n => do
      let v ← resolve addrs n r.destOffset address
      if r.kind = Ia32.RELJUMP then some (bytes32 v) else none
  | .entity e => do
      let a ← entAddr e
      let v := a + r.destOffset
      some (bytes32 (if r.kind = PCREL then v - abs else v))

/-- `emit_fragment` (ir/be/bejit.c:324-351): the bytes it writes at the address of the fragment.
`b` is the rest of the code, `last` the offset in the fragment. -/
def copyFragment (val : Reloc → Option (List Byte)) (len : Nat) : Nat → List Byte → List Reloc →
    Option (List Byte)
  | last, b, [] => if last ≤ len then some (b.take (len - last)) else none
  | last, b, r :: rs =>
      if last ≤ r.offset then do
        let n := r.offset - last
        let v ← val r
        let rest ← copyFragment val len (r.offset + v.length) (b.drop (n + v.length)) rs
        some (b.take n ++ v ++ rest)
      else none

/-- A write to the buffer. -/
def writeAt (buf : List Byte) (pos : Nat) (x : List Byte) : Option (List Byte) :=
  if pos + x.length ≤ buf.length then some (buf.take pos ++ x ++ buf.drop (pos + x.length)) else none

/-- The call of `nops` (ir/be/bejit.c:365-366). -/
def writeNops (buf : List Byte) (pos n : Nat) : Option (List Byte) :=
  if n = 0 then some buf
  else if pos + n ≤ buf.length then writeAt buf pos (Ia32.nops n) else none

/-- The loop of `be_jit_emit_memory` (ir/be/bejit.c:353-374); `base` is the address of the buffer,
`code` the rest of the code. -/
def emitMemoryFrom (addrs : List Nat) (entAddr : Nat → Option (BitVec 32)) (base : BitVec 32) :
    Nat → List Byte → List Fragment → List Nat → List Byte → Option (List Byte)
  | last, code, f :: fs, address :: as, buf =>
      if last ≤ address then do
        let buf ← writeNops buf last (sub32 last address)
        let x ← copyFragment
          (fun r => relocMem addrs entAddr (add32 address r.offset)
            (base + BitVec.ofNat 32 (address + r.offset)) r) f.len 0 code f.relocs
        let buf ← writeAt buf address x
        emitMemoryFrom addrs entAddr base (add32 address f.len) (code.drop f.len) fs as buf
      else none
  | _, _, _, _, buf => some buf

/-- `be_jit_emit_memory` (ir/be/bejit.c:353-374) with a buffer of the size of the function. -/
def emitMemory (entAddr : Nat → Option (BitVec 32)) (base : BitVec 32) (buf : List Byte)
    (f : Function) : Option (List Byte) :=
  emitMemoryFrom f.addrs entAddr base 0 f.code f.fragments f.addrs buf

/-! ## As text -/

/-- `emit_relocation` with `emit_jit_entity_relocation_asm` (ir/be/ia32/ia32_emitter.c:1419-1443):
the line and the number of bytes; an entity is printed with `x86_emit_relocation_no_offset`.  The
kind of a relocation to a fragment must be the jump. -/
def relocAsm (addrs : List Nat) (address : Nat) (r : Reloc) : Option (Line × Nat) :=
  match r.dest with
  | .fragment n => do
      let v ← resolve addrs n r.destOffset address
      if r.kind = Ia32.RELJUMP then some (.long v, 4) else none
  | .entity e =>
      if r.kind = Ia32.RELJUMP then some (.long r.destOffset, 4)
      else if r.kind = PCREL then some (.call e r.destOffset, 5)
      else some (.longSym r.kind e r.destOffset, 4)

/-- `emit_fragment_as_asm` (ir/be/bejit.c:283-301) with `emit_bytes_as_asm` (ir/be/bejit.c:274-281).
-/
def asmFragment (val : Reloc → Option (Line × Nat)) (len : Nat) : Nat → List Byte → List Reloc →
    Option (List Line)
  | last, b, [] => if last ≤ len then some ((b.take (len - last)).map .byte) else none
  | last, b, r :: rs =>
      if last ≤ r.offset then do
        let n := r.offset - last
        let v ← val r
        let rest ← asmFragment val len (r.offset + v.2) (b.drop (n + v.2)) rs
        some ((b.take n).map .byte ++ v.1 :: rest)
      else none

/-- `be_jit_emit_as_asm` (ir/be/bejit.c:303-322) -/
def emitAsmFrom (addrs : List Nat) : Nat → List Byte → List Fragment → List Nat →
    Option (List Line)
  | last, code, f :: fs, address :: as => do
      let dir := if address > last then [Line.p2align f.p2align f.maxSkip] else []
      let x ← asmFragment (fun r => relocAsm addrs (add32 address r.offset) r) f.len 0 code f.relocs
      let rest ← emitAsmFrom addrs (add32 address f.len) (code.drop f.len) fs as
      some (dir ++ x ++ rest)
  | _, _, _, _ => some []

def emitAsm (f : Function) : Option (List Line) := emitAsmFrom f.addrs 0 f.code f.fragments f.addrs

/-! ## What the records can hold -/

open Spec.CodeImage (piecesLen)

/-- Items that the records can hold: the kinds, and the number of the fragment. -/
def ItemOk : Item → Prop
  | .byte _ => True
  | .frag k n _ => k = Ia32.RELJUMP ∧ n < 2 ^ 16
  | .reloc k _ _ => k < Ia32.RELJUMP

/-- Pieces that the records can hold. -/
structure PieceOk (pc : Nat) (p : Piece) : Prop where
  align : p.p2align < 31
  skip : p.maxSkip < 2 ^ 8
  items : ∀ i ∈ p.items, ItemOk i
  small : piecesLen pc p.items < 2 ^ 16

/-- The room that the pieces need at most. -/
def room (pc : Nat) (ps : List Piece) : Nat :=
  (ps.map fun p => 2 ^ p.p2align + piecesLen pc p.items).sum

/-- The number of bytes of all pieces. -/
def total (pc : Nat) (ps : List Piece) : Nat := (ps.map fun p => piecesLen pc p.items).sum

end Verif.Model.Bejit
