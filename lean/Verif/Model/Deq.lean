/-!
# Model of `ir/adt/deq.c` and `ir/adt/deq.h`

The doubly linked chain of blocks is the list of blocks from the left end to the
right end (so `next_left`/`next_right` are consistent by construction).  `C` is
`DEQ_BLOCK_DATA_SIZE` (2024 on a 64 bit host).  A block holds `C` bytes; the
bytes of a fresh block are unspecified in C (`deq_init` only clears the header)
and are given as parameter `junk`.  Pushing is `deq_alloc_*` followed by the
client's write through the returned pointer; popping is the client's read
through `deq_left_end`/`deq_right_end_obj` followed by `deq_shrink_*`.
`none` = failed assertion or access outside the data of a block.
-/
namespace Verif.Model

/-- `struct deq_block_t`, deq.h:29-35. -/
structure DeqBlock where
  l : Nat
  r : Nat
  data : List Nat
  deriving DecidableEq, Repr

/-- the client's write of the bytes `bs` at offset `ofs` -/
def deqWrite (data : List Nat) (ofs : Nat) (bs : List Nat) : Option (List Nat) :=
  if ofs + bs.length ≤ data.length then some (data.take ofs ++ bs ++ data.drop (ofs + bs.length)) else none

/-- the client's read of `n` bytes at offset `ofs` -/
def deqRead (data : List Nat) (ofs n : Nat) : Option (List Nat) :=
  if ofs + n ≤ data.length then some ((data.drop ofs).take n) else none

/-- `deq_init`, deq.c:11-17. -/
def deqInit (junk : List Nat) : List DeqBlock := [⟨0, 0, junk⟩]

/-- `deq_empty`, deq.h:59-63. -/
def deqEmpty : List DeqBlock → Bool
  | [b] => b.l == b.r
  | _ => false

/-- `deq_append_block_left_priv`, deq.c:32-53. -/
def deqAppendLeft (C : Nat) (junk : List Nat) (b : DeqBlock) (bs : List DeqBlock) : List DeqBlock :=
  if bs.isEmpty && b.r == b.l then ⟨C, C, b.data⟩ :: bs else ⟨C, C, junk⟩ :: b :: bs

/-- `deq_alloc_left`, deq.h:107-115, and the write of `obj`. -/
def deqPushLeft (C : Nat) (junk : List Nat) (obj : List Nat) : List DeqBlock → Option (List DeqBlock)
  | [] => none
  | b :: bs =>
      if obj.length < C then
        match if b.l < obj.length then deqAppendLeft C junk b bs else b :: bs with
        | [] => none
        | e :: es =>
            if e.l < obj.length then none   -- unsigned wrap-around
            else (deqWrite e.data (e.l - obj.length) obj).map fun d => ⟨e.l - obj.length, e.r, d⟩ :: es
      else none

/-- `deq_append_block_right_priv`, deq.c:55-77, on the blocks from right to left. -/
def deqAppendRight (junk : List Nat) (b : DeqBlock) (bs : List DeqBlock) : List DeqBlock :=
  if bs.isEmpty && b.r == b.l then ⟨0, 0, b.data⟩ :: bs else ⟨0, 0, junk⟩ :: b :: bs

/-- `deq_alloc_right`, deq.h:121-130, and the write of `obj`, on the blocks from
right to left. -/
def deqPushRightRev (C : Nat) (junk : List Nat) (obj : List Nat) : List DeqBlock → Option (List DeqBlock)
  | [] => none
  | b :: bs =>
      if obj.length < C then
        match if b.r + obj.length > C then deqAppendRight junk b bs else b :: bs with
        | [] => none
        | e :: es => (deqWrite e.data e.r obj).map fun d => ⟨e.l, e.r + obj.length, d⟩ :: es
      else none

/-- `deq_alloc_right` and the write of `obj`, deq.h:121-130. -/
def deqPushRight (C : Nat) (junk : List Nat) (obj : List Nat) (bs : List DeqBlock) : Option (List DeqBlock) :=
  (deqPushRightRev C junk obj bs.reverse).map List.reverse

/-- `deq_left_end_block_empty_priv`, deq.c:79-95 (and its mirror image
`deq_right_end_block_empty_priv`, deq.c:97-113). -/
def deqEndEmpty (b : DeqBlock) (bs : List DeqBlock) : Option (List DeqBlock) :=
  if b.l = b.r then
    match bs with
    | [] => some [⟨0, 0, b.data⟩]
    | _ => some bs
  else none

/-- reading `size` bytes at `deq_left_end` (deq.h:66-70), then `deq_shrink_left`,
deq.h:82-88; `l` is a 32 bit `unsigned`. -/
def deqPopLeft (size : Nat) : List DeqBlock → Option (List DeqBlock × List Nat)
  | [] => none
  | b :: bs => do
      let obj ← deqRead b.data b.l size
      let b' : DeqBlock := ⟨(b.l + size) % 2 ^ 32, b.r, b.data⟩
      let bs' ← (if b'.l ≥ b'.r then deqEndEmpty b' bs else some (b' :: bs))
      pure (bs', obj)

/-- reading at `deq_right_end_obj` (deq.h:73-77), then `deq_shrink_right`,
deq.h:94-101, on the blocks from right to left. -/
def deqPopRightRev (size : Nat) : List DeqBlock → Option (List DeqBlock × List Nat)
  | [] => none
  | b :: bs =>
      if b.r < size then none   -- the assertion, and the pointer before the data
      else do
        let obj ← deqRead b.data (b.r - size) size
        let b' : DeqBlock := ⟨b.l, b.r - size, b.data⟩
        let bs' ← (if b'.r ≤ b'.l then deqEndEmpty b' bs else some (b' :: bs))
        pure (bs', obj)

/-- `deq_right_end_obj` and `deq_shrink_right`, deq.h:73-101. -/
def deqPopRight (size : Nat) (bs : List DeqBlock) : Option (List DeqBlock × List Nat) :=
  (deqPopRightRev size bs.reverse).map fun r => (r.1.reverse, r.2)

/-- the data visited by walking the blocks with `deq_block_data_begin`/`_end`
and `deq_block_next_right`, deq.h:132-150 (`deq_pointer_iter_*`, pdeq.h:57-83). -/
def deqIterate (bs : List DeqBlock) : List Nat := bs.flatMap fun b => (b.data.drop b.l).take (b.r - b.l)

end Verif.Model
