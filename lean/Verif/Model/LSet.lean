/-!
# Model of `ir/adt/set.c` (and `pset.c`, which includes it): linear hashing

`dir[i][j]` is flattened to bucket address `256 * i + j`; a chain is the list
of its elements.  The stored `entry.hash` of an element is `hash` of its key.
`eq` is `EQUAL(cmp, ...)` (for `set` this includes the size comparison).
Iteration state is left out: all operations below assert `!iter_tail`.
`none` = failed assertion or use of an unallocated segment.
-/
namespace Verif.Model

/-- `struct SET`, set.c:67-83. -/
structure LSet (K : Type) where
  p : Nat
  maxp : Nat
  nkey : Nat
  nseg : Nat
  bucket : Nat → List K

variable {K : Type}

/-- the rounding loop of `new_set`, set.c:91-94: `while (i < nslots) i <<= 1`
with `fuel` bounding the number of doublings (17 doublings exceed any admissible
`nslots`). -/
def lsetRound (nslots : Nat) : Nat → Nat → Nat
  | 0, i => i
  | fuel + 1, i => if i < nslots then lsetRound nslots fuel (2 * i) else i

/-- `new_set`/`new_pset`, set.c:86-115. -/
def LSet.new (nslots : Nat) : LSet K :=
  let ns := if nslots > 65536 then 256 else lsetRound nslots 17 256 / 256
  { p := 0, maxp := ns * 256, nkey := 0, nseg := ns, bucket := fun _ => [] }

/-- `limit_hash`, set.c:183-189; `h & (2^k - 1)` is written as `h % 2^k`, `maxp`
being a power of two. -/
def LSet.limit (T : LSet K) (h : Nat) : Nat :=
  let a := h % T.maxp
  if a < T.p then h % (2 * T.maxp) else a

/-- relocation loop of `expand_table`, set.c:235-253: splits the chain into the
elements that stay and those that move, both in order. -/
def lsetSplit (mv : K → Bool) : List K → List K × List K
  | [] => ([], [])
  | x :: xs =>
      let (o, n) := lsetSplit mv xs
      if mv x then (o, x :: n) else (x :: o, n)

/-- `expand_table`, set.c:296-348. -/
def LSet.expand (hash : K → Nat) (T : LSet K) : LSet K :=
  if T.maxp + T.p ≥ 65536 then T
  else
    let old := T.p
    let newAddr := T.maxp + T.p
    let nseg := if newAddr % 256 = 0 then T.nseg + 1 else T.nseg
    let (p, maxp) := if T.p + 1 = T.maxp then (0, 2 * T.maxp) else (T.p + 1, T.maxp)
    let T' : LSet K := { T with p := p, maxp := maxp, nseg := nseg }
    let (o, n) := lsetSplit (fun x => T'.limit (hash x) == newAddr) (T.bucket old)
    { T' with bucket := fun b => if b = newAddr then n else if b = old then o else T.bucket b }

/-- `_set_search` with action find, set.c:256-279: segment assertion, then the
first `EQUAL` element of the chain. -/
def LSet.find (hash : K → Nat) (eq : K → K → Bool) (T : LSet K) (key : K) : Option (Option K) :=
  let h := T.limit (hash key)
  if h / 256 ≥ T.nseg then none
  else some ((T.bucket h).find? fun x => eq x key)

/-- `_set_search` with action insert, set.c:256-318: the new table and the element. -/
def LSet.insert (hash : K → Nat) (eq : K → K → Bool) (T : LSet K) (key : K) : Option (LSet K × K) :=
  let h := T.limit (hash key)
  if h / 256 ≥ T.nseg then none
  else match (T.bucket h).find? fun x => eq x key with
    | some x => some (T, x)
    | none =>
        let T1 : LSet K := { T with nkey := T.nkey + 1, bucket := fun b => if b = h then key :: T.bucket h else T.bucket b }
        -- `loaded`, set.c:195-198
        some (if T1.nkey > T1.nseg * 256 * 4 then T1.expand hash else T1, key)

/-- removal of the first matching element of a chain, set.c:338-362; `none` =
no element matches (failed assertion / null dereference). -/
def lsetRemoveChain (eq : K → K → Bool) (key : K) : List K → Option (K × List K)
  | [] => none
  | x :: xs => if eq x key then some (x, xs) else (lsetRemoveChain eq key xs).map fun r => (r.1, x :: r.2)

/-- `pset_remove`, set.c:327-365. -/
def LSet.remove (hash : K → Nat) (eq : K → K → Bool) (T : LSet K) (key : K) : Option (LSet K × K) :=
  let h := T.limit (hash key)
  if h / 256 ≥ T.nseg then none
  else (lsetRemoveChain eq key (T.bucket h)).map fun r =>
    ({ T with nkey := T.nkey - 1, bucket := fun b => if b = h then r.2 else T.bucket b }, r.1)

/-- the elements in iteration order (`set_first`/`set_next`, set.c:128-175:
segments, then buckets, then chains). -/
def LSet.elems (T : LSet K) : List K := (List.range (T.nseg * 256)).flatMap T.bucket

end Verif.Model
