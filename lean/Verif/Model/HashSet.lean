import Verif.Model.BitFiddle
/-!
# Model of `ir/adt/hashset.c.h`: open addressing with triangular probing

One generic table covers the instances `pset_new`, `cpset`, `ir_nodeset`,
`ir_edgeset` and `ir_nodehashmap`: a value is a key with attached data (`Unit`
for the sets).  Keys are never the reserved `NullValue`/`DeletedValue`, which
are the constructors `empty`/`deleted`.  The stored hash of an entry is the hash
of its key (`DO_REHASH` recomputes it).  `num_buckets` is the length of
`entries`.  The debug-only `entries_version` is left out.
`none` = failed assertion, access outside of `entries`, or `abort`.
-/
namespace Verif.Model

inductive HEntry (K D : Type)
  | empty
  | deleted
  | full (k : K) (d : D)
  deriving DecidableEq, Repr

/-- `struct HashSet`, hashset.h:28-42 -/
structure HSet (K D : Type) where
  entries : List (HEntry K D)
  numElements : Nat
  numDeleted : Nat
  enlarge : Nat
  shrink : Nat
  considerShrink : Bool

section
variable {K D : Type} (hash : K → Nat) (keq : K → K → Bool)

/-- `EntryGetHash(self, *entry) == hash && KeysEqual(...)`, hashset.c.h:217-218. -/
def hsMatch (key : K) : HEntry K D → Bool
  | .full k _ => hash k == hash key && keq k key
  | _ => false

/-- the loop of `hashset_find`/`hashset_remove`, hashset.c.h:418-436 and 460-480:
position of the matching entry. -/
def hsFindLoop (es : List (HEntry K D)) (key : K) : Nat → Nat → Nat → Option (Option Nat)
  | 0, _, _ => none
  | fuel + 1, probes, buck =>
      match es[buck]? with
      | none => none
      | some .empty => some none
      | some e =>
          if hsMatch hash keq key e then some (some buck)
          else if probes + 1 < es.length then
            hsFindLoop es key fuel (probes + 1) ((buck + (probes + 1)) &&& (es.length - 1))
          else none

/-- remember the first deleted entry as `insert_pos`, hashset.c.h:213-215. -/
def hsFirstDeleted (e : HEntry K D) (ipos : Option Nat) (buck : Nat) : Option Nat :=
  match e, ipos with
  | .deleted, none => some buck
  | _, _ => ipos

/-- the position to use for a new entry, hashset.c.h:202-206. -/
def hsTarget (ipos : Option Nat) (buck : Nat) : Nat :=
  match ipos with
  | some p => p
  | none => buck

/-- the loop of `insert_nogrow`, hashset.c.h:195-227: position of the entry, and
whether it was found. -/
def hsInsertLoop (es : List (HEntry K D)) (key : K) : Nat → Nat → Nat → Option Nat → Option (Nat × Bool)
  | 0, _, _, _ => none
  | fuel + 1, probes, buck, ipos =>
      match es[buck]? with
      | none => none
      | some .empty => some (hsTarget ipos buck, false)
      | some e =>
          if hsMatch hash keq key e then some (buck, true)
          else if probes + 1 < es.length then
            hsInsertLoop es key fuel (probes + 1) ((buck + (probes + 1)) &&& (es.length - 1)) (hsFirstDeleted e ipos buck)
          else none

/-- the loop of `insert_new`, hashset.c.h:257-281. -/
def hsNewLoop (es : List (HEntry K D)) : Nat → Nat → Nat → Option Nat
  | 0, _, _ => none
  | fuel + 1, probes, buck =>
      match es[buck]? with
      | some .empty => some buck
      | some (.full _ _) =>
          if probes + 1 < es.length then
            hsNewLoop es fuel (probes + 1) ((buck + (probes + 1)) &&& (es.length - 1))
          else none
      | _ => none

/-- `insert_new`, hashset.c.h:247-282, on the entries. -/
def hsInsertNew (es : List (HEntry K D)) (k : K) (d : D) : Option (List (HEntry K D)) :=
  (hsNewLoop es es.length 0 (hash k &&& (es.length - 1))).map fun p => es.set p (.full k d)

/-- the reinsertion loop of `resize`, hashset.c.h:310-316: new entries and number
of insertions. -/
def hsReinsert : List (HEntry K D) → List (HEntry K D) → Nat → Option (List (HEntry K D) × Nat)
  | [], es, n => some (es, n)
  | .full k d :: old, es, n => do let es ← hsInsertNew hash es k d; hsReinsert old es (n + 1)
  | _ :: old, es, n => hsReinsert old es n

/-- `resize`, hashset.c.h:288-320, with `reset_thresholds`, hashset.c.h:234-239. -/
def HSet.resize (T : HSet K D) (newSize : Nat) : Option (HSet K D) := do
  let (es, n) ← hsReinsert hash T.entries (List.replicate newSize .empty) 0
  pure { entries := es, numElements := n, numDeleted := 0, enlarge := newSize / 2, shrink := newSize / 5, considerShrink := false }

/-- `maybe_grow`, hashset.c.h:332-349; `size_t` has 64 bits. -/
def HSet.maybeGrow (T : HSet K D) : Option (HSet K D) :=
  if T.numElements + 1 ≤ T.enlarge then some T
  else if T.numElements - T.numDeleted + 2 > T.enlarge then
    let resizeTo := (T.entries.length * 2) % 2 ^ 64
    if resizeTo ≤ T.entries.length then none else T.resize hash resizeTo
  else T.resize hash T.entries.length

/-- `hashset_size`, hashset.c.h:166-169. -/
def HSet.size (T : HSet K D) : Nat := T.numElements - T.numDeleted

/-- `maybe_shrink`, hashset.c.h:355-377; the argument of `ceil_po2` is truncated
to 32 bits. -/
def HSet.maybeShrink (T : HSet K D) : Option (HSet K D) :=
  if !T.considerShrink then some T
  else
    let T := { T with considerShrink := false }
    if T.size ≤ 32 then some T
    else if T.size > T.shrink then some T
    else do
      let r ← ceilPo2G (T.size % 2 ^ 32)
      T.resize hash (if r < 4 then 4 else r)

/-- `hashset_insert`, hashset.c.h:390-399, with `insert_nogrow`, hashset.c.h:184-228.
`upd` gives the data of the entry: from nothing for a new entry (`InitData` and
the client's assignment), from the old data for an entry found. The result is
the entry's key and whether it was found. -/
def HSet.insert (T : HSet K D) (key : K) (upd : Option D → D) : Option (HSet K D × K × Bool) := do
  let T ← T.maybeShrink hash
  let T ← T.maybeGrow hash
  let (p, found) ← hsInsertLoop hash keq T.entries key T.entries.length 0 (hash key &&& (T.entries.length - 1)) none
  if found then
    match T.entries[p]? with
    | some (.full k d) => some ({ T with entries := T.entries.set p (.full k (upd (some d))) }, k, true)
    | _ => none
  else
    some ({ T with entries := T.entries.set p (.full key (upd none)), numElements := T.numElements + 1 }, key, false)

/-- `hashset_find`, hashset.c.h:410-437. -/
def HSet.find (T : HSet K D) (key : K) : Option (Option (K × D)) :=
  match hsFindLoop hash keq T.entries key T.entries.length 0 (hash key &&& (T.entries.length - 1)) with
  | none => none
  | some none => some none
  | some (some p) =>
      match T.entries[p]? with
      | some (.full k d) => some (some (k, d))
      | _ => none

/-- `hashset_remove`, hashset.c.h:448-481. -/
def HSet.remove (T : HSet K D) (key : K) : Option (HSet K D) :=
  match hsFindLoop hash keq T.entries key T.entries.length 0 (hash key &&& (T.entries.length - 1)) with
  | none => none
  | some none => some T
  | some (some p) =>
      some { T with entries := T.entries.set p .deleted, numDeleted := T.numDeleted + 1, considerShrink := true }

/-- `init_size`, hashset.c.h:488-507. -/
def HSet.initSize (n : Nat) : HSet K D :=
  let n := if n < 4 then 4 else n
  { entries := List.replicate n .empty, numElements := 0, numDeleted := 0, enlarge := n / 2, shrink := n / 5, considerShrink := false }

/-- `hashset_init`, hashset.c.h:514-517. -/
def HSet.init : HSet K D := HSet.initSize 32

/-- `hashset_init_size`, hashset.c.h:541-553; `UINT_MAX/2 = 2^31 - 1`. -/
def HSet.initExpected (expected : Nat) : Option (HSet K D) :=
  if expected ≥ 2 ^ 31 - 1 then none
  else (ceilPo2G (expected * 2 % 2 ^ 32)).map HSet.initSize

/-- key and data of an entry -/
def HEntry.value : HEntry K D → Option (K × D)
  | .full k d => some (k, d)
  | _ => none

/-- the values delivered by `hashset_iterator_init` and repeated
`hashset_iterator_next`, hashset.c.h:562-595. -/
def HSet.iterate (T : HSet K D) : List (K × D) := T.entries.filterMap HEntry.value

/-- `hashset_remove_iterator`, hashset.c.h:603-618, at position `pos`. -/
def HSet.removeIter (T : HSet K D) (pos : Nat) : Option (HSet K D) :=
  match T.entries[pos]? with
  | none => none
  | some .deleted => some T
  | some _ => some { T with entries := T.entries.set pos .deleted, numDeleted := T.numDeleted + 1, considerShrink := true }

end

/-- the probe sequence: start `hash & hashmask`, then
`bucknum = (bucknum + num_probes) & hashmask`, hashset.c.h:190, 224-225. -/
def hsProbe (n h : Nat) : Nat → Nat
  | 0 => h &&& (n - 1)
  | i + 1 => (hsProbe n h i + (i + 1)) &&& (n - 1)

end Verif.Model
