/-!
# Model of `ir/adt/bipartite.c`

Adjacency, the two bit sets and the array `matching` are functions of the index
(the bit set operations are modelled and verified on their own in
`Model/Bitset.lean`); all indices used are below the sizes of the graph, because
they come from loops over `0 … n_left-1` and from searches below `n_right`.
`-1` in `matching` is `none`.  A failed assertion is `none`.
-/
namespace Verif.Model

/-- `struct bipartite_t`, bipartite.c:18-22 -/
structure BGraph where
  nLeft : Nat
  nRight : Nat
  adj : Nat → Nat → Bool

/-- state of the algorithm: `matching`, `matched_left`, `matched_right` -/
structure BState where
  matching : Nat → Option Nat
  mLeft : Nat → Bool
  mRight : Nat → Bool

/-- array store -/
def upd {α : Type} (f : Nat → α) (i : Nat) (v : α) : Nat → α := fun k => if k = i then v else f k

/-- `bitset_andnot(tmp, matched_right); bitset_next_set(tmp, 0)` on a copy of the
adjacency set, bipartite.c:72, 82-83, 107-111 -/
def bpFree (gr : BGraph) (st : BState) (left : Nat) : Option Nat :=
  (List.range gr.nRight).find? (fun r => gr.adj left r && !st.mRight r)

/-- `bitset_contains(left_adj, matched_right)`: the first set is contained in the second, bipartite.c:79 -/
def bpContained (gr : BGraph) (st : BState) (left : Nat) : Bool :=
  (List.range gr.nRight).all (fun r => !gr.adj left r || st.mRight r)

/-- the search for another left node, bipartite.c:88-91 -/
def bpOther (gr : BGraph) (st : BState) (left oldRight : Nat) : Option Nat :=
  (List.range gr.nLeft).find? (fun i => i != left && gr.adj i oldRight && !st.mLeft i)

/-- the body of the loop in `apply_alternating_path`, bipartite.c:71-117; the Boolean says whether something was done -/
def bpStep (gr : BGraph) (st : BState) (left : Nat) : Option (BState × Bool) :=
  match st.matching left with
  | some oldRight =>
      if bpContained gr st left then some (st, false)
      else
        match bpFree gr st left with
        | none => none
        | some right =>
            match bpOther gr st left oldRight with
            | none => some (st, false)
            | some i => some (⟨upd (upd st.matching left (some right)) i (some oldRight), upd st.mLeft i true, upd st.mRight right true⟩, true)
  | none =>
      if st.mLeft left then none
      else
        match bpFree gr st left with
        | none => some (st, false)
        | some right =>
            if st.mRight right then none
            else some (⟨upd st.matching left (some right), upd st.mLeft left true, upd st.mRight right true⟩, true)

/-- `apply_alternating_path` over the remaining left nodes, bipartite.c:62-121 -/
def bpPass (gr : BGraph) : List Nat → BState → Option (BState × Bool)
  | [], st => some (st, false)
  | left :: rest, st =>
      match bpStep gr st left with
      | none => none
      | some (st', d) =>
          match bpPass gr rest st' with
          | none => none
          | some (st'', d') => some (st'', d || d')

/-- the loop of `bipartite_matching`, bipartite.c:129-130; `none` also if it does not end within `fuel` passes -/
def bpLoop (gr : BGraph) : Nat → BState → Option BState
  | 0, _ => none
  | fuel + 1, st =>
      match bpPass gr (List.range gr.nLeft) st with
      | none => none
      | some (st', d) => if d then bpLoop gr fuel st' else some st'

/-- `bipartite_matching`, bipartite.c:123-131 -/
def bipartiteMatching (gr : BGraph) : Option (Nat → Option Nat) :=
  (bpLoop gr (gr.nLeft + 1) ⟨fun _ => none, fun _ => false, fun _ => false⟩).map BState.matching

end Verif.Model
