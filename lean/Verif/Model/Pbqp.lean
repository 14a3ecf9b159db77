import Verif.Spec.Pbqp
/-!
# Model of the PBQP solver (`ir/kaps`)

Costs (`num`, `INF_COSTS`; kaps.h, with `KAPS_USE_UNSIGNED`) are modelled by `ℕ∞`: `pbqp_add` (vector.c:17-38) adds, infinity absorbs;
this is exact as long as no finite sum reaches `INF_COSTS` (see `pbqpAdd32`).  A matrix is a flat list as in C.  Loops that write
every entry of a vector or matrix independently are modelled by rebuilding it entry by entry.  The buckets, which only determine the
order in which reductions are applied, are replaced by a relation that allows every order; obstacks, dumping and statistics are not
modelled.  The list of edges of the problem stands for the edge arrays of the nodes.
-/
namespace Verif.Model.Pbqp

/-- `pbqp_add` on 32 bit words, ir/kaps/vector.c:17-38, including its assertions: `none` if one fails -/
def infCosts : Nat := 2 ^ 32 - 1
def pbqpAdd32 (x y : Nat) : Option Nat :=
  if x = infCosts ∨ y = infCosts then some infCosts
  else
    let res := (x + y) % 2 ^ 32
    if (x > 0 ∨ y > 0 ∨ res ≤ x) ∧ (x > 0 ∨ y > 0 ∨ res ≤ y) ∧ res < infCosts then some res else none

/-- `struct vector_t`, ir/kaps/vector_t.h -/
abbrev Vec := List ℕ∞

/-- reading an entry of a vector -/
def vget (v : Vec) (i : Nat) : ℕ∞ := v.getD i 0

/-- a loop writing every entry of a vector -/
def vbuild (n : Nat) (f : Nat → ℕ∞) : Vec := (List.range n).map f

/-- `struct pbqp_matrix_t`, ir/kaps/matrix_t.h: row-major entries -/
structure Mat where
  rows : Nat
  cols : Nat
  entries : List ℕ∞
  deriving DecidableEq

/-- `mat->entries[row * mat->cols + col]` -/
def Mat.get (m : Mat) (i j : Nat) : ℕ∞ := m.entries.getD (i * m.cols + j) 0

/-- two nested loops writing every entry of a matrix -/
def Mat.build (rows cols : Nat) (f : Nat → Nat → ℕ∞) : Mat :=
  ⟨rows, cols, (List.range (rows * cols)).map fun k => f (k / cols) (k % cols)⟩

/-- `pbqp_matrix_copy_and_transpose`, ir/kaps/matrix.c:43-60 -/
def Mat.transpose (m : Mat) : Mat := Mat.build m.cols m.rows fun i j => m.get j i

/-- `pbqp_matrix_add`, ir/kaps/matrix.c:72-82 -/
def Mat.add (m s : Mat) : Mat := ⟨m.rows, m.cols, List.zipWith (· + ·) m.entries s.entries⟩

/-- the loop shared by the functions that look for a minimum: the index and the value of the first minimal entry that is not skipped;
0 and infinity if there is no finite one -/
def scan (n : Nat) (skip : Nat → Bool) (f : Nat → ℕ∞) : Nat × ℕ∞ :=
  (List.range n).foldl (fun s k => if skip k then s else if f k < s.2 then (k, f k) else s) (0, ⊤)

/-- `pbqp_matrix_get_col_min`, ir/kaps/matrix.c:114-134 -/
def colMin (m : Mat) (j : Nat) (flags : Vec) : ℕ∞ := (scan m.rows (fun i => vget flags i = ⊤) (fun i => m.get i j)).2
/-- `pbqp_matrix_get_col_min_index`, ir/kaps/matrix.c:136-158 -/
def colMinIndex (m : Mat) (j : Nat) (flags : Vec) : Nat := (scan m.rows (fun i => vget flags i = ⊤) (fun i => m.get i j)).1
/-- `pbqp_matrix_get_row_min`, ir/kaps/matrix.c:181-200 -/
def rowMin (m : Mat) (i : Nat) (flags : Vec) : ℕ∞ := (scan flags.length (fun j => vget flags j = ⊤) (fun j => m.get i j)).2
/-- `pbqp_matrix_get_row_min_index`, ir/kaps/matrix.c:202-223 -/
def rowMinIndex (m : Mat) (i : Nat) (flags : Vec) : Nat := (scan flags.length (fun j => vget flags j = ⊤) (fun j => m.get i j)).1
/-- `vector_get_min`, ir/kaps/vector.c:119-135 -/
def vecMin (v : Vec) : ℕ∞ := (scan v.length (fun _ => false) (vget v)).2
/-- `vector_get_min_index`, ir/kaps/vector.c:137-155 -/
def vecMinIndex (v : Vec) : Nat := (scan v.length (fun _ => false) (vget v)).1

/-- subtraction as in lines 171-177 and 235-241 of ir/kaps/matrix.c: `inf - x = inf if x < inf` (`INF_COSTS - INF_COSTS` is 0) -/
def subCost (a v : ℕ∞) : ℕ∞ := if a = ⊤ ∧ v ≠ ⊤ then a else a - v

/-- `pbqp_matrix_sub_col_value`, ir/kaps/matrix.c:160-179 -/
def subCol (m : Mat) (j : Nat) (flags : Vec) (v : ℕ∞) : Mat :=
  Mat.build m.rows m.cols fun r c => if c = j then (if vget flags r = ⊤ then 0 else subCost (m.get r c) v) else m.get r c
/-- `pbqp_matrix_sub_row_value`, ir/kaps/matrix.c:225-243 -/
def subRow (m : Mat) (i : Nat) (flags : Vec) (v : ℕ∞) : Mat :=
  Mat.build m.rows m.cols fun r c => if r = i then (if vget flags c = ⊤ then 0 else subCost (m.get r c) v) else m.get r c
/-- `pbqp_matrix_set_col_value`, ir/kaps/matrix.c:84-93 -/
def setCol (m : Mat) (j : Nat) (v : ℕ∞) : Mat := Mat.build m.rows m.cols fun r c => if c = j then v else m.get r c
/-- `pbqp_matrix_set_row_value`, ir/kaps/matrix.c:95-104 -/
def setRow (m : Mat) (i : Nat) (v : ℕ∞) : Mat := Mat.build m.rows m.cols fun r c => if r = i then v else m.get r c
/-- `pbqp_matrix_is_zero`, ir/kaps/matrix.c:245-268 -/
def isZero (m : Mat) (src tgt : Vec) : Bool :=
  (List.range m.rows).all fun i => decide (vget src i = ⊤) ||
    (List.range m.cols).all fun j => decide (vget tgt j = ⊤) || decide (m.get i j = 0)
/-- `pbqp_matrix_add_to_all_cols`, ir/kaps/matrix.c:270-284 -/
def addToAllCols (m : Mat) (v : Vec) : Mat := Mat.build m.rows m.cols fun r c => m.get r c + vget v r
/-- `pbqp_matrix_add_to_all_rows`, ir/kaps/matrix.c:286-300 -/
def addToAllRows (m : Mat) (v : Vec) : Mat := Mat.build m.rows m.cols fun r c => m.get r c + vget v c
/-- `vector_add`, ir/kaps/vector.c:60-69 -/
def vecAdd (v w : Vec) : Vec := vbuild v.length fun k => vget v k + vget w k
/-- `vector_add_matrix_col`, ir/kaps/vector.c:94-104 -/
def vecAddCol (v : Vec) (m : Mat) (j : Nat) : Vec := vbuild v.length fun k => vget v k + m.get k j
/-- `vector_add_matrix_row`, ir/kaps/vector.c:106-117 -/
def vecAddRow (v : Vec) (m : Mat) (i : Nat) : Vec := vbuild v.length fun k => vget v k + m.get i k

/-- one iteration of the loop of `normalize_towards_source`, ir/kaps/optimal.c:131-147 -/
def normSrcStep (tgt : Vec) (s : Mat × Vec) (i : Nat) : Mat × Vec :=
  let min := rowMin s.1 i tgt
  if min ≠ 0 then
    if vget s.2 i = ⊤ then (setRow s.1 i 0, s.2)
    else (subRow s.1 i tgt min, s.2.set i (vget s.2 i + min))
  else s
/-- `normalize_towards_source`, ir/kaps/optimal.c:116-159: the new matrix and the new costs of the source -/
def normSrc (m : Mat) (src tgt : Vec) : Mat × Vec := (List.range src.length).foldl (normSrcStep tgt) (m, src)

/-- one iteration of the loop of `normalize_towards_target`, ir/kaps/optimal.c:177-193 -/
def normTgtStep (src : Vec) (s : Mat × Vec) (j : Nat) : Mat × Vec :=
  let min := colMin s.1 j src
  if min ≠ 0 then
    if vget s.2 j = ⊤ then (setCol s.1 j 0, s.2)
    else (subCol s.1 j src min, s.2.set j (vget s.2 j + min))
  else s
/-- `normalize_towards_target`, ir/kaps/optimal.c:161-205: the new matrix and the new costs of the target -/
def normTgt (m : Mat) (src tgt : Vec) : Mat × Vec := (List.range tgt.length).foldl (normTgtStep src) (m, tgt)

/-- `struct pbqp_edge_t`, ir/kaps/pbqp_edge_t.h -/
structure Edge where
  src : Nat
  tgt : Nat
  mat : Mat
  deriving DecidableEq

/-- the edge is in the edge array of the node -/
def Edge.Inc (e : Edge) (v : Nat) : Prop := e.src = v ∨ e.tgt = v
instance (e : Edge) (v : Nat) : Decidable (e.Inc v) := by unfold Edge.Inc; infer_instance

/-- the other end of an edge, e.g. ir/kaps/optimal.c:857-861 -/
def Edge.other (e : Edge) (v : Nat) : Nat := if e.src = v then e.tgt else e.src

/-- the state of the solver: the costs of the nodes, the nodes that have not been reduced, the edges between them -/
structure St where
  vec : Nat → Vec
  live : List Nat
  edges : List Edge

/-- replacing the costs of one node -/
def upd (vec : Nat → Vec) (v : Nat) (x : Vec) : Nat → Vec := fun u => if u = v then x else vec u

/-- the end of `add_edge_costs`, ir/kaps/kaps.c:129-133, with `get_edge`, ir/kaps/kaps.c:28-51, and `alloc_edge`,
ir/kaps/pbqp_edge.c:24-58, for `src_index < tgt_index` -/
def addTo : List Edge → Nat → Nat → Mat → List Edge
  | [], a, b, m => [⟨a, b, m⟩]
  | e :: es, a, b, m => if e.src = a ∧ e.tgt = b then { e with mat := e.mat.add m } :: es else e :: addTo es a b m

/-- `add_edge_costs`, ir/kaps/kaps.c:121-133: two different nodes -/
def addEdgeCosts (es : List Edge) (a b : Nat) (m : Mat) : List Edge :=
  if b < a then addTo es b a m.transpose else addTo es a b m

/-- `add_node_costs`, ir/kaps/kaps.c:88-98 -/
def addNode (st : St) (v : Nat) (costs : Vec) : St :=
  if v ∈ st.live then { st with vec := upd st.vec v (vecAdd (st.vec v) costs) }
  else { st with live := st.live ++ [v], vec := upd st.vec v costs }

/-- `add_edge_costs`, ir/kaps/kaps.c:100-134 -/
def addEdge (st : St) (a b : Nat) (m : Mat) : St :=
  if a = b then addNode st a (vbuild m.rows fun i => m.get i i)
  else { st with edges := addEdgeCosts st.edges a b m }

/-- `simplify_edge`, ir/kaps/optimal.c:556-615, on an edge taken out of the list of edges -/
def simplify (st : St) (e : Edge) (rest : List Edge) : St :=
  let (m₁, s₁) := normSrc e.mat (st.vec e.src) (st.vec e.tgt)
  let (m₂, t₂) := normTgt m₁ s₁ (st.vec e.tgt)
  { st with
    vec := upd (upd st.vec e.src s₁) e.tgt t₂
    edges := if isZero m₂ s₁ t₂ then rest else { e with mat := m₂ } :: rest }

/-- the matrix and the costs of the other node after `apply_RI`, ir/kaps/optimal.c:875-883 -/
def reduceRI (st : St) (v : Nat) (e : Edge) : Mat × Vec :=
  if e.src = v then normTgt (addToAllCols e.mat (st.vec v)) (st.vec v) (st.vec e.tgt)
  else normSrc (addToAllRows e.mat (st.vec v)) (st.vec e.src) (st.vec v)

/-- `apply_RI`, ir/kaps/optimal.c:846-903 -/
def applyRI (st : St) (v : Nat) (e : Edge) (rest : List Edge) : St :=
  { vec := upd st.vec (e.other v) (reduceRI st v e).2, live := st.live.erase v, edges := rest }

/-- adding the column or row an edge contributes for alternative `i` of the other node, ir/kaps/optimal.c:965-969 -/
def addSide (vec : Vec) (e : Edge) (v i : Nat) : Vec := if e.src = v then vecAddCol vec e.mat i else vecAddRow vec e.mat i

/-- the costs of the node for fixed alternatives of its two neighbours, ir/kaps/optimal.c:963-975 -/
def riiVec (vec : Vec) (v : Nat) (e f : Edge) (i j : Nat) : Vec := addSide (addSide vec e v i) f v j

/-- `apply_RII`, ir/kaps/optimal.c:905-1023, after the neighbours have been ordered; the final `simplify_edge` is a separate step -/
def applyRII (st : St) (v : Nat) (e f : Edge) (rest : List Edge) : St :=
  let a := e.other v
  let b := f.other v
  { vec := st.vec, live := st.live.erase v,
    edges := addTo rest a b
      (Mat.build (st.vec a).length (st.vec b).length fun i j => vecMin (riiVec (st.vec v) v e f i j)) }

/-- the alternatives of the merged node `a` that are possible if `b` selects `j`, for an edge between `a` and `b`:
ir/kaps/optimal.c:230-252 and 370-392 -/
def mergeCandidates (st : St) (e : Edge) (a j : Nat) : List Nat :=
  (List.range (st.vec a).length).filter fun i =>
    !decide (vget (st.vec a) i = ⊤) && !decide ((if e.src = a then e.mat.get i j else e.mat.get j i) = ⊤)

/-- the test of ir/kaps/optimal.c:229-252 and 369-392: at most one alternative is possible -/
def mergeable (st : St) (e : Edge) (a : Nat) : Bool :=
  (List.range (st.vec (e.other a)).length).all fun j =>
    decide (vget (st.vec (e.other a)) j = ⊤) || decide ((mergeCandidates st e a j).length ≤ 1)

/-- `mapping[j]`; `none` if the loop has not written it -/
def mapping (st : St) (e : Edge) (a j : Nat) : Option Nat := (mergeCandidates st e a j).head?

/-- the new matrix of ir/kaps/optimal.c:288-320 and 428-460, allocated zeroed; `old` is an edge of `a` -/
def mergeMat (st : St) (e old : Edge) (a : Nat) : Mat :=
  let b := e.other a
  let c := old.other a
  Mat.build (st.vec b).length (st.vec c).length fun j k =>
    if vget (st.vec b) j = ⊤ ∨ vget (st.vec c) k = ⊤ then 0
    else
      let i := (mapping st e a j).getD 0
      if old.tgt = a then old.mat.get k i else old.mat.get i k

/-- one iteration of the loop reconnecting an edge of the merged node, ir/kaps/optimal.c:268-340 and 408-480, up to the
`simplify_edge`, which is a separate step -/
def reconnect (st : St) (e old : Edge) (a : Nat) (rest : List Edge) : St :=
  { st with edges := addEdgeCosts (e :: rest) (e.other a) (old.other a) (mergeMat st e old a) }

/-- what back propagation needs to know about a reduction step -/
inductive Red where
  /-- the step removed no node -/
  | keep
  /-- the reduced node, its costs and its edge with the modified matrix -/
  | ri (v : Nat) (vec : Vec) (e : Edge)
  /-- the reduced node, its costs and its two edges -/
  | rii (v : Nat) (vec : Vec) (e f : Edge)

/-- `back_propagate_RI`, ir/kaps/optimal.c:722-744, and `back_propagate_RII`, ir/kaps/optimal.c:746-811 -/
def Red.extend : Red → (Nat → Nat) → (Nat → Nat)
  | .keep, σ => σ
  | .ri v vec e, σ => fun u =>
      if u = v then (if e.src = v then colMinIndex e.mat (σ e.tgt) vec else rowMinIndex e.mat (σ e.src) vec) else σ u
  | .rii v vec e f, σ => fun u =>
      if u = v then vecMinIndex (riiVec vec v e f (σ (e.other v)) (σ (f.other v))) else σ u

/-- one reduction step.  `st.edges.Perm (e :: rest)` takes an edge out of the list. -/
inductive Step : St → Red → St → Prop
  /-- `apply_edge`, `simplify_edge`, `initial_simplify_edges`: ir/kaps/optimal.c:839-844, 556-660 -/
  | simplify {st e rest} (h : st.edges.Perm (e :: rest)) : Step st .keep (simplify st e rest)
  /-- `apply_RI`, ir/kaps/optimal.c:846-903: a node of degree one -/
  | ri {st v e rest} (hv : v ∈ st.live) (h : st.edges.Perm (e :: rest)) (he : e.Inc v) (hr : ∀ f ∈ rest, ¬ f.Inc v) :
      Step st (.ri v (st.vec v) { e with mat := (reduceRI st v e).1 }) (applyRI st v e rest)
  /-- `apply_RII`, ir/kaps/optimal.c:905-1026: a node of degree two -/
  | rii {st v e f rest} (hv : v ∈ st.live) (h : st.edges.Perm (e :: f :: rest)) (he : e.Inc v) (hf : f.Inc v)
      (hr : ∀ g ∈ rest, ¬ g.Inc v) (hlt : e.other v < f.other v) :
      Step st (.rii v (st.vec v) e f) (applyRII st v e f rest)
  /-- one edge reconnected by `merge_source_into_target` or `merge_target_into_source`, ir/kaps/optimal.c:213-485.  The last
  hypothesis excludes the use of uninitialised entries of `mapping`. -/
  | rm {st e old a rest} (h : st.edges.Perm (e :: old :: rest)) (he : e.Inc a) (ho : old.Inc a)
      (hm : mergeable st e a = true)
      (hd : ∀ j < (st.vec (e.other a)).length, vget (st.vec (e.other a)) j ≠ ⊤ → mapping st e a j ≠ none) :
      Step st .keep (reconnect st e old a rest)

/-- the loop over the incident edges in `select_alternative`, ir/kaps/optimal.c:1121-1129, with `select_row` and `select_column`,
ir/kaps/optimal.c:1028-1103 -/
def selectEdges (v k : Nat) (vec : Nat → Vec) : List Edge → (Nat → Vec)
  | [] => vec
  | e :: es =>
    if e.src = v then selectEdges v k (upd vec e.tgt (vecAddRow (vec e.tgt) e.mat k)) es
    else if e.tgt = v then selectEdges v k (upd vec e.src (vecAddCol (vec e.src) e.mat k)) es
    else selectEdges v k vec es

/-- `select_alternative`, ir/kaps/optimal.c:1105-1130 -/
def select (st : St) (v k : Nat) : St :=
  { st with
    vec := selectEdges v k (upd st.vec v (vbuild (st.vec v).length fun i => if i = k then vget (st.vec v) i else ⊤)) st.edges
    edges := st.edges.filter fun e => ¬ e.Inc v }

/-- the selection made by `determine_solution`, ir/kaps/optimal.c:690-694 -/
def r0 (st : St) : Nat → Nat := fun v => vecMinIndex (st.vec v)

/-- the value returned by `determine_solution`, ir/kaps/optimal.c:662-720 -/
def determineSolution (st : St) : ℕ∞ := st.live.foldl (fun acc v => acc + vget (st.vec v) (r0 st v)) 0

/-- `solve_pbqp_heuristical`, ir/kaps/heuristical.c:83-125, and `solve_pbqp_heuristical_co(_ld)`: any sequence of reductions and of
`select_alternative` calls (RN, with any choice of node and alternative) until no edge is left, then the trivial solution, then back
propagation in reverse order.  Relates a problem to the reported cost and the selection. -/
inductive SolveHeur : St → ℕ∞ → (Nat → Nat) → Prop
  | done {st} (h : st.edges = []) : SolveHeur st (determineSolution st) (r0 st)
  | step {st r st' c σ} (hs : Step st r st') (h : SolveHeur st' c σ) : SolveHeur st c (r.extend σ)
  | rn {st v k c σ} (hv : v ∈ st.live) (hk : k < (st.vec v).length) (h : SolveHeur (select st v k) c σ) : SolveHeur st c σ

/-- `solve_pbqp_brute_force`, ir/kaps/brute_force.c:291-333: the optimal reductions, and `apply_Brute_Force`,
ir/kaps/brute_force.c:55-163, where every alternative `k` of a node is solved recursively with result `val k`, the first alternative
with minimal result is selected, and solving continues. -/
inductive SolveBrute : St → ℕ∞ → (Nat → Nat) → Prop
  | done {st} (h : st.edges = []) : SolveBrute st (determineSolution st) (r0 st)
  | step {st r st' c σ} (hs : Step st r st') (h : SolveBrute st' c σ) : SolveBrute st c (r.extend σ)
  | brute {st v c σ} (hv : v ∈ st.live) (val : Nat → ℕ∞) (sel : Nat → Nat → Nat)
      (hall : ∀ k < (st.vec v).length, SolveBrute (select st v k) (val k) (sel k))
      (h : SolveBrute (select st v (scan (st.vec v).length (fun _ => false) val).1) c σ) : SolveBrute st c σ

end Verif.Model.Pbqp
