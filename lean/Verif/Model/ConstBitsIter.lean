import Verif.Model.ConstBitsGraph
/-!
# The iteration of the known-bits analysis, whatever the order of the nodes

`constbits_analyze` (ir/ana/constbits.c:885-899) starts with bottom for every node and then calls `transfer` for nodes until nothing changes.
Here the order is left open: a run is any sequence of calls of `transfer`.
-/
namespace Verif.Model.ConstBits
open Verif.Spec Verif.Model.IrOpt

/-- the nodes of a graph that have analysis information -/
inductive Key
  | data (m : IMode) (n : Nat)
  | block (b : Nat)
  | x (x : Nat)
  deriving DecidableEq

/-- the size of the state of a node: blocks and jumps use a boolean domain, ir/ana/constbits.c:184-186 -/
def Key.w : Key → Nat
  | .data m _ => m.bits
  | .block _ => 1
  | .x _ => 1

/-- the state of a node -/
def State.at (s : State) : (k : Key) → BitInfo k.w
  | .data m n => s.data m n
  | .block b => s.block b
  | .x x => s.x x

/-- the assignments of `set_bitinfo`, ir/ana/constbits.c:136-137 -/
def State.set (s : State) : (k : Key) → BitInfo k.w → State
  | .data m n, v => { s with data := fun m' n' => if h : m = m' ∧ n' = n then h.1 ▸ v else s.data m' n' }
  | .block b, v => { s with block := fun b' => if b' = b then v else s.block b' }
  | .x x, v => { s with x := fun x' => if x' = x then v else s.x x' }

/-- "Insert bottom to break cycles", ir/ana/constbits.c:191-198 -/
def State.bottom : State where
  data m _ := BitInfo.undefined m.bits
  block _ := BitInfo.undefined 1
  x _ := BitInfo.undefined 1

/-- `transfer` without the call of `set_bitinfo`, ir/ana/constbits.c:212-752 -/
def transfer (G : SsaGraph) (last : Nat) (s : State) : (k : Key) → BitInfo k.w
  | .data m n => transferData G s m n
  | .block b => transferBlock G last s b
  | .x x => transferX G s x

/-- The states a run goes through, the newest first; all nodes for which `transfer` is called are in `K`, and `c` of the calls of
`set_bitinfo` (ir/ana/constbits.c:118-140) changed something.  A call of `transfer` reads the states of the operands one after the other, and
other nodes are calculated in between, so each operand may be read in another of the states `win` passed since the call began; the
state of the node itself is only set by its own calls, and these are not nested (state `BITINFO_IN_FLIGHT`). -/
inductive Run (G : SsaGraph) (last : Nat) (K : List Key) : Nat → List State → Prop
  | start : Run G last K 0 [State.bottom]
  | step {c : Nat} {s s' σ : State} {hist win : List State} {k : Key} : Run G last K c (s :: hist) → k ∈ K → win <+: s :: hist →
      (∀ h ∈ win, h.at k = s.at k) → (∀ j, ∃ h ∈ win, σ.at j = h.at j) →
      s'.at k = transfer G last σ k → (∀ j, j ≠ k → s'.at j = s.at j) →
      Run G last K (if transfer G last σ k = s.at k then c else c + 1) (s' :: s :: hist)

end Verif.Model.ConstBits
