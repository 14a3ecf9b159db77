import Verif.Model.Dca
import Verif.Model.ConstBitsGraph
/-!
# The analysis of don't care bits of a graph (ir/ana/dca.c) and occult constants (ir/opt/occult_const.c)

Data nodes of integer modes and of the mode of booleans have a mask; blocks, control flow nodes and all other nodes (memory, tuples, floating point
numbers, …) have a flag.
-/
namespace Verif.Model.Dca
open Verif.Spec Verif.Model.IrOpt Verif.Model.ConstBits

/-- the nodes of a graph -/
inductive Key
  | data (m : IMode) (n : Nat)
  | block (b : Nat)
  | x (x : Nat)
  | other (n : Nat)
  deriving DecidableEq

/-- a graph with the operands that an `SsaGraph` does not show -/
structure Graph extends SsaGraph where
  /-- further operands of control flow nodes: memory, results of Return, keep-alives of End -/
  xOps : Nat → List Key
  /-- operands of nodes that are neither data, nor block, nor control flow -/
  otherOps : Nat → List Key
  /-- operands of data nodes that are not looked at: Proj, Load, Builtin, … -/
  inputOps : (m : IMode) → Nat → List Key
  /-- the End node, a control flow node -/
  endX : Nat

/-- `irn->link` of all nodes -/
structure Care where
  data : (m : IMode) → Nat → BitVec m.bits
  block : Nat → Bool
  x : Nat → Bool
  other : Nat → Bool

/-- a call of `care_for`: with a mask of the mode of the node, or unqualified -/
inductive Call
  | mask (m : IMode) (n : Nat) (c : BitVec m.bits)
  | whole (k : Key)

/-- the selector is an operand of the control flow node -/
def selOps : XDef → List Key
  | .cond sel _ => [.data bmode sel]
  | .switch k sel => [.data k sel]
  | _ => []

/-- `get_bitinfo` of an operand; an expression that is not a node of the graph has none -/
def nodeInfo (s : State) : (m : IMode) → Expr m → Option (BitInfo m.bits)
  | _, .leaf m n => some (s.data m n)
  | _, .const v => some (BitInfo.const v)
  | _, _ => none

/-- `dca_transfer`, ir/ana/dca.c:91-398: the calls of `care_for`; `s` is the result of the known-bits analysis.  The calls for the operands of memory and
tuple nodes pass `tarval_b_true`, which is unqualified caring -/
def transfer (G : Graph) (s : State) (st : Care) : Key → List Call
  | .block b => (G.preds b).map fun x => .whole (.x x)
  | .x x => .whole (.block (G.xblock x)) :: ((selOps (G.xdef x) ++ G.xOps x).map .whole ++ [.whole (.block (G.xblock x))])
  | .data m n =>
    match G.node m n with
    | .phi args => args.map (fun a => .mask m a (st.data m n)) ++ [.whole (.block (G.blockOf m n))]
    | .op e => (demands (nodeInfo s) e (st.data m n)).map fun d => .mask d.m d.n d.care
    | .input => (G.inputOps m n).map .whole
  | .other n => (G.otherOps n).map .whole

/-- the node and the bits of it that a call is about -/
def Call.key : Call → Key
  | .mask m n _ => .data m n
  | .whole k => k

/-- store a mask -/
def Care.setData (st : Care) (m : IMode) (n : Nat) (c : BitVec m.bits) : Care :=
  { st with data := fun m' n' => if h : m' = m ∧ n' = n then h.1 ▸ c else st.data m' n' }

/-- the cares of all nodes and the work list -/
structure Work where
  st : Care
  wl : List Key

/-- `care_for` for a node with a mask, ir/ana/dca.c:47-54 -/
def careMask (w : Work) (m : IMode) (n : Nat) (c : BitVec m.bits) : Work :=
  if c ||| w.st.data m n ≠ w.st.data m n then ⟨w.st.setData m n (c ||| w.st.data m n), w.wl ++ [.data m n]⟩ else w

/-- `care_for`, ir/ana/dca.c:35-58: unqualified caring means all bits -/
def careFor (w : Work) : Call → Work
  | .mask m n c => careMask w m n c
  | .whole (.data m n) => careMask w m n (BitVec.allOnes m.bits)
  | .whole (.block b) =>
    if w.st.block b then w else ⟨{ w.st with block := fun b' => if b' = b then true else w.st.block b' }, w.wl ++ [.block b]⟩
  | .whole (.x x) =>
    if w.st.x x then w else ⟨{ w.st with x := fun x' => if x' = x then true else w.st.x x' }, w.wl ++ [.x x]⟩
  | .whole (.other n) =>
    if w.st.other n then w else ⟨{ w.st with other := fun n' => if n' = n then true else w.st.other n' }, w.wl ++ [.other n]⟩

/-- `dca_init_node`, ir/ana/dca.c:400-407 -/
def Care.init : Care := ⟨fun m _ => 0#m.bits, fun _ => false, fun _ => false, fun _ => false⟩

/-- the loop of `dca_analyze`, ir/ana/dca.c:426-429; `none`: the fuel is used up -/
def loop (G : Graph) (s : State) : Nat → Work → Option Care
  | _, ⟨st, []⟩ => some st
  | 0, _ => none
  | fuel + 1, ⟨st, k :: wl⟩ => loop G s fuel ((transfer G s st k).foldl careFor ⟨st, wl⟩)

/-- `dca_analyze`, ir/ana/dca.c:409-431 -/
def analyze (G : Graph) (s : State) (fuel : Nat) : Option Care := loop G s fuel (careFor ⟨Care.init, []⟩ (.whole (.x G.endX)))

/-- `occult_const_opt_walker`, ir/opt/occult_const.c:35-66; `walk` are the nodes `irg_walk_graph` visits.  The new constant is put where the node was: it
is available no earlier than the node was -/
def occultNode (G : SsaGraph) (s : State) (care : Care) (m : IMode) (n : Nat) : NodeDef m :=
  match G.node m n with
  | .op (.const v) => .op (.const v)
  | d => if care.data m n &&& ((s.data m n).o ^^^ (s.data m n).z) = 0#m.bits then .op (.const ((s.data m n).z &&& care.data m n)) else d

/-- `occult_consts`, ir/opt/occult_const.c:73-99 -/
def occult (G : SsaGraph) (s : State) (care : Care) (walk : IMode → Nat → Bool) : SsaGraph :=
  { G with node := fun m n => if walk m n then occultNode G s care m n else G.node m n }

/-! ## Conditions of the theorems -/

/-- `k'` is an operand of `k`, or its block -/
def Operand (G : Graph) (k' : Key) : Key → Prop
  | .block b => ∃ x ∈ G.preds b, k' = .x x
  | .x x => k' = .block (G.xblock x) ∨ k' ∈ selOps (G.xdef x) ∨ k' ∈ G.xOps x
  | .data m n =>
    match G.node m n with
    | .phi args => (∃ a ∈ args, k' = .data m a) ∨ k' = .block (G.blockOf m n)
    | .op e => ∃ k i, e.Uses k i ∧ k' = .data k i
    | .input => k' ∈ G.inputOps m n
  | .other n => k' ∈ G.otherOps n

/-- the number of bits of the mask, or of the flag, of a node -/
def Key.size : Key → Nat
  | .data m _ => m.bits
  | _ => 1

/-- a node or a constant -/
def Atom {m : IMode} (e : Expr m) : Prop := (∃ n, e = .leaf m n) ∨ ∃ v, e = .const v

/-- a node whose operands are nodes or constants -/
def Flat : {m : IMode} → Expr m → Prop
  | _, .leaf _ _ => True
  | _, .const _ => True
  | _, .minus a => Atom a
  | _, .not a => Atom a
  | _, .add a b => Atom a ∧ Atom b
  | _, .sub a b => Atom a ∧ Atom b
  | _, .mul a b => Atom a ∧ Atom b
  | _, .div a b => Atom a ∧ Atom b
  | _, .mod a b => Atom a ∧ Atom b
  | _, .and a b => Atom a ∧ Atom b
  | _, .or a b => Atom a ∧ Atom b
  | _, .eor a b => Atom a ∧ Atom b
  | _, .shl a s => Atom a ∧ Atom s
  | _, .shr a s => Atom a ∧ Atom s
  | _, .shrs a s => Atom a ∧ Atom s
  | _, .conv _ a => Atom a
  | _, .cmp _ a b => Atom a ∧ Atom b
  | _, .mux s f t => Atom s ∧ Atom f ∧ Atom t
  | _, .confirm v _ b => Atom v ∧ Atom b

/-- all bits of the value of a node matter -/
def Care.Whole (care : Care) {m : IMode} (e : Expr m) : Prop := ∀ n, e = .leaf m n → care.data m n = BitVec.allOnes m.bits

/-- The graphs the theorem is about: the operands of operations are nodes or constants; the sizes of shifted values are powers of two and the counts of
arithmetic shifts to the right are constant; all bits of the operands of a Confirm matter, as they do while the comparison it stems from is in the graph -/
structure GraphCovered (G : Graph) (s : State) (care : Care) : Prop where
  flat : ∀ m n e, G.node m n = .op e → Flat e
  covered : ∀ m n e, G.node m n = .op e → Covered (nodeInfo s) e
  confirm : ∀ m n v r b, G.node m n = .op (.confirm v r b) → care.Whole v ∧ care.Whole b

end Verif.Model.Dca
