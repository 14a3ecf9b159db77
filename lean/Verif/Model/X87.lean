import Verif.Spec.X87
/-!
# Model: the x87 simulator

ir/be/ia32/x86_x87.c: virtual floating point registers become places on the register stack.  The
simulator knows for every place which register it holds, brings operands to the top with `fxch`, copies
those that are still needed and removes those that are not.  At the end of a block the stack is
permuted into the order the next block expects.

Simplified: an entry is the register alone; on the stack a node is found by its register, since
registers of values on the stack are different.  Phis are left out: their operands have their register.
Left out: inline assembler, calls, returns, and constants that are loaded again instead of copied.  A
failed assertion is `none`.
-/
namespace Verif.Model.X87
open Verif.Spec.X87

/-- `x87_state` (ir/be/ia32/x86_x87.c:70-74): the registers on the stack, the top first -/
abbrev St := List Nat

/-- What a simulator function does: the code it makes, and the new state. -/
abbrev Sim := Option (List Insn × St)

def Sim.andThen (x : Sim) (f : St → Sim) : Sim :=
  match x with
  | none => none
  | some (c, st) =>
    match f st with
    | none => none
    | some (c', st') => some (c ++ c', st')

/-- `x87_on_stack`, `x87_reg_on_stack` (ir/be/ia32/x86_x87.c:208-226) -/
def onStack (st : St) (r : Nat) : Option Nat := st.findIdx? (· == r)

/-- `is_at_pos` (ir/be/ia32/x86_x87.c:228-233) -/
def isAtPos (st : St) (r pos : Nat) : Bool := st[pos]? == some r

/-- `x87_set_st` (ir/be/ia32/x86_x87.c:171-180) -/
def setSt (st : St) (r pos : Nat) : Option St := if pos < st.length then some (st.set pos r) else none

/-- `x86_x87_push` (ir/be/ia32/x86_x87.c:241-253) -/
def push (st : St) (r : Nat) : Option St := if st.length < 8 then some (r :: st) else none

/-- `x87_create_fxch` with `x87_fxch` (ir/be/ia32/x86_x87.c:188-198, 324-336) -/
def createFxch (st : St) (pos : Nat) : Sim :=
  match st[pos]?, st[0]? with
  | some a, some b => some ([.fxch pos], (st.set pos b).set 0 a)
  | _, _ => none

/-- `move_to_pos` (ir/be/ia32/x86_x87.c:338-349) -/
def moveToPos (st : St) (r pos : Nat) : Sim :=
  match onStack st r with
  | none => none
  | some frm =>
    if frm ≠ pos then
      Sim.andThen (if frm ≠ 0 then createFxch st frm else some ([], st)) fun st =>
        if pos ≠ 0 then createFxch st pos else some ([], st)
    else some ([], st)

/-- `move_to_tos` (ir/be/ia32/x86_x87.c:351-355) -/
def moveToTos (st : St) (r : Nat) : Sim := moveToPos st r 0

/-- `x87_dup_operand`, `x87_create_fdup` (ir/be/ia32/x86_x87.c:472-501) -/
def dupOperand (st : St) (r out : Nat) : Sim :=
  match onStack st r with
  | none => none
  | some pos =>
    match push st out with
    | none => none
    | some st => some ([.fdup pos], st)

/-- `x86_x87_create_fpop` (ir/be/ia32/x86_x87.c:503-522) -/
def createFpop (st : St) (pos : Nat) : Sim :=
  match st[0]?, st[pos]? with
  | some a, some _ => some ([.fpop pos], ((if pos ≠ 0 then st.set pos a else st)).tail)
  | _, _ => none

/-! ### Liveness -/

/-- `fp_liveness_transfer` (ir/be/ia32/x86_x87.c:537-549) -/
def transfer (o : Op) (live : List Nat) : List Nat := (live.filter fun r => !o.defs.contains r) ++ o.uses

/-- `update_liveness` (ir/be/ia32/x86_x87.c:598-611): the registers live before the first node -/
def liveIn (live : List Nat) : List Op → List Nat
  | [] => live
  | o :: os => transfer o (liveIn live os)

/-- `fp_live_args_after` and `is_fp_live` (ir/be/ia32/x86_x87.c:584-590, 619-623) -/
def isLive (live : List Nat) (kill : Option Nat) (r : Nat) : Bool := live.contains r && kill != some r

/-- `find_unused_vreg` (ir/be/ia32/x86_x87.c:625-643) -/
def findUnused (st : St) : Option Nat := (List.range 8).find? fun r => !st.contains r

/-! ### The nodes -/

/-- `value_to_tos` (ir/be/ia32/x86_x87.c:673-685) -/
def valueToTos (live : List Nat) (st : St) (a out : Nat) : Sim :=
  if isLive live (some out) a then dupOperand st a out else moveToTos st a

/-- `x86_sim_x87_unop` (ir/be/ia32/x86_x87.c:810-820); also `sim_ia32_binop_am` with an operand in
memory (ir/be/ia32/x86_x87.c:791-807) -/
def simUnop (live : List Nat) (n a out : Nat) (st : St) : Sim :=
  (valueToTos live st a out).andThen fun st =>
    match setSt st out 0 with
    | none => none
    | some st => some ([.op1 n], st)

/-- The operands are brought into place: code, state, the operand that is not on the top, `reverse`,
`to_reg`, `pop` (ir/be/ia32/x86_x87.c:705-765) -/
def binopPlace (live : List Nat) (a b out : Nat) (st : St) :
    Option (List Insn × St × Nat × Bool × Bool × Bool) :=
  let done (x : Sim) (other : Nat) (reverse toReg pop : Bool) :=
    x.map fun p => (p.1, p.2, other, reverse, toReg, pop)
  let keep : Sim := some ([], st)
  if isLive live (some out) a then
    if isLive live (some out) b then done (dupOperand st a out) b false false false
    else if isAtPos st a 0 then done keep b false true false
    else done (moveToTos st b) a true false false
  else if isLive live (some out) b then
    if isAtPos st b 0 then done keep a true true false
    else done (moveToTos st a) b false false false
  else if a = b then done (moveToTos st a) b false false false
  else if isAtPos st a 0 then done keep b false true true
  else if isAtPos st b 0 then done keep a true true true
  else if isAtPos st a 1 then done (moveToTos st b) a true true true
  else done (moveToTos st a) b false true true

/-- `x86_sim_x87_binop` (ir/be/ia32/x86_x87.c:687-789) -/
def simBinop (live : List Nat) (n a b out : Nat) (st : St) : Sim :=
  match binopPlace live a b out st with
  | none => none
  | some (c, st, other, reverse, toReg, pop) =>
    match onStack st other with
    | none => none
    | some opReg =>
      match setSt st out (if toReg then opReg else 0) with
      | none => none
      | some st => some (c ++ [.op2 n opReg reverse toReg pop], if pop then st.tail else st)

/-- `x86_sim_x87_store` (ir/be/ia32/x86_x87.c:849-925) -/
def simStore (live : List Nat) (n a bits : Nat) (st : St) : Sim :=
  if !isLive live none a then
    (moveToTos st a).andThen fun st => some ([.fst n true], st.tail)
  else if bits > 64 then
    if st.length < 8 then
      match findUnused st with
      | none => none
      | some out => (dupOperand st a out).andThen fun st => some ([.fst n true], st.tail)
    else (moveToTos st a).andThen fun st => some ([.fstpFld n], st)
  else (moveToTos st a).andThen fun st => some ([.fst n false], st)

/-- `x86_sim_x87_store_pop` (ir/be/ia32/x86_x87.c:939-956) -/
def simStorePop (live : List Nat) (n a : Nat) (st : St) : Sim :=
  if isLive live none a then none
  else (moveToTos st a).andThen fun st => some ([.fst n true], st.tail)

/-- `sim_FtstFnstsw` (ir/be/ia32/x86_x87.c:979-994) -/
def simTest (live : List Nat) (n a : Nat) (st : St) : Sim :=
  (moveToTos st a).andThen fun st =>
    Sim.andThen (some ([.ftst n], st)) fun st =>
      if !isLive live none a then createFpop st 0 else some ([], st)

/-- The operands of a comparison are brought into place: code, state, `reverse`, `pops`
(ir/be/ia32/x86_x87.c:1007-1057) -/
def comparePlace (live : List Nat) (a b : Nat) (st : St) : Option (List Insn × St × Bool × Nat) :=
  let done (x : Sim) (reverse : Bool) (pops : Nat) := x.map fun p => (p.1, p.2, reverse, pops)
  let keep : Sim := some ([], st)
  if isLive live none a then
    if isLive live none b then
      if isAtPos st b 0 then done keep true 0
      else done (moveToTos st a) false 0
    else done (moveToTos st b) true 1
  else if isLive live none b then done (moveToTos st a) false 1
  else if a = b then done (moveToTos st a) false 1
  else if isAtPos st a 0 then done keep false 2
  else if isAtPos st b 0 then done keep true 2
  else if isAtPos st a 1 then done (moveToTos st b) true 2
  else done (moveToTos st a) false 2

/-- `x86_sim_x87_fucom` with `sim_ia32_FucomFnstsw` (`status`) or `sim_ia32_Fucomi`
(ir/be/ia32/x86_x87.c:996-1114) -/
def simCompare (live : List Nat) (n a b : Nat) (status : Bool) (st : St) : Sim :=
  match comparePlace live a b st with
  | none => none
  | some (c, st, reverse, pops) =>
    match onStack st (if reverse then a else b) with
    | none => none
    | some opReg =>
      if pops = 0 then some (c ++ [.fucom n opReg reverse false], st)
      else if pops = 1 then some (c ++ [.fucom n opReg reverse true], st.tail)
      else
        let additional := opReg - 1
        if status && additional == 0 then some (c ++ [.fucompp n reverse], st.tail.tail)
        else Sim.andThen (some (c ++ [.fucom n opReg reverse true], st.tail)) fun st =>
          createFpop st additional

/-- `sim_be_Copy` (ir/be/ia32/x86_x87.c:1122-1165) -/
def simCopy (live : List Nat) (a out : Nat) (st : St) : Sim :=
  if isLive live (some out) a then dupOperand st a out
  else
    match onStack st a with
    | none => none
    | some pos => (setSt st out pos).map fun st => ([], st)

/-- the permutation of `sim_be_Perm` (ir/be/ia32/x86_x87.c:1238-1251): `old` is the state before it -/
def permLoop (old : St) : List (Nat × Nat) → St → Option St
  | [], st => some st
  | (a, out) :: l, st =>
    match onStack old a with
    | none => none
    | some pos =>
      match setSt st out pos with
      | none => none
      | some st => permLoop old l st

/-- the removal of dead registers (ir/be/ia32/x86_x87.c:1318-1345); the mask has an entry for every
place, the number bounds the steps -/
def killLoop : Nat → List Bool → St → Sim
  | 0, _, st => some ([], st)
  | fuel + 1, mask, st =>
    if mask.any id then
      if mask.head? = some true then
        (createFpop st 0).andThen fun st => killLoop fuel mask.tail st
      else
        match (List.range mask.length).reverse.find? fun i => mask[i]? == some true with
        | none => none
        | some i => (createFpop st i).andThen fun st => killLoop fuel (mask.set i false).tail st
    else some ([], st)

/-- `x87_kill_deads` (ir/be/ia32/x86_x87.c:1285-1346); `emms`: the processor has `emms` or `femms` -/
def killDeads (emms : Bool) (live : List Nat) (st : St) : Sim :=
  if st.length = 0 then some ([], st)
  else if live.isEmpty && emms then some ([.emms], [])
  else killLoop st.length (st.map fun r => !isLive live none r) st

/-- One node; `live` are the registers live after it. -/
def simOp (emms : Bool) (live : List Nat) (st : St) : Op → Sim
  | .load n out => (push st out).map fun st => ([.fld n], st)
  | .unop n a out => simUnop live n a out st
  | .binop n a b out => simBinop live n a b out st
  | .store n a bits => simStore live n a bits st
  | .storePop n a => simStorePop live n a st
  | .test n a => simTest live n a st
  | .compare n a b status => simCompare live n a b status st
  | .copy a out => simCopy live a out st
  | .perm l => (permLoop st l st).map fun st => ([], st)
  | .keep _ => killDeads emms live st

def simOps (emms : Bool) (live : List Nat) : List Op → St → Sim
  | [], st => some ([], st)
  | o :: os, st => (simOp emms (liveIn live os) st o).andThen fun st => simOps emms live os st

/-- the nodes of `x87_simulate_block` (ir/be/ia32/x86_x87.c:1480-1497) -/
def simBlock (emms : Bool) (B : Block) (st : St) : Sim :=
  (killDeads emms (liveIn B.live B.ops) st).andThen fun st => simOps emms B.live B.ops st

/-! ### Permutations between blocks -/

/-- The first place of a new cycle; the list is the mask, places that need no change are taken out
(ir/be/ia32/x86_x87.c:397-412). -/
def firstOfCycle (st dst : St) : List Nat → Option (Nat × List Nat)
  | [] => none
  | i :: free => if st[i]? ≠ dst[i]? then some (i, free) else firstOfCycle st dst free

/-- The rest of a cycle (ir/be/ia32/x86_x87.c:414-429). -/
def followCycle (st dst : St) : Nat → Nat → List Nat → Option (List Nat × List Nat)
  | 0, _, free => some ([], free)
  | fuel + 1, src, free =>
    match st[src]? with
    | none => none
    | some r =>
      match onStack dst r with
      | none => none
      | some d =>
        if d ∈ free then
          (followCycle st dst fuel d (free.erase d)).map fun p => (d :: p.1, p.2)
        else some ([], free)

/-- The cycles (ir/be/ia32/x86_x87.c:395-430); the number bounds the size of the mask. -/
def findCycles (st dst : St) : Nat → List Nat → Option (List (List Nat))
  | 0, _ => some []
  | fuel + 1, free =>
    match firstOfCycle st dst free with
    | none => some []
    | some (i, free) =>
      if free.isEmpty then some []
      else
        match followCycle st dst free.length i free with
        | none => none
        | some (c, free) => (findCycles st dst fuel free).map fun cs => (i :: c) :: cs

/-- the exchanges for a cycle (ir/be/ia32/x86_x87.c:459-468) -/
def cycleExchanges : List Nat → List Nat
  | [] => []
  | i :: c => if 0 ∈ i :: c then c else i :: c ++ [i]

def exchanges : List Nat → St → Sim
  | [], st => some ([], st)
  | i :: is, st => (createFxch st i).andThen fun st => exchanges is st

/-- `x87_shuffle` (ir/be/ia32/x86_x87.c:373-470) -/
def shuffle (st dst : St) : Sim :=
  if st.length ≠ dst.length then none
  else
    match findCycles st dst (st.length + 1) (List.range st.length) with
    | none => none
    | some cs => exchanges (cs.flatMap cycleExchanges) st

/-! ### The graph -/

/-- the states at the begin of the blocks, the code, and the blocks to do -/
structure Graph where
  begins : Nat → Option St
  code : Nat → Option (List Insn)
  work : List Nat

/-- The successors (ir/be/ia32/x86_x87.c:1502-1524): a successor without a state gets this one, which
is still changed if a later successor needs a permutation; the last list are the successors that have
got it. -/
def succLoop : List Nat → (Nat → Option St) → List Nat → St → Option (List Insn × St × List Nat)
  | [], _, given, st => some ([], st, given)
  | s :: ss, begins, given, st =>
    if s ∈ given then
      -- the state is compared with itself
      match shuffle st st with
      | none => none
      | some (c, st) => (succLoop ss begins given st).map fun p => (c ++ p.1, p.2)
    else
      match begins s with
      | none => succLoop ss begins (given ++ [s]) st
      | some dst =>
        match shuffle st dst with
        | none => none
        | some (c, st) => (succLoop ss begins given st).map fun p => (c ++ p.1, p.2)

/-- `x87_simulate_block` (ir/be/ia32/x86_x87.c:1471-1526) for the next block of the worklist -/
def stepGraph (emms : Bool) (g : List Block) (G : Graph) : Option Graph :=
  match G.work with
  | [] => some G
  | b :: work =>
    match g[b]?, G.begins b with
    | some B, some st =>
      if (G.code b).isSome then some { G with work := work }
      else
        match simBlock emms B st with
        | none => none
        | some (c, st) =>
          match succLoop B.succs G.begins [] st with
          | none => none
          | some (c', st, given) =>
            some { begins := fun s => if s ∈ given then some st else G.begins s
                   code := fun s => if s = b then some (c ++ c') else G.code s
                   work := work ++ given }
    | _, _ => none

def runGraph (emms : Bool) (g : List Block) : Nat → Graph → Option Graph
  | 0, G => some G
  | fuel + 1, G => if G.work.isEmpty then some G else (stepGraph emms g G).bind (runGraph emms g fuel)

/-- `x86_x87_simulate_graph` (ir/be/ia32/x86_x87.c:1596-1645): the code of the blocks.  Block 0 is the
start block; every block is put into the worklist once. -/
def simulateGraph (emms : Bool) (g : List Block) : Option (Nat → Option (List Insn)) :=
  (runGraph emms g g.length
    { begins := fun b => if b = 0 then some [] else none, code := fun _ => none, work := [0] }).map (·.code)

end Verif.Model.X87
