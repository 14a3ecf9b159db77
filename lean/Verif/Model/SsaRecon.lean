import Verif.Model.Dom
/-!
# Model of the reconstruction of SSA form in the backend (ir/be/bessaconstr.c)

Blocks and nodes are numbers (of two kinds). `none` as the result of a function is an assertion that failed, or a loop or recursion that did not end
after the given number of steps. Not modelled: register requirements, statistics, debug messages, `be_ssa_construction_update_liveness_phis`.
-/
namespace Verif.Model.SsaRecon
open Verif.Model.Dom (Cfg set)

/-- the graph before the reconstruction: the schedules of the blocks, the blocks of the nodes, `skip_Proj`, the Phi nodes, the operands, the users in
the order of the out edges without Anchor and End, and the first number that is no node -/
structure Prog where
  g : Cfg
  code : Nat → List Nat
  block : Nat → Nat
  skip : Nat → Nat
  isPhi : Nat → Bool
  ins : Nat → List Nat
  users : Nat → List Nat
  next : Nat

/-- `constr_info`, ir/be/bessaconstr.c:58-73, of nodes (`isDef`, `use`, `proc`, `defn`) and of blocks (`blockUse`, `blockProc`, `last`; `hasDef` is the
visited flag and `front` the block visited flag), the worklist and the parts of the graph that change. A node without `constr_info` is one whose flags
are not set -/
structure St where
  isDef : Nat → Bool
  use : Nat → Bool
  proc : Nat → Bool
  defn : Nat → Option Nat
  hasDef : Nat → Bool
  front : Nat → Bool
  blockUse : Nat → Bool
  blockProc : Nat → Bool
  last : Nat → Option Nat
  sched : Nat → List Nat
  block : Nat → Nat
  isPhi : Nat → Bool
  args : Nat → List Nat
  next : Nat
  newPhis : List Nat
  work : List Nat

/-- `be_ssa_construction_init`, ir/be/bessaconstr.c:352-381 -/
def init (P : Prog) : St where
  isDef _ := false
  use _ := false
  proc _ := false
  defn _ := none
  hasDef _ := false
  front _ := false
  blockUse _ := false
  blockProc _ := false
  last _ := none
  sched := P.code
  block := P.block
  isPhi := P.isPhi
  args := P.ins
  next := P.next
  newPhis := []
  work := []

/-- `introduce_definition`, ir/be/bessaconstr.c:118-145. `block` is the block of `d`, `sk` is `skip_Proj(d)` -/
def introduceDef (d sk : Nat) (s : St) : Option St :=
  let b := s.block d
  let s1 := { s with isDef := set (set s.isDef d true) sk true, defn := set s.defn sk (some d) }
  if s.hasDef b then
    if s.blockProc b then none else some { s1 with last := set s1.last b none }
  else some { s1 with hasDef := set s1.hasDef b true, last := set s1.last b (some d) }

/-- `be_ssa_construction_add_copies`, ir/be/bessaconstr.c:411-437; the worklist contains blocks until the dominance frontiers are computed -/
def addCopies (P : Prog) : List Nat → St × List Nat → Option (St × List Nat)
  | [], r => some r
  | d :: ds, (s, w) =>
    match introduceDef d (P.skip d) s with
    | none => none
    | some s' => addCopies P ds (s', if s.hasDef (s.block d) then w else w ++ [s.block d])

/-- the inner loop of `mark_iterated_dominance_frontiers`, ir/be/bessaconstr.c:171-182 -/
def markFront (s : St) : List Nat → (Nat → Bool) × List Nat → (Nat → Bool) × List Nat
  | [], r => r
  | y :: ys, (front, w) =>
    if front y then markFront s ys (front, w)
    else markFront s ys (set front y true, if s.hasDef y then w else w ++ [y])

/-- `mark_iterated_dominance_frontiers`, ir/be/bessaconstr.c:163-187 -/
def markIdf (P : Prog) (s : St) : Nat → (Nat → Bool) × List Nat → Option (Nat → Bool)
  | _, (front, []) => some front
  | 0, _ => none
  | fuel + 1, (front, b :: w) => markIdf P s fuel (markFront s (P.g.frontier b) (front, w))

/-- `introduce_use`, ir/be/bessaconstr.c:147-160 -/
def introduceUse (u : Nat) (s : St) : St :=
  { s with use := set s.use u true, blockUse := set s.blockUse (s.block u) true, work := s.work ++ [u] }

/-- the first loop of `be_ssa_construction_fix_users_array`, ir/be/bessaconstr.c:496-508 -/
def introduceUsers (P : Prog) : List Nat → St → Option St
  | [], s => some s
  | v :: vs, s =>
    match introduceDef v (P.skip v) s with
    | none => none
    | some s' => introduceUsers P vs ((P.users v).foldl (fun s u => introduceUse u s) s')

/-- `insert_dummy_phi`, ir/be/bessaconstr.c:197-211: a new Phi without operands, first in the schedule -/
def insertPhi (b : Nat) (s : St) : Option (St × Nat) :=
  let phi := s.next
  let s1 := { s with
    next := s.next + 1
    block := set s.block phi b
    isPhi := set s.isPhi phi true
    args := set s.args phi []
    sched := set s.sched b (phi :: s.sched b)
    newPhis := s.newPhis ++ [phi] }
  match introduceDef phi phi s1 with
  | none => none
  | some s2 => some ({ s2 with work := s2.work ++ [phi] }, phi)

/-- `set_operands`, ir/be/bessaconstr.c:241-252 -/
def setOperands (u d : Nat) (s : St) : St :=
  { s with args := set s.args u ((s.args u).map fun o => if s.isDef o then d else o), proc := set s.proc u true }

section Search
variable (P : Prog) (rec : Nat → St → Option (St × Nat))

/-- `get_def_from_preds` and `get_def_at_idom`, ir/be/bessaconstr.c:216-233; `rec` is `search_def_end_of_block` -/
def fromPreds (b : Nat) (s : St) : Option (St × Nat) :=
  if s.front b then insertPhi b s
  else
    match P.g.idom b with
    | none => none
    | some d => rec d s

/-- the loop of `process_block`, ir/be/bessaconstr.c:266-286. A Phi that is inserted on the way is first in the schedule, so the loop does not get to
it: it runs over the schedule as it was before -/
def processLoop (b : Nat) : List Nat → Option Nat → St → Option (St × Option Nat)
  | [], d, s => some (s, d)
  | n :: ns, d, s =>
    if s.use n && !s.isPhi n then
      match d with
      | some x => processLoop b ns (if s.isDef n then s.defn n else some x) (setOperands n x s)
      | none =>
        match fromPreds P rec b s with
        | none => none
        | some (s', x) => processLoop b ns (if s'.isDef n then s'.defn n else some x) (setOperands n x s')
    else processLoop b ns (if s.isDef n then s.defn n else d) s

/-- `process_block`, ir/be/bessaconstr.c:257-290 -/
def processBlock (b : Nat) (s : St) : Option St :=
  if s.hasDef b && !s.blockProc b then
    match processLoop P rec b (s.sched b) none s with
    | none => none
    | some (s', d) => some { s' with blockProc := set s'.blockProc b true, last := set s'.last b d }
  else none

/-- the last definition in a schedule, ir/be/bessaconstr.c:309-317 -/
def lastIn (s : St) (l : List Nat) : Option Nat :=
  match l.reverse.find? s.isDef with
  | none => none
  | some n => s.defn n

/-- the body of `search_def_end_of_block`, ir/be/bessaconstr.c:295-328 -/
def searchBody (b : Nat) (s : St) : Option (St × Nat) :=
  match s.last b with
  | some x => some (s, x)
  | none =>
    if s.hasDef b then
      if s.blockUse b then
        match if s.blockProc b then some s else processBlock P rec b s with
        | none => none
        | some s' => (s'.last b).map fun x => (s', x)
      else
        match lastIn s (s.sched b) with
        | none => none
        | some x => some ({ s with last := set s.last b (some x) }, x)
    else
      match fromPreds P rec b s with
      | none => none
      | some (s', x) => some ({ s' with last := set s'.last b (some x) }, x)

end Search

/-- `search_def_end_of_block`, ir/be/bessaconstr.c:295-328; the recursion goes from a block to its immediate dominator -/
def searchEnd (P : Prog) : Nat → Nat → St → Option (St × Nat)
  | 0, _, _ => none
  | fuel + 1, b, s => searchBody P (searchEnd P fuel) b s

/-- `search_def_end_of_block`: there are fewer than `n + 1` blocks on the way to the start block -/
def search (P : Prog) : Nat → St → Option (St × Nat) := searchEnd P (P.g.n + 1)

/-- `search_def_at_block`, ir/be/bessaconstr.c:333-350 -/
def searchAt (P : Prog) (u : Nat) (s : St) : Option St :=
  if s.blockProc (s.block u) then some s
  else if s.hasDef (s.block u) then processBlock P (search P) (s.block u) s
  else
    match fromPreds P (search P) (s.block u) s with
    | none => none
    | some (s', x) => some (setOperands u x s')

/-- the loop of `fix_phi_arguments` for a Phi of the program, ir/be/bessaconstr.c:456-463. The operands are set at the end: nothing that is done on
the way looks at the operands of a Phi -/
def fixOld (P : Prog) : List (Nat × Option Nat) → St → Option (St × List Nat)
  | [], s => some (s, [])
  | (o, q) :: l, s =>
    if s.isDef o then
      match q with
      | none => none
      | some q =>
        match search P q s with
        | none => none
        | some (s', x) => (fixOld P l s').map fun r => (r.1, x :: r.2)
    else (fixOld P l s).map fun r => (r.1, o :: r.2)

/-- the loop of `fix_phi_arguments` for a new Phi, ir/be/bessaconstr.c:467-472 -/
def fixNew (P : Prog) : List (Option Nat) → St → Option (St × List Nat)
  | [], s => some (s, [])
  | none :: _, _ => none
  | some q :: l, s =>
    match search P q s with
    | none => none
    | some (s', x) => (fixNew P l s').map fun r => (r.1, x :: r.2)

/-- `fix_phi_arguments`, ir/be/bessaconstr.c:449-477 -/
def fixPhi (P : Prog) (phi : Nat) (s : St) : Option St :=
  match (if s.args phi ≠ [] then fixOld P ((s.args phi).zip (P.g.ins (s.block phi))) s else fixNew P (P.g.ins (s.block phi)) s) with
  | none => none
  | some (s', args) => some { s' with args := set s'.args phi args, proc := set s'.proc phi true }

/-- the second loop of `be_ssa_construction_fix_users_array`, ir/be/bessaconstr.c:511-526 -/
def mainLoop (P : Prog) : Nat → St → Option St
  | 0, s => if s.work = [] then some s else none
  | fuel + 1, s =>
    match s.work with
    | [] => some s
    | u :: w =>
      let s := { s with work := w }
      if s.proc u then mainLoop P fuel s
      else
        match (if s.isPhi u then fixPhi P u s else searchAt P u s) with
        | none => none
        | some s' => mainLoop P fuel s'

/-- `be_ssa_construction_add_copies` for `copies`, then `be_ssa_construction_fix_users_array` for `vals`, ir/be/bessaconstr.c:479-530 -/
def reconstruct (P : Prog) (copies vals : List Nat) : Option St :=
  match addCopies P copies (init P, []) with
  | none => none
  | some (s, w) =>
    match markIdf P s (P.g.n + 1 + w.length) (s.front, w) with
    | none => none
    | some front =>
      match introduceUsers P vals { s with front := front } with
      | none => none
      | some s => mainLoop P (s.work.length + P.g.n + 1) s

end Verif.Model.SsaRecon
