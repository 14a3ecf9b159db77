import Verif.Model.Dom
/-!
# Model of the depth first search of ir/ana/dfs.c and of the liveness check of ir/ana/irlivechk.c

Blocks are numbers as in `Verif.Model.Dom`. A node `dfs_node_t` belongs to one block, so a comparison of pointers to them is a comparison of blocks.
A bitset is the natural number with the same bits.
-/
namespace Verif.Model.LiveChk
open Verif.Model.Dom

/-! ## The depth first search -/

/-- the fields of the nodes, ir/ana/dfs_t.h:30-38, and of `dfs_t`, ir/ana/dfs_t.h:48-58: `num` is `pre_num` of the nodes that are visited, `block` is
`pre_order`, `used` is the counter `pre_num`; `order` is `post_order` and `done` the counter `post_num`. `parent` is the number of `ancestor` (0 for NULL);
it is not read. The field `level` is only used to print. -/
structure Search extends Dfs where
  anc : Nat → Option Nat
  maxPre : Nat → Nat
  post : Nat → Nat
  order : Nat → Nat
  done : Nat

def Search.init : Search := ⟨Dfs.init, fun _ => none, fun _ => 0, fun _ => 0, fun _ => 0, 0⟩

/-- a new node, ir/ana/dfs.c:60-67 -/
def Search.enter (s : Search) (b : Nat) (anc : Option Nat) (par : Nat) : Search :=
  { num := set s.num b (some s.used), block := set s.block s.used b, parent := set s.parent s.used par, used := s.used + 1,
    anc := set s.anc b anc, maxPre := set s.maxPre b s.used, post := s.post, order := s.order, done := s.done }

/-- the number at the end of a visit, ir/ana/dfs.c:87 -/
def Search.leave (s : Search) (b : Nat) : Search :=
  { s with post := set s.post b s.done, order := set s.order s.done b, done := s.done + 1 }

/-- the maximum for one successor, ir/ana/dfs.c:84 -/
def Search.raise (s : Search) (b c : Nat) : Search := { s with maxPre := set s.maxPre b (Nat.max (s.maxPre b) (s.maxPre c)) }

/-- `dfs_perform`, ir/ana/dfs.c:58-88; `succ b` are the blocks of `foreach_block_succ`, the depth of the recursion is bounded by `fuel` -/
def perform (succ : Nat → List Nat) : Nat → Nat → Option Nat → Nat → Search → Search
  | 0, _, _, _, s => s
  | fuel + 1, b, anc, par, s =>
    let i := s.used
    let s := s.enter b anc par
    let s := (succ b).foldl (fun s c =>
      let s := if (s.num c).isSome then s else perform succ fuel c (some b) i s
      s.raise b c) s
    s.leave b

/-- `dfs_new`, ir/ana/dfs.c:132-173: the end block always has a number -/
def search (succ : Nat → List Nat) (n start stop : Nat) : Search :=
  let s := perform succ (n + 1) start none 0 Search.init
  if (s.num stop).isSome then s else (s.enter stop none 0).leave stop

/-- `dfs_edge_kind_t` -/
inductive EdgeKind
  | anc
  | back
  | fwd
  | cross
  deriving DecidableEq

/-- `_dfs_int_is_ancestor`, ir/ana/dfs_t.h:68; the fields of a node that is not visited are 0 -/
def Search.isAncestor (s : Search) (n m : Nat) : Bool :=
  decide ((s.num n).getD 0 ≤ (s.num m).getD 0) && decide ((s.num m).getD 0 ≤ s.maxPre n)

/-- `classify_edges`, ir/ana/dfs.c:97-114, for one edge -/
def Search.kind (s : Search) (src tgt : Nat) : EdgeKind :=
  if s.anc tgt = some src then .anc
  else if s.isAncestor tgt src then .back
  else if s.isAncestor src tgt then .fwd
  else .cross

/-! ## Sets -/

/-- `bitset_set` -/
def ins (s i : Nat) : Nat := s ||| 2 ^ i

/-- `bitset_clear` -/
def del (s i : Nat) : Nat := s ^^^ (s &&& 2 ^ i)

/-- `bitset_next_set` in a bitset of `n` bits: absent if there is none -/
def next (n s pos : Nat) : Option Nat := (List.range n).find? fun i => decide (pos ≤ i) && s.testBit i

/-! ## What the check needs -/

/-- the graph for the check: the blocks that follow, the result of the search as the kind of edges, the number of nodes (`dfs_get_n_nodes`), the nodes
in preorder and in postorder, and the numbers `get_Block_dom_tree_pre_num` and `get_Block_dom_max_subtree_pre_num` of blocks -/
structure Env where
  succ : Nat → List Nat
  back : Nat → Nat → Bool
  n : Nat
  pre : Nat → Nat
  order : Nat → Nat
  treePre : Nat → Nat
  treeMax : Nat → Nat

/-- `lv_chk_new`, ir/ana/irlivechk.c:191-202 -/
def env (succ : Nat → List Nat) (g : Cfg) : Env :=
  let s := search succ g.n g.start g.stop
  { succ, back := fun b c => decide (s.kind b c = .back), n := s.used, pre := s.block, order := s.order,
    treePre := fun b => (g.treeNum b).1.toNat, treeMax := fun b => (g.treeNum b).2.toNat }

/-- the field `id` with 31 bits, ir/ana/irlivechk.c:47 and 74 -/
def Env.id (e : Env) (b : Nat) : Nat := e.treePre b % 2 ^ 31

/-- the map from numbers to blocks, ir/ana/irlivechk.c:206-213 -/
def Env.map (e : Env) : Nat → Option Nat :=
  (List.range e.n).reverse.foldl (fun m i => set m (e.id (e.pre i)) (some (e.pre i))) fun _ => none

/-- the assertions on the map hold, ir/ana/irlivechk.c:210-211 -/
def Env.mapOk (e : Env) : Bool :=
  ((List.range e.n).reverse.foldl (fun (r : Bool × (Nat → Option Nat)) i =>
    (r.1 && decide (e.id (e.pre i) < e.n) && (r.2 (e.id (e.pre i))).isNone, set r.2 (e.id (e.pre i)) (some (e.pre i)))) (true, fun _ => none)).1

/-! ## The sets of blocks -/

/-- `red_reachable` of each block, `back_edge_src` and `back_edge_tgt` -/
structure Red where
  reach : Nat → Nat
  src : Nat
  tgt : Nat

/-- the body of the loop of `red_trans_closure`, ir/ana/irlivechk.c:96-117 -/
def Env.redBlock (e : Env) (r : Red) (b : Nat) : Red :=
  let r := { r with reach := set r.reach b (ins (r.reach b) (e.id b)) }
  (e.succ b).foldl (fun r c =>
    if e.back b c = false then { r with reach := set r.reach b (r.reach b ||| r.reach c) }
    else { r with src := ins r.src (e.id b), tgt := ins r.tgt (e.id c) }) r

/-- the blocks in postorder -/
def Env.blocks (e : Env) : List Nat := (List.range e.n).map e.order

/-- `red_trans_closure`, ir/ana/irlivechk.c:93-121 -/
def Env.red (e : Env) : Red := e.blocks.foldl e.redBlock ⟨fun _ => 0, 0, 0⟩

/-- `be_tgt_reach` and `be_tgt_calc` of each block -/
structure Chains where
  reach : Nat → Nat
  known : Nat → Bool

/-- `compute_back_edge_chain`, ir/ana/irlivechk.c:123-156; the depth of the recursion is bounded by `fuel` -/
def Env.chain (e : Env) (r : Red) : Nat → Nat → Chains → Chains
  | 0, _, t => t
  | fuel + 1, b, t =>
    let tmp := ins (r.reach b) (e.id b) &&& r.src
    let t := { t with known := set t.known b true }
    ((List.range e.n).filter tmp.testBit).foldl (fun t i =>
      match e.map i with
      | none => t
      | some s =>
        let t := (e.succ s).foldl (fun t c =>
          if e.back s c && !(r.reach b).testBit (e.id c) then
            let t := if t.known c then t else e.chain r fuel c t
            let t := { t with reach := set t.reach b (ins (t.reach b) (e.id c)) }
            { t with reach := set t.reach b (t.reach b ||| t.reach c) }
          else t) t
        { t with reach := set t.reach b (del (t.reach b) (e.id b)) }) t

/-- the chains of the sources, ir/ana/irlivechk.c:162-164 -/
def Env.sources (e : Env) (r : Red) : Chains :=
  ((List.range e.n).filter r.src.testBit).foldl (fun t i =>
    match e.map i with
    | none => t
    | some s => e.chain r (e.n + 1) s t) ⟨fun _ => 0, fun _ => false⟩

/-- the body of the second loop, ir/ana/irlivechk.c:167-181 -/
def Env.pass (e : Env) (r : Red) (t : Nat → Nat) (b : Nat) : Nat → Nat :=
  if r.tgt.testBit (e.id b) then t
  else (e.succ b).foldl (fun t c => if e.back b c = false then set t b (t b ||| t c) else t) t

/-- `compute_back_edge_chains`, ir/ana/irlivechk.c:159-189: the sets `be_tgt_reach` -/
def Env.targets (e : Env) (r : Red) : Nat → Nat :=
  let t := e.blocks.foldl (e.pass r) (e.sources r).reach
  e.blocks.foldl (fun t b => set t b (ins (t b) (e.id b))) t

/-- `lv_chk_t` -/
structure LvChk where
  red : Red
  tgt : Nat → Nat

/-- `lv_chk_new`, ir/ana/irlivechk.c:191-237 -/
def Env.new (e : Env) : LvChk := ⟨e.red, e.targets e.red⟩

/-! ## Questions -/

/-- a user that is a liveness node: whether it is a Phi, and the block of the use, for a Phi the block of the control flow predecessor, which may be
absent -/
structure Use where
  phi : Bool
  block : Option Nat

/-- the bits `lv_chk_state_in`, `lv_chk_state_end` and `lv_chk_state_out`, ir/ana/irlivechk.h:23-27 -/
structure State where
  inn : Bool
  end_ : Bool
  out : Bool
  deriving DecidableEq

/-- the uses in case of the block of the definition, ir/ana/irlivechk.c:272-295 -/
def sameBlock (d : Nat) : State → List Use → State
  | res, [] => res
  | res, u :: L =>
    let res := if u.phi = true ∧ u.block = some d then { res with end_ := true } else res
    if u.block ≠ some d then ⟨false, true, true⟩ else sameBlock d res L

/-- the uses in case of another block, ir/ana/irlivechk.c:313-346: the result so far and the set -/
def Env.uses (e : Env) (b : Nat) : State × Nat → List Use → State × Nat
  | r, [] => r
  | r, u :: L =>
    match u.block with
    | none => e.uses b r L
    | some c =>
      let res := if c = b then { r.1 with inn := true, end_ := r.1.end_ || u.phi } else r.1
      e.uses b (res, ins r.2 (e.id c)) L

/-- the loop over the points of view, ir/ana/irlivechk.c:367-415: whether a use can be seen; the number of rounds is bounded by `fuel` -/
def Env.look (e : Env) (lv : LvChk) (b maxDom : Nat) : Nat → Option Nat → Nat → Bool
  | 0, _, _ => false
  | _ + 1, none, _ => false
  | fuel + 1, some i, uses =>
    if maxDom < i then false
    else
      match e.map i with
      | none => false
      | some t =>
        let inBlock := uses.testBit (e.id t)
        let uses := if t = b ∧ lv.red.tgt.testBit (e.id t) = false then del uses (e.id t) else uses
        if lv.red.reach t &&& uses ≠ 0 then true
        else
          let uses := if inBlock then ins uses (e.id t) else uses
          e.look lv b maxDom fuel (next e.n (lv.tgt b) (e.treeMax t + 1)) uses

/-- `lv_chk_bl_xxx`, ir/ana/irlivechk.c:247-426, for a value defined in `d`; `dominates` is `block_dominates` -/
def Env.query (e : Env) (lv : LvChk) (dominates : Nat → Nat → Bool) (d : Nat) (users : List Use) (b : Nat) : State :=
  if dominates d b = false then ⟨false, false, false⟩
  else if d = b then sameBlock d ⟨false, false, false⟩ users
  else
    let r := e.uses b (⟨false, false, false⟩, 0) users
    if e.look lv b (e.treeMax d) (e.n + 1) (next e.n (lv.tgt b) (e.treePre d + 1)) r.2 then ⟨true, true, true⟩ else r.1

/-- the check for a graph -/
def live (succ : Nat → List Nat) (g : Cfg) (d : Nat) (users : List Use) (b : Nat) : State :=
  (env succ g).query (env succ g).new g.dominates d users b

end Verif.Model.LiveChk
