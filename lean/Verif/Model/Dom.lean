/-!
# Model of the computation of dominators (ir/ana/irdom.c, ir/ana/domfront.c)

Blocks are numbers. Entries `tmp_dom_info` are numbers too, as they are elements of one array (a comparison of pointers is a
comparison of numbers).
-/
namespace Verif.Model.Dom

/-- an array with one element changed -/
def set {α : Type} (f : Nat → α) (i : Nat) (x : α) : Nat → α := fun j => if j = i then x else f j

/-- the blocks of a graph with the numbers below `n`. `outs` are the blocks that follow in the order of the users of a block, `none` stands for
the End node that keeps the block alive; `ins` are the blocks of the control flow predecessors, `none` stands for a Bad; `keep` are the blocks that
are kept alive -/
structure Cfg where
  n : Nat
  start : Nat
  stop : Nat
  outs : Nat → List (Option Nat)
  ins : Nat → List (Option Nat)
  keep : List Nat

/-- `get_Block_cfg_out_ka`, ir/ana/irouts.c:110-140, for all positions: the end block follows the blocks that are kept alive -/
def Cfg.succ (g : Cfg) (b : Nat) : List Nat :=
  (g.outs b).filterMap fun
    | some c => some c
    | none => if b = g.stop then none else some g.stop

/-- the predecessors in the order of ir/ana/irdom.c:531-554: those that are kept alive follow for the end block -/
def Cfg.pred (g : Cfg) (b : Nat) : List (Option Nat) := g.ins b ++ if b = g.stop then g.keep.map some else []

/-! ## The depth first search -/

/-- the numbers of blocks, the blocks and parents of entries, and the number of entries -/
structure Dfs where
  num : Nat → Option Nat
  block : Nat → Nat
  parent : Nat → Nat
  used : Nat

/-- `init_tmp_dom_info`, ir/ana/irdom.c:377-408; the depth of the recursion is bounded by `fuel`. The successors are visited from the last to
the first. The parent of the first entry is NULL in the code and never read, here it is 0. -/
def visit (succ : Nat → List Nat) : Nat → Nat → Nat → Dfs → Dfs
  | 0, _, _, s => s
  | fuel + 1, b, par, s =>
    if (s.num b).isSome then s
    else
      let i := s.used
      let s := { num := set s.num b (some i), block := set s.block i b, parent := set s.parent i par, used := i + 1 : Dfs }
      (succ b).reverse.foldl (fun s c => visit succ fuel c i s) s

/-- nothing is visited -/
def Dfs.init : Dfs := ⟨fun _ => none, fun _ => 0, fun _ => 0, 0⟩

/-! ## The entries -/

/-- the fields of `tmp_dom_info`, ir/ana/irdom.c:354-371 -/
structure Tdi where
  semi : Nat → Nat
  label : Nat → Nat
  ancestor : Nat → Option Nat
  dom : Nat → Option Nat
  bucket : Nat → Option Nat

def Tdi.init : Tdi := ⟨id, id, fun _ => none, fun _ => none, fun _ => none⟩

/-- `dom_compress`, ir/ana/irdom.c:456-466 -/
def compress : Nat → Nat → Tdi → Tdi
  | 0, _, t => t
  | fuel + 1, v, t =>
    match t.ancestor v with
    | none => t
    | some a =>
      match t.ancestor a with
      | none => t
      | some _ =>
        let t := compress fuel a t
        let t := if t.semi (t.label a) < t.semi (t.label v) then { t with label := set t.label v (t.label a) } else t
        { t with ancestor := set t.ancestor v (t.ancestor a) }

/-- `dom_eval`, ir/ana/irdom.c:472-478 -/
def eval (v : Nat) (t : Tdi) : Nat × Tdi :=
  match t.ancestor v with
  | none => (v, t)
  | some _ => let t := compress (v + 1) v t; (t.label v, t)

/-- one predecessor in step 2, ir/ana/irdom.c:539-541; `u` is its number -/
def step2 (w : Nat) (t : Tdi) (u : Nat) : Tdi :=
  let r := eval u t
  if r.2.semi r.1 < r.2.semi w then { r.2 with semi := set r.2.semi w (r.2.semi r.1) } else r.2

/-- step 3, ir/ana/irdom.c:563-575; `p` is the parent -/
def step3 : Nat → Nat → Tdi → Tdi
  | 0, _, t => t
  | fuel + 1, p, t =>
    match t.bucket p with
    | none => t
    | some v =>
      let t := { t with bucket := set t.bucket p (t.bucket v) }
      let t := { t with bucket := set t.bucket v none }
      let r := eval v t
      let t := r.2
      let t := { t with dom := set t.dom v (some (if t.semi r.1 < t.semi v then r.1 else p)) }
      step3 fuel p t

/-- the body of the loop, ir/ana/irdom.c:527-576; `preds` are the numbers of the predecessors that are reachable, `n` the number of entries -/
def process (n : Nat) (parent : Nat → Nat) (preds : Nat → List Nat) (t : Tdi) (w : Nat) : Tdi :=
  let t := (preds w).foldl (step2 w) t
  let s := t.semi w
  let t := { t with bucket := set t.bucket w (t.bucket s) }
  let t := { t with bucket := set t.bucket s (some w) }
  let t := { t with ancestor := set t.ancestor w (some (parent w)) }
  step3 n (parent w) t

/-- the entries `i`, ..., 1 -/
def loop (n : Nat) (parent : Nat → Nat) (preds : Nat → List Nat) : Nat → Tdi → Tdi
  | 0, t => t
  | i + 1, t => loop n parent preds i (process n parent preds t (i + 1))

/-- the body of step 4, ir/ana/irdom.c:581-589, without the depth -/
def step4 (semi : Nat → Nat) (dom : Nat → Option Nat) (w : Nat) : Nat → Option Nat :=
  match dom w with
  | none => dom
  | some d => if d ≠ semi w then set dom w (dom d) else dom

/-- the numbers of the immediate dominators of the entries, and the depths: 0 stands for -1 -/
def idoms (n : Nat) (parent : Nat → Nat) (preds : Nat → List Nat) : Nat → Option Nat :=
  let t := loop n parent preds (n - 1) Tdi.init
  ((List.range (n - 1)).map (· + 1)).foldl (step4 t.semi) (set t.dom 0 none)

/-- the depth of an entry, in the order of the entries, ir/ana/irdom.c:580, 590-594 -/
def depths (n : Nat) (dom : Nat → Option Nat) : Nat → Int :=
  ((List.range (n - 1)).map (· + 1)).foldl
    (fun d w => match dom w with
      | none => d
      | some p => set d w (if d p > 0 then d p + 1 else d p))
    (set (fun _ => -1) 0 1)

/-- the first part of `compute_doms`, ir/ana/irdom.c:511-525 -/
def Cfg.dfs (g : Cfg) : Dfs := visit g.succ (g.n + 1) g.start 0 Dfs.init

/-- the numbers of the predecessors of an entry that are not skipped, ir/ana/irdom.c:531-554 -/
def Cfg.preds (g : Cfg) (d : Dfs) (w : Nat) : List Nat :=
  (g.pred (d.block w)).filterMap fun
    | none => none
    | some b => d.num b

/-- the entries of the immediate dominators, `compute_doms` -/
def Cfg.doms (g : Cfg) : Nat → Option Nat := idoms g.dfs.used g.dfs.parent (g.preds g.dfs)

/-- `get_Block_idom`, ir/ana/irdom.c:49-58, after `compute_doms`, ir/ana/irdom.c:500-606: absent for the start block (NULL) and for blocks that
are not reachable (Bad) -/
def Cfg.idom (g : Cfg) (b : Nat) : Option Nat :=
  match g.dfs.num b with
  | none => none
  | some i => (g.doms i).map g.dfs.block

/-- `get_Block_dom_depth`, ir/ana/irdom.c:109-112 -/
def Cfg.depth (g : Cfg) (b : Nat) : Int :=
  match g.dfs.num b with
  | none => -1
  | some i => depths g.dfs.used g.doms i

/-! ## The tree -/

/-- the fields `tree_pre_num` and `max_subtree_pre_num`, and the counter -/
structure Walk where
  pre : Nat → Nat
  max : Nat → Nat
  num : Nat

/-- the list of the blocks with an immediate dominator: `set_Block_idom`, ir/ana/irdom.c:60-74, puts each in front, in the order of step 4 -/
def children (n : Nat) (dom : Nat → Option Nat) (b : Nat) : List Nat :=
  (((List.range (n - 1)).map (· + 1)).filter fun w => dom w == some b).reverse

/-- `dom_tree_walk`, ir/ana/irdom.c:234-248, with `assign_tree_dom_pre_order` and `assign_tree_dom_pre_order_max`, ir/ana/irdom.c:289-312; the depth of the
recursion is bounded by `fuel` -/
def walk (kids : Nat → List Nat) : Nat → Nat → Walk → Walk
  | 0, _, t => t
  | fuel + 1, b, t =>
    let t := { t with pre := set t.pre b t.num, num := t.num + 1 }
    let t := (kids b).foldl (fun t c => walk kids fuel c t) t
    { t with max := set t.max b (if kids b = [] then t.pre b else (kids b).foldl (fun m c => Nat.max m (t.max c)) 0) }

/-- the numbers of the entries, ir/ana/irdom.c:602-605 -/
def treeNums (n : Nat) (dom : Nat → Option Nat) : Walk := walk (children n dom) n 0 ⟨fun _ => 0, fun _ => 0, 0⟩

/-- the fields of a block; they are 0 for blocks that are not reachable, ir/ana/irdom.c:489-498 -/
def Cfg.treeNum (g : Cfg) (b : Nat) : BitVec 32 × BitVec 32 :=
  match g.dfs.num b with
  | none => (0, 0)
  | some i =>
    let t := treeNums g.dfs.used g.doms
    (BitVec.ofNat 32 (t.pre i), BitVec.ofNat 32 (t.max i))

/-- the comparison of `block_dominates`, ir/ana/irdom.c:164-165, with unsigned numbers -/
def inSubtree (a b : BitVec 32 × BitVec 32) : Bool := decide (b.1 - a.1 ≤ a.2 - a.1)

/-- `block_dominates`, ir/ana/irdom.c:159-166 -/
def Cfg.dominates (g : Cfg) (a b : Nat) : Bool := inSubtree (g.treeNum a) (g.treeNum b)

/-- the loop of `ir_deepest_common_dominator`, ir/ana/irdom.c:187-192; absent if it takes more than `fuel` steps or reaches NULL -/
def Cfg.climb (g : Cfg) (b1 : Nat) : Nat → Nat → Option Nat
  | 0, _ => none
  | fuel + 1, b0 =>
    if g.dominates b0 b1 then some b0
    else
      match g.idom b0 with
      | none => none
      | some d => climb g b1 fuel d

/-- `ir_deepest_common_dominator`, ir/ana/irdom.c:168-193 -/
def Cfg.deepestCommonDominator (g : Cfg) (b0 b1 : Nat) : Option Nat :=
  if b0 = b1 then some b0
  else if g.depth b1 > g.depth b0 then g.climb b0 (g.n + 1) b1
  else g.climb b1 (g.n + 1) b0

/-! ## Dominance frontiers -/

/-- `get_idom`, ir/ana/domfront.c:26-30 -/
def Cfg.idomOrSelf (g : Cfg) (b : Nat) : Nat := (g.idom b).getD b

/-- `compute_df`, ir/ana/domfront.c:39-74, where `foreach_block_succ` does not lead to End; the lists of the blocks below are computed anew instead of
read from the map; the depth of the recursion is bounded by `fuel` -/
def Cfg.df (g : Cfg) : Nat → Nat → List Nat
  | 0, _ => []
  | fuel + 1, b =>
    let locals := ((g.outs b).filterMap id).filter fun y => g.idomOrSelf y ≠ b
    let kids := match g.dfs.num b with
      | none => []
      | some i => (children g.dfs.used g.doms i).map g.dfs.block
    kids.foldl (fun l c => l ++ ((df g fuel c).reverse.filter fun w => g.idomOrSelf w ≠ b)) locals

/-- `ir_get_dominance_frontier`, ir/ana/domfront.c:103-108 -/
def Cfg.frontier (g : Cfg) (b : Nat) : List Nat := g.df (g.n + 1) b

/-! ## Postdominators -/

/-- the control flow predecessors of a block without Bads -/
def Cfg.cfgPreds (g : Cfg) (b : Nat) : List Nat := (g.ins b).filterMap id

/-- the search from the end block, `init_tmp_pdom_info`, ir/ana/irdom.c:414-454, before the blocks that are kept alive -/
def Cfg.pdfsReach (g : Cfg) : Dfs := visit g.cfgPreds (g.n + 1) g.stop 0 Dfs.init

/-- the search with the blocks that are kept alive, ir/ana/irdom.c:443-453. It is part of the visit of the end block, which is visited first, so it
comes after everything that is found through control flow. The entries after those have `unreachable` set. -/
def Cfg.pdfs (g : Cfg) : Dfs := g.keep.reverse.foldl (fun s k => visit g.cfgPreds (g.n + 1) k 0 s) g.pdfsReach

/-- the successors of an entry in step 2 of `compute_postdoms`, ir/ana/irdom.c:649-665; the number of a successor is absent if it is -1 -/
def Cfg.psuccs (g : Cfg) (w : Nat) : List (Option Nat) :=
  (g.outs (g.pdfs.block w)).filterMap fun
    | some c => some (g.pdfs.num c)
    | none => if g.pdfsReach.used ≤ w ∧ g.stop ≠ g.pdfs.block w then some (g.pdfs.num g.stop) else none

/-- `update_pdom_semi` asserts that each successor has a number, ir/ana/irdom.c:613 -/
def Cfg.pdomDefined (g : Cfg) : Bool := (List.range g.pdfs.used).all fun w => w == 0 || (g.psuccs w).all Option.isSome

/-- the entries of the immediate postdominators, `compute_postdoms`, ir/ana/irdom.c:620-710 -/
def Cfg.pdoms (g : Cfg) : Nat → Option Nat := idoms g.pdfs.used g.pdfs.parent fun w => (g.psuccs w).filterMap id

/-- `get_Block_ipostdom`, ir/ana/irdom.c:76-81: absent for the end block and for blocks without a number -/
def Cfg.ipostdom (g : Cfg) (b : Nat) : Option Nat :=
  match g.pdfs.num b with
  | none => none
  | some i => (g.pdoms i).map g.pdfs.block

/-- the fields of a block -/
def Cfg.ptreeNum (g : Cfg) (b : Nat) : BitVec 32 × BitVec 32 :=
  match g.pdfs.num b with
  | none => (0, 0)
  | some i =>
    let t := treeNums g.pdfs.used g.pdoms
    (BitVec.ofNat 32 (t.pre i), BitVec.ofNat 32 (t.max i))

/-- `block_postdominates`, ir/ana/irdom.c:207-214 -/
def Cfg.postdominates (g : Cfg) (a b : Nat) : Bool := inSubtree (g.ptreeNum a) (g.ptreeNum b)

end Verif.Model.Dom
