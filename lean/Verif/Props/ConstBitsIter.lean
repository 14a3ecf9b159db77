import Verif.Lemmas.ConstBitsIter
import Verif.Props.ConstBitsGraph
/-!
# C75: the iteration of the known-bits analysis
-/
namespace Verif.Props
open Verif.Spec Verif.Model Verif.Model.IrOpt Verif.Model.ConstBits

variable {G : SsaGraph} {last c : Nat} {K : List Key} {hist : List State}

/-- all operations of the graph are regular (see `constbits_expr_partial`), and no Confirm node says that its value is equal to another one -/
def GraphPlain (G : SsaGraph) : Prop := ∀ m n e, G.node m n = .op e → e.WellFormed ∧ regular e = true ∧ noConfirmEq e = true

/-- the assertions of `set_bitinfo`, ir/ana/constbits.c:132-135, for the old and the new state of a node -/
def Ascending {w : Nat} (old new : BitInfo w) : Prop := old.z &&& ~~~new.z = 0#w ∧ new.o &&& ~~~old.o = 0#w

theorem ascending_iff {w : Nat} {a b : BitInfo w} : Ascending a b ↔ a.Le b := by
  have key : ∀ x y : BitVec w, x &&& ~~~y = 0#w ↔ ∀ i < w, x.getLsbD i = true → y.getLsbD i = true := by
    intro x y
    constructor
    · intro h i hi hx
      have := congrArg (fun v => v.getLsbD i) h
      simpa [hi, hx] using this
    · intro h
      apply getLsbD_ext; intro i hi
      have := h i hi
      cases hx : x.getLsbD i <;> simp_all
  unfold Ascending BitInfo.Le
  rw [key, key]
  exact ⟨fun h i hi => ⟨h.1 i hi, h.2 i hi⟩, fun h => ⟨fun i hi => (h i hi).1, fun i hi => (h i hi).2⟩⟩

/-- C75: the assertions of `set_bitinfo` hold in every run, whatever the order in which the nodes are calculated.  Missing from the full
statement: operations that are not regular, and Confirm nodes with the relation "equal"; the assertions can fail for both, see
`constbits_confirm_descends` and `constbits_shrs_descends`. -/
theorem constbits_ascending_partial (hG : GraphPlain G) {s s' : State} (h : Run G last K c (s' :: s :: hist)) (k : Key) :
    Ascending (s.at k) (s'.at k) :=
  ascending_iff.2 ((List.pairwise_cons.1 (run_inv hG h).sorted).1 s List.mem_cons_self k)

/-- the states are changed at most twice per bit, so an analysis that goes on as long as something changes ends -/
theorem constbits_changes_partial (hG : GraphPlain G) (h : Run G last K c hist) : c ≤ (K.map fun k => 2 * k.w).sum := by
  obtain ⟨s, tl, -, hc⟩ := run_count hG h
  exact Nat.le_trans hc (total_le K s)

/-- a run never says less than any state that does not change any more: what is known in `f` is known in `s` -/
theorem constbits_least_partial (hG : GraphPlain G) (h : Run G last K c hist) {s f : State} (hs : s ∈ hist) (hf : Fixpoint G last f) (k : Key) :
    Ascending (s.at k) (f.at k) :=
  ascending_iff.2 (run_le_fixpoint hG h hf s hs k)

/-- the result does not depend on the order in which the nodes were calculated -/
theorem constbits_order_partial (hG : GraphPlain G) {K' : List Key} {c' : Nat} {hist' : List State} {s s' : State} (h : Run G last K c (s :: hist))
    (h' : Run G last K' c' (s' :: hist')) (hf : Fixpoint G last s) (hf' : Fixpoint G last s') (k : Key) : s.at k = s'.at k :=
  le_antisymm (run_le_fixpoint hG h hf' s List.mem_cons_self k) (run_le_fixpoint hG h' hf s' List.mem_cons_self k)

/-- at no time must a bit be one and zero at once, except for nodes that were not calculated yet or are undefined -/
theorem constbits_consistent_partial (hG : GraphPlain G) (h : Run G last K c hist) {s : State} (hs : s ∈ hist) (k : Key) :
    s.at k = BitInfo.undefined k.w ∨ (s.at k).o &&& ~~~(s.at k).z = 0#k.w := by
  rcases (run_inv hG h).good s hs k with h | h
  · exact Or.inl h
  · refine Or.inr ?_
    apply getLsbD_ext; intro i hi
    have := h i hi
    cases hx : (s.at k).o.getLsbD i <;> simp_all

/-! ## Examples -/

/-- `e` uses the node 0, which is `Phi(a, b)`; both edges come from the start block -/
def joinGraph (a b : BitVec 8) (e : Expr mBu) : SsaGraph where
  node
    | ⟨false, 8, 32⟩, 0 => .phi [2, 3]
    | ⟨false, 8, 32⟩, 1 => .op e
    | ⟨false, 8, 32⟩, 2 => .op (.const a)
    | ⟨false, 8, 32⟩, 3 => .op (.const b)
    | _, _ => .input
  blockOf
    | ⟨false, 8, 32⟩, 0 => 1
    | ⟨false, 8, 32⟩, 1 => 1
    | _, _ => 0
  preds
    | 1 => [0, 1]
    | _ => []
  xdef
    | 0 => .jmp
    | 1 => .other
    | _ => .bad
  xblock _ := 0
  start := 0

/-- an order in which the nodes of `joinGraph` may be calculated -/
def joinOrder : List Key :=
  [.block 0, .x 0, .data mBu 2, .data mBu 3, .data mBu 0, .data mBu 1, .x 1, .data mBu 0]

/-- the state after calculating the nodes `ks` one after the other -/
def runState (G : SsaGraph) (last : Nat) (s : State) : List Key → State
  | [] => s
  | k :: ks => runState G last (s.set k (transfer G last s k)) ks

theorem run_of_keys {s : State} (h : Run G last K c (s :: hist)) : ∀ ks : List Key, (∀ k ∈ ks, k ∈ K) →
    ∃ c' hist', Run G last K c' (runState G last s ks :: hist') := by
  intro ks
  induction ks generalizing s c hist with
  | nil => exact fun _ => ⟨_, _, h⟩
  | cons k ks ih =>
    intro hk
    obtain ⟨c', h'⟩ := h.sync (hk k List.mem_cons_self)
    exact ih h' fun j hj => hk j (List.mem_cons_of_mem _ hj)

/-- a state that `transfer` does not reach any more by an ascending step -/
theorem descends {a b : BitVec 8} {e : Expr mBu}
    (h : ¬ Ascending ((runState (joinGraph a b e) 2 .bottom joinOrder).at (.data mBu 1))
      (transfer (joinGraph a b e) 2 (runState (joinGraph a b e) 2 .bottom joinOrder) (.data mBu 1))) :
    ∃ c hist s s', Run (joinGraph a b e) 2 (.data mBu 1 :: joinOrder) c (s' :: s :: hist) ∧ ¬ Ascending (s.at (.data mBu 1)) (s'.at (.data mBu 1)) := by
  obtain ⟨c, hist, hr⟩ := run_of_keys (G := joinGraph a b e) (last := 2) (K := .data mBu 1 :: joinOrder) .start joinOrder
    (fun k hk => List.mem_cons_of_mem _ hk)
  obtain ⟨c', hr'⟩ := hr.sync (k := .data mBu 1) List.mem_cons_self
  refine ⟨c', _, _, _, hr', ?_⟩
  rw [at_set_self]
  exact h

/-- The assertions fail for Confirm nodes: with `x = Phi(3, 5)` and `y = Confirm(x, ==, 5) + 1`, the first state of `y`, for `x = 3`, is
computed from bits that contradict each other. -/
theorem constbits_confirm_descends : ∃ c hist s s',
    Run (joinGraph 3#8 5#8 (.add (.confirm (.leaf mBu 0) Rel.equal (.const 5#8)) (.const 1#8))) 2 (.data mBu 1 :: joinOrder) c (s' :: s :: hist) ∧
      ¬ Ascending (s.at (.data mBu 1)) (s'.at (.data mBu 1)) :=
  descends (by unfold Ascending; decide +kernel)

/-- The assertions fail for arithmetic shifts: with `x = Phi(8, 9)` and `y = 0x80 >>s x` in an 8-bit mode whose shift counts are taken
modulo 32, the first state of `y` is 0xff, the second one is 0 (see C27). -/
theorem constbits_shrs_descends : ∃ c hist s s',
    Run (joinGraph 8#8 9#8 (.shrs (.const 0x80#8) (.leaf mBu 0))) 2 (.data mBu 1 :: joinOrder) c (s' :: s :: hist) ∧
      ¬ Ascending (s.at (.data mBu 1)) (s'.at (.data mBu 1)) :=
  descends (by unfold Ascending; decide +kernel)

/-- the graph of the loop (`loopGraph`) meets the hypotheses -/
theorem loop_plain : GraphPlain loopGraph := by
  intro m n e h
  refine ⟨?_, loop_regular.op m n e h, ?_⟩
  all_goals
    by_cases h1 : m = mBu
    · subst h1
      match n with
      | 0 => cases h
      | 1 => cases h; first | decide | exact ⟨mBu_valid, mBu_valid⟩
      | 2 => cases h; first | decide | exact mBu_valid
      | n + 3 => cases h
    by_cases h2 : m = bmode
    · subst h2
      match n with
      | 0 => cases h; first | decide | exact ⟨⟨mBu_valid, mBu_valid⟩, mBu_valid⟩
      | n + 1 => cases h
    have e1 : loopGraph.node m n = .input := by
      unfold loopGraph
      simp only
      split <;> first | rfl | exact absurd rfl h1 | exact absurd rfl h2
    rw [e1] at h; cases h

/-- the nodes of the loop, and an order in which they may be calculated -/
def loopKeys : List Key := [.block 0, .x 0, .block 1, .data mBu 2, .data mBu 0, .data mBu 1, .data bmode 0, .x 2]
def loopOrder : List Key := loopKeys ++ (List.replicate 8 [Key.data mBu 0, Key.data mBu 1]).flatten

/-- a run for the loop, at whose end `i` is known to be even -/
example : (∃ c hist, Run loopGraph 3 loopKeys c (runState loopGraph 3 .bottom loopOrder :: hist)) ∧
    (runState loopGraph 3 .bottom loopOrder).data mBu 0 = ⟨0xfe#8, 0#8⟩ :=
  ⟨run_of_keys .start loopOrder (by decide), by decide +kernel⟩

end Verif.Props
