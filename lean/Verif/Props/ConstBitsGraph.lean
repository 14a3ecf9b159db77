import Verif.Model.ConstBitsGraph
import Verif.Lemmas.ConstBitsExpr
import Verif.Props.IrOptValue
/-!
# C74: the known bits of the nodes of a graph with control flow
-/
namespace Verif.Props
open Verif.Spec Verif.Model Verif.Model.IrOpt Verif.Model.ConstBits

variable {G : SsaGraph} {last : Nat} {s : State}

/-- all operations of the graph are among those for which the bits are right (see `constbits_expr_partial`), and the selectors of Switch
nodes have valid modes -/
structure GraphRegular (G : SsaGraph) : Prop where
  op : ∀ m n e, G.node m n = .op e → regular e = true
  switch : ∀ x k sel, G.xdef x = .switch k sel → k.Valid

/-- a taken edge is not marked as unreachable -/
private theorem takes_x {b x : Nat} {ρ : PEnv} (hf : Fixpoint G last s) (hb : (s.block b).z = 1#1)
    (hρ : ∀ m n v, ρ m n = some v → (s.data m n).Desc v) (hx : G.xblock x = b) (ht : G.Takes ρ x)
    (hr : GraphRegular G) : (s.x x).z = 1#1 := by
  rw [hf.x, transferX, hx, if_neg (by rw [hb]; decide)]
  unfold SsaGraph.Takes at ht
  split
  · next h => rw [h] at ht; exact ht.elim
  · next sel num h =>
    rw [h] at ht
    obtain ⟨v, hv, hn⟩ := ht
    have hd := hρ _ _ _ hv
    rw [if_neg (fun hu => not_describes_undefined (by decide) hu _ hd)]
    split
    · next he =>
      rw [if_pos]
      have : v = (s.data bmode sel).z := by
        unfold BitInfo.Desc at hd
        rw [← he] at hd
        exact describes_eq hd
      rw [← this]
      cases num
      · simpa using hn
      · simpa using hn
    · rfl
  · next k sel h =>
    have hp := (hr.switch _ _ _ h).1
    rw [h] at ht
    obtain ⟨v, hv⟩ := ht
    rw [if_neg (fun hu => not_describes_undefined hp hu _ (hρ _ _ _ hv))]
  · rfl
  · rfl

/-- the values computed on entering a block are described -/
private theorem computes_desc {b : Nat} {i : Option Nat} {opq : Env} {ρ : PEnv} (hf : Fixpoint G last s) (hr : GraphRegular G)
    (hρ : ∀ m n v, ρ m n = some v → (s.data m n).Desc v) (hi : ∀ j, i = some j → ∃ x, (G.preds b)[j]? = some x ∧ (s.x x).z = 1#1)
    {m : IMode} {n : Nat} {v : BitVec m.bits} (h : G.Computes ρ opq b i m n v) : (s.data m n).Desc v := by
  induction h with
  | keep _ h => exact hρ _ _ _ h
  | input _ h =>
    rw [hf.data, transferData, h]
    exact describes_unknown _
  | @phi m n j a args v hb h hj ha hv =>
    obtain ⟨x, hx, hz⟩ := hi j hj
    rw [hf.data, transferData, h]
    have h1 : ((((G.preds (G.blockOf m n)).zip args).map fun p => (decide ((s.x p.1).z ≠ 0#1), s.data m p.2)) : List (Bool × BitInfo m.bits))[j]?
        = some (true, s.data m a) := by
      rw [hb, List.getElem?_map, List.getElem?_zip_eq_some (z := (x, a)) |>.2 ⟨hx, ha⟩]
      simp only [Option.map_some, hz]
      rfl
    have h2 := constbits_phi _ j h1 (x := m.num v) (by unfold Knows; rw [bv_of_num]; exact hρ _ _ _ hv)
    unfold Knows at h2
    rw [bv_of_num] at h2
    exact h2
  | @op m n e env hb h hu hok ih =>
    rw [hf.data, transferData, h]
    exact bitsWith_sound e ih hok (hr.op _ _ _ h)

/-- C74: in every state an execution can reach, the block control is in is marked as reachable and the bits of every data node that has a
value describe this value, if the analysis ended with a state that does not change any more.  Missing from the full statement: operations
that are not regular (see C72). -/
theorem constbits_graph_partial (hf : Fixpoint G last s) (hr : GraphRegular G) {b : Nat} {ρ : PEnv} (h : G.Reaches b ρ) :
    (s.block b).z = 1#1 ∧ ∀ m n v, ρ m n = some v → Describes (s.data m n).z (s.data m n).o v := by
  induction h with
  | start h =>
    refine ⟨?_, fun m n v hv => computes_desc hf hr (fun _ _ _ h => by cases h) (fun _ h => by cases h) (h m n v hv)⟩
    rw [hf.block, transferBlock]
    simp
  | @step b b' x i opq ρ ρ' _ hx ht hi h ih =>
    have hz := takes_x hf ih.1 ih.2 hx ht hr
    refine ⟨?_, fun m n v hv => computes_desc hf hr ih.2 (fun j hj => ?_) (h m n v hv)⟩
    · rw [hf.block, transferBlock, if_pos]
      simp only [Bool.or_eq_true, List.any_eq_true, decide_eq_true_eq]
      exact Or.inl (Or.inl ⟨x, List.mem_of_getElem? hi, hz⟩)
    · cases hj
      exact ⟨x, hi, hz⟩

/-- a block that is marked as unreachable is never entered, and a jump that is marked as unreachable is never taken -/
theorem constbits_unreachable_partial (hf : Fixpoint G last s) (hr : GraphRegular G) :
    (∀ b, (s.block b).z = 0#1 → ¬ ∃ ρ, G.Reaches b ρ) ∧
      ∀ x, (s.x x).z = 0#1 → ¬ ∃ ρ, G.Reaches (G.xblock x) ρ ∧ G.Takes ρ x := by
  refine ⟨fun b h ⟨ρ, hρ⟩ => ?_, fun x h ⟨ρ, hρ, ht⟩ => ?_⟩
  · rw [(constbits_graph_partial hf hr hρ).1] at h; exact absurd h (by decide)
  · have := constbits_graph_partial hf hr hρ
    rw [takes_x hf this.1 this.2 rfl ht hr] at h
    exact absurd h (by decide)

/-- a jump that is marked as certainly taken is the only one of its Cond that is taken -/
theorem constbits_cond_partial (hf : Fixpoint G last s) (hr : GraphRegular G) {x y sel : Nat} {num : Bool} (hx : G.xdef x = .cond sel num)
    (hy : G.xdef y = .cond sel (!num)) (hb : G.xblock y = G.xblock x) (h : (s.x x).o = 1#1) : ¬ ∃ ρ, G.Reaches (G.xblock y) ρ ∧ G.Takes ρ y := by
  rintro ⟨ρ, hρ, ht⟩
  have h1 := constbits_graph_partial hf hr hρ
  rw [hf.x, transferX, if_neg (by rw [← hb, h1.1]; decide), hx] at h
  unfold SsaGraph.Takes at ht
  rw [hy] at ht
  obtain ⟨v, hv, hn⟩ := ht
  have hd : BitInfo.Desc _ _ := h1.2 _ _ _ hv
  simp only at h
  rw [if_neg (fun hu => not_describes_undefined (by decide) hu _ hd)] at h
  split at h
  · next he =>
    have : v = (s.data bmode sel).z := by
      unfold BitInfo.Desc at hd
      rw [← he] at hd
      exact describes_eq hd
    rw [← this] at h
    split at h
    · next hq => subst hq; by_cases hv1 : v = 1#1 <;> simp [hv1] at hn
    · exact absurd h (by decide)
  · exact absurd h (by decide)

/-! ## A loop

`i = Phi(0, i + 2)` in block 1; the loop ends in block 2 when `i & 1` is 1, which never happens. -/

/-- blocks: 0 start, 1 loop, 2 exit; jumps: 0 into the loop, 1 out of the loop, 2 back; nodes: `i` is number 0, `i + 2` number 1 of mode
`Bu`, the test is number 0 of the boolean mode -/
def loopGraph : SsaGraph where
  node
    | ⟨false, 8, 32⟩, 0 => .phi [2, 1]
    | ⟨false, 8, 32⟩, 1 => .op (.add (.leaf mBu 0) (.const 2#8))
    | ⟨false, 8, 32⟩, 2 => .op (.const 0#8)
    | ⟨false, 1, 0⟩, 0 => .op (.cmp Rel.equal (.and (.leaf mBu 0) (.const 1#8)) (.const 1#8))
    | _, _ => .input
  blockOf
    | ⟨false, 8, 32⟩, 2 => 0
    | _, _ => 1
  preds
    | 1 => [0, 2]
    | 2 => [1]
    | _ => []
  xdef
    | 0 => .jmp
    | 1 => .cond 0 true
    | 2 => .cond 0 false
    | _ => .bad
  xblock
    | 0 => 0
    | _ => 1
  start := 0

/-- the bits the analysis finds: `i` is even -/
def loopState : State where
  data
    | ⟨false, 8, 32⟩, 0 => ⟨0xfe#8, 0#8⟩
    | ⟨false, 8, 32⟩, 1 => ⟨0xfe#8, 0#8⟩
    | ⟨false, 8, 32⟩, 2 => ⟨0#8, 0#8⟩
    | ⟨false, 1, 0⟩, 0 => ⟨0#1, 0#1⟩
    | m, _ => BitInfo.unknown m.bits
  block
    | 0 => maybe
    | 1 => maybe
    | 3 => maybe
    | _ => unreachable
  x
    | 0 => maybe
    | 1 => ⟨0#1, 0#1⟩
    | 2 => ⟨1#1, 1#1⟩
    | _ => unreachable

theorem loop_fixpoint : Fixpoint loopGraph 3 loopState where
  x x := by
    match x with
    | 0 => decide +kernel
    | 1 => decide +kernel
    | 2 => decide +kernel
    | n + 3 => rfl
  block b := by
    match b with
    | 0 => decide +kernel
    | 1 => decide +kernel
    | 2 => decide +kernel
    | 3 => decide +kernel
    | n + 4 => rfl
  data m n := by
    by_cases h1 : m = mBu
    · subst h1
      match n with
      | 0 => decide +kernel
      | 1 => decide +kernel
      | 2 => decide +kernel
      | n + 3 => rfl
    by_cases h2 : m = bmode
    · subst h2
      match n with
      | 0 => decide +kernel
      | n + 1 => rfl
    have e1 : loopGraph.node m n = .input := by
      unfold loopGraph
      simp only
      split <;> first | rfl | exact absurd rfl h1 | exact absurd rfl h2
    have e2 : loopState.data m n = BitInfo.unknown m.bits := by
      unfold loopState
      simp only
      split <;> first | rfl | exact absurd rfl h1 | exact absurd rfl h2
    rw [e2, transferData, e1]

theorem loop_regular : GraphRegular loopGraph where
  op m n e h := by
    by_cases h1 : m = mBu
    · subst h1
      match n with
      | 0 => cases h
      | 1 => cases h; decide
      | 2 => cases h; decide
      | n + 3 => cases h
    by_cases h2 : m = bmode
    · subst h2
      match n with
      | 0 => cases h; decide
      | n + 1 => cases h
    have e1 : loopGraph.node m n = .input := by
      unfold loopGraph
      simp only
      split <;> first | rfl | exact absurd rfl h1 | exact absurd rfl h2
    rw [e1] at h; cases h
  switch x k sel h := by
    match x with
    | 0 => cases h
    | 1 => cases h
    | 2 => cases h
    | n + 3 => cases h

/-- the loop is never left -/
example : ¬ ∃ ρ, loopGraph.Reaches 2 ρ := (constbits_unreachable_partial loop_fixpoint loop_regular).1 2 (by decide)

/-- and it is entered: there the value of `i` is 0 -/
example : ∃ ρ : PEnv, ρ mBu 0 = some 0#8 ∧ loopGraph.Reaches 1 ρ := by
  let ρ0 : PEnv := fun m n => if m = mBu ∧ n = 2 then some 0 else none
  let ρ1 : PEnv := fun m n => if m = mBu ∧ n = 0 then some 0 else none
  refine ⟨ρ1, by decide, ?_⟩
  refine .step (b := 0) (x := 0) (i := 0) (opq := fun _ _ => 0) (ρ := ρ0) (.start (opq := fun _ _ => 0) ?_) rfl trivial rfl ?_
  · intro m n v h
    by_cases hm : m = mBu ∧ n = 2
    · obtain ⟨rfl, rfl⟩ := hm
      have : v = 0#8 := by simpa [ρ0] using h.symm
      subst this
      exact SsaGraph.Computes.op (G := loopGraph) (m := mBu) (n := 2) (e := .const 0#8) (env := fun _ _ => 0) rfl rfl (fun _ _ h => False.elim h) mBu_valid
    · simp [ρ0, hm] at h
  · intro m n v h
    by_cases hm : m = mBu ∧ n = 0
    · obtain ⟨rfl, rfl⟩ := hm
      have : v = 0#8 := by simpa [ρ1] using h.symm
      subst this
      exact .phi (j := 0) (a := 2) (args := [2, 1]) rfl rfl rfl rfl rfl
    · simp [ρ1, hm] at h

end Verif.Props
