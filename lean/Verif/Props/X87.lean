import Verif.Lemmas.X87Graph
/-!
# C115: code for the x87 register stack does what the code with registers does
-/
namespace Verif.Props.X87
open Verif.Spec.X87 Verif.Model.X87 Verif.Lemmas.X87

variable {V : Type}

/-! ### Graphs -/

/-- For every program the simulator finds code, and along every path from the start block the code on
the register stack stores, tests and compares the same values in the same order as the code with
registers.  No instruction meets an empty place, the stack never holds more than eight values.

Missing: inline assembler, calls and returns; and the write behind a row of `cycle_idx`
(`mark_behind_row`) is no outcome of the model. -/
theorem stack_code_correct_partial (sem : Sem V) (emms : Bool) {g : List Block} (hg : Program g) :
    ∃ code, simulateGraph emms g = some code ∧ ∀ (rest : List Nat) (R : Nat → V), Path g (0 :: rest) →
      ∃ s, execPath sem code [] (0 :: rest) = some ((runPath sem g R (0 :: rest)).1, s) :=
  graph_ok hg

/-- A loop: `x := x + y; (x, y) := (y, x)` as long as `x < y`, then `x` is stored. -/
def exLoop : List Block :=
  [{ ops := [.load 0 0, .load 1 1], live := [0, 1], succs := [1] },
   { ops := [.binop 7 0 1 0, .compare 3 0 1 true], live := [0, 1], succs := [2, 3] },
   { ops := [.perm [(0, 1), (1, 0)]], live := [0, 1], succs := [1] },
   { ops := [.keep [1], .store 9 0 80], live := [], succs := [] }]

theorem exLoop_program : Program exLoop := by
  refine ⟨⟨_, rfl, ?_⟩, ?_, ?_, ?_, ?_⟩
  · intro r
    simp only [Needed, Op.uses, Op.defs]
    simp
    omega
  · intro b B h
    rcases b with _ | _ | _ | _ | b <;> simp only [exLoop, List.getElem?_cons_zero, List.getElem?_cons_succ, List.getElem?_nil] at h <;>
      cases h <;> simp [WfAll, Wf, Needed, Op.defs, Op.uses]
  · intro b B h
    rcases b with _ | _ | _ | _ | b <;> simp only [exLoop, List.getElem?_cons_zero, List.getElem?_cons_succ, List.getElem?_nil] at h <;>
      cases h <;> simp [exLoop, Needed, Op.defs, Op.uses] <;> omega
  · intro b B h
    rcases b with _ | _ | _ | _ | b <;> simp only [exLoop, List.getElem?_cons_zero, List.getElem?_cons_succ, List.getElem?_nil] at h <;>
      cases h <;> simp
  · intro b b' B B' h h' hne
    rcases b with _ | _ | _ | _ | b <;> simp only [exLoop, List.getElem?_cons_zero, List.getElem?_cons_succ, List.getElem?_nil] at h <;>
      cases h <;>
      rcases b' with _ | _ | _ | _ | b' <;> simp only [exLoop, List.getElem?_cons_zero, List.getElem?_cons_succ, List.getElem?_nil] at h' <;>
      cases h' <;> simp_all

/-- what is computed in the examples -/
def exSem : Sem Nat := { load := fun n => n + 1, un := fun n a => n + 2 * a, bin := fun n a b => n + 3 * a + b }

example : (simulateGraph false exLoop).map (fun c => (List.range 4).map c) =
    some [some [.fld 0, .fld 1], some [.op2 7 1 true true false, .fucom 3 1 true false], some [.fxch 1],
      some [.fpop 0, .fst 9 true]] := by decide +kernel
example : (runPath exSem exLoop (fun _ => 0) [0, 1, 2, 1, 3]).1 =
    [.compare 3 12 2, .compare 3 25 12, .store 9 25] := by decide +kernel
example : Path exLoop [0, 1, 2, 1, 3] := by simp [Path, exLoop]

/-! ### Blocks -/

/-- The nodes of a block: if the stack holds just the registers needed before them, then it holds just
the live ones after them, each with its value. -/
theorem block_code_correct (sem : Sem V) (emms : Bool) (live : List Nat) (os : List Op) (st : St)
    (hw : WfAll live os) (hn : st.Nodup) (hm : ∀ r, r ∈ st ↔ Needed live os r) (hs : ∀ r ∈ st, r < 8) :
    ∃ c st', simOps emms live os st = some (c, st') ∧ st'.Nodup ∧ (∀ r, r ∈ st' ↔ r ∈ live) ∧
      ∀ R : Nat → V, exec sem (st.map R) c = some ((runOps sem R os).1, st'.map (runOps sem R os).2) := by
  obtain ⟨c, st', h1, h2, h3⟩ := simOps_ok (sem := sem) (emms := emms) os st hw
    ⟨hn, fun r => by rw [hm, mem_liveIn], hs⟩
  exact ⟨c, st', h1, h2.nodup, h2.mem, h3⟩

example : simOps false [2] [.binop 5 0 1 2, .store 6 0 64, .copy 2 3, .unop 1 3 2] [1, 0] =
    some ([.op2 5 1 true false false, .fxch 1, .fst 6 true, .op1 1], [2]) := by decide +kernel
example : WfAll [2] [.binop 5 0 1 2, .store 6 0 64, .copy 2 3, .unop 1 3 2] := by
  simp [WfAll, Wf, Needed, Op.defs, Op.uses]

/-- Dead registers are removed at the begin of a block, and only they. -/
theorem dead_registers_removed (sem : Sem V) (emms : Bool) (live : List Nat) (st : St) (hn : st.Nodup)
    (hl : ∀ r ∈ live, r ∈ st) (hs : ∀ r ∈ st, r < 8) :
    ∃ c st', killDeads emms live st = some (c, st') ∧ st'.Nodup ∧ (∀ r, r ∈ st' ↔ r ∈ live) ∧
      ∀ R : Nat → V, exec sem (st.map R) c = some ([], st'.map R) := by
  obtain ⟨c, st', h1, h2, h3⟩ := kill_ok (sem := sem) (emms := emms) hn hl hs
  exact ⟨c, st', h1, h2.nodup, h2.mem, h3⟩

example : killDeads true [4, 1] [4, 3, 1, 2] = some ([.fpop 3, .fpop 0], [1, 4]) := by decide +kernel
example : killDeads true [] [4, 3, 1, 2] = some ([.emms], []) := by decide +kernel

/-! ### Permutations -/

/-- Between blocks the stack is brought into the order the next block expects. -/
theorem shuffle_correct (sem : Sem V) {st dst : St} (hs : st.Nodup) (hd : dst.Nodup) (hm : ∀ r, r ∈ st ↔ r ∈ dst) :
    ∃ c, shuffle st dst = some (c, dst) ∧ ∀ R : Nat → V, exec sem (st.map R) c = some ([], dst.map R) :=
  shuffle_ok hs hd hm

example : shuffle [1, 2, 3, 4, 5] [2, 1, 4, 5, 3] =
    some ([.fxch 1, .fxch 2, .fxch 4, .fxch 3, .fxch 2], [2, 1, 4, 5, 3]) := by decide +kernel
/-- Ten exchanges can be needed; the comment in the code counts eight. -/
example : (shuffle [0, 1, 2, 3, 4, 5, 6, 7] [0, 2, 1, 4, 3, 6, 7, 5]).map (fun p => p.1.length) = some 10 := by decide +kernel

/-- `cycles[4]` and `cycle_idx[4][8]` (ir/be/ia32/x86_x87.c:393-394): there are at most four cycles.  A
cycle and the mark after it fit into a row if the stack holds at most seven values. -/
theorem cycles_fit_partial {st dst : St} (hs : st.Nodup) (hd : dst.Nodup) (hm : ∀ r, r ∈ st ↔ r ∈ dst)
    (h7 : st.length ≤ 7) :
    ∃ cs, findCycles st dst (st.length + 1) (List.range st.length) = some cs ∧ cs.length ≤ 3 ∧ ∀ c ∈ cs, c.length + 1 ≤ 8 := by
  obtain ⟨cs, h1, h2, h3⟩ := cycles_bound hs hd hm
  exact ⟨cs, h1, by omega, fun c hc => by have := h3 c hc; omega⟩

theorem four_cycles {st dst : St} (hs : st.Nodup) (hd : dst.Nodup) (hm : ∀ r, r ∈ st ↔ r ∈ dst) (h8 : st.length ≤ 8) :
    ∃ cs, findCycles st dst (st.length + 1) (List.range st.length) = some cs ∧ cs.length ≤ 4 ∧ ∀ c ∈ cs, c.length ≤ 8 := by
  obtain ⟨cs, h1, h2, h3⟩ := cycles_bound hs hd hm
  exact ⟨cs, h1, by omega, fun c hc => by have := h3 c hc; omega⟩

/-- With eight values there is a cycle of all of them: the mark after it (ir/be/ia32/x86_x87.c:429) is
written behind the row. -/
theorem mark_behind_row :
    ¬∀ st dst : St, st.Nodup → dst.Nodup → (∀ r, r ∈ st ↔ r ∈ dst) → st.length ≤ 8 →
      ∃ cs, findCycles st dst (st.length + 1) (List.range st.length) = some cs ∧ ∀ c ∈ cs, c.length + 1 ≤ 8 := by
  intro h
  obtain ⟨cs, h1, h2⟩ := h [0, 1, 2, 3, 4, 5, 6, 7] [7, 0, 1, 2, 3, 4, 5, 6] (by decide) (by decide)
    (by intro r; simp; omega) (by decide)
  have : findCycles [0, 1, 2, 3, 4, 5, 6, 7] [7, 0, 1, 2, 3, 4, 5, 6] 9 (List.range 8) = some [[0, 1, 2, 3, 4, 5, 6, 7]] := by
    decide +kernel
  rw [show ([0, 1, 2, 3, 4, 5, 6, 7] : List Nat).length = 8 from rfl, this] at h1
  cases h1
  have := h2 _ (List.mem_cons_self ..)
  simp at this

end Verif.Props.X87
