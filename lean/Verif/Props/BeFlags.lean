import Verif.Lemmas.BeFlags
/-!
# C114: flags in the schedule

`be_sched_fix_flags`: in the code it makes every test sees the flags of its producer, although there is
a single flags register; everything else happens as before.
-/
namespace Verif.Props.BeFlags
open Verif.Spec.FlagCode Verif.Model.BeFlags Verif.Lemmas.BeFlags

variable {V M C : Type} {sem : Sem V M C} {val : Nat → V} {prod : Nat → Bool} {env : Env C} {m0 : M}
  {l : List (Node C)}

/-- **C114 (tests).**  With the rematerialization that loads memory operands first (or without memory
operands of producers): on the machine the same nodes are executed in the same order, see the same
memory, and every test has the outcome it has on the flags of its producer. -/
theorem tests_see_their_flags_partial (hb : Block sem prod l) (hv : Values sem val m0 l)
    (ho : ∀ F, prod F = true → F ∉ l.map (·.id) → Producer sem F (env.outer F))
    (hr : ∀ F A c, env.repl F A = true → sem.test (env.inv c) (val A) = sem.test c (val F))
    (hm : env.turnBack = true ∨ ∀ F, prod F = true →
      (∀ x ∈ l, x.id = F → x.reads = false) ∧ (F ∉ l.map (·.id) → (env.outer F).reads = false))
    (s : Machine V M) (hs : s.mem = m0)
    (hl : ∀ F, prod F = true → F ∉ l.map (·.id) → val F = sem.flags F (s.loaded F)) :
    trace sem prod s (fixFlags env l) = wanted sem val prod m0 l :=
  fixFlags_ok ⟨hb.nodup, hb.prodOk, hb.keepOk,
    fun F hF hn => ⟨(ho F hF hn).id, (ho F hF hn).modifies, (ho F hF hn).stores, (ho F hF hn).flag⟩,
    hb.flagOk, hb.order, hb.memOrder, hb.const, fun F hF hn => (ho F hF hn).const, hm, hr⟩ hv s hs hl

/-- **C114 (operands).**  No node, copy or load stands before the computation of an operand. -/
theorem operands_before_uses {uses : Nat → List Nat} (hu : ∀ x ∈ l, uses x.id = x.uses)
    (ho : ∀ F, ∀ u ∈ (env.outer F).uses, u ∉ l.map (·.id))
    (h : ∀ l1 x l2, l = l1 ++ x :: l2 → ∀ u ∈ x.uses, u ∈ l.map (·.id) → u ∈ l1.map (·.id)) :
    Computed (l.map (·.id)) uses [] (fixFlags env l) :=
  fixFlags_computed ho hu h

/-! ### A block -/

private def node (id : Nat) : Node Nat := ⟨id, [], none, 0, false, false, false, false, false⟩

/-- a comparison with memory, a store after it, an addition that destroys the flags, and a jump -/
private def block : List (Node Nat) :=
  [{ node 1 with modifies := true, reads := true },
   { node 2 with stores := true, uses := [1] },
   { node 3 with modifies := true, uses := [2] },
   { node 4 with flag := some 1, cond := 7, uses := [3] }]

/-- the flags of a comparison with memory are the memory; a store increments it -/
private def sem1 : Sem Nat Nat Nat := ⟨fun i m => if i = 1 then m else 0, fun _ m => m + 1, fun c v => v == c⟩

private def prod1 : Nat → Bool := fun i => i == 1

private def val1 : Nat → Nat := fun i => if i = 1 then 7 else 0

private def env1 (turnBack : Bool) : Env Nat := ⟨node, turnBack, fun _ _ => false, id⟩

private def start : Machine Nat Nat := ⟨99, 7, fun _ => 55⟩

example : fixFlags (env1 true) block
    = [.load 1, .run { node 1 with modifies := true, reads := true } true,
       .run { node 2 with stores := true, uses := [1] } false,
       .run { node 3 with modifies := true, uses := [2] } false,
       .run { node 1 with modifies := true, reads := true } true,
       .run { node 4 with flag := some 1, cond := 7, uses := [3] } false] := by decide

example : wanted sem1 val1 prod1 7 block = [⟨2, none, 7⟩, ⟨3, none, 8⟩, ⟨4, some true, 8⟩] := by decide

private theorem block_ok : Block sem1 prod1 block where
  nodup := by decide
  prodOk := by decide
  keepOk := by decide
  flagOk := by
    intro x hx G hG
    simp only [block, List.mem_cons, List.not_mem_nil, or_false] at hx
    rcases hx with rfl | rfl | rfl | rfl <;> first | (cases hG; decide) | cases hG
  order := by decide
  memOrder := by decide
  const := by
    intro x hx hr m m'
    simp only [block, List.mem_cons, List.not_mem_nil, or_false] at hx
    rcases hx with rfl | rfl | rfl | rfl <;> first | rfl | cases hr

private theorem split_at {α : Type} {l l1 l2 : List α} {x : α} (h : l = l1 ++ x :: l2) :
    ∃ i, ∃ hi : i < l.length, l[i] = x ∧ l.take i = l1 :=
  ⟨l1.length, by simp [h], by simp [h], by simp [h]⟩

private theorem block_values : Values sem1 val1 7 block := by
  have h : ∀ i, ∀ hi : i < block.length, block[i].modifies = true →
      val1 block[i].id = sem1.flags block[i].id (sem1.memAfter 7 (block.take i)) := by decide
  intro l1 x l2 e hm
  obtain ⟨i, hi, rfl, rfl⟩ := split_at e
  exact h i hi hm

/-- The hypotheses hold for this block. -/
example : trace sem1 prod1 start (fixFlags (env1 true) block) = wanted sem1 val1 prod1 7 block := by
  refine tests_see_their_flags_partial block_ok block_values ?_ (fun _ _ _ h => by cases h) (.inl rfl) start rfl ?_
  · intro F hF hn
    exact absurd (by rw [show F = 1 by simpa [prod1] using hF]; decide) hn
  · intro F hF hn
    exact absurd (by rw [show F = 1 by simpa [prod1] using hF]; decide) hn

/-- **C114 (refuted).**  With `exact_copy` as rematerialization, as the amd64 backend has it, the copy
of the comparison reads memory after the store, and the jump goes the other way. -/
theorem exact_copy_reads_memory_again :
    Block sem1 prod1 block ∧ Values sem1 val1 7 block ∧
    trace sem1 prod1 start (fixFlags (env1 false) block)
      = [⟨2, none, 7⟩, ⟨3, none, 8⟩, ⟨4, some false, 8⟩] ∧
    wanted sem1 val1 prod1 7 block = [⟨2, none, 7⟩, ⟨3, none, 8⟩, ⟨4, some true, 8⟩] :=
  ⟨block_ok, block_values, by decide, by decide⟩

/-! ### The three ways -/

/-- A comparison whose flags are destroyed and that nothing in front of the destroyer uses is moved. -/
example : fixFlags (env1 true)
    [{ node 1 with modifies := true }, { node 3 with modifies := true },
     { node 4 with flag := some 1 }, { node 5 with flag := some 1 }]
    = [.run { node 3 with modifies := true } false, .run { node 1 with modifies := true } false,
       .run { node 4 with flag := some 1 } false, .run { node 5 with flag := some 1 } false] := by decide

/-- The same comparison with its operands exchanged is at hand: the tests are changed. -/
example : fixFlags { env1 true with repl := fun f a => f == 1 && a == 3, inv := fun c => c + 100 }
    [{ node 1 with modifies := true }, { node 2 with uses := [1] }, { node 3 with modifies := true },
     { node 4 with flag := some 1, cond := 1 }, { node 5 with flag := some 1, cond := 2 }]
    = [.run { node 1 with modifies := true } false, .run { node 2 with uses := [1] } false,
       .run { node 3 with modifies := true } false,
       .run { node 4 with flag := some 1, cond := 101 } false,
       .run { node 5 with flag := some 1, cond := 102 } false] := by decide

/-- The producer of another block is computed again behind the nodes that have to be first. -/
example : fixFlags { env1 true with outer := fun i => { node i with modifies := true } }
    [{ node 1 with first := true }, { node 2 with flag := some 9 }]
    = [.run { node 1 with first := true } false, .run { node 9 with modifies := true } false,
       .run { node 2 with flag := some 9 } false] := by decide

/-- the operands of the block -/
example : Computed (block.map (·.id)) (fun i => ((block.find? (·.id == i)).map (·.uses)).getD []) []
    (fixFlags (env1 true) block) := by
  refine operands_before_uses (by decide) (by intro F u hu; cases hu) ?_
  have h : ∀ i, ∀ hi : i < block.length, ∀ u ∈ block[i].uses, u ∈ (block.take i).map (·.id) := by decide
  intro l1 x l2 e u hu _
  obtain ⟨i, hi, rfl, rfl⟩ := split_at e
  exact h i hi u hu

end Verif.Props.BeFlags
