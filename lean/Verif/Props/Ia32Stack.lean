import Verif.Lemmas.Ia32Stack
/-!
# C113: pushes and pops for stores and loads around moves of the stack pointer

`peephole_be_IncSP` of the ia32 backend.  The code it makes leaves the same registers, the same stack
pointer and the same memory.
-/
namespace Verif.Props.Ia32Stack
open Verif.Spec.StackCode Verif.Model.Ia32Stack Verif.Lemmas.Ia32Stack

/-! ### Stores to pushes -/

/-- **C113 (pushes).**  Stores of 32 bits that follow a growth of the stack: the code with pushes does
the same as before, whatever comes after it. -/
theorem store_to_push_partial (inc : Int) (l : List After) (hok : NodesOk l) (hsp : NoSpStored l)
    (h32 : ∀ x ∈ l, Candidate x → ∀ a n v, x.instr = .store a n v → n = 4)
    (s : State) (hind : Independent (exec s (.incSP inc)) l) :
    run s (storeToPush inc l) = run s (.incSP inc :: l.map (·.instr)) := by
  obtain ⟨w, r, pre, hl, hpre, -, hr, hs, hm⟩ := push_prefix inc l hok hsp s hind
  have : run s pre = run s (.incSP inc :: w.map (·.instr)) := by
    refine state_ext (fun q => by rw [hr]) hs (funext fun a => ?_)
    rcases hm a with h | ⟨-, -, -, x, hx, hc, ad, n, v, he, hn⟩
    · exact h
    · have := h32 x (by rw [hl]; simp [hx]) hc ad n v he
      omega
  rw [hpre, run_append, this, hl, List.map_append, ← List.cons_append, run_append]

/-- **C113 (pushes for shorter stores).**  With stores of fewer bytes among them the memory can differ
only in the new part of the stack, in bytes that none of the stores writes. -/
theorem narrow_to_push_partial (inc : Int) (l : List After) (hok : NodesOk l) (hsp : NoSpStored l)
    (s : State) (hind : Independent (exec s (.incSP inc)) l) :
    ∃ w r pre, l = w ++ r ∧ storeToPush inc l = pre ++ r.map (·.instr) ∧
      (∀ x ∈ w, IsStore x.instr) ∧
      (run s pre).reg = (run s (.incSP inc :: w.map (·.instr))).reg ∧
      (run s pre).sp = (run s (.incSP inc :: w.map (·.instr))).sp ∧
      (∀ a, (run s pre).mem a = (run s (.incSP inc :: w.map (·.instr))).mem a ∨
        (s.sp - inc ≤ a ∧ a < s.sp ∧ ∀ x ∈ w, ¬ Writes (exec s (.incSP inc)) x.instr a)) := by
  obtain ⟨w, r, pre, h1, h2, h3, h4, h5, h6⟩ := push_prefix inc l hok hsp s hind
  refine ⟨w, r, pre, h1, h2, h3, h4, h5, fun a => ?_⟩
  rcases h6 a with h | ⟨h, h', h'', -⟩
  · exact .inl h
  · exact .inr ⟨h, h', h''⟩

/-- the stack grows by 12, three arguments are stored, then something is called -/
private def args : List After :=
  [⟨.store ⟨.sp, none, 4⟩ 4 (.reg 1), true, true, true⟩,
   ⟨.store ⟨.reg 5, none, 0⟩ 4 (.reg 3), true, false, true⟩,
   ⟨.store ⟨.sp, none, 0⟩ 4 (.reg 0), true, true, true⟩,
   ⟨.copy 0 1, false, false, true⟩,
   ⟨.store ⟨.sp, none, 8⟩ 4 (.reg 2), true, true, true⟩]

example : storeToPush 12 args
    = [.incSP 4, .push (.reg 1), .push (.reg 0), .store ⟨.reg 5, none, 0⟩ 4 (.reg 3), .copy 0 1,
       .store ⟨.sp, none, 8⟩ 4 (.reg 2)] := by decide

private def regs : Nat → BitVec 32 := fun r => if r = 5 then 0x2000 else BitVec.ofNat 32 (100 + r)
private def start : State := ⟨regs, 0x1000, fun _ => 0xCC⟩

/-- The hypotheses hold for these nodes. -/
example : run start (storeToPush 12 args) = run start (.incSP 12 :: args.map (·.instr)) := by
  refine store_to_push_partial 12 args ?_ ?_ ?_ start ?_
  · intro x hx hs
    simp only [args, List.mem_cons, List.not_mem_nil, or_false] at hx
    rcases hx with rfl | rfl | rfl | rfl | rfl
    · exact ⟨_, _, _, rfl, by decide, by decide⟩
    · exact ⟨_, _, _, rfl, by decide, by decide⟩
    · exact ⟨_, _, _, rfl, by decide, by decide⟩
    · cases hs
    · exact ⟨_, _, _, rfl, by decide, by decide⟩
  · intro x hx hc a n v e
    simp only [args, List.mem_cons, List.not_mem_nil, or_false] at hx
    rcases hx with rfl | rfl | rfl | rfl | rfl <;> cases e <;> decide
  · intro x hx hc a n v e
    simp only [args, List.mem_cons, List.not_mem_nil, or_false] at hx
    rcases hx with rfl | rfl | rfl | rfl | rfl <;> cases e <;> rfl
  · rintro l1 x l2 y l3 e - hy hx ad n v he a h1 h2 ⟨ad', n', v', he', h1', h2'⟩
    have hxm : x ∈ args := by rw [e]; simp
    have hym : y ∈ args := by rw [e]; simp
    simp only [args, List.mem_cons, List.not_mem_nil, or_false] at hxm hym
    have hxx : x = ⟨.store ⟨.reg 5, none, 0⟩ 4 (.reg 3), true, false, true⟩ := by
      rcases hxm with rfl | rfl | rfl | rfl | rfl
      · exact absurd ⟨rfl, rfl, rfl⟩ hx
      · rfl
      · exact absurd ⟨rfl, rfl, rfl⟩ hx
      · cases he'
      · exact absurd ⟨rfl, rfl, rfl⟩ hx
    subst hxx
    cases he'
    have hoff : ad.offset ≤ 8 := by
      rcases hym with rfl | rfl | rfl | rfl | rfl <;> cases he <;> decide
    have e1 : (exec start (.incSP 12)).sp = 0x1000 - 12 := rfl
    have e2 : State.addr (exec start (.incSP 12)) ⟨.reg 5, none, 0⟩ = 0x2000 := by decide
    rw [e1] at h2
    rw [e2] at h1'
    omega

/-- The stack pointer itself as the stored value: `push esp` pushes the stack pointer on the way down,
the store the lowest one. -/
theorem stack_pointer_stored_not_pushed :
    ¬ ∀ (inc : Int) (l : List After), NodesOk l → ∀ s, Independent (exec s (.incSP inc)) l →
      run s (storeToPush inc l) = run s (.incSP inc :: l.map (·.instr)) := by
  intro h
  have := h 4 [⟨.store ⟨.sp, none, 0⟩ 4 .sp, true, true, true⟩]
    (by
      intro x hx _
      simp only [List.mem_cons, List.not_mem_nil, or_false] at hx
      subst hx
      exact ⟨_, _, _, rfl, by decide, by decide⟩)
    start
    (by
      intro l1 x l2 y l3 e
      have := congrArg List.length e
      simp at this
      omega)
  exact absurd (congrArg (fun t => t.mem 0xffc) this) (by decide)

/-- Stores that overlap: one with a memory operand, which the walk leaves in its place, and a later
one without, which becomes a push before it. -/
theorem overlapping_stores_exchanged :
    ¬ ∀ (inc : Int) (l : List After), NodesOk l → NoSpStored l → ∀ s,
      run s (storeToPush inc l) = run s (.incSP inc :: l.map (·.instr)) := by
  intro h
  have := h 4 [⟨.store ⟨.sp, none, 0⟩ 4 (.reg 0), true, true, false⟩,
      ⟨.store ⟨.sp, none, 0⟩ 4 (.reg 1), true, true, true⟩]
    (by
      intro x hx _
      simp only [List.mem_cons, List.not_mem_nil, or_false] at hx
      rcases hx with rfl | rfl
      · exact ⟨_, _, _, rfl, by decide, by decide⟩
      · exact ⟨_, _, _, rfl, by decide, by decide⟩)
    (by
      intro x hx hc a n v e
      simp only [List.mem_cons, List.not_mem_nil, or_false] at hx
      rcases hx with rfl | rfl <;> cases e <;> decide)
    start
  exact absurd (congrArg (fun t => t.mem 0xffc) this) (by decide)

/-! ### Loads to pops -/

/-- **C113 (pops).**  The loads before a shrinking of the stack (the list is the schedule in reverse):
the code with pops does the same, if a loaded value is used before its register is loaded again. -/
theorem load_to_pop_partial (inc : Int) (l : List Before) (hb : LoadsOk l) (hl : LiveLoads l)
    (s : State) :
    run s (loadToPop inc l) = run s ((l.map (·.instr)).reverse ++ [.incSP (-inc)]) :=
  pop_same inc l hb hl s

/-- the end of a function, in reverse: saved registers are loaded, the result is copied -/
private def epilogue : List Before :=
  [.load 1 ⟨.sp, none, 12⟩ true, .otherCopy, .load 2 ⟨.sp, none, 8⟩ true, .copy 0 7,
   .load 3 ⟨.sp, none, 0⟩ true, .other (.store ⟨.reg 0, none, 0⟩ 4 (.reg 1))]

example : loadToPop 20 epilogue
    = [.store ⟨.reg 0, none, 0⟩ 4 (.reg 1), .load 3 ⟨.sp, none, 0⟩, .copy 0 7, .idle, .incSP (-8),
       .pop 2, .pop 1, .incSP (-4)] := by decide

private def small : List Before := [.load 1 ⟨.sp, none, 4⟩ true, .copy 0 7, .load 3 ⟨.sp, none, 0⟩ true]

example : loadToPop 8 small = [.copy 0 7, .pop 3, .pop 1, .incSP 0] := by decide

example (s : State) : run s (loadToPop 8 small) = run s ((small.map (·.instr)).reverse ++ [.incSP (-8)]) := by
  refine load_to_pop_partial 8 small ?_ ?_ s
  · intro d a h
    simp only [small, List.mem_cons, List.not_mem_nil, or_false] at h
    rcases h with h | h | h <;> cases h <;> rfl
  · intro l1 d a b l2 a' b' l3 e
    exfalso
    rcases l1 with - | ⟨x1, l1⟩
    · simp only [small, List.nil_append, List.cons.injEq] at e
      obtain ⟨e0, e⟩ := e
      cases e0
      rcases l2 with - | ⟨y1, l2⟩
      · cases e
      rcases l2 with - | ⟨y2, l2⟩
      · cases e
      · have := congrArg List.length e
        simp at this
    · have h := congrArg List.length e
      simp [small] at h
      rcases l1 with - | ⟨x2, l1⟩
      · cases e
      · simp at h
        omega

/-- A value that is loaded and not used: its load would have become a pop after the load that writes
the same register. -/
theorem dead_load_survives :
    ¬ ∀ (inc : Int) (l : List Before), LoadsOk l → ∀ s,
      run s (loadToPop inc l) = run s ((l.map (·.instr)).reverse ++ [.incSP (-inc)]) := by
  intro h
  have := h 4 [.load 1 ⟨.sp, none, 8⟩ true, .load 1 ⟨.sp, none, 0⟩ true]
    (by
      intro d a h
      simp only [List.mem_cons, List.not_mem_nil, or_false] at h
      rcases h with h | h <;> cases h <;> rfl)
    ⟨regs, 0x1000, fun a => if a < 0x1004 then 1 else 2⟩
  exact absurd (congrArg (fun t => t.reg 1) this) (by decide)

/-! ### Moves of the stack pointer -/

/-- **C113 (two moves).**  Two moves of the stack pointer with nothing between them that depends on it
are one. -/
theorem combine_moves (a b : Int) (l : List Instr) (hl : ∀ x ∈ l, SpFree x = true) (s : State) :
    run s (combine a b l) = run s (.incSP a :: l ++ [.incSP b]) := by
  unfold combine
  rw [List.cons_append, run_cons, run_cons, run_append]
  have h1 := run_spFree hl s (s.sp - (a + b))
  have h2 := run_spFree hl s (s.sp - a)
  change run { s with sp := s.sp - (a + b) } l = exec (run { s with sp := s.sp - a } l) (.incSP b)
  rw [h1.1, h2.1]
  simp only [exec]
  congr 1
  omega

example : run start (combine 8 (-4) [.copy 0 1]) = run start [.incSP 8, .copy 0 1, .incSP (-4)] :=
  combine_moves 8 (-4) [.copy 0 1] (by decide) start

/-- **C113 (small moves).**  Pushes and pops in place of a small move leave the stack pointer where it
should be; they change nothing but the register that is free and the bytes the stack grows by. -/
theorem small_move (eax r : Nat) (n : Int) (s : State) :
    (run s (smallMove eax r n)).sp = (exec s (.incSP n)).sp ∧
    (∀ q, q ≠ r → (run s (smallMove eax r n)).reg q = s.reg q) ∧
    (∀ a, ¬ (s.sp - n ≤ a ∧ a < s.sp) → (run s (smallMove eax r n)).mem a = s.mem a) := by
  unfold smallMove
  split
  · rename_i h
    subst h
    refine ⟨rfl, fun _ _ => rfl, fun a ha => ?_⟩
    show write s.mem (s.sp - 4) 4 _ a = _
    unfold write
    rw [if_neg (by omega)]
  split
  · rename_i h
    subst h
    refine ⟨by show s.sp - 4 - 4 = s.sp - 8; omega, fun _ _ => rfl, fun a ha => ?_⟩
    show write (write s.mem (s.sp - 4) 4 _) (s.sp - 4 - 4) 4 _ a = _
    unfold write
    rw [if_neg (by omega), if_neg (by omega)]
  split
  · rename_i h
    subst h
    refine ⟨by show s.sp + 4 = s.sp - -4; omega, fun q hq => ?_, fun _ _ => rfl⟩
    show (if q = r then _ else s.reg q) = _
    rw [if_neg hq]
  split
  · rename_i h
    subst h
    refine ⟨by show s.sp + 4 + 4 = s.sp - -8; omega, fun q hq => ?_, fun _ _ => rfl⟩
    show (if q = r then _ else if q = r then _ else s.reg q) = _
    rw [if_neg hq, if_neg hq]
  · exact ⟨rfl, fun _ _ => rfl, fun _ _ => rfl⟩

example : (run start (smallMove 0 3 (-8))).sp = 0x1008 ∧ (run start (smallMove 0 3 (-8))).reg 2 = 102 := by
  decide

end Verif.Props.Ia32Stack
