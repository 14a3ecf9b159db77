import Verif.Lemmas.SsaTerm
/-!
# C91, C92: the construction of SSA form
-/
namespace Verif.Props.SsaCons
open Verif.Model.SsaCons Verif.Spec.Ssa

/-! ## The reads yield the values of the variables -/

/-- **C91.** A program that was built by `set_value`, `get_value`, `add_immBlock_pred` and `mature_immBlock`, in any order, reads the right values: when a
run reaches a read, the node that was read has the value that was last assigned to the variable on this run. -/
theorem construction_right {s : St} {L : Nat → List Event} (hb : Builds s L) (hm : ∀ b, s.preds b ≠ [] → s.matured b = true)
    {α : Type} (init : Nat → α) (hst : Strict (s.code L) init) : Right (s.code L) init := by
  obtain ⟨hi, hl⟩ := builds_inv hb
  intro c hr v r hev
  obtain ⟨D, h⟩ := run_inv hi hl hm hst hr
  obtain ⟨D', h'⟩ := run_inv hi hl hm hst (Run.get hr hev)
  have h1 := h'.seen r (Or.inr rfl)
  refine ⟨?_, h.val v⟩
  show c.env (s.skip r) = c.vars v
  have hev' : (L c.block)[c.pos]? = some (.get v r) := hev
  have hlt := get_lt hev'
  have hd : L c.block = (L c.block).take c.pos ++ .get v r :: (L c.block).drop (c.pos + 1) := by
    conv => lhs; rw [← List.take_append_drop c.pos (L c.block)]
    rw [List.drop_eq_getElem_cons hlt]
    rw [List.getElem?_eq_getElem hlt] at hev'
    rw [Option.some.inj hev']
  by_cases hS : ∃ m, Event.set v m ∈ (L c.block).take c.pos
  · obtain ⟨pre, n, mid, h1, h2⟩ := split_last hS
    rw [h1] at hd
    rw [hl.reads c.block v n r pre mid ((L c.block).drop (c.pos + 1)) (by simpa using hd) h2]
    exact h.assigned v n pre mid h1 h2
  · exact h.begun v (fun m hm => hS ⟨m, hm⟩) r (Or.inr ⟨_, _, hd, fun m hm => hS ⟨m, hm⟩⟩)

/-- a Phi that is left in a matured block has one operand for each predecessor, and it is not in the start block -/
theorem phi_arity {s : St} {L : Nat → List Event} (hb : Builds s L) {x b v : Nat} {args : List Nat} (hx : x < s.used)
    (hn : s.node x = .phi b v args) (hs : s.skip x = x) (hm : s.matured b = true) : args.length = (s.preds b).length ∧ b ≠ 0 := by
  obtain ⟨hi, -⟩ := builds_inv hb
  refine ⟨?_, hi.phiBlock x b v args hx hn⟩
  rcases hi.phis x b v args hx hn hs with ⟨_, h | h⟩ | h
  · exact absurd h.1 (List.not_mem_nil)
  · rw [hm] at h; cases h.2
  · exact h.2.1

/-- a node that was replaced is a Phi, and no node is replaced by one that was itself replaced -/
theorem skip_final {s : St} {L : Nat → List Event} (hb : Builds s L) (x : Nat) :
    s.skip (s.skip x) = s.skip x ∧ (s.skip x ≠ x → ∃ b v args, s.node x = .phi b v args) :=
  ⟨(builds_inv hb).1.idem x, (builds_inv hb).1.moved x⟩

/-- all Phi nodes of memory with operands are kept alive -/
theorem store_phis_kept {s : St} {L : Nat → List Event} (hb : Builds s L) {x b : Nat} {args : List Nat} (hx : x < s.used)
    (hn : s.node x = .phi b 0 args) (hs : s.skip x = x) (ha : args ≠ []) : x ∈ s.kept := by
  rcases builds_kept hb x b args hx hn hs ha with h | h
  · cases h
  · exact h

/-! ## Termination -/

/-- **C92.** Reading a variable terminates if no chain of matured blocks with a single predecessor is a cycle. -/
theorem get_terminates {s : St} {L : Nat → List Event} (hb : Builds s L) {rank : Nat → Nat}
    (hr : ∀ b p, s.matured b = true → s.preds b = [some p] → rank p < rank b) (b v : Nat) : ∃ fuel r s', getValue fuel b v s = some (r, s') := by
  obtain ⟨hi, -⟩ := builds_inv hb
  obtain ⟨N, hN⟩ := builds_finite hb
  obtain ⟨f, ⟨r, s'⟩, e⟩ := getValue_terminates (v := v) (open_ N v s) [] b s hi ⟨hN, hr⟩ (Nat.le_refl _)
  exact ⟨f, r, s', e⟩

/-- the same for `mature_immBlock` -/
theorem mature_terminates {s : St} {L : Nat → List Event} (hb : Builds s L) {rank : Nat → Nat} {b : Nat}
    (hr : ∀ b' p, s.matured b' = true ∨ b' = b → s.preds b' = [some p] → rank p < rank b') : ∃ fuel s', mature fuel b s = some s' := by
  obtain ⟨hi, -⟩ := builds_inv hb
  obtain ⟨N, hN⟩ := builds_finite hb
  unfold mature
  cases hm : s.matured b with
  | true => exact ⟨0, s, rfl⟩
  | false =>
    simp only [Bool.false_eq_true, if_false]
    refine maturePhis_terminates (N := max N (b + 1)) (inv_opened hi hm) (fun x hx => (hi.chain b hm x hx).2.2) (by simp [opened]) (rank := rank) ⟨fun b' hb' => ?_, fun b' p h1 h2 => ?_⟩
    · simp only [opened]
      rw [if_neg (by omega)]
      exact hN b' (by omega)
    · simp only [opened, Bool.or_eq_true, beq_iff_eq] at h1 h2
      split at h2
      · cases h2
      · exact hr b' p h1.symm h2

/-- the bound on the depth does not matter: with more depth the result is the same -/
theorem get_fuel {f g b v : Nat} {s : St} {r r' : Nat × St} (h : getValue f b v s = some r) (h' : getValue g b v s = some r') : r = r' := by
  rcases Nat.le_total f g with hfg | hfg
  · rw [getValue_mono hfg h] at h'; exact Option.some.inj h'
  · rw [getValue_mono hfg h'] at h; exact (Option.some.inj h).symm

/-- the bound in `set_phi_arguments` is enough for `try_remove_unnecessary_phi` -/
theorem tryRemove_bound {s : St} {L : Nat → List Event} (hb : Builds s L) {phi : Nat} (hlt : phi < s.used) (hs : s.skip phi = phi) (fuel : Nat)
    (hf : s.used < fuel) : tryRemove fuel phi s = tryRemove (s.used + 1) phi s := by
  obtain ⟨hi, -⟩ := builds_inv hb
  have : live s ≤ s.used := by
    unfold live
    refine Nat.le_trans List.countP_le_length ?_
    simp
  exact tryRemove_fuel fuel (s.used + 1) hi hlt hs (by omega) (by omega)

/-! ## A small front end for the examples -/

inductive Op
  | define (b : Nat)
  | set (b v n : Nat)
  | get (b v : Nat)
  | addPred (b : Nat) (p : Option Nat)
  | mature (b : Nat)

def Op.block : Op → Nat
  | .define b => b
  | .set b _ _ => b
  | .get b _ => b
  | .addPred b _ => b
  | .mature b => b

/-- a call, for graphs with `N` blocks -/
def step (N : Nat) (o : Op) (c : St × (Nat → List Event)) : Option (St × (Nat → List Event)) :=
  match o with
  | .define b => some (c.1.add (.front b), record c.2 b (.define c.1.used))
  | .set b v n =>
    if n < c.1.used ∧ (∀ b' < N, some b ∉ c.1.preds b') then some (c.1.setArr b v n, record c.2 b (.set v n)) else none
  | .get b v =>
    match getValue 20 b v c.1 with
    | some (r, s) => some (s, record c.2 b (.get v r))
    | none => none
  | .addPred b p => if c.1.matured b = false then some (addPred b p c.1, c.2) else none
  | .mature b =>
    match mature 20 b c.1 with
    | some s => some (s, c.2)
    | none => none

def exec (N : Nat) : List Op → St × (Nat → List Event) → Option (St × (Nat → List Event))
  | [], c => some c
  | o :: os, c =>
    if o.block < N then
      match step N o c with
      | some c => exec N os c
      | none => none
    else none

/-- a graph with `N` blocks was built -/
def Small (N : Nat) (c : St × (Nat → List Event)) : Prop :=
  Builds c.1 c.2 ∧ (∀ b, N ≤ b → c.1.preds b = []) ∧ ∀ b, N ≤ b → c.2 b = []

theorem record_small {N b : Nat} {L : Nat → List Event} (e : Event) (hb : b < N) (h : ∀ b', N ≤ b' → L b' = []) (b' : Nat) (hb' : N ≤ b') :
    record L b e b' = [] := by
  rw [record_other L e (by omega)]; exact h b' hb'

theorem step_small {N : Nat} {o : Op} {c d : St × (Nat → List Event)} (hs : Small N c) (hb : o.block < N) (h : step N o c = some d) : Small N d := by
  obtain ⟨h1, h2, h3⟩ := hs
  have hi := (builds_inv h1).1
  cases o with
  | define b =>
    simp only [step, Option.some.injEq] at h
    subst h
    exact ⟨.define b h1, h2, record_small _ hb h3⟩
  | set b v n =>
    simp only [step] at h
    split at h
    · next hc =>
      cases h
      refine ⟨.set h1 hc.1 fun b' hm => ?_, h2, record_small _ hb h3⟩
      rcases Nat.lt_or_ge b' N with hl | hl
      · exact hc.2 b' hl hm
      · rw [h2 b' hl] at hm; cases hm
    · cases h
  | get b v =>
    simp only [step] at h
    split at h
    · next r s hg =>
      cases h
      obtain ⟨_, e, _⟩ := inv_getValue _ _ [] _ _ _ _ hi hg
      refine ⟨.get h1 hg, ?_, record_small _ hb h3⟩
      rw [e.preds]; exact h2
    · cases h
  | addPred b p =>
    simp only [step] at h
    split at h
    · next hc =>
      cases h
      refine ⟨.addPred h1 hc, fun b' hb' => ?_, h3⟩
      have hb1 : b < N := hb
      show (if b' = b then _ else _) = _
      rw [if_neg (by omega)]
      exact h2 b' hb'
    · cases h
  | mature b =>
    simp only [step] at h
    split at h
    · next s hg =>
      cases h
      refine ⟨.mature h1 hg, ?_, h3⟩
      unfold mature at hg
      cases hm : c.1.matured b with
      | true => rw [hm, if_pos rfl] at hg; cases hg; exact h2
      | false =>
        rw [hm] at hg
        simp only [Bool.false_eq_true, if_false] at hg
        obtain ⟨_, e⟩ := inv_maturePhis (inv_opened hi hm) (fun x hx => (hi.chain b hm x hx).2.2) (by simp [opened]) hg
        intro b' hb'
        have hb1 : b < N := hb
        rw [e.preds]
        simp only [opened]
        rw [if_neg (by omega)]
        exact h2 b' hb'
    · cases h

theorem exec_small {N : Nat} {os : List Op} {c d : St × (Nat → List Event)} (hs : Small N c) (h : exec N os c = some d) : Small N d := by
  induction os generalizing c with
  | nil => simp only [exec, Option.some.injEq] at h; subst h; exact hs
  | cons o os ih =>
    simp only [exec] at h
    split at h
    · next hb =>
      cases ho : step N o c with
      | none => rw [ho] at h; cases h
      | some c1 => rw [ho] at h; exact ih (step_small hs hb ho) h
    · cases h

/-- the graph that was built by a list of calls -/
def built (N : Nat) (os : List Op) : St × (Nat → List Event) := (exec N os (St.init, fun _ => [])).getD (St.init, fun _ => [])

theorem built_small {N : Nat} (os : List Op) : Small N (built N os) := by
  have h0 : Small N (St.init, fun _ => []) := ⟨.init, fun _ _ => rfl, fun _ _ => rfl⟩
  unfold built
  cases h : exec N os (St.init, fun _ => []) with
  | none => exact h0
  | some c => exact exec_small h0 h

/-- a program is strict if each assigned node was defined or read before in the same block -/
theorem strict_local {α : Type} {G : Code} {init : Nat → α}
    (h : ∀ (b i v n : Nat), (G.events b)[i]? = some (.set v n) → ∃ j : Nat, j < i ∧ ((G.events b)[j]? = some (.define n) ∨ ∃ w, (G.events b)[j]? = some (.get w n))) :
    Strict G init := by
  have key : ∀ c, Run G init c → ∀ (j n : Nat), j < c.pos → ((G.events c.block)[j]? = some (.define n) ∨ ∃ w, (G.events c.block)[j]? = some (.get w n)) → c.seen n := by
    intro c hr
    induction hr with
    | start => intro j n hj; exact absurd hj (Nat.not_lt_zero _)
    | @define c m a _ hev ih =>
      intro j n hj hn
      by_cases e : j = c.pos
      · subst e
        rcases hn with hn | ⟨w, hn⟩
        · have := hev.symm.trans hn; cases this; exact Or.inr rfl
        · have := hev.symm.trans hn; cases this
      · exact Or.inl (ih j n (by simp only [] at hj; omega) hn)
    | @set c v m _ hev ih =>
      intro j n hj hn
      by_cases e : j = c.pos
      · subst e
        rcases hn with hn | ⟨w, hn⟩
        · have := hev.symm.trans hn; cases this
        · have := hev.symm.trans hn; cases this
      · exact ih j n (by simp only [] at hj; omega) hn
    | @get c v m _ hev ih =>
      intro j n hj hn
      by_cases e : j = c.pos
      · subst e
        rcases hn with hn | ⟨w, hn⟩
        · have := hev.symm.trans hn; cases this
        · have := hev.symm.trans hn; cases this; exact Or.inr rfl
      · exact Or.inl (ih j n (by simp only [] at hj; omega) hn)
    | edge _ _ _ ih => intro j n hj; exact absurd hj (Nat.not_lt_zero _)
  intro c hr v n hev
  obtain ⟨j, h1, h2⟩ := h c.block c.pos v n hev
  exact key c hr j n h1 h2

/-! ## Examples -/

/-- a loop: block 0 assigns variable 1; block 1 reads it, assigns a new value and jumps to itself or to block 2, where it is read; variable 2 is
not changed in the loop -/
def loopOps : List Op :=
  [.define 0, .set 0 1 0, .define 0, .set 0 2 1, .addPred 1 (some 0), .get 1 1, .get 1 2, .define 1, .set 1 1 4, .addPred 1 (some 1), .mature 1,
   .addPred 2 (some 1), .mature 2, .get 2 1, .get 2 2]

def loopGraph : St × (Nat → List Event) := built 3 loopOps

theorem loop_small : Small 3 loopGraph := built_small loopOps

/-- the Phi of variable 1 stays, the Phi of variable 2 is replaced by the node 1, and block 2 reads the node 4 for variable 1 -/
example : loopGraph.1.node 2 = .phi 1 1 [0, 4] ∧ loopGraph.1.skip 2 = 2 ∧ loopGraph.1.skip 3 = 1 ∧
    loopGraph.2 0 = [.define 0, .set 1 0, .define 1, .set 2 1] ∧ loopGraph.2 1 = [.get 1 2, .get 2 3, .define 4, .set 1 4] ∧
    loopGraph.2 2 = [.get 1 4, .get 2 3] := by decide +kernel

/-- the front end of the example only assigns what it defined before -/
theorem loop_strict {α : Type} (init : Nat → α) : Strict (loopGraph.1.code loopGraph.2) init := by
  refine strict_local fun b i v n h => ?_
  have h' : (loopGraph.2 b)[i]? = some (.set v n) := h
  show ∃ j : Nat, j < i ∧ ((loopGraph.2 b)[j]? = _ ∨ ∃ w, (loopGraph.2 b)[j]? = _)
  rcases Nat.lt_or_ge b 3 with hb | hb
  · have e0 : loopGraph.2 0 = [.define 0, .set 1 0, .define 1, .set 2 1] := by decide +kernel
    have e1 : loopGraph.2 1 = [.get 1 2, .get 2 3, .define 4, .set 1 4] := by decide +kernel
    have e2 : loopGraph.2 2 = [.get 1 4, .get 2 3] := by decide +kernel
    obtain rfl | rfl | rfl : b = 0 ∨ b = 1 ∨ b = 2 := by omega
    · rw [e0] at h' ⊢
      match i, h' with
      | 1, h' => cases h'; exact ⟨0, by omega, Or.inl rfl⟩
      | 3, h' => cases h'; exact ⟨2, by omega, Or.inl rfl⟩
    · rw [e1] at h' ⊢
      match i, h' with
      | 3, h' => cases h'; exact ⟨2, by omega, Or.inl rfl⟩
    · rw [e2] at h'
      match i, h' with
      | 2, h' => cases h'
  · rw [loop_small.2.2 b hb] at h'
    cases h'

/-- the theorem applies to the loop -/
example {α : Type} (init : Nat → α) : Right (loopGraph.1.code loopGraph.2) init := by
  refine construction_right loop_small.1 (fun b hb => ?_) init (loop_strict init)
  rcases Nat.lt_or_ge b 3 with h | h
  · have : ∀ b < 3, loopGraph.1.preds b ≠ [] → loopGraph.1.matured b = true := by decide +kernel
    exact this b h hb
  · exact absurd (loop_small.2.1 b h) hb

example : loopGraph.1.node 2 = .phi 1 1 [0, 4] ∧ loopGraph.1.matured 1 = true ∧ (loopGraph.1.preds 1).length = 2 := by decide +kernel

/-- a loop without assignments keeps the Phi of memory, and it is kept alive -/
def storeOps : List Op :=
  [.define 0, .set 0 0 0, .addPred 1 (some 0), .get 1 0, .addPred 1 (some 1), .mature 1]

example : (built 2 storeOps).1.node 1 = .phi 1 0 [0, 1] ∧ (built 2 storeOps).1.skip 1 = 1 ∧ (built 2 storeOps).1.kept = [1] := by decide +kernel

/-- reading in the last block of the example terminates: the rank is the number of the block -/
example : ∃ fuel r s', getValue fuel 2 7 loopGraph.1 = some (r, s') := by
  refine get_terminates loop_small.1 (rank := id) (fun b p _ hp => ?_) 2 7
  rcases Nat.lt_or_ge b 3 with h | h
  · have e0 : loopGraph.1.preds 0 = [] := by decide +kernel
    have e1 : loopGraph.1.preds 1 = [some 0, some 1] := by decide +kernel
    have e2 : loopGraph.1.preds 2 = [some 1] := by decide +kernel
    obtain rfl | rfl | rfl : b = 0 ∨ b = 1 ∨ b = 2 := by omega
    · rw [e0] at hp; cases hp
    · rw [e1] at hp; cases hp
    · rw [e2] at hp; cases hp; decide
  · rw [loop_small.2.1 b h] at hp; cases hp

/-- maturing the header of a loop terminates -/
example : ∃ fuel s', mature fuel 1 (built 2 (storeOps.take 5)).1 = some s' := by
  refine mature_terminates (built_small (N := 2) _).1 (rank := id) (fun b p _ hp => ?_)
  rcases Nat.lt_or_ge b 2 with h | h
  · have e0 : (built 2 (storeOps.take 5)).1.preds 0 = [] := by decide +kernel
    have e1 : (built 2 (storeOps.take 5)).1.preds 1 = [some 0, some 1] := by decide +kernel
    obtain rfl | rfl : b = 0 ∨ b = 1 := by omega
    · rw [e0] at hp; cases hp
    · rw [e1] at hp; cases hp
  · rw [(built_small (N := 2) _).2.1 b h] at hp; cases hp

/-! ## Where the code goes wrong -/

/-- **Finding.** A matured block that is its own single predecessor: `get_value` does not return, for no depth of the recursion. -/
theorem get_unbounded : ∃ s L, Builds s L ∧ ∀ fuel, getValue fuel 1 1 s = none := by
  refine ⟨(built 2 [.addPred 1 (some 1), .mature 1]).1, _, (built_small (N := 2) _).1, fun fuel => ?_⟩
  have ha : (built 2 [.addPred 1 (some 1), .mature 1]).1.arr 1 1 = none := by decide +kernel
  have hm : (built 2 [.addPred 1 (some 1), .mature 1]).1.matured 1 = true := by decide +kernel
  have hp : (built 2 [.addPred 1 (some 1), .mature 1]).1.preds 1 = [some 1] := by decide +kernel
  induction fuel with
  | zero => rfl
  | succ fuel ih => simp only [getValue, ha, hm, hp, ih, if_true]

/-- the program of the second finding: block 1 has two jumps from the start block and is not matured when memory is read there; block 2 has jumps from
block 1 and from the start block, its Phi of memory is kept alive; block 3 has two jumps from block 2.  The Phi of block 1 turns out to be
unnecessary, and so is the one of block 2, but only the maturing of block 3 detects this. -/
def assertOps : List Op :=
  [.define 0, .set 0 0 0, .addPred 1 (some 0), .addPred 1 (some 0), .get 1 0, .addPred 2 (some 1), .addPred 2 (some 0), .mature 2, .get 2 0,
   .addPred 3 (some 2), .addPred 3 (some 2), .get 3 0, .mature 1, .mature 3]

/-- **Finding.** The assertion in `exchange` that a Phi of memory which is kept alive is only replaced by such a Phi fails for a correct front end. -/
theorem exchange_assertion_fails : ∃ s L, Builds s L ∧ s.failed = true := by
  refine ⟨(built 4 assertOps).1, _, (built_small (N := 4) assertOps).1, ?_⟩
  decide +kernel

/-- in spite of this the graph is right -/
example : (built 4 assertOps).1.node 2 = .phi 2 0 [1, 0] ∧ (built 4 assertOps).1.kept = [2] ∧ (built 4 assertOps).1.skip 2 = 0 ∧
    (built 4 assertOps).1.skip 3 = 0 := by decide +kernel

end Verif.Props.SsaCons
