import Verif.Lemmas.Usage

/-
Usage of variables (ir/ana/irmemory.c): if a variable is not marked as taken
then its address is known only to nodes that do address arithmetic; if it is
not marked as written (read) then it is never written (read).
-/

namespace Verif.Props.Usage

open Spec.Usage Model.Usage Lemmas.Usage

variable {g : Graph} {e : Nat} {f : Flags}

theorem chain_arith {n : Nat} (h : Chain g e n) :
    g.kind n = .address e ∨ (g.kind n).arith = true := by
  cases h with
  | base _ h => exact Or.inl h
  | step _ h _ _ => exact Or.inr h

theorem invariant (h : usage g e = some f) (hf : f.taken = false) {s : State} (hs : Reach g s) :
    ¬ s.pool e ∧ ∀ n, s.prov n e → Chain g e n := by
  have hne : f.taken ≠ true := by rw [hf]; decide
  induction hs with
  | init =>
    obtain ⟨h1, h2⟩ := initial_taken h hf
    refine ⟨?_, fun _ hh => hh.elim⟩
    rintro (hh | hh)
    · rw [h1] at hh; exact nomatch hh
    · exact h2 hh
  | @step s r w s' _ hst ih =>
    obtain ⟨ih1, ih2⟩ := ih
    have set_ok : ∀ (n : Nat) (v : Vars), (v e → Chain g e n) →
        ∀ m, (s.set n v).prov m e → Chain g e m := by
      intro n v hv m hm
      simp only [State.set] at hm
      split at hm
      next he => exact he ▸ hv hm
      next => exact ih2 m hm
    cases hst with
    | @address n e' hn hk =>
      exact ⟨ih1, set_ok n _ (fun he => .base hn (he ▸ hk))⟩
    | @arith n v hn hk hv =>
      refine ⟨ih1, set_ok n v (fun he => ?_)⟩
      obtain ⟨m, hm, hp⟩ := hv e he
      exact .step hn hk hm (ih2 m hp)
    | @load n mem ptr v hn hk hi hv =>
      exact ⟨ih1, set_ok n v (fun he => (ih1 (hv e he)).elim)⟩
    | @store n mem ptr val hn hk hi =>
      refine ⟨?_, set_ok n _ (fun he => he.elim)⟩
      rintro (hh | hh)
      · exact ih1 hh
      · exact hne (((chain_use h (ih2 _ hh) hn (k := 2) (by rw [hi]; rfl)).2.1 hk).1 rfl)
    | @copyB n mem dst src hn hk hi => exact ⟨ih1, set_ok n _ (fun he => he.elim)⟩
    | @call n mem ptr args agg v r w pool hn hk hi hp _ hv _ _ =>
      have hpool : ¬ pool e := by
        intro hh
        rcases hp e hh with hh | ⟨k, a, ha, hagg, hpa⟩
        · exact ih1 hh
        · exact hne (((chain_use h (ih2 _ hpa) hn (k := k + 2) (by rw [hi]; exact ha)).2.2.2.1
            agg hk).2 (by omega) hagg)
      exact ⟨hpool, set_ok n v (fun he => (hpool (hv e he)).elim)⟩
    | @mayAlias n hn hk => exact ⟨ih1, set_ok n _ (fun he => he.elim)⟩
    | @other n v r w pool hn hk hp _ hv =>
      have key : ∀ m, m ∈ g.ins n → ¬ s.prov m e := by
        intro m hm hpm
        obtain ⟨k, hk'⟩ := List.getElem?_of_mem hm
        exact hne ((chain_use h (ih2 _ hpm) hn hk').2.2.2.2 hk)
      refine ⟨?_, set_ok n v (fun he => ?_)⟩
      · intro hh
        rcases hp e hh with hh | ⟨m, hm, hpm⟩
        · exact ih1 hh
        · exact key m hm hpm
      · rcases hv e (Or.inl he) with hh | ⟨m, hm, hpm⟩
        · exact (ih1 hh).elim
        · exact (key m hm hpm).elim

/-- If a variable is not marked as taken then, at every time of every run, its
address is neither in memory nor known outside, and only nodes that compute
addresses hold it: no loaded value, no result of a call, no Phi. -/
theorem taken_sound (h : usage g e = some f) (hf : f.taken = false) {s : State} (hs : Reach g s) :
    ¬ s.pool e ∧ ∀ n, s.prov n e → g.kind n = .address e ∨ (g.kind n).arith = true := by
  obtain ⟨h1, h2⟩ := invariant h hf hs
  exact ⟨h1, fun n hn => chain_arith (h2 n hn)⟩

/-- A variable that is not marked as written is never written. -/
theorem write_sound (h : usage g e = some f) (hf : f.write = false) {s s' : State} {r w : Vars}
    (hs : Reach g s) (hst : Step g s r w s') : ¬ w e := by
  have hne : f.write ≠ true := by rw [hf]; decide
  have ht : f.taken = false := by
    cases hh : f.taken with
    | false => rfl
    | true => exact (hne (full_usage h hh).1).elim
  obtain ⟨ih1, ih2⟩ := invariant h ht hs
  have h2 := (invariant h ht (.step hs hst)).1
  intro hw
  cases hst with
  | address => exact hw
  | arith => exact hw
  | load => exact hw
  | store hn hk hi =>
    exact hne (((chain_use h (ih2 _ hw) hn (k := 1) (by rw [hi]; rfl)).2.1 hk).2 rfl)
  | copyB hn hk hi =>
    exact hne (((chain_use h (ih2 _ hw) hn (k := 1) (by rw [hi]; rfl)).2.2.1 hk).1 rfl)
  | call hn hk hi hp hsub hv hr hww => exact h2 (hww e hw)
  | mayAlias => exact hw
  | other hn hk hp hsub hv =>
    rcases hv e (Or.inr (Or.inr hw)) with hh | ⟨m, hm, hpm⟩
    · exact ih1 hh
    · obtain ⟨k, hk'⟩ := List.getElem?_of_mem hm
      have := (chain_use h (ih2 _ hpm) hn hk').2.2.2.2 hk
      rw [ht] at this
      exact nomatch this

/-- A variable that is not marked as read is never read. -/
theorem read_sound (h : usage g e = some f) (hf : f.read = false) {s s' : State} {r w : Vars}
    (hs : Reach g s) (hst : Step g s r w s') : ¬ r e := by
  have hne : f.read ≠ true := by rw [hf]; decide
  have ht : f.taken = false := by
    cases hh : f.taken with
    | false => rfl
    | true => exact (hne (full_usage h hh).2).elim
  obtain ⟨ih1, ih2⟩ := invariant h ht hs
  have h2 := (invariant h ht (.step hs hst)).1
  intro hr
  cases hst with
  | address => exact hr
  | arith => exact hr
  | load hn hk hi =>
    exact hne ((chain_use h (ih2 _ hr) hn (k := 1) (by rw [hi]; rfl)).1 hk)
  | store => exact hr
  | copyB hn hk hi =>
    exact hne (((chain_use h (ih2 _ hr) hn (k := 2) (by rw [hi]; rfl)).2.2.1 hk).2 rfl)
  | call hn hk hi hp hsub hv hrr hww =>
    rcases hrr e hr with hh | hh | ⟨a, ha, hh⟩
    · exact h2 hh
    · exact hne ((chain_use h (ih2 _ hh) hn (k := 1) (by rw [hi]; rfl)).2.2.2.1 _ hk).1
    · obtain ⟨k, hk'⟩ := List.getElem?_of_mem ha
      exact hne ((chain_use h (ih2 _ hh) hn (k := k + 2) (by rw [hi]; exact hk')).2.2.2.1 _ hk).1
  | mayAlias => exact hr
  | other hn hk hp hsub hv =>
    rcases hv e (Or.inr (Or.inl hr)) with hh | ⟨m, hm, hpm⟩
    · exact ih1 hh
    · obtain ⟨k, hk'⟩ := List.getElem?_of_mem hm
      have := (chain_use h (ih2 _ hpm) hn hk').2.2.2.2 hk
      rw [ht] at this
      exact nomatch this

/-! ## Examples -/

/-- Node 0 memory, 1 `&a`, 2 `&a + 5` (offset 3), 4 a Load from there,
5 `&b`, 6 a Store of `&b` to `a`, 7 `&c`, 8 a Call with `c` by value,
9 a Store to `a`. -/
def small : Graph where
  n := 10
  kind
    | 1 => .address 0
    | 2 => .add
    | 4 => .load
    | 5 => .address 1
    | 6 => .store
    | 7 => .address 2
    | 8 => .call [true]
    | 9 => .store
    | _ => .other
  ins
    | 2 => [1, 3]
    | 4 => [0, 2]
    | 6 => [0, 1, 5]
    | 8 => [0, 3, 7]
    | 9 => [0, 2, 3]
    | _ => []
  visible _ := false
  inits := []

example : usage small 0 = some ⟨false, true, true⟩ ∧ usage small 1 = some ⟨true, true, true⟩ ∧
    usage small 2 = some ⟨false, false, true⟩ := by decide +kernel

/-- The address of `b` gets into memory, so the mark is needed. -/
example : ∃ s, Reach small s ∧ s.pool 1 :=
  ⟨_, .step (.step .init (.address (n := 5) (e := 1) (by decide) rfl))
    (.store (n := 6) (mem := 0) (ptr := 1) (val := 5) (by decide) rfl rfl),
    Or.inr (by simp [State.set])⟩

/-- A pointer of unknown origin does not point to `a`. -/
example (s : State) (hs : Reach small s) : ¬ s.prov 3 0 := by
  intro h
  have := (taken_sound (g := small) (e := 0) (f := ⟨false, true, true⟩) (by decide +kernel) rfl
    hs).2 3 h
  rcases this with h | h <;> exact nomatch h

/-- A call with more arguments than its type has parameters, passing the
address of a variable in the variable part, runs into the assertion of
get_method_param_type (ir/tr/type.c:577). -/
def variadic : Graph where
  n := 3
  kind
    | 1 => .address 0
    | 2 => .call []
    | _ => .other
  ins
    | 2 => [0, 0, 1]
    | _ => []
  visible _ := false
  inits := []

theorem variadic_wrong : usage variadic 0 = none := by decide +kernel

end Verif.Props.Usage
