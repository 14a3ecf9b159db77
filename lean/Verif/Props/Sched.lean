import Verif.Lemmas.Sched
/-!
# Properties: schedule of a block (C98)
-/
namespace Verif.Props.Sched
open Verif.Spec.Sched Verif.Model.Sched Verif.Lemmas.Sched

/-- one operation -/
def step (fuel block : Nat) : Op → Sched → Option Sched
  | .addBefore b i => addBefore fuel block b i
  | .addAfter a i => addAfter fuel block a i
  | .remove i => remove i
  | .replace o i => replace o i

/-- operations one after the other -/
def run (fuel block : Nat) : List Op → Sched → Option Sched
  | [], s => some s
  | o :: os, s => (step fuel block o s).bind (run fuel block os)

/-- the list after the operations -/
def lists (block : Nat) : List Op → List Nat → List Nat
  | [], l => l
  | o :: os, l => lists block os (o.list block l)

/-- all operations are allowed when their turn comes -/
def AllOk (block : Nat) : List Op → List Nat → Prop
  | [], _ => True
  | o :: os, l => o.Ok block l ∧ AllOk block os (o.list block l)

/-- number of nodes that are added -/
def adds : List Op → Nat
  | [] => 0
  | .addBefore _ _ :: os => adds os + 1
  | .addAfter _ _ :: os => adds os + 1
  | _ :: os => adds os

theorem run_good {fuel block : Nat} (os : List Op) : ∀ (s : Sched) (k : Nat) (l : List Nat), Good s block k l → AllOk block os l →
    k + adds os ≤ 2 ^ 17 + 1 → 2 ^ 18 ≤ fuel → ∃ s', run fuel block os s = some s' ∧ Good s' block (k + adds os) (lists block os l) := by
  induction os with
  | nil => intro s k l h _ _ _; exact ⟨s, rfl, h⟩
  | cons o os ih =>
    intro s k l h hok hk hf
    obtain ⟨h1, h2⟩ := hok
    cases o with
    | addBefore b i =>
      simp only [adds] at hk ⊢
      obtain ⟨s1, r1, r2, -⟩ := good_addBefore (fuel := fuel) h h1 (Or.inr (by omega)) (by omega) (by omega)
      obtain ⟨s2, t1, t2⟩ := ih s1 (k + 1) _ r2 h2 (by omega) hf
      refine ⟨s2, by simp [run, step, r1, t1], ?_⟩
      rw [show k + (adds os + 1) = k + 1 + adds os by omega]
      exact t2
    | addAfter a i =>
      simp only [adds] at hk ⊢
      obtain ⟨s1, r1, r2⟩ := good_addAfter (fuel := fuel) h h1 (by omega) (by omega) (by omega)
      obtain ⟨s2, t1, t2⟩ := ih s1 (k + 1) _ r2 h2 (by omega) hf
      refine ⟨s2, by simp [run, step, r1, t1], ?_⟩
      rw [show k + (adds os + 1) = k + 1 + adds os by omega]
      exact t2
    | remove i =>
      simp only [adds] at hk ⊢
      obtain ⟨s1, r1, r2⟩ := good_remove h h1
      obtain ⟨s2, t1, t2⟩ := ih s1 k _ r2 h2 (by omega) hf
      exact ⟨s2, by simp [run, step, r1, t1], t2⟩
    | replace p i =>
      simp only [adds] at hk ⊢
      obtain ⟨s1, r1, r2⟩ := good_replace h h1
      obtain ⟨s2, t1, t2⟩ := ih s1 k _ r2 h2 (by omega) hf
      exact ⟨s2, by simp [run, step, r1, t1], t2⟩

theorem before_iff {s : Sched} {block : Nat} {l : List Nat} (h : Sorted s block l) {a b : Nat} (ha : a ∈ block :: l) (hb : b ∈ block :: l) :
    comesBefore s a b = true ↔ Before (block :: l) a b := by
  unfold comesBefore Before
  rw [decide_eq_true_eq]
  constructor
  · intro hlt
    obtain ⟨l1, l2, e, -⟩ := mem_split ha
    have hpw := h.2
    rw [e] at hb hpw
    rw [e]
    rcases List.mem_append.1 hb with hm | hm
    · have := (List.pairwise_append.1 hpw).2.2 b hm a (by simp)
      omega
    · rcases List.mem_cons.1 hm with e' | hm
      · rw [e'] at hlt; omega
      · obtain ⟨m1, m2, e', -⟩ := mem_split hm
        exact ⟨l1, m1, m2, by rw [e']; simp⟩
  · rintro ⟨l1, l2, l3, e⟩
    have hpw := h.2
    rw [e, List.append_assoc] at hpw
    have := (List.pairwise_append.1 hpw).2.1
    exact (List.pairwise_cons.1 this).1 b (by simp)

/-- As long as at most 131073 nodes were added to a block (those that were removed again count), every sequence of allowed operations
succeeds, the pointers form the ring of the expected list of nodes, and `sched_comes_before` answers by the order of the list.
What is missing: any number of additions, see `schedule_order_wrong`. -/
theorem schedule_order_partial {fuel block : Nat} (os : List Op) (hok : AllOk block os []) (hk : adds os ≤ 2 ^ 17 + 1) (hf : 2 ^ 18 ≤ fuel) :
    ∃ s, run fuel block os (initBlock block) = some s ∧ Ring s block (lists block os []) ∧
      ∀ a b, a ∈ block :: lists block os [] → b ∈ block :: lists block os [] →
        (comesBefore s a b = true ↔ Before (block :: lists block os []) a b) := by
  obtain ⟨s, h1, h2⟩ := run_good os (initBlock block) 0 [] (good_init block) hok (by omega) hf
  exact ⟨s, h1, h2.ring, fun a b ha hb => before_iff h2.sorted ha hb⟩

example : (run (2 ^ 18) 0 [.addBefore 0 1, .addBefore 0 2, .addAfter 1 3, .addBefore 3 4, .remove 1, .replace 2 5] (initBlock 0)).map
    (fun s => ([s.next 0, s.next 4, s.next 3, s.next 5], [4, 3, 5].map s.ts)) =
    some ([some 4, some 3, some 5, some 0], [20480, 24576, 32768]) := by decide

example : AllOk 0 [.addBefore 0 1, .addBefore 0 2, .addAfter 1 3, .addBefore 3 4, .remove 1, .replace 2 5] [] := by
  simp [AllOk, Op.Ok, Op.list, insertAfter, insertBefore]

/-! ## Too many additions -/

/-- the nodes `1` to `n` are appended to block 0 -/
def appends : Nat → List Op
  | 0 => []
  | n + 1 => appends n ++ [.addBefore 0 (n + 1)]

/-- the numbers `1` to `n` -/
def upTo : Nat → List Nat
  | 0 => []
  | n + 1 => upTo n ++ [n + 1]

theorem mem_upTo {n x : Nat} : x ∈ upTo n ↔ 1 ≤ x ∧ x ≤ n := by
  induction n with
  | zero => simp [upTo]; omega
  | succ n ih => simp [upTo, ih]; omega

theorem run_append {fuel block : Nat} {os os' : List Op} : ∀ {s : Sched}, run fuel block (os ++ os') s = (run fuel block os s).bind (run fuel block os') := by
  induction os with
  | nil => intro s; rfl
  | cons o os ih =>
    intro s
    rw [List.cons_append, run, run]
    cases step fuel block o s with
    | none => rfl
    | some s1 => exact ih

theorem appends_run (n : Nat) (hn : n < 2 ^ 18 - 1) : ∃ s, run (2 ^ 18) 0 (appends n) (initBlock 0) = some s ∧ Good s 0 n (upTo n) ∧
    (∀ x, 1 ≤ x → x ≤ n → s.ts x = x * granularity) ∧ s.prev 0 = some n := by
  induction n with
  | zero => exact ⟨_, rfl, good_init 0, fun x h1 h2 => by omega, rfl⟩
  | succ n ih =>
    obtain ⟨s, h1, h2, h3, h4⟩ := ih (by omega)
    obtain ⟨s', r1, r2, r3⟩ := good_addBefore (fuel := 2 ^ 18) (b := 0) (i := n + 1) h2
      ⟨by simp, by simp [mem_upTo]⟩ (Or.inl rfl) (by omega) (by omega)
    have hnl : n * granularity + granularity < limit := by
      have e : limit = 2 ^ 18 * granularity := by decide
      have : (n + 1) * granularity < 2 ^ 18 * granularity := Nat.mul_lt_mul_of_pos_right (by omega) (by decide)
      rw [Nat.add_mul, Nat.one_mul] at this
      omega
    have htn : s.ts n = n * granularity := by
      cases n with
      | zero => rw [h2.sorted.1, Nat.zero_mul]
      | succ n => exact h3 _ (by omega) (Nat.le_refl _)
    have hts := r3 rfl n h4 (by rw [htn]; exact hnl)
    have hl : Op.list 0 (.addBefore 0 (n + 1)) (upTo n) = upTo (n + 1) := by simp [Op.list, upTo]
    rw [hl] at r2
    refine ⟨s', ?_, r2, fun x a b => ?_, ?_⟩
    · rw [appends, run_append, h1]
      simp [run, step, r1]
    · rw [hts]
      by_cases e : x = n + 1
      · rw [e, upd_self, htn, Nat.add_mul, Nat.one_mul]
      · rw [upd_ne e]
        exact h3 x a (by omega)
    · have hc := r2.ring.chain
      rw [upTo, List.append_assoc, ← List.cons_append] at hc
      exact (chain_pair hc).2

theorem appends_ok (n : Nat) : ∀ os, AllOk 0 os (upTo n) → AllOk 0 (appends n ++ os) [] := by
  induction n with
  | zero => intro os h; exact h
  | succ n ih =>
    intro os h
    rw [appends, List.append_assoc]
    refine ih _ ⟨⟨by simp, by simp [mem_upTo]⟩, ?_⟩
    have hl : Op.list 0 (.addBefore 0 (n + 1)) (upTo n) = upTo (n + 1) := by simp [Op.list, upTo]
    rw [hl]
    exact h

theorem adds_append {os os' : List Op} : adds (os ++ os') = adds os + adds os' := by
  induction os with
  | nil => simp [adds]
  | cons o os ih => cases o <;> simp [adds, ih] <;> omega

theorem adds_appends (n : Nat) : adds (appends n) = n := by
  induction n with
  | zero => rfl
  | succ n ih => rw [appends, adds_append, ih]; rfl

/-- After 131073 nodes were appended, the next one that is put before the last node gets a time step that is smaller than that of the
first node: the sum of the neighbours' time steps overflows.  So the bound in `schedule_order_partial` is the best possible. -/
theorem schedule_order_wrong : ∃ (os : List Op) (s : Sched), AllOk 0 os [] ∧ adds os = 2 ^ 17 + 2 ∧ run (2 ^ 18) 0 os (initBlock 0) = some s ∧
    comesBefore s (2 ^ 17 + 2) 1 = true ∧ Before (lists 0 os []) 1 (2 ^ 17 + 2) := by
  obtain ⟨s, h1, h2, h3, -⟩ := appends_run (2 ^ 17 + 1) (by decide)
  have hb : 2 ^ 17 + 1 ∈ upTo (2 ^ 17 + 1) := mem_upTo.2 ⟨by decide, Nat.le_refl _⟩
  have hi : 2 ^ 17 + 2 ∉ 0 :: upTo (2 ^ 17 + 1) := by
    rw [List.mem_cons, mem_upTo]
    omega
  have hok : Op.Ok 0 (.addBefore (2 ^ 17 + 1) (2 ^ 17 + 2)) (upTo (2 ^ 17 + 1)) := ⟨List.mem_cons_of_mem _ hb, hi⟩
  have hlist : upTo (2 ^ 17 + 1) = upTo (2 ^ 17) ++ [2 ^ 17 + 1] := rfl
  generalize hN : (2 : Nat) ^ 17 = N at *
  have hc := h2.ring.chain
  have hprev : s.prev (N + 1) = some N := by
    have e : upTo N = upTo (N - 1) ++ [N] := by
      cases N with
      | zero => simp at hN
      | succ n => rfl
    rw [hlist, e, List.append_assoc, List.append_assoc, ← List.cons_append] at hc
    exact (chain_pair hc).2
  have hnext : ∃ y, s.next (N + 1) = some y := by
    rw [hlist, List.append_assoc, ← List.cons_append] at hc
    exact ⟨_, (chain_pair hc).1⟩
  obtain ⟨y, hy⟩ := hnext
  have t1 : s.ts (N + 1) = (N + 1) * granularity := h3 _ (by omega) (Nat.le_refl _)
  have t2 : s.ts N = N * granularity := h3 _ (by omega) (by omega)
  have t3 : s.ts 1 = granularity := by rw [h3 1 (by omega) (by omega), Nat.one_mul]
  have hg : N * granularity = 2 ^ 31 := by rw [← hN]; decide
  have hg' : granularity = 2 ^ 14 := rfl
  have hlim : limit = 2 ^ 32 := rfl
  have hadd : addBefore (2 ^ 18) 0 (N + 1) (N + 2) s = some ⟨upd (upd s.next (N + 2) (some (N + 1))) N (some (N + 2)),
      upd (upd s.prev (N + 2) (some N)) (N + 1) (some (N + 2)), upd s.ts (N + 2) 8192⟩ := by
    unfold addBefore
    rw [if_neg (by simp [h2.ring.out (N + 2) hi]), hy, hprev]
    simp only
    unfold setTimeStamp
    simp only [upd_ne (show N + 2 ≠ N by omega), upd_ne (show N + 2 ≠ N + 1 by omega), upd_self]
    rw [t1, t2, Nat.add_mul, hg, Nat.one_mul, hg', hlim]
    simp
  have hrun : run (2 ^ 18) 0 (appends (N + 1) ++ [.addBefore (N + 1) (N + 2)]) (initBlock 0) =
      some ⟨upd (upd s.next (N + 2) (some (N + 1))) N (some (N + 2)),
        upd (upd s.prev (N + 2) (some N)) (N + 1) (some (N + 2)), upd s.ts (N + 2) 8192⟩ := by
    rw [run_append, h1]
    simp [run, step, hadd]
  refine ⟨appends (N + 1) ++ [.addBefore (N + 1) (N + 2)], _, appends_ok (N + 1) _ ⟨hok, trivial⟩, ?_, hrun, ?_, ?_⟩
  · rw [adds_append, adds_appends]; rfl
  · unfold comesBefore
    simp only [upd_self, upd_ne (show 1 ≠ N + 2 by omega), t3, hg']
    decide
  · have hl : ∀ n os, lists 0 (appends n ++ os) [] = lists 0 os (upTo n) := by
      intro n
      induction n with
      | zero => intro os; rfl
      | succ n ih =>
        intro os
        rw [appends, List.append_assoc, ih]
        simp [lists, Op.list, upTo]
    rw [hl]
    have hne : N + 1 ∉ upTo N := by rw [mem_upTo]; omega
    have e1 : lists 0 [.addBefore (N + 1) (N + 2)] (upTo (N + 1)) = upTo N ++ [N + 2, N + 1] := by
      simp only [lists, Op.list]
      rw [if_neg (by omega), hlist, insertBefore_split hne]
    rw [e1]
    obtain ⟨m1, m2, e, -⟩ := mem_split (mem_upTo.2 ⟨Nat.le_refl 1, by omega⟩ : 1 ∈ upTo N)
    exact ⟨m1, m2, [N + 1], by simp [e]⟩

end Verif.Props.Sched
