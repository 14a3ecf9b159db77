import Verif.Model.Setsort
import Mathlib.Algebra.BigOperators.Ring.Finset
import Mathlib.Tactic.Ring
import Mathlib.Algebra.Order.BigOperators.Group.Finset
/-!
# Helper lemmas: multi operations
-/
namespace Verif.Lemmas.Setsort

open Verif.Spec.Setsort Verif.Model.Setsort

variable {R : Type} [CommSemiring R] [DecidableEq R]

/-- the value of the edges from `u` to operands below `k` -/
def rest (val : Nat → R) (u : Node R) (k : Nat) : R := ∑ m ∈ Finset.range k, edges u m * val m

theorem rest_succ (val : Nat → R) (u : Node R) (k : Nat) : rest val u (k + 1) = rest val u k + edges u k * val k := by
  simp only [rest]; rw [Finset.sum_range_succ]

theorem edges_bin (ca cb : R) (a b m : Nat) (h : a = b → ca = cb) :
    edges (.bin ca a cb b) m = (if a = m then ca else 0) + (if b = m then cb else 0) := by
  simp only [edges, Node.ins, factor]
  by_cases ha : a = m <;> by_cases hb : b = m
  · have := h (ha.trans hb.symm)
    simp [ha, hb, this]
  · simp [ha, hb]
  · simp [ha, hb]
  · simp [ha, hb]

theorem edges_mulc (c : R) (a m : Nat) : edges (.mulc c a) m = if a = m then 1 else 0 := by
  simp only [edges, Node.ins, factor]
  by_cases ha : a = m <;> simp [ha]

/-- all operands of a node below it: `own * rest` is its value -/
theorem own_rest (g : Graph R) (val : Nat → R) (ha : Acyclic g.node) (hs : NoSame g.node) (hc : Computes g.node g.size val) (n : Nat) (hn : n < g.size)
    (hat : g.node n ≠ .atom) : own (g.node n) * rest val (g.node n) n = val n := by
  have hcn := hc n hn
  have han := ha n
  have hsn := hs n
  revert hcn han hsn hat
  cases g.node n with
  | atom => intro h; exact absurd rfl h
  | bin ca a cb b =>
    intro _ hcn han hsn
    simp only [own, one_mul, rest]
    have hA : a < n := han a (by simp [Node.ins])
    have hB : b < n := han b (by simp [Node.ins])
    have : ∀ m ∈ Finset.range n, edges (.bin ca a cb b) m * val m = (if a = m then ca * val m else 0) + (if b = m then cb * val m else 0) := by
      intro m _
      rw [edges_bin ca cb a b m (hsn ca a cb b rfl), add_mul, ite_mul, ite_mul, zero_mul]
    rw [Finset.sum_congr rfl this, Finset.sum_add_distrib, Finset.sum_ite_eq, Finset.sum_ite_eq, if_pos (Finset.mem_range.2 hA),
      if_pos (Finset.mem_range.2 hB)]
    exact hcn.symm
  | mulc c a =>
    intro _ hcn han _
    simp only [own, rest]
    have hA : a < n := han a (by simp [Node.ins])
    have : ∀ m ∈ Finset.range n, edges (.mulc c a) m * val m = (if a = m then val m else 0) := by
      intro m _
      rw [edges_mulc, ite_mul, zero_mul, one_mul]
    rw [Finset.sum_congr rfl this, Finset.sum_ite_eq, if_pos (Finset.mem_range.2 hA)]
    exact hcn.symm

/-- what is still to come of the set `t` when the nodes from `k` on have been visited -/
def pending (g : Graph R) (val : Nat → R) (s : Sets R) (t k : Nat) : R :=
  ∑ u ∈ Finset.range g.size, if s.setOf u = some t then s.ev u * rest val (g.node u) k else 0

theorem pending_succ (g : Graph R) (val : Nat → R) (s : Sets R) (t k : Nat) :
    pending g val s t (k + 1) = pending g val s t k + contrib g s t k * val k := by
  simp only [pending, contrib]
  rw [Finset.sum_mul, ← Finset.sum_add_distrib]
  apply Finset.sum_congr rfl
  intro u _
  by_cases h : s.setOf u = some t
  · simp only [if_pos h, rest_succ, mul_add, mul_assoc]
  · simp only [if_neg h, zero_mul, add_zero]

/-- the invariant of the walk -/
structure Inv (g : Graph R) (val : Nat → R) (s : Sets R) (k : Nat) : Prop where
  fresh : ∀ u, u < k → s.setOf u = none
  setGe : ∀ u t, s.setOf u = some t → k ≤ t
  coefLow : ∀ t n, n < k → s.coef t n = 0
  coefBase : ∀ t n, t < k → s.coef t n = 0
  eqn : ∀ t, s.setOf t = some t → val t = ∑ n ∈ Finset.range g.size, s.coef t n * val n + pending g val s t k

theorem edges_eq_zero (u : Node R) (n : Nat) (h : (u.ins.contains n) = false) : edges u n = 0 := by
  have : u.ins.filter (· = n) = [] := by
    rw [List.filter_eq_nil_iff]
    intro a ha hb
    have hb' : a = n := by simpa using hb
    subst hb'
    rw [List.contains_iff_mem.2 ha] at h
    exact Bool.noConfusion h
  simp [edges, this]

theorem target_users (g : Graph R) (s : Sets R) (n t : Nat) (h : target g s n = some t) :
    ∀ u, u < g.size → (g.node u).ins.contains n = true → s.setOf u = some t := by
  intro u hu hc
  have hm : u ∈ users g n := List.mem_filter.2 ⟨List.mem_range.2 hu, hc⟩
  unfold target at h
  revert h hm
  cases users g n with
  | nil => intro _ hm; cases hm
  | cons w us =>
    intro h hm
    dsimp only at h
    revert h
    cases hw : s.setOf w with
    | none => intro h; cases h
    | some t' =>
      intro h
      dsimp only at h
      by_cases hc : (!g.extern n && us.all (fun v => s.setOf v == some t')) = true
      · rw [if_pos hc] at h
        rw [Bool.and_eq_true] at hc
        cases h
        cases hm with
        | head => exact hw
        | tail _ hm =>
          have := List.all_eq_true.1 hc.2 u hm
          simpa using this
      · rw [if_neg hc] at h
        cases h

/-- the sum with a new coefficient at one place -/
theorem sum_coef (N : Nat) (c : Nat → R) (val : Nat → R) (n : Nat) (x : R) (hn : n < N) (h0 : c n = 0) :
    ∑ m ∈ Finset.range N, (if m = n then x else c m) * val m = ∑ m ∈ Finset.range N, c m * val m + x * val n := by
  have : ∀ m ∈ Finset.range N, (if m = n then x else c m) * val m = c m * val m + (if m = n then x * val m else 0) := by
    intro m _
    by_cases h : m = n
    · subst h; rw [if_pos rfl, if_pos rfl, h0, zero_mul, zero_add]
    · rw [if_neg h, if_neg h, add_zero]
  rw [Finset.sum_congr rfl this, Finset.sum_add_distrib, Finset.sum_ite_eq', if_pos (Finset.mem_range.2 hn)]

theorem pending_set (g : Graph R) (val : Nat → R) (s : Sets R) (n t0 t k : Nat) (e : R) (so : Nat → Option Nat) (ev : Nat → R)
    (hso : so = fun m => if m = n then some t0 else s.setOf m) (hev : ev = fun m => if m = n then e else s.ev m) (c c' ) (hn : n < g.size)
    (hf : s.setOf n = none) :
    pending g val ⟨so, ev, c, c'⟩ t k = pending g val s t k + if t0 = t then e * rest val (g.node n) k else 0 := by
  subst hso hev
  simp only [pending]
  have : ∀ u ∈ Finset.range g.size,
      (if (if u = n then some t0 else s.setOf u) = some t then (if u = n then e else s.ev u) * rest val (g.node u) k else 0) =
      (if s.setOf u = some t then s.ev u * rest val (g.node u) k else 0) +
        (if u = n then (if t0 = t then e * rest val (g.node u) k else 0) else 0) := by
    intro u _
    by_cases h : u = n
    · subst h
      simp only [if_true, hf, Option.some.injEq]
      rw [if_neg (show ¬ ((none : Option Nat) = some t) from fun h => by cases h), zero_add]
    · simp only [if_neg h, add_zero]
  rw [Finset.sum_congr rfl this, Finset.sum_add_distrib, Finset.sum_ite_eq', if_pos (Finset.mem_range.2 hn)]

theorem contrib_fresh (g : Graph R) (s : Sets R) (t n : Nat) (h : ∀ u, s.setOf u ≠ some t) : contrib g s t n = 0 := by
  simp only [contrib]
  apply Finset.sum_eq_zero
  intro u _
  rw [if_neg (h u)]

theorem pending_fresh (g : Graph R) (val : Nat → R) (s : Sets R) (t n : Nat) (h : ∀ u, s.setOf u ≠ some t) : pending g val s t n = 0 := by
  simp only [pending]
  apply Finset.sum_eq_zero
  intro u _
  rw [if_neg (h u)]

/-- a visit keeps the invariant if a node that is added to a set counts once, or as often as its edges say -/
theorem visit_inv (exact : Bool) (g : Graph R) (val : Nat → R) (ha : Acyclic g.node) (hs : NoSame g.node) (hc : Computes g.node g.size val)
    (s : Sets R) (n : Nat) (hn : n < g.size) (inv : Inv g val s (n + 1))
    (hj : exact = false → g.node n ≠ .atom → ∀ t, target g s n = some t → contrib g s t n = 1) : Inv g val (visit exact g s n) n := by
  have hfn : s.setOf n = none := inv.fresh n (Nat.lt_succ_self n)
  have hnt : ∀ u, s.setOf u ≠ some n := fun u hu => absurd (inv.setGe u n hu) (Nat.not_succ_le_self n)
  by_cases hat : g.node n = .atom
  · have hv : visit exact g s n = { s with
      coef := fun t m => if m = n then contrib g s t n else s.coef t m
      changed := fun t => s.changed t || ((exact || g.multi n) && twice g s t n) } := by
      simp only [visit, hat]
    rw [hv]
    refine ⟨fun u hu => inv.fresh u (by omega), fun u t hu => Nat.le_of_succ_le (inv.setGe u t hu), ?_, ?_, ?_⟩
    · intro t m hm
      show (if m = n then _ else _) = _
      rw [if_neg (Nat.ne_of_lt hm)]
      exact inv.coefLow t m (by omega)
    · intro t m ht
      show (if m = n then _ else _) = _
      by_cases h : m = n
      · rw [if_pos h]
        exact contrib_fresh g s t n (fun u hu => by have := inv.setGe u t hu; omega)
      · rw [if_neg h]; exact inv.coefBase t m (by omega)
    · intro t ht
      have e := inv.eqn t ht
      rw [pending_succ] at e
      show val t = ∑ m ∈ Finset.range g.size, (if m = n then contrib g s t n else s.coef t m) * val m + pending g val s t n
      rw [sum_coef g.size (s.coef t) val n _ hn (inv.coefLow t n (Nat.lt_succ_self n)), e]
      ring
  · cases htg : target g s n with
    | some t0 =>
      have hv : visit exact g s n = { s with
        setOf := fun m => if m = n then some t0 else s.setOf m
        ev := fun m => if m = n then (if exact then contrib g s t0 n else 1) * own (g.node n) else s.ev m } := by
        simp only [visit, htg]
      have hw : (if exact then contrib g s t0 n else 1) = contrib g s t0 n := by
        cases exact with
        | true => rfl
        | false => exact (hj rfl hat t0 htg).symm
      rw [hw] at hv
      rw [hv]
      have hus := target_users g s n t0 htg
      have hge : n ≤ t0 := by
        unfold target at htg
        revert htg
        cases users g n with
        | nil => intro h; cases h
        | cons w us =>
          dsimp only
          cases hw : s.setOf w with
          | none => intro h; cases h
          | some t' =>
            dsimp only
            intro h
            have := inv.setGe w t' hw
            split at h
            · cases h; omega
            · cases h
      refine ⟨?_, ?_, fun t m hm => inv.coefLow t m (by omega), fun t m ht => inv.coefBase t m (by omega), ?_⟩
      · intro u hu
        show (if u = n then _ else _) = _
        rw [if_neg (Nat.ne_of_lt hu)]
        exact inv.fresh u (by omega)
      · intro u t hu
        have hu' : (if u = n then some t0 else s.setOf u) = some t := hu
        by_cases h : u = n
        · rw [if_pos h] at hu'; cases hu'; exact hge
        · rw [if_neg h] at hu'; exact Nat.le_of_succ_le (inv.setGe u t hu')
      · intro t ht
        have ht' : (if t = n then some t0 else s.setOf t) = some t := ht
        by_cases h : t = n
        · rw [if_pos h] at ht'
          cases ht'
          -- the set of its users would be the node itself
          exfalso
          unfold target at htg
          revert htg
          cases users g n with
          | nil => intro h; cases h
          | cons w us =>
            dsimp only
            cases hw : s.setOf w with
            | none => intro h; cases h
            | some t' =>
              dsimp only
              intro h'
              have := inv.setGe w t' hw
              split at h'
              · cases h'; omega
              · cases h'
        rw [if_neg h] at ht'
        have e := inv.eqn t ht'
        rw [pending_succ] at e
        rw [pending_set g val s n t0 t n _ _ _ rfl rfl _ _ hn hfn]
        show val t = ∑ m ∈ Finset.range g.size, s.coef t m * val m + _
        rw [mul_assoc, own_rest g val ha hs hc n hn hat]
        by_cases htt : t0 = t
        · subst htt
          rw [if_pos rfl]; exact e
        · have h0 : contrib g s t n = 0 := by
            simp only [contrib]
            apply Finset.sum_eq_zero
            intro u hu
            by_cases hus' : s.setOf u = some t
            · rw [if_pos hus']
              cases hcn : (g.node u).ins.contains n with
              | true =>
                have := hus u (Finset.mem_range.1 hu) hcn
                rw [this] at hus'
                cases hus'
                exact absurd rfl htt
              | false => rw [edges_eq_zero _ _ hcn, mul_zero]
            · rw [if_neg hus']
          rw [h0, zero_mul] at e
          rw [if_neg htt]; exact e
    | none =>
      have hv : visit exact g s n =
        { setOf := fun m => if m = n then some n else s.setOf m
          ev := fun m => if m = n then own (g.node n) else s.ev m
          coef := fun t m => if m = n then contrib g s t n else s.coef t m
          changed := fun t => s.changed t || twice g s t n } := by
        simp only [visit, htg]
      rw [hv]
      refine ⟨?_, ?_, ?_, ?_, ?_⟩
      · intro u hu
        show (if u = n then _ else _) = _
        rw [if_neg (Nat.ne_of_lt hu)]
        exact inv.fresh u (by omega)
      · intro u t hu
        have hu' : (if u = n then some n else s.setOf u) = some t := hu
        by_cases h : u = n
        · rw [if_pos h] at hu'; cases hu'; exact Nat.le_refl _
        · rw [if_neg h] at hu'; exact Nat.le_of_succ_le (inv.setGe u t hu')
      · intro t m hm
        show (if m = n then _ else _) = _
        rw [if_neg (Nat.ne_of_lt hm)]
        exact inv.coefLow t m (by omega)
      · intro t m ht
        show (if m = n then _ else _) = _
        by_cases h : m = n
        · rw [if_pos h]
          exact contrib_fresh g s t n (fun u hu => by have := inv.setGe u t hu; omega)
        · rw [if_neg h]; exact inv.coefBase t m (by omega)
      · intro t ht
        have ht' : (if t = n then some n else s.setOf t) = some t := ht
        rw [pending_set g val s n n t n _ _ _ rfl rfl _ _ hn hfn]
        show val t = ∑ m ∈ Finset.range g.size, (if m = n then contrib g s t n else s.coef t m) * val m + _
        rw [sum_coef g.size (s.coef t) val n _ hn (inv.coefLow t n (Nat.lt_succ_self n))]
        by_cases h : t = n
        · subst h
          rw [if_pos rfl, own_rest g val ha hs hc t hn hat, pending_fresh g val s t t hnt, contrib_fresh g s t t hnt]
          have : ∑ m ∈ Finset.range g.size, s.coef t m * val m = 0 :=
            Finset.sum_eq_zero (fun m _ => by rw [inv.coefBase t m (Nat.lt_succ_self t), zero_mul])
          rw [this]
          ring
        · rw [if_neg h] at ht'
          have e := inv.eqn t ht'
          rw [pending_succ] at e
          rw [if_neg (fun hh => h hh.symm), e]
          ring

theorem walk_inv (exact : Bool) (g : Graph R) (val : Nat → R) (ha : Acyclic g.node) (hs : NoSame g.node) (hc : Computes g.node g.size val)
    (hj : exact = false → ∀ j, j < g.size → g.node (g.size - 1 - j) ≠ .atom → ∀ t, target g (walk exact g j) (g.size - 1 - j) = some t →
      contrib g (walk exact g j) t (g.size - 1 - j) = 1) :
    ∀ j, j ≤ g.size → Inv g val (walk exact g j) (g.size - j) := by
  intro j
  induction j with
  | zero =>
    intro _
    exact ⟨fun _ _ => rfl, (fun _ _ h => by cases h), fun _ _ _ => rfl, fun _ _ _ => rfl, (fun _ h => by cases h)⟩
  | succ j ih =>
    intro hlt
    have h1 := ih (by omega)
    have e1 : g.size - j = (g.size - 1 - j) + 1 := by omega
    have e2 : g.size - (j + 1) = g.size - 1 - j := by omega
    rw [e1] at h1
    rw [e2]
    exact visit_inv exact g val ha hs hc _ _ (by omega) h1 (fun he => hj he j (by omega))

theorem walk_eqn (exact : Bool) (g : Graph R) (val : Nat → R) (ha : Acyclic g.node) (hs : NoSame g.node) (hc : Computes g.node g.size val)
    (hj : exact = false → ∀ j, j < g.size → g.node (g.size - 1 - j) ≠ .atom → ∀ t, target g (walk exact g j) (g.size - 1 - j) = some t →
      contrib g (walk exact g j) t (g.size - 1 - j) = 1)
    (t : Nat) (ht : (walk exact g g.size).setOf t = some t) :
    val t = ∑ n ∈ Finset.range g.size, (walk exact g g.size).coef t n * val n := by
  have h := (walk_inv exact g val ha hs hc hj g.size (Nat.le_refl _)).eqn t ht
  rw [Nat.sub_self] at h
  have : pending g val (walk exact g g.size) t 0 = 0 := by
    simp only [pending, rest, Finset.range_zero, Finset.sum_empty, mul_zero, ite_self, Finset.sum_const_zero]
  rw [this, add_zero] at h
  exact h

end Verif.Lemmas.Setsort

namespace Verif.Lemmas.Setsort

open Verif.Spec.Setsort Verif.Model.Setsort

variable {R : Type} [CommSemiring R] [DecidableEq R]

/-- merging keeps the equations -/
theorem merge_eqn (N : Nat) (val : Nat → R) (c : Nat → Nat → R) (o b t : Nat) (ho : o < N) (eo : val o = ∑ n ∈ Finset.range N, c o n * val n)
    (et : val t = ∑ n ∈ Finset.range N, c t n * val n) : val t = ∑ n ∈ Finset.range N, merge c o b t n * val n := by
  by_cases h : t = b
  · subst h
    simp only [merge, if_true]
    have : ∀ n ∈ Finset.range N, ((if n = o then 0 else c t n) + c t o * c o n) * val n =
        (if n = o then 0 else c t n) * val n + c t o * (c o n * val n) := by intro n _; ring
    rw [Finset.sum_congr rfl this, Finset.sum_add_distrib, ← Finset.mul_sum, ← eo, et]
    have : ∀ n ∈ Finset.range N, c t n * val n = (if n = o then 0 else c t n) * val n + (if n = o then c t n * val n else 0) := by
      intro n _
      by_cases h : n = o
      · simp only [if_pos h, zero_mul, zero_add]
      · simp only [if_neg h, add_zero]
    rw [Finset.sum_congr rfl this, Finset.sum_add_distrib, Finset.sum_ite_eq', if_pos (Finset.mem_range.2 ho)]
  · simp only [merge, if_neg h]
    exact et

theorem mergeTrivial_eqn (N : Nat) (val : Nat → R) (c : Nat → Nat → R) (o x b t : Nat) (ho : o < N) (hx : x < N) (hne : x ≠ o) (eo : val o = val x)
    (et : val t = ∑ n ∈ Finset.range N, c t n * val n) : val t = ∑ n ∈ Finset.range N, mergeTrivial c o x b t n * val n := by
  by_cases h : t = b
  · subst h
    simp only [mergeTrivial, if_true]
    have h1 : ∀ n ∈ Finset.range N, (if n = o then 0 else if n = x then c t x + c t o else c t n) * val n =
        (if n = o then 0 else c t n) * val n + (if n = x then c t o * val n else 0) := by
      intro n _
      by_cases h : n = o
      · have : n ≠ x := fun h' => hne (h'.symm.trans h)
        simp only [if_pos h, if_neg this, zero_mul, zero_add]
      · by_cases h' : n = x
        · subst h'; simp only [if_neg h, if_true]; ring
        · simp only [if_neg h, if_neg h', add_zero]
    have h2 : ∀ n ∈ Finset.range N, c t n * val n = (if n = o then 0 else c t n) * val n + (if n = o then c t n * val n else 0) := by
      intro n _
      by_cases h : n = o
      · simp only [if_pos h, zero_mul, zero_add]
      · simp only [if_neg h, add_zero]
    rw [Finset.sum_congr rfl h2, Finset.sum_add_distrib, Finset.sum_ite_eq', if_pos (Finset.mem_range.2 ho)] at et
    rw [Finset.sum_congr rfl h1, Finset.sum_add_distrib, Finset.sum_ite_eq', if_pos (Finset.mem_range.2 hx), et, eo]
  · simp only [mergeTrivial, if_neg h]
    exact et

theorem steps_eqn (N : Nat) (isSet : Nat → Prop) (val : Nat → R) (l : List Step) :
    ∀ (c : Nat → Nat → R), (∀ s ∈ l, StepOk N isSet val s) → (∀ t, isSet t → val t = ∑ n ∈ Finset.range N, c t n * val n) →
      ∀ t, isSet t → val t = ∑ n ∈ Finset.range N, steps c l t n * val n := by
  induction l with
  | nil => intro c _ h; exact h
  | cons s l ih =>
    intro c hok h
    have h0 := hok s (List.mem_cons_self ..)
    have hl := fun s' hs' => hok s' (List.mem_cons_of_mem _ hs')
    cases s with
    | merge o b => exact ih _ hl (fun t ht => merge_eqn N val c o b t h0.1 (h o h0.2) (h t ht))
    | trivial o x b => exact ih _ hl (fun t ht => mergeTrivial_eqn N val c o x b t h0.1 h0.2.1 h0.2.2.1 h0.2.2.2 (h t ht))

/-- the rebuilt chain is the sum -/
theorem foldl_sum (l : List R) (x : R) : l.foldl (fun curr v => v + curr) x = x + l.sum := by
  induction l generalizing x with
  | nil => simp
  | cons y l ih => rw [List.foldl_cons, ih, List.sum_cons]; ring

theorem rebuild_sum (null : R) (l : List R) (h : null = 0 ∨ l ≠ []) : rebuild null l = l.sum := by
  cases l with
  | nil =>
    cases h with
    | inl h => rw [rebuild, h, List.sum_nil]
    | inr h => exact absurd rfl h
  | cons x l => rw [rebuild, foldl_sum, List.sum_cons]

/-- the members of a set are summed up by the equation -/
theorem members_sum (N : Nat) (c val : Nat → R) (h01 : ∀ n, c n = 0 ∨ c n = 1) (l : List Nat) (hl : l.Perm ((List.range N).filter fun n => c n ≠ 0)) :
    (l.map val).sum = ∑ n ∈ Finset.range N, c n * val n := by
  rw [(hl.map val).sum_eq]
  clear hl
  induction N with
  | zero => simp
  | succ N ih =>
    rw [List.range_succ, List.filter_append, List.map_append, List.sum_append, ih, Finset.sum_range_succ]
    congr 1
    cases h01 N with
    | inl h => simp [h]
    | inr h =>
      by_cases hz : c N = 0
      · simp [hz]
      · rw [List.filter_cons_of_pos (by simpa using hz)]
        simp [h]

theorem plain_noSame {g : Nat → Node R} (h : Plain g) : NoSame g := by
  intro n ca a cb b e _
  cases h n with
  | inl h => rw [h] at e; cases e
  | inr h => obtain ⟨a', b', h⟩ := h; rw [h] at e; cases e; rfl

theorem edges_plain {g : Nat → Node R} (h : Plain g) (u n : Nat) : edges (g u) n = (((g u).ins.count n : Nat) : R) := by
  cases h u with
  | inl h => rw [h]; simp [edges, Node.ins]
  | inr h =>
    obtain ⟨a, b, h⟩ := h
    rw [h, edges_bin _ _ _ _ _ (fun _ => rfl)]
    simp only [Node.ins, List.count_cons, List.count_nil, Nat.cast_add, Nat.cast_ite, Nat.cast_one, Nat.cast_zero, beq_iff_eq]
    ring

theorem own_plain {g : Nat → Node R} (h : Plain g) (n : Nat) : own (g n) = 1 := by
  cases h n with
  | inl h => rw [h]; rfl
  | inr h => obtain ⟨a, b, h⟩ := h; rw [h]; rfl

/-- without edge values all of them are 1 -/
theorem walk_ev (g : Graph R) (h : Plain g.node) : ∀ j u, (walk false g j).setOf u ≠ none → (walk false g j).ev u = 1 := by
  intro j
  induction j with
  | zero => intro u hu; exact absurd rfl hu
  | succ j ih =>
    intro u
    rw [walk]
    generalize g.size - 1 - j = n
    by_cases hat : g.node n = .atom
    · simp only [visit, hat]
      exact ih u
    · cases htg : target g (walk false g j) n with
      | some t =>
        simp only [visit, htg]
        by_cases hun : u = n
        · simp only [if_pos hun, own_plain h]; intro _; simp
        · simp only [if_neg hun]; exact ih u
      | none =>
        simp only [visit, htg]
        by_cases hun : u = n
        · simp only [if_pos hun, own_plain h]; intro _; trivial
        · simp only [if_neg hun]; exact ih u

/-- a node that joins a set counts as often as it has edges -/
theorem contrib_plain (g : Graph R) (h : Plain g.node) (j n t : Nat) (ht : target g (walk false g j) n = some t) :
    contrib g (walk false g j) t n = ((edgeCount g n : Nat) : R) := by
  simp only [contrib, edgeCount]
  rw [Nat.cast_sum]
  apply Finset.sum_congr rfl
  intro u hu
  cases hc : (g.node u).ins.contains n with
  | true =>
    have hs := target_users g _ n t ht u (Finset.mem_range.1 hu) hc
    rw [if_pos hs, walk_ev g h j u (by rw [hs]; exact Option.some_ne_none _), one_mul, edges_plain h]
  | false =>
    have h0 := edges_eq_zero _ _ hc
    rw [h0, mul_zero, ite_self, ← edges_plain h, h0]

theorem edgeCount_pos (g : Graph R) (s : Sets R) (n t : Nat) (ht : target g s n = some t) : 0 < edgeCount g n := by
  unfold target at ht
  revert ht
  cases hu : users g n with
  | nil => intro h; cases h
  | cons w us =>
    intro _
    have hm : w ∈ users g n := by rw [hu]; exact List.mem_cons_self ..
    have hm := List.mem_filter.1 hm
    have h1 : 0 < (g.node w).ins.count n := List.count_pos_iff.2 (List.contains_iff_mem.1 hm.2)
    have h2 : (g.node w).ins.count n ≤ edgeCount g n :=
      Finset.single_le_sum (f := fun u => (g.node u).ins.count n) (fun _ _ => Nat.zero_le _) (Finset.mem_range.2 (List.mem_range.1 hm.1))
    omega

theorem or_cast (k : Nat) : ((k + 1 : Nat) : OrBit) = 1 := by
  induction k with
  | zero => rfl
  | succ k ih => rw [Nat.cast_succ, ih]; rfl

theorem and_cast (k : Nat) : ((k + 1 : Nat) : AndBit) = 1 := by
  induction k with
  | zero => rfl
  | succ k ih => rw [Nat.cast_succ, ih]; rfl

theorem xor_cast (k : Nat) : ((2 * k + 1 : Nat) : XorBit) = 1 := by
  induction k with
  | zero => rfl
  | succ k ih =>
    have : 2 * (k + 1) + 1 = (2 * k + 1) + 1 + 1 := by omega
    rw [this, Nat.cast_succ, Nat.cast_succ, ih]; rfl

end Verif.Lemmas.Setsort
