import Verif.Model.BoolOpt
import Verif.Props.Relation
import Verif.Lemmas.Bits
import Mathlib.Tactic.Ring
/-!
# C29: folding two comparisons keeps the truth value

The meaning of a comparison node, and of what replaces a conjunction or disjunction, given the
values of the nodes.
-/
namespace Verif.Props
open Verif.Model Verif.Spec BoolOpt

/-- `x rel y` on integers -/
def cmpHolds (rel : Rel) (x y : Int) : Bool := Holds rel (intCmp.cmp x y)

/-- the value of a Cmp node -/
def evalCmp (env : Nat → Int) (n : CmpNode) : Bool := cmpHolds n.rel (env n.lhs) (env n.rhs)

/-- the value of a replacement -/
def evalResult (env : Nat → Int) (p : CondPair) : Result → Bool
  | .const b => b
  | .cmpLo => cmpHolds p.lo.rel (env p.lo.lhs) (env p.lo.rhs)
  | .cmpHi => cmpHolds p.hi.rel (env p.hi.lhs) (env p.hi.rhs)
  | .newLo r => cmpHolds r (env p.lo.lhs) (env p.lo.rhs)
  | .newHi r => cmpHolds r (env p.hi.lhs) (env p.hi.rhs)
  | .andCmp c r => cmpHolds r (irAnd p.lo.mode (env p.lo.lhs) (env p.hi.lhs)) c
  | .orCmp c r => cmpHolds r (irOr p.lo.mode (env p.lo.lhs) (env p.hi.lhs)) c
  | .range m lo d r => cmpHolds r (irSub m (m.wrap (env p.hi.lhs)) lo) d

/-- the environment gives values of the mode to the operands of a comparison, and constants their value -/
def Fits (env : Nat → Int) (n : CmpNode) : Prop :=
  0 < n.mode.bits ∧ n.mode.In (env n.lhs) ∧ n.mode.In (env n.rhs) ∧ ∀ v, n.c = some v → env n.rhs = v

theorem cmpHolds_cases (rel : Rel) (x y : Int) :
    cmpHolds rel x y = if x = y then rel.getLsbD 0 else if x < y then rel.getLsbD 1 else rel.getLsbD 2 := by
  unfold cmpHolds intCmp
  simp only
  split
  · rfl
  · split <;> rfl

theorem tvCmp_equal {a b : Int} (h : tvCmp a b = Rel.equal) : a = b := by
  unfold tvCmp at h
  split at h
  · assumption
  · split at h <;> exact absurd h (by decide)

theorem tvCmp_less {a b : Int} (h : tvCmp a b = Rel.less) : a < b := by
  unfold tvCmp at h
  split at h
  · exact absurd h (by decide)
  · split at h
    · assumption
    · exact absurd h (by decide)

theorem tvCmp_greater {a b : Int} (h : tvCmp a b = Rel.greater) : b < a := by
  unfold tvCmp at h
  split at h
  · exact absurd h (by decide)
  · split at h
    · exact absurd h (by decide)
    · omega

/-- what `find_cond_pair` guarantees -/
theorem findCondPair_spec {env : Nat → Int} {l r : CmpNode} {p : CondPair} (hl : Fits env l) (hr : Fits env r) (h : findCondPair l r = some p) :
    (p.lo = l ∧ p.hi = r ∨ p.lo = r ∧ p.hi = l) ∧ p.relLo = p.lo.rel ∧ p.relHi = p.hi.rel ∧ env p.lo.rhs = p.tvLo ∧ env p.hi.rhs = p.tvHi ∧
      (p.tvLo = p.tvHi ∨ p.tvLo < p.tvHi) := by
  unfold findCondPair at h
  split at h
  · rename_i hc
    obtain ⟨h1, h2, h3, _⟩ := hc
    unfold isNull at h1 h2
    rw [beq_iff_eq] at h1 h2
    cases h
    exact ⟨Or.inl ⟨rfl, rfl⟩, rfl, h3, hl.2.2.2 _ h1, hr.2.2.2 _ h2, Or.inl rfl⟩
  · unfold findOrdered at h
    split at h
    · split at h
      · rename_i tvL tvR e1 e2
        have v1 := hl.2.2.2 _ e1
        have v2 := hr.2.2.2 _ e2
        unfold orderPair at h
        split at h
        · cases h
          exact ⟨Or.inl ⟨rfl, rfl⟩, rfl, rfl, v1, v2, Or.inr (tvCmp_less ‹_›)⟩
        · split at h
          · cases h
            exact ⟨Or.inr ⟨rfl, rfl⟩, rfl, rfl, v2, v1, Or.inr (tvCmp_greater ‹_›)⟩
          · exact absurd h (by simp)
      · exact absurd h (by simp)
    · exact absurd h (by simp)

theorem width_bound {m : IMode} (hb : 0 < m.bits) {x y : Int} (hx : m.In x) (hy : m.In y) : x - y < ((2 ^ m.bits : Nat) : Int) := by
  unfold IMode.In InRange at hx hy
  have hp := half_pow hb
  cases hs : m.signed
  · simp only [hs, Bool.false_eq_true, if_false, two_pow_cast] at hx hy; omega
  · simp only [hs, if_true, two_pow_cast] at hx hy; omega

theorem adjacent_eq {m : IMode} (hb : 0 < m.bits) {lo hi : Int} (hlo : m.In lo) (hhi : m.In hi) (h : adjacent m lo hi = true) (hlt : lo < hi) :
    hi = lo + 1 := by
  unfold adjacent irSub at h
  rw [beq_iff_eq] at h
  have h1 := congrArg (· % (2:Int) ^ m.bits) h
  simp only [IMode.wrap, wrap_emod] at h1
  have hw := width_bound hb hhi hlo
  have h2 : (1:Int) < ((2 ^ m.bits : Nat) : Int) := by
    have := half_pow hb
    have := Nat.two_pow_pos (m.bits - 1)
    omega
  rw [two_pow_cast, Int.emod_eq_of_lt (by omega) hw, Int.emod_eq_of_lt (by omega) h2] at h1
  omega

theorem bump_eq {m : IMode} (hb : 0 < m.bits) {lo hi n : Int} (hlo : m.In lo) (hhi : m.In hi) (hlt : lo < hi) (h : bump m lo = some n) : n = lo + 1 := by
  unfold bump at h
  split at h
  · cases h
    have : m.In (lo + 1) := by
      unfold IMode.In InRange at *
      cases hs : m.signed
      · simp only [hs, Bool.false_eq_true, if_false] at *; omega
      · simp only [hs, if_true] at *; omega
    exact wrap_of_inRange hb this
  · exact absurd h (by simp)

/-- the value compared by the range test: the distance from `lo`, wrapped around below `lo` -/
theorem range_value {m : IMode} (hb : 0 < m.bits) {x lo : Int} (hx : m.In x) (hlo : m.In lo) :
    irSub (unsignedMode m) ((unsignedMode m).wrap x) ((unsignedMode m).wrap lo) =
      if lo ≤ x then x - lo else x - lo + ((2 ^ m.bits : Nat) : Int) := by
  have h1 := width_bound hb hx hlo
  have h2 := width_bound hb hlo hx
  unfold irSub IMode.wrap Spec.wrap unsignedMode
  simp only [Bool.false_eq_true, if_false, two_pow_cast]
  rw [← Int.sub_emod]
  split
  · exact Int.emod_eq_of_lt (by omega) (by omega)
  · rw [← Int.add_emod_right, Int.emod_eq_of_lt (by omega) (by omega)]

/-- the relations the code distinguishes, as comparisons -/
theorem rel_bits (x y : Int) :
    cmpHolds Rel.less x y = decide (x < y) ∧ cmpHolds Rel.lessEqual x y = decide (x ≤ y) ∧ cmpHolds Rel.greater x y = decide (x > y) ∧
    cmpHolds Rel.greaterEqual x y = decide (x ≥ y) ∧ cmpHolds Rel.equal x y = decide (x = y) ∧ cmpHolds Rel.lessGreater x y = decide (x ≠ y) := by
  have h := names_spec x y
  unfold cmpHolds
  exact ⟨h.2.1, h.1, h.2.2.2.1, h.2.2.1, h.2.2.2.2.1, h.2.2.2.2.2.1⟩

theorem below_cases {r : Rel} (h : below r = true) : r = Rel.less ∨ r = Rel.lessEqual ∨ r = Rel.equal := by
  revert r; decide
theorem above_cases {r : Rel} (h : above r = true) : r = Rel.equal ∨ r = Rel.greaterEqual ∨ r = Rel.greater := by
  revert r; decide
theorem belowNe_cases {r : Rel} (h : belowNe r = true) : r = Rel.less ∨ r = Rel.lessEqual ∨ r = Rel.lessGreater := by
  revert r; decide
theorem aboveNe_cases {r : Rel} (h : aboveNe r = true) : r = Rel.greaterEqual ∨ r = Rel.greater ∨ r = Rel.lessGreater := by
  revert r; decide

theorem beq_of_iff {a b : Bool} (h : a = true ↔ b = true) : a = b := by cases a <;> cases b <;> simp_all

/-- a conjunction of two comparisons of one value with ordered constants -/
theorem andCommon_sound {env : Nat → Int} {p : CondPair} {res : Result} (hlhs : p.lo.lhs = p.hi.lhs) (hm : p.lo.mode = p.hi.mode)
    (hlo : Fits env p.lo) (hhi : Fits env p.hi) (hrl : p.relLo = p.lo.rel) (hrh : p.relHi = p.hi.rel)
    (hvl : env p.lo.rhs = p.tvLo) (hvh : env p.hi.rhs = p.tvHi) (hord : p.tvLo = p.tvHi ∨ p.tvLo < p.tvHi)
    (h : andCommon p.lo.mode p.relLo p.relHi p.tvLo p.tvHi = some res) :
    evalResult env p res = (evalCmp env p.lo && evalCmp env p.hi) := by
  obtain ⟨hb, hx, hcl, -⟩ := hlo
  obtain ⟨-, -, hch, -⟩ := hhi
  rw [hvl] at hcl
  rw [hvh, ← hm] at hch
  unfold evalCmp evalResult at *
  rw [← hrl, ← hrh, hvl, hvh, ← hlhs]
  generalize p.tvLo = lo, p.tvHi = hi, p.relLo = rl, p.relHi = rh, p.lo.mode = m, env p.lo.lhs = x at *
  have hL := rel_bits x lo
  have hH := rel_bits x hi
  unfold andCommon at h
  split at h
  · -- same constant
    have e := tvCmp_equal ‹_›
    subst e
    cases h
    have key : ∀ (rl rh : Rel) (o : Outcome), (match andSame rl rh with
      | .const b => b
      | .cmpLo => Holds rl o
      | .cmpHi => Holds rh o
      | .newHi r => Holds r o
      | _ => false) = (Holds rl o && Holds rh o) := by
      intro rl rh o
      cases o <;> revert rl rh <;> decide
    have := key rl rh (intCmp.cmp x lo)
    unfold cmpHolds
    have hs : ∀ rl rh : Rel, andSame rl rh = .const false ∨ andSame rl rh = .cmpLo ∨ andSame rl rh = .cmpHi ∨ andSame rl rh = .newHi (rl &&& rh) := by decide
    rcases hs rl rh with h | h | h | h <;> rw [h] at this ⊢ <;> exact this
  rename_i hne
  have hlt : lo < hi := by
    rcases hord with h | h
    · rw [h] at hne; exact absurd (by unfold tvCmp; simp) hne
    · exact h
  split at h
  · rename_i hc
    rw [Bool.and_eq_true] at hc
    cases h
    rcases below_cases hc.1 with e | e | e <;> rcases above_cases hc.2 with e' | e' | e' <;> subst e e' <;>
      (apply beq_of_iff; simp only [hL, hH, Bool.and_eq_true, decide_eq_true_eq, Bool.false_eq_true, false_iff]; omega)
  split at h
  · rename_i hc
    rw [Bool.and_eq_true] at hc
    cases h
    rcases below_cases hc.1 with e | e | e <;> rcases belowNe_cases hc.2 with e' | e' | e' <;> subst e e' <;>
      (apply beq_of_iff; simp only [hL, hH, Bool.and_eq_true, decide_eq_true_eq, Bool.false_eq_true, false_iff]; omega)
  split at h
  · rename_i hc
    rw [Bool.and_eq_true] at hc
    cases h
    rcases aboveNe_cases hc.1 with e | e | e <;> rcases above_cases hc.2 with e' | e' | e' <;> subst e e' <;>
      (apply beq_of_iff; simp only [hL, hH, Bool.and_eq_true, decide_eq_true_eq, Bool.false_eq_true, false_iff]; omega)
  split at h
  · rename_i hadj
    have e := adjacent_eq hb hcl hch hadj hlt
    unfold andAdjacent at h
    split at h
    · rename_i hc; cases h; rw [hc.1, hc.2]
      apply beq_of_iff; simp only [hL, hH, Bool.and_eq_true, decide_eq_true_eq, Bool.false_eq_true, false_iff]; omega
    · split at h
      · rename_i hc
        subst hc
        split at h
        · rename_i hc; subst hc; cases h
          apply beq_of_iff; simp only [hL, hH, Bool.and_eq_true, decide_eq_true_eq, Bool.false_eq_true, false_iff]; omega
        · split at h
          · rename_i hc; subst hc; cases h
            apply beq_of_iff; simp only [hL, hH, Bool.and_eq_true, decide_eq_true_eq, Bool.false_eq_true, false_iff]; omega
          · split at h
            · rename_i hc; subst hc; cases h
              apply beq_of_iff; simp only [hL, hH, Bool.and_eq_true, decide_eq_true_eq, Bool.false_eq_true, false_iff]; omega
            · exact absurd h (by simp)
      · split at h
        · rename_i hc; cases h; rw [hc.1, hc.2]
          apply beq_of_iff; simp only [hL, hH, Bool.and_eq_true, decide_eq_true_eq, Bool.false_eq_true, false_iff]; omega
        · exact absurd h (by simp)
  · rename_i hadj
    have hlt1 : lo + 1 ≤ hi := by omega
    have hrange : ∀ n, lo ≤ n → n ≤ hi → m.In n := by
      intro n h1 h2
      unfold IMode.In InRange at *
      cases hs : m.signed
      · simp only [hs, Bool.false_eq_true, if_false] at *; omega
      · simp only [hs, if_true] at *; omega
    have hfin : ∀ n, lo ≤ n → n ≤ hi → ∀ rel, (match rangeTest m n hi rel with
        | .range m lo d r => cmpHolds r (irSub m (m.wrap x) lo) d | _ => false) =
        cmpHolds rel (if n ≤ x then x - n else x - n + ((2 ^ m.bits : Nat) : Int)) (hi - n) := by
      intro n h1 h2 rel
      unfold rangeTest
      simp only
      rw [range_value hb hx (hrange n h1 h2), range_value hb hch (hrange n h1 h2), if_pos h2]
    have hwx := width_bound hb hx hch
    have hwy := width_bound hb hch hx
    unfold andRange at h
    split at h
    · rename_i hc
      obtain ⟨h1, h2⟩ := hc
      split at h
      · rename_i hg
        subst hg
        rw [Option.map_eq_some_iff] at h
        obtain ⟨n, hn, hres⟩ := h
        have en := bump_eq hb hcl hch hlt hn
        subst hres
        have := hfin n (by omega) (by omega) rh
        unfold rangeTest at this ⊢
        simp only at this ⊢
        rw [this]
        rcases h2 with e | e <;> subst e <;>
          (apply beq_of_iff; simp only [rel_bits, Bool.and_eq_true, decide_eq_true_eq, Bool.false_eq_true, false_iff]; split <;> omega)
      · rename_i hg
        have hge : rl = Rel.greaterEqual := h1.resolve_left hg
        subst hge
        cases h
        have := hfin lo (by omega) (by omega) rh
        unfold rangeTest at this ⊢
        simp only at this ⊢
        rw [this]
        rcases h2 with e | e <;> subst e <;>
          (apply beq_of_iff; simp only [rel_bits, Bool.and_eq_true, decide_eq_true_eq, Bool.false_eq_true, false_iff]; split <;> omega)
    · exact absurd h (by simp)

/-- a disjunction of two comparisons of one value with ordered constants -/
theorem orCommon_sound {env : Nat → Int} {p : CondPair} {res : Result} (hlhs : p.lo.lhs = p.hi.lhs) (hm : p.lo.mode = p.hi.mode)
    (hlo : Fits env p.lo) (hhi : Fits env p.hi) (hrl : p.relLo = p.lo.rel) (hrh : p.relHi = p.hi.rel)
    (hvl : env p.lo.rhs = p.tvLo) (hvh : env p.hi.rhs = p.tvHi) (hord : p.tvLo = p.tvHi ∨ p.tvLo < p.tvHi)
    (h : orCommon p.lo.mode p.relLo p.relHi p.tvLo p.tvHi = some res) :
    evalResult env p res = (evalCmp env p.lo || evalCmp env p.hi) := by
  obtain ⟨hb, hx, hcl, -⟩ := hlo
  obtain ⟨-, -, hch, -⟩ := hhi
  rw [hvl] at hcl
  rw [hvh, ← hm] at hch
  unfold evalCmp evalResult at *
  rw [← hrl, ← hrh, hvl, hvh, ← hlhs]
  generalize p.tvLo = lo, p.tvHi = hi, p.relLo = rl, p.relHi = rh, p.lo.mode = m, env p.lo.lhs = x at *
  have hL := rel_bits x lo
  have hH := rel_bits x hi
  unfold orCommon at h
  split at h
  · -- same constant
    have e := tvCmp_equal ‹_›
    subst e
    cases h
    have key : ∀ (rl rh : Rel) (o : Outcome), (match orSame rl rh with
      | .const b => b
      | .cmpLo => Holds rl o
      | .cmpHi => Holds rh o
      | .newHi r => Holds r o
      | _ => false) = (Holds rl o || Holds rh o) := by
      intro rl rh o
      cases o <;> revert rl rh <;> decide
    have := key rl rh (intCmp.cmp x lo)
    unfold cmpHolds
    have hs : ∀ rl rh : Rel, orSame rl rh = .const true ∨ orSame rl rh = .cmpLo ∨ orSame rl rh = .cmpHi ∨ orSame rl rh = .newHi (rl ||| rh) := by decide
    rcases hs rl rh with h | h | h | h <;> rw [h] at this ⊢ <;> exact this
  rename_i hne
  have hlt : lo < hi := by
    rcases hord with h | h
    · rw [h] at hne; exact absurd (by unfold tvCmp; simp) hne
    · exact h
  split at h
  · rename_i hc
    rw [Bool.and_eq_true] at hc
    cases h
    rcases aboveNe_cases hc.1 with e | e | e <;> rcases belowNe_cases hc.2 with e' | e' | e' <;> subst e e' <;>
      (apply beq_of_iff; simp only [hL, hH, Bool.or_eq_true, decide_eq_true_eq, true_iff]; omega)
  split at h
  · rename_i hc
    rw [Bool.and_eq_true] at hc
    cases h
    rcases below_cases hc.1 with e | e | e <;> rcases belowNe_cases hc.2 with e' | e' | e' <;> subst e e' <;>
      (apply beq_of_iff; simp only [hL, hH, Bool.or_eq_true, decide_eq_true_eq, true_iff]; omega)
  split at h
  · rename_i hc
    rw [Bool.and_eq_true] at hc
    cases h
    rcases aboveNe_cases hc.1 with e | e | e <;> rcases above_cases hc.2 with e' | e' | e' <;> subst e e' <;>
      (apply beq_of_iff; simp only [hL, hH, Bool.or_eq_true, decide_eq_true_eq, true_iff]; omega)
  split at h
  · rename_i hadj
    have e := adjacent_eq hb hcl hch hadj hlt
    unfold orAdjacent at h
    split at h
    · rename_i hc; cases h; rw [hc.1, hc.2]
      apply beq_of_iff; simp only [hL, hH, Bool.or_eq_true, decide_eq_true_eq, true_iff]; omega
    · split at h
      · rename_i hc
        subst hc
        split at h
        · rename_i hc; subst hc; cases h
          apply beq_of_iff; simp only [hL, hH, Bool.or_eq_true, decide_eq_true_eq, true_iff]; omega
        · split at h
          · rename_i hc; subst hc; cases h
            apply beq_of_iff; simp only [hL, hH, Bool.or_eq_true, decide_eq_true_eq, true_iff]; omega
          · split at h
            · rename_i hc; subst hc; cases h
              apply beq_of_iff; simp only [hL, hH, Bool.or_eq_true, decide_eq_true_eq, true_iff]; omega
            · exact absurd h (by simp)
      · split at h
        · rename_i hc; cases h; rw [hc.1, hc.2]
          apply beq_of_iff; simp only [hL, hH, Bool.or_eq_true, decide_eq_true_eq, true_iff]; omega
        · exact absurd h (by simp)
  · rename_i hadj
    have hlt1 : lo + 1 ≤ hi := by omega
    have hrange : ∀ n, lo ≤ n → n ≤ hi → m.In n := by
      intro n h1 h2
      unfold IMode.In InRange at *
      cases hs : m.signed
      · simp only [hs, Bool.false_eq_true, if_false] at *; omega
      · simp only [hs, if_true] at *; omega
    have hfin : ∀ n, lo ≤ n → n ≤ hi → ∀ rel, (match rangeTest m n hi rel with
        | .range m lo d r => cmpHolds r (irSub m (m.wrap x) lo) d | _ => false) =
        cmpHolds rel (if n ≤ x then x - n else x - n + ((2 ^ m.bits : Nat) : Int)) (hi - n) := by
      intro n h1 h2 rel
      unfold rangeTest
      simp only
      rw [range_value hb hx (hrange n h1 h2), range_value hb hch (hrange n h1 h2), if_pos h2]
    have hwx := width_bound hb hx hch
    have hwy := width_bound hb hch hx
    unfold orRange at h
    split at h
    · rename_i hc
      obtain ⟨h1, h2⟩ := hc
      split at h
      · rename_i hg
        subst hg
        rw [Option.map_eq_some_iff] at h
        obtain ⟨n, hn, hres⟩ := h
        have en := bump_eq hb hcl hch hlt hn
        subst hres
        have := hfin n (by omega) (by omega) rh
        unfold rangeTest at this ⊢
        simp only at this ⊢
        rw [this]
        rcases h2 with e | e <;> subst e <;>
          (apply beq_of_iff; simp only [rel_bits, Bool.or_eq_true, decide_eq_true_eq, true_iff]; split <;> omega)
      · rename_i hg
        have hge : rl = Rel.less := h1.resolve_right hg
        subst hge
        cases h
        have := hfin lo (by omega) (by omega) rh
        unfold rangeTest at this ⊢
        simp only at this ⊢
        rw [this]
        rcases h2 with e | e <;> subst e <;>
          (apply beq_of_iff; simp only [rel_bits, Bool.or_eq_true, decide_eq_true_eq, true_iff]; split <;> omega)
    · exact absurd h (by simp)

theorem pattern_zero {m : IMode} (hb : 0 < m.bits) {x : Int} (hx : m.In x) : m.pattern x = 0 ↔ x = 0 := by
  unfold IMode.pattern
  have hp : (0:Int) < 2 ^ m.bits := by positivity
  have h0 := Int.emod_nonneg x (by omega : (2:Int) ^ m.bits ≠ 0)
  constructor
  · intro h
    have h1 : x % 2 ^ m.bits = 0 % 2 ^ m.bits := by rw [Int.zero_emod]; omega
    have hz : m.In 0 := by
      unfold IMode.In InRange
      have : (0:Int) < 2 ^ (m.bits - 1) := by positivity
      cases m.signed <;> simp <;> omega
    exact inRange_inj hb hx hz h1
  · intro h; rw [h, Int.zero_emod]; rfl

theorem wrap_pattern_zero {m : IMode} (hb : 0 < m.bits) {n : Nat} (hn : n < 2 ^ m.bits) : m.wrap (n : Int) = 0 ↔ n = 0 := by
  constructor
  · intro h
    have h1 := congrArg (· % (2:Int) ^ m.bits) h
    simp only [IMode.wrap, wrap_emod, Int.zero_emod] at h1
    rw [two_pow_cast, Int.emod_eq_of_lt (by omega) (by exact_mod_cast hn)] at h1
    omega
  · intro h
    subst h
    show Spec.wrap _ _ ((0:Nat) : Int) = 0
    unfold Spec.wrap
    cases m.signed <;> simp

theorem pattern_lt' (m : IMode) (x : Int) : m.pattern x < 2 ^ m.bits := by
  unfold IMode.pattern
  have hp : (0:Int) < 2 ^ m.bits := by positivity
  have h0 := Int.emod_nonneg x (by omega : (2:Int) ^ m.bits ≠ 0)
  have h1 := Int.emod_lt_of_pos x hp
  rw [two_pow_cast] at h0 h1 ⊢
  omega

theorem or_zero {m : IMode} (hb : 0 < m.bits) {x y : Int} (hx : m.In x) (hy : m.In y) : irOr m x y = 0 ↔ x = 0 ∧ y = 0 := by
  unfold irOr
  rw [wrap_pattern_zero hb (Nat.or_lt_two_pow (pattern_lt' m x) (pattern_lt' m y)), Nat.or_eq_zero_iff, pattern_zero hb hx, pattern_zero hb hy]

/-- a pair of comparisons as `bool_and` and `bool_or` expect it -/
structure PairOk (env : Nat → Int) (p : CondPair) : Prop where
  lo : Fits env p.lo
  hi : Fits env p.hi
  relLo : p.relLo = p.lo.rel
  relHi : p.relHi = p.hi.rel
  valLo : env p.lo.rhs = p.tvLo
  valHi : env p.hi.rhs = p.tvHi
  ordered : p.tvLo = p.tvHi ∨ p.tvLo < p.tvHi
  mode : p.lo.lhs = p.hi.lhs → p.lo.mode = p.hi.mode

theorem bool_or_pair_sound {env : Nat → Int} {p : CondPair} (ok : PairOk env p) {res : Result} (hres : boolOr p = some res) :
    evalResult env p res = (evalCmp env p.lo || evalCmp env p.hi) := by
  obtain ⟨hL, hH, h1, h2, h3, h4, h5, hm⟩ := ok
  unfold boolOr at hres
  split at hres
  · rename_i hc
    obtain ⟨c1, c2, c3, c4, c5⟩ := hc
    cases hres
    unfold evalResult evalCmp
    have key : ∀ (rel : Rel) (x : Int), rel &&& ~~~Rel.unordered = Rel.lessGreater → cmpHolds rel x 0 = decide (x ≠ 0) := by
      intro rel x h
      have : ∀ rel : Rel, rel &&& ~~~Rel.unordered = Rel.lessGreater → rel.getLsbD 0 = false ∧ rel.getLsbD 1 = true ∧ rel.getLsbD 2 = true := by decide
      obtain ⟨b0, b1, b2⟩ := this rel h
      rw [cmpHolds_cases, b0, b1, b2]
      by_cases hx : x = 0 <;> simp [hx]
    rw [h3, h4, c3, c4, ← h1, ← h2]
    simp only
    rw [key _ _ c1, key _ _ c2, (rel_bits _ _).2.2.2.2.2]
    have hb := hL.1
    have ho := or_zero hb hL.2.1 (by rw [c5]; exact hH.2.1)
    apply beq_of_iff
    simp only [Bool.or_eq_true, decide_eq_true_eq, ne_eq, ho]
    omega
  · split at hres
    · exact absurd hres (by simp)
    · rename_i hlhs
      have hlhs : p.lo.lhs = p.hi.lhs := by simpa using hlhs
      exact orCommon_sound hlhs (hm hlhs) hL hH h1 h2 h3 h4 h5 hres

theorem findCondPair_ok {env : Nat → Int} {l r : CmpNode} (hl : Fits env l) (hr : Fits env r) (hmode : l.lhs = r.lhs → l.mode = r.mode)
    {p : CondPair} (hp : findCondPair l r = some p) : PairOk env p := by
  obtain ⟨hlr, h1, h2, h3, h4, h5⟩ := findCondPair_spec hl hr hp
  refine ⟨?_, ?_, h1, h2, h3, h4, h5, ?_⟩
  · rcases hlr with h | h <;> rw [h.1] <;> assumption
  · rcases hlr with h | h <;> rw [h.2] <;> assumption
  · rcases hlr with h | h <;> rw [h.1, h.2]
    · exact hmode
    · exact fun e => (hmode e.symm).symm

/-- C29, disjunctions: what `bool_or` puts in the place of `l || r` has the same value, for all values of the operands -/
theorem bool_or_sound {env : Nat → Int} {l r : CmpNode} (hl : Fits env l) (hr : Fits env r) (hmode : l.lhs = r.lhs → l.mode = r.mode)
    {p : CondPair} (hp : findCondPair l r = some p) {res : Result} (hres : boolOr p = some res) :
    evalResult env p res = (evalCmp env l || evalCmp env r) := by
  have hlr := (findCondPair_spec hl hr hp).1
  rw [bool_or_pair_sound (findCondPair_ok hl hr hmode hp) hres]
  rcases hlr with h | h <;> rw [h.1, h.2]
  exact Bool.or_comm _ _

/-- `normalize_cmp` yields the negated comparison -/
theorem normalize_negates (env : Nat → Int) (n : CmpNode) : evalCmp env (negateNode n) = !evalCmp env n := by
  unfold evalCmp negateNode
  rw [cmpHolds_cases, cmpHolds_cases]
  have : ∀ r : Rel, (r.negated &&& ~~~Rel.unordered).getLsbD 0 = !r.getLsbD 0 ∧ (r.negated &&& ~~~Rel.unordered).getLsbD 1 = !r.getLsbD 1 ∧
      (r.negated &&& ~~~Rel.unordered).getLsbD 2 = !r.getLsbD 2 := by decide
  obtain ⟨h0, h1, h2⟩ := this n.rel
  simp only [h0, h1, h2]
  split
  · rfl
  · split <;> rfl

theorem normalize_ok {env : Nat → Int} {p : CondPair} (ok : PairOk env p) (negLo negHi : Bool) : PairOk env (normalizePair negLo negHi p) := by
  obtain ⟨hL, hH, h1, h2, h3, h4, h5, hm⟩ := ok
  cases negLo <;> cases negHi <;> refine ⟨?_, ?_, ?_, ?_, ?_, ?_, ?_, ?_⟩ <;>
    simp only [normalizePair, negateNode, if_true, Bool.false_eq_true, if_false] <;> first | assumption | rw [h1] | rw [h2]

/-- C29, control flow: a block reached from two conditions in sequence, `p.lo` and `p.hi` (negated when the false edge leads to the
block), is reached exactly when the merged condition holds -/
theorem cf_or_sound {env : Nat → Int} {l r : CmpNode} (hl : Fits env l) (hr : Fits env r) (hmode : l.lhs = r.lhs → l.mode = r.mode)
    {p : CondPair} (hp : findCondPair l r = some p) (negLo negHi : Bool) {res : Result} (hres : boolOr (normalizePair negLo negHi p) = some res) :
    evalResult env (normalizePair negLo negHi p) res = ((evalCmp env p.lo ^^ negLo) || (evalCmp env p.hi ^^ negHi)) := by
  rw [bool_or_pair_sound (normalize_ok (findCondPair_ok hl hr hmode hp) negLo negHi) hres]
  cases negLo <;> cases negHi <;>
    simp only [normalizePair, if_true, Bool.false_eq_true, if_false, normalize_negates, Bool.xor_false, Bool.xor_true]

/-- C29, conjunctions, except for the combined zero test of two different operands (`hnz`).  Missing: that case, where the
code is wrong, see `bool_and_wrong`. -/
theorem bool_and_sound_partial {env : Nat → Int} {l r : CmpNode} (hl : Fits env l) (hr : Fits env r) (hmode : l.lhs = r.lhs → l.mode = r.mode)
    {p : CondPair} (hp : findCondPair l r = some p) {res : Result} (hres : boolAnd p = some res)
    (hnz : l.rel = Rel.equal → r.rel = Rel.equal → env l.rhs = 0 → env r.rhs = 0 → l.lhs = r.lhs) :
    evalResult env p res = (evalCmp env l && evalCmp env r) := by
  obtain ⟨hlr, h1, h2, h3, h4, h5⟩ := findCondPair_spec hl hr hp
  have hL : Fits env p.lo := by rcases hlr with h | h <;> rw [h.1] <;> assumption
  have hH : Fits env p.hi := by rcases hlr with h | h <;> rw [h.2] <;> assumption
  have hm : p.lo.lhs = p.hi.lhs → p.lo.mode = p.hi.mode := by
    rcases hlr with h | h <;> rw [h.1, h.2]
    · exact hmode
    · exact fun e => (hmode e.symm).symm
  have hnz' : p.lo.rel = Rel.equal → p.hi.rel = Rel.equal → env p.lo.rhs = 0 → env p.hi.rhs = 0 → p.lo.lhs = p.hi.lhs := by
    rcases hlr with h | h <;> rw [h.1, h.2]
    · exact hnz
    · exact fun a b c d => (hnz b a d c).symm
  have hand : (evalCmp env l && evalCmp env r) = (evalCmp env p.lo && evalCmp env p.hi) := by
    rcases hlr with h | h <;> rw [h.1, h.2]
    exact Bool.and_comm _ _
  rw [hand]
  have hzero : p.tvLo = 0 → p.tvHi = 0 → p.lo.rel = p.hi.rel ∧ (p.lo.rel = Rel.lessGreater ∨ p.lo.rel = Rel.equal) := by
    intro e1 e2
    unfold findCondPair at hp
    split at hp
    · rename_i hc
      cases hp
      exact ⟨hc.2.2.1, hc.2.2.2⟩
    · exfalso
      unfold findOrdered at hp
      split at hp
      · split at hp
        · unfold orderPair at hp
          split at hp
          · have := tvCmp_less ‹_›
            cases hp; simp only at e1 e2; omega
          · split at hp
            · have := tvCmp_greater ‹_›
              cases hp; simp only at e1 e2; omega
            · exact absurd hp (by simp)
        · exact absurd hp (by simp)
      · exact absurd hp (by simp)
  unfold boolAnd at hres
  split at hres
  · rename_i hc
    obtain ⟨c1, c2, c3, c4, c5⟩ := hc
    cases hres
    obtain ⟨e1, e2⟩ := hzero c3 c4
    rw [h1] at c1
    have e3 : p.lo.rel = Rel.equal := by
      rcases e2 with e2 | e2
      · rw [e2] at c1; exact absurd c1 (by decide)
      · exact e2
    have hlhs := hnz' e3 (by rw [← e1, e3]) (by rw [h3, c3]) (by rw [h4, c4])
    unfold evalResult evalCmp
    simp only
    rw [← e1, e3, h3, h4, c3, c4, ← hlhs, Bool.and_self]
    congr 1
    unfold irAnd
    rw [Nat.and_self]
    apply wrap_unique hL.1 hL.2.1
    unfold IMode.pattern
    rw [Int.toNat_of_nonneg (Int.emod_nonneg _ (by positivity)), Int.emod_emod_of_dvd _ (dvd_refl _)]
  · split at hres
    · exact absurd hres (by simp)
    · rename_i hlhs
      have hlhs : p.lo.lhs = p.hi.lhs := by simpa using hlhs
      exact andCommon_sound hlhs (hm hlhs) hL hH h1 h2 h3 h4 h5 hres

/-- The combined zero test of a conjunction is wrong: `p == 0 && q == 0` becomes `(p & q) == 0`, which also holds for
p = 1 and q = 2 (it should be an Or). -/
theorem bool_and_wrong : ∃ (env : Nat → Int) (l r : CmpNode) (p : CondPair) (res : Result), Fits env l ∧ Fits env r ∧ (l.lhs = r.lhs → l.mode = r.mode) ∧
    findCondPair l r = some p ∧ boolAnd p = some res ∧ evalResult env p res = true ∧ (evalCmp env l && evalCmp env r) = false := by
  refine ⟨fun n => if n = 0 then 1 else if n = 1 then 2 else 0, ⟨0, ⟨true, 32, 32⟩, 2, some 0, Rel.equal⟩, ⟨1, ⟨true, 32, 32⟩, 2, some 0, Rel.equal⟩,
    ⟨⟨0, ⟨true, 32, 32⟩, 2, some 0, Rel.equal⟩, ⟨1, ⟨true, 32, 32⟩, 2, some 0, Rel.equal⟩, Rel.equal, Rel.equal, 0, 0⟩, .andCmp 0 Rel.equal, ?_, ?_, ?_, ?_, ?_, ?_, ?_⟩
  · refine ⟨by decide, ?_, ?_, ?_⟩
    · unfold IMode.In; decide
    · unfold IMode.In; decide
    · intro v h; cases h; rfl
  · refine ⟨by decide, ?_, ?_, ?_⟩
    · unfold IMode.In; decide
    · unfold IMode.In; decide
    · intro v h; cases h; rfl
  · decide
  · decide
  · decide
  · decide
  · decide

/-- `x > 3 && x <= 9` becomes an unsigned comparison of `x - 4` with 5 -/
example : findCondPair ⟨0, ⟨true, 32, 32⟩, 1, some 3, Rel.greater⟩ ⟨0, ⟨true, 32, 32⟩, 2, some 9, Rel.lessEqual⟩ =
    some ⟨⟨0, ⟨true, 32, 32⟩, 1, some 3, Rel.greater⟩, ⟨0, ⟨true, 32, 32⟩, 2, some 9, Rel.lessEqual⟩, Rel.greater, Rel.lessEqual, 3, 9⟩ ∧
    boolAnd ⟨⟨0, ⟨true, 32, 32⟩, 1, some 3, Rel.greater⟩, ⟨0, ⟨true, 32, 32⟩, 2, some 9, Rel.lessEqual⟩, Rel.greater, Rel.lessEqual, 3, 9⟩ =
      some (.range ⟨false, 32, 32⟩ 4 5 Rel.lessEqual) := by decide
/-- `x == 0 || x >= 1` becomes `x >= 0` -/
example : boolOr ⟨⟨0, ⟨true, 32, 32⟩, 1, some 0, Rel.equal⟩, ⟨0, ⟨true, 32, 32⟩, 2, some 1, Rel.greaterEqual⟩, Rel.equal, Rel.greaterEqual, 0, 1⟩ =
      some (.newLo Rel.greaterEqual) := by decide

end Verif.Props
