import Verif.Model.Confirms
import Verif.Props.Relation
import Verif.Spec.IR
import Mathlib.Tactic.Ring
/-!
# C30: comparisons decided from confirmed bounds

The outcome of a comparison of two values is given by their positions in the order, "unordered" if one of them has no
position (is a NaN).  An execution gives a value to every node.
-/
namespace Verif.Props
open Verif.Model Verif.Model.Confirms

variable {V : Type} [DecidableEq V]

/-- the outcome of comparing two values -/
def outcome (m : FMode V) (a b : V) : Outcome :=
  match m.key a, m.key b with
  | some x, some y => if x = y then .eq else if x < y then .lt else .gt
  | _, _ => .un

/-- in this execution a Const has its value, and the relation a Confirm states holds -/
def Respects (m : FMode V) (env : Nat → V) : Node V → Prop
  | .const i v => env i = v
  | .confirm i rel b bc => Holds rel (outcome m (env i) (env b)) = true ∧ ∀ v, bc = some v → env b = v
  | .other _ => True

/-- the values of the execution lie between the least and the greatest value of the mode -/
def WithinMode (m : FMode V) (env : Nat → V) : Prop :=
  ∃ lo hi, m.key m.min = some lo ∧ m.key m.max = some hi ∧ ∀ n k, m.key (env n) = some k → lo ≤ k ∧ k ≤ hi

/-- values at one position are equal -/
def OneZero (m : FMode V) : Prop := ∀ a b, m.key a = m.key b → m.key a ≠ none → a = b

/-- `v` lies in the interval -/
def Inside (m : FMode V) (iv : Interval V) (v : V) : Prop :=
  ∃ k a b, m.key v = some k ∧ m.key iv.min = some a ∧ m.key iv.max = some b ∧
    a ≤ k ∧ (iv.minEx = true → a < k) ∧ k ≤ b ∧ (iv.maxEx = true → k < b)

theorem outcome_some {m : FMode V} {a b : V} {x y : Int} (ha : m.key a = some x) (hb : m.key b = some y) :
    outcome m a b = if x = y then .eq else if x < y then .lt else .gt := by
  unfold outcome; rw [ha, hb]

theorem tvCmp_some {m : FMode V} {a b : V} {x y : Int} (ha : m.key a = some x) (hb : m.key b = some y) :
    Confirms.tvCmp m a b = if x = y then Rel.equal else if x < y then Rel.less else Rel.greater := by
  unfold Confirms.tvCmp; rw [ha, hb]

theorem outcome_swap (m : FMode V) (a b : V) : outcome m b a = (outcome m a b).swap := by
  unfold outcome
  cases h1 : m.key a <;> cases h2 : m.key b
  · rfl
  · rfl
  · rfl
  · rename_i x y
    simp only
    rcases Int.lt_trichotomy x y with h | h | h
    · rw [if_neg (by omega), if_neg (by omega), if_neg (by omega), if_pos h]; rfl
    · rw [if_pos h.symm, if_pos h]; rfl
    · rw [if_neg (by omega), if_pos h, if_neg (by omega), if_neg (by omega)]; rfl

theorem holds_inversed (m : FMode V) (rel : Rel) (a b : V) : Holds rel.inversed (outcome m a b) = Holds rel (outcome m b a) :=
  inversed_spec ⟨outcome m, outcome_swap m⟩ rel a b

theorem holds_negated (rel : Rel) (o : Outcome) : Holds rel.negated o = !Holds rel o := by
  cases o <;> revert rel <;> decide

/-- an ordered relation that holds leaves three outcomes -/
theorem holds_ordered {m : FMode V} {rel : Rel} {a b : V} (hu : Holds rel .un = false) (h : Holds rel (outcome m a b) = true) :
    ∃ x y, m.key a = some x ∧ m.key b = some y := by
  unfold outcome at h
  cases h1 : m.key a <;> cases h2 : m.key b <;> rw [h1, h2] at h <;> simp only [hu] at h
  · exact absurd h (by decide)
  · exact absurd h (by decide)
  · exact absurd h (by decide)
  · exact ⟨_, _, rfl, rfl⟩

theorem interval_inside {m : FMode V} {env : Nat → V} (hw : WithinMode m env) {bc : Option V} {rel : Rel} {i b : Nat} {iv : Interval V}
    (hrel : Holds rel (outcome m (env i) (env b)) = true) (hbc : ∀ v, bc = some v → env b = v) (h : interval m bc rel = some iv) :
    Inside m iv (env i) := by
  unfold interval at h
  cases bc with
  | none => exact absurd h (by simp)
  | some tv =>
    simp only at h
    split at h
    · exact absurd h (by simp)
    rename_i hk
    have hb := hbc tv rfl
    rw [hb] at hrel
    obtain ⟨lo, hi, hlo, hhi, hall⟩ := hw
    unfold intervalCases at h
    have hord : Holds rel .un = false := by
      by_contra hu
      have key : ∀ rel : Rel, Holds rel .un = true → rel ≠ Rel.equal ∧ rel ≠ Rel.lessEqual ∧ rel ≠ Rel.less ∧ rel ≠ Rel.greater ∧ rel ≠ Rel.greaterEqual ∧
        rel ≠ Rel.lessEqualGreater := by decide
      obtain ⟨h1, h2, h3, h4, h5, h6⟩ := key rel (by simpa using hu)
      rw [if_neg h1, if_neg h2, if_neg h3, if_neg h4, if_neg h5, if_neg h6] at h
      exact absurd h (by simp)
    obtain ⟨x, y, hx, hy⟩ := holds_ordered hord hrel
    obtain ⟨r1, r2⟩ := hall i x hx
    rw [outcome_some hx hy] at hrel
    split at h
    · rename_i e; subst e; cases h
      refine ⟨x, y, y, hx, hy, hy, ?_⟩
      simp only [Bool.false_eq_true, false_implies, true_and, and_true]
      by_cases e : x = y
      · omega
      · rw [if_neg e] at hrel; split at hrel <;> exact absurd hrel (by decide)
    split at h
    · rename_i e; subst e; cases h
      refine ⟨x, lo, y, hx, hlo, hy, ?_⟩
      simp only [Bool.false_eq_true, false_implies, true_and, and_true]
      refine ⟨r1, ?_⟩
      by_contra e
      rw [if_neg (by omega), if_neg (by omega)] at hrel; exact absurd hrel (by decide)
    split at h
    · rename_i e; subst e; cases h
      have : x < y := by
        by_contra e
        by_cases e' : x = y
        · rw [if_pos e'] at hrel; exact absurd hrel (by decide)
        · rw [if_neg e', if_neg e] at hrel; exact absurd hrel (by decide)
      exact ⟨x, lo, y, hx, hlo, hy, r1, by simp, by omega, fun _ => this⟩
    split at h
    · rename_i e; subst e; cases h
      have : y < x := by
        by_contra e
        by_cases e' : x = y
        · rw [if_pos e'] at hrel; exact absurd hrel (by decide)
        · rw [if_neg e', if_pos (by omega)] at hrel; exact absurd hrel (by decide)
      exact ⟨x, y, hi, hx, hy, hhi, by omega, fun _ => this, r2, by simp⟩
    split at h
    · rename_i e; subst e; cases h
      have : y ≤ x := by
        by_contra e
        rw [if_neg (by omega), if_pos (by omega)] at hrel; exact absurd hrel (by decide)
      exact ⟨x, y, hi, hx, hy, hhi, this, by simp, r2, by simp⟩
    split at h
    · cases h
      exact ⟨x, lo, hi, hx, hlo, hhi, r1, by simp, r2, by simp⟩
    · exact absurd h (by simp)

theorem intervalFromTv_inside {m : FMode V} {v : V} {iv : Interval V} (h : intervalFromTv m v = some iv) : Inside m iv v := by
  unfold intervalFromTv at h
  split at h
  · exact absurd h (by simp)
  · rename_i hk
    cases h
    obtain ⟨k, hk⟩ := Option.ne_none_iff_exists'.1 hk
    exact ⟨k, k, k, hk, hk, hk, by omega, by simp, by omega, by simp⟩

/-- the outcome as a comparison of positions -/
theorem holds_names (x y : Int) :
    let o : Outcome := if x = y then .eq else if x < y then .lt else .gt
    Holds Rel.equal o = decide (x = y) ∧ Holds Rel.lessGreater o = decide (x ≠ y) ∧ Holds Rel.less o = decide (x < y) ∧
    Holds Rel.lessEqual o = decide (x ≤ y) ∧ Holds Rel.lessEqualGreater o = true := by
  intro o
  have h := names_spec x y
  refine ⟨h.2.2.2.2.1, h.2.2.2.2.2.1, h.2.1, h.1, ?_⟩
  show Holds _ (if x = y then _ else if x < y then _ else _) = true
  split
  · decide
  · split <;> decide

theorem rel_eq_iff (x y : Int) :
    ((if x = y then Rel.equal else if x < y then Rel.less else Rel.greater) = Rel.equal ↔ x = y) ∧
    ((if x = y then Rel.equal else if x < y then Rel.less else Rel.greater) = Rel.less ↔ x < y) ∧
    ((if x = y then Rel.equal else if x < y then Rel.less else Rel.greater) = Rel.greater ↔ y < x) := by
  rcases Int.lt_trichotomy x y with h | h | h
  · rw [if_neg (by omega), if_pos h]
    exact ⟨⟨fun e => absurd e (by decide), fun e => by omega⟩, ⟨fun _ => h, fun _ => rfl⟩, ⟨fun e => absurd e (by decide), fun e => by omega⟩⟩
  · rw [if_pos h]
    exact ⟨⟨fun _ => h, fun _ => rfl⟩, ⟨fun e => absurd e (by decide), fun e => by omega⟩, ⟨fun e => absurd e (by decide), fun e => by omega⟩⟩
  · rw [if_neg (by omega), if_neg (by omega)]
    exact ⟨⟨fun e => absurd e (by decide), fun e => by omega⟩, ⟨fun e => absurd e (by decide), fun e => by omega⟩, ⟨fun _ => h, fun _ => rfl⟩⟩

theorem ivSwitch_sound {m : FMode V} (hz : OneZero m) {l r : Interval V} {x y : V} (hl : Inside m l x) (hr : Inside m r y) {rel : Rel} {b : Bool}
    (h : ivSwitch m l r rel = some b) : Holds rel (outcome m x y) = b := by
  obtain ⟨k, a1, b1, hk, ha1, hb1, i1, i2, i3, i4⟩ := hl
  obtain ⟨k', a2, b2, hk', ha2, hb2, j1, j2, j3, j4⟩ := hr
  rw [outcome_some hk hk']
  have hn := holds_names k k'
  simp only at hn
  obtain ⟨n1, n2, n3, n4, n5⟩ := hn
  have hsingle : l.min = l.max → r.min = r.max → (l.min = r.min ↔ k = k') := by
    intro e1 e2
    rw [← e1, ha1] at hb1
    rw [← e2, ha2] at hb2
    cases hb1; cases hb2
    constructor
    · intro e; rw [e, ha2] at ha1; cases ha1; omega
    · intro e
      apply hz
      · rw [ha1, ha2]; congr 1; omega
      · rw [ha1]; simp
  unfold ivSwitch at h
  split at h
  · rename_i e; subst e
    rw [n1]
    unfold ivEqual at h
    rw [tvCmp_some hb1 ha2, tvCmp_some hb2 ha1] at h
    simp only [rel_eq_iff, Bool.or_eq_true] at h
    split at h
    · rename_i hc
      cases h
      rw [decide_eq_decide]
      exact (hsingle hc.1 hc.2).symm
    · repeat' split at h
      all_goals first
        | (cases h; rw [decide_eq_false_iff_not]; rename_i hc; intro e; first | omega | (rcases hc.1 with hc1 | hc1 <;> simp only [hc1, true_implies] at * <;> omega))
        | exact absurd h (by simp)
  split at h
  · rename_i e; subst e
    rw [n2]
    unfold ivLessGreater at h
    split at h
    · rename_i hc
      cases h
      rw [decide_eq_decide, ne_eq, ne_eq, hsingle hc.1 hc.2]
    · exact absurd h (by simp)
  split at h
  · rename_i e; subst e
    rw [n3]
    unfold ivLess at h
    rw [tvCmp_some hb1 ha2, tvCmp_some ha1 hb2] at h
    simp only [rel_eq_iff, Bool.or_eq_true] at h
    repeat' split at h
    all_goals first
      | (cases h; rw [decide_eq_false_iff_not]; rename_i hc; first | omega | (rcases hc.1 with hc1 | hc1 <;> simp only [hc1, true_implies] at * <;> omega))
      | (cases h; rw [decide_eq_true_iff]; rename_i hc; first | omega | (rcases hc.1 with hc1 | hc1 <;> simp only [hc1, true_implies] at * <;> omega))
      | exact absurd h (by simp)
  split at h
  · rename_i e; subst e
    rw [n4]
    unfold ivLessEqual at h
    rw [tvCmp_some hb1 ha2, tvCmp_some ha1 hb2] at h
    simp only [rel_eq_iff, Bool.or_eq_true] at h
    repeat' split at h
    all_goals first
      | (cases h; rw [decide_eq_false_iff_not]; rename_i hc; first | omega | (rcases hc.1 with hc1 | hc1 <;> simp only [hc1, true_implies] at * <;> omega))
      | (cases h; rw [decide_eq_true_iff]; rename_i hc; first | omega | (rcases hc.1 with hc1 | hc1 <;> simp only [hc1, true_implies] at * <;> omega))
      | exact absurd h (by simp)
  split at h
  · rename_i e; subst e
    cases h
    exact n5
  · exact absurd h (by simp)

theorem compareIv_sound {m : FMode V} (hz : OneZero m) {l r : Option (Interval V)} {x y : V} (hl : ∀ iv, l = some iv → Inside m iv x)
    (hr : ∀ iv, r = some iv → Inside m iv y) {rel : Rel} {b : Bool} (h : compareIv m l r rel = some b) : Holds rel (outcome m x y) = b := by
  unfold compareIv at h
  cases l with
  | none => exact absurd h (by simp)
  | some l =>
    cases r with
    | none => exact absurd h (by simp)
    | some r =>
      have hord : ∀ {rel : Rel} {b : Bool}, ivOrdered m l r rel = some b → Holds rel (outcome m x y) = b := by
        intro rel b h
        unfold ivOrdered at h
        split at h
        · have := ivSwitch_sound hz (hr r rfl) (hl l rfl) h
          rw [holds_inversed] at this
          exact this
        · exact ivSwitch_sound hz (hl l rfl) (hr r rfl) h
      simp only at h
      split at h
      · rw [Option.map_eq_some_iff] at h
        obtain ⟨b', h1, h2⟩ := h
        have := hord h1
        rw [holds_negated] at this
        rw [← h2, ← this, Bool.not_not]
      · exact hord h

theorem decideFrom_sound {known rel : Rel} {o : Outcome} {b : Bool} (hk : Holds known o = true) (h : decideFrom known rel = some b) : Holds rel o = b := by
  have key : ∀ known rel : Rel, ∀ b, decideFrom known rel = some b →
      (∀ o : Fin 4, Holds known ([Outcome.eq, .lt, .gt, .un][o]) = true → Holds rel ([Outcome.eq, .lt, .gt, .un][o]) = b) := by decide
  have := key known rel b h
  cases o
  · exact this 0 hk
  · exact this 1 hk
  · exact this 2 hk
  · exact this 3 hk

theorem triangle_sound {m : FMode V} {x y c : V} {lrel rrel rel : Rel} {b : Bool} (hl : Holds lrel (outcome m x c) = true)
    (hr : Holds rrel (outcome m y c) = true) (h : triangle lrel rrel rel = some b) : Holds rel (outcome m x y) = b := by
  rw [← holds_inversed] at hr
  unfold triangle at h
  split at h
  swap
  · exact absurd h (by simp)
  rename_i hc
  obtain ⟨hc1, hc2⟩ := hc
  generalize rrel.inversed = rinc at *
  -- the composed relation holds
  have hres : Holds ((lrel &&& ~~~Rel.equal) ||| (lrel &&& rinc &&& Rel.equal)) (outcome m x y) = true := by
    have hu : ∀ lrel rinc : Rel, isTransitive lrel = true → lrel &&& ~~~Rel.equal = rinc &&& ~~~Rel.equal →
        Holds lrel .un = false ∧ Holds rinc .un = false ∧
        (Holds lrel .lt = false ∨ Holds lrel .gt = false) ∧
        (Holds rinc .lt = Holds lrel .lt) ∧ (Holds rinc .gt = Holds lrel .gt) ∧
        Holds ((lrel &&& ~~~Rel.equal) ||| (lrel &&& rinc &&& Rel.equal)) .eq = (Holds lrel .eq && Holds rinc .eq) ∧
        Holds ((lrel &&& ~~~Rel.equal) ||| (lrel &&& rinc &&& Rel.equal)) .lt = Holds lrel .lt ∧
        Holds ((lrel &&& ~~~Rel.equal) ||| (lrel &&& rinc &&& Rel.equal)) .gt = Holds lrel .gt := by decide
    obtain ⟨u1, u2, u3, u4, u5, u6, u7, u8⟩ := hu lrel rinc hc1 hc2
    obtain ⟨kx, kc, h1, h2⟩ := holds_ordered u1 hl
    obtain ⟨kc', ky, h2', h3⟩ := holds_ordered u2 hr
    rw [h2] at h2'; cases h2'
    rw [outcome_some h1 h2] at hl
    rw [outcome_some h2 h3] at hr
    rw [outcome_some h1 h3]
    generalize ((lrel &&& ~~~Rel.equal) ||| (lrel &&& rinc &&& Rel.equal)) = res at *
    rcases Int.lt_trichotomy kx kc with a | a | a <;> rcases Int.lt_trichotomy kc ky with a' | a' | a' <;>
      (first
        | rw [if_neg (by omega : ¬ kx = kc), if_pos (by omega : kx < kc)] at hl
        | rw [if_pos (by omega : kx = kc)] at hl
        | rw [if_neg (by omega : ¬ kx = kc), if_neg (by omega : ¬ kx < kc)] at hl) <;>
      (first
        | rw [if_neg (by omega : ¬ kc = ky), if_pos (by omega : kc < ky)] at hr
        | rw [if_pos (by omega : kc = ky)] at hr
        | rw [if_neg (by omega : ¬ kc = ky), if_neg (by omega : ¬ kc < ky)] at hr) <;>
      (first
        | (rw [if_neg (by omega : ¬ kx = ky), if_pos (by omega : kx < ky)]; simp_all; done)
        | (rw [if_pos (by omega : kx = ky)]; simp_all; done)
        | (rw [if_neg (by omega : ¬ kx = ky), if_neg (by omega : ¬ kx < ky)]; simp_all; done)
        | (exfalso; simp_all; done))
  simp only at h
  generalize ((lrel &&& ~~~Rel.equal) ||| (lrel &&& rinc &&& Rel.equal)) = res at *
  have key : ∀ (res rel : Rel) (o : Fin 4), Holds res ([Outcome.eq, .lt, .gt, .un][o]) = true →
      (rel = res ∨ rel &&& ~~~Rel.equal = res → Holds rel ([Outcome.eq, .lt, .gt, .un][o]) = true) ∧
      (rel.negated = res ∨ rel.negated &&& ~~~Rel.equal = res → Holds rel ([Outcome.eq, .lt, .gt, .un][o]) = false) := by decide
  have key' : ∀ (res rel : Rel) (o : Outcome), Holds res o = true →
      (rel = res ∨ rel &&& ~~~Rel.equal = res → Holds rel o = true) ∧
      (rel.negated = res ∨ rel.negated &&& ~~~Rel.equal = res → Holds rel o = false) := by
    intro res rel o h
    cases o
    · exact key res rel 0 h
    · exact key res rel 1 h
    · exact key res rel 2 h
    · exact key res rel 3 h
  obtain ⟨k1, k2⟩ := key' res rel _ hres
  split at h
  · cases h; exact k1 ‹_›
  · split at h
    · cases h; exact k2 ‹_›
    · exact absurd h (by simp)

/-- a left Confirm -/
theorem cmpLeft_sound {m : FMode V} (hz : OneZero m) {env : Nat → V} (hw : WithinMode m env) {left right : Node V} {rel : Rel} {b : Bool}
    (hl : Respects m env left) (hr : Respects m env right)
    (hsym : ∀ i rrel bc, right = .confirm i rrel left.id bc → left.isConfirm = true → rrel.inversed = rrel)
    (h : cmpLeft m left right rel = some b) : Holds rel (outcome m (env left.id) (env right.id)) = b := by
  cases left with
  | const i v => exact absurd h (by simp [cmpLeft])
  | other i => exact absurd h (by simp [cmpLeft])
  | confirm lid lrel lbound lconst =>
    obtain ⟨hl1, hl2⟩ := hl
    have hleft : ∀ b, leftConfirm m lrel lbound lconst right rel = some b → Holds rel (outcome m (env lid) (env right.id)) = b := by
      intro b h
      unfold leftConfirm at h
      rw [Option.or_eq_some_iff] at h
      rcases h with h | ⟨-, h⟩
      · split at h
        · rename_i e
          rw [e]
          exact decideFrom_sound hl1 h
        · exact absurd h (by simp)
      · cases right with
        | const i v =>
          simp only [Node.valueOf] at h
          have hv : env i = v := hr
          exact compareIv_sound hz (fun iv e => interval_inside hw hl1 hl2 e)
            (fun iv e => by show Inside m iv (env i); rw [hv]; exact intervalFromTv_inside e) h
        | confirm _ _ _ _ => exact absurd h (by simp [Node.valueOf])
        | other _ => exact absurd h (by simp [Node.valueOf])
    cases right with
    | const i v => exact hleft b h
    | other i => exact hleft b h
    | confirm rid rrel rbound rconst =>
      obtain ⟨hr1, hr2⟩ := hr
      simp only [cmpLeft] at h
      rw [Option.or_eq_some_iff] at h
      rcases h with h | ⟨-, h⟩
      · show Holds rel (outcome m (env lid) (env rid)) = b
        unfold bothConfirms at h
        rw [Option.or_eq_some_iff] at h
        rcases h with h | ⟨-, h⟩
        · split at h
          · rename_i e
            rw [e] at hr1
            exact triangle_sound hl1 hr1 h
          · exact absurd h (by simp)
        rw [Option.or_eq_some_iff] at h
        rcases h with h | ⟨-, h⟩
        · split at h
          · rename_i e
            have hs := hsym rid rrel rconst (by rw [← e]; rfl) rfl
            rw [← e, ← hs, holds_inversed] at hr1
            exact decideFrom_sound hr1 h
          · exact absurd h (by simp)
        · exact compareIv_sound hz (fun iv e => interval_inside hw hl1 hl2 e) (fun iv e => interval_inside hw hr1 hr2 e) h
      · exact hleft b h

/-- C30: a comparison that is decided has the value decided, in every execution in which the Confirms hold.  Missing, because
the code is wrong there: a comparison of two Confirms of which the left one is the Confirm whose bound is the right one, unless its
relation is symmetric (`hsym`, `confirm_swapped_wrong`); values beyond the least and greatest value of the mode, i.e. infinities
(`hw`, `confirm_infinity_wrong`); modes in which different values compare equal, i.e. with two zeros (`hz`, `confirm_two_zeros_wrong`). -/
theorem computed_value_confirm_partial {m : FMode V} (hz : OneZero m) {env : Nat → V} (hw : WithinMode m env) {left right : Node V} {rel : Rel} {b : Bool}
    (hl : Respects m env left) (hr : Respects m env right)
    (hsym : ∀ i lrel bc, left = .confirm i lrel right.id bc → right.isConfirm = true → lrel.inversed = lrel)
    (h : computedValue m left right rel = some b) : Holds rel (outcome m (env left.id) (env right.id)) = b := by
  unfold computedValue at h
  split at h
  · have := cmpLeft_sound hz hw hr hl hsym h
    rw [holds_inversed] at this
    exact this
  · rename_i hc
    refine cmpLeft_sound hz hw hl hr ?_ h
    intro i rrel bc e _
    rw [e] at hc
    exact absurd rfl hc

/-- an integer mode: the positions are the values -/
def intMode (m : Spec.IMode) (lo hi : Int) (_ : m.In lo) (_ : m.In hi) : FMode Int := ⟨some, lo, hi⟩

/-- C30 for integer modes, with the least value `lo` and the greatest value `hi` (C17) -/
theorem computed_value_confirm_int_partial {m : Spec.IMode} {lo hi : Int} (h1 : m.In lo) (h2 : m.In hi) (hall : ∀ x, m.In x → lo ≤ x ∧ x ≤ hi)
    {env : Nat → Int} (henv : ∀ n, m.In (env n)) {left right : Node Int} {rel : Rel} {b : Bool}
    (hl : Respects (intMode m lo hi h1 h2) env left) (hr : Respects (intMode m lo hi h1 h2) env right)
    (hsym : ∀ i lrel bc, left = .confirm i lrel right.id bc → right.isConfirm = true → lrel.inversed = lrel)
    (h : computedValue (intMode m lo hi h1 h2) left right rel = some b) : Holds rel (intCmp.cmp (env left.id) (env right.id)) = b := by
  have hz : OneZero (intMode m lo hi h1 h2) := by
    intro a b e _
    exact Option.some.inj e
  have hw : WithinMode (intMode m lo hi h1 h2) env := ⟨lo, hi, rfl, rfl, fun n k e => by cases e; exact hall _ (henv n)⟩
  have := computed_value_confirm_partial hz hw hl hr hsym h
  exact this

/-- Wrong: node 0 is a Confirm "node 0 < node 1", node 1 a Confirm "node 1 < node 2"; `node 0 > node 1` is found to hold. -/
theorem confirm_swapped_wrong : ∃ (env : Nat → Int) (left right : Node Int), (∀ n, 0 ≤ env n ∧ env n ≤ 100) ∧
    Respects (⟨some, 0, 100⟩ : FMode Int) env left ∧ Respects (⟨some, 0, 100⟩ : FMode Int) env right ∧
    computedValue (⟨some, 0, 100⟩ : FMode Int) left right Rel.greater = some true ∧
    Holds Rel.greater (intCmp.cmp (env left.id) (env right.id)) = false := by
  refine ⟨fun n => if n = 0 then 1 else if n = 1 then 2 else 3, .confirm 0 Rel.less 1 none, .confirm 1 Rel.less 2 none, ?_, ?_, ?_, ?_, ?_⟩
  · intro n
    show (0:Int) ≤ (if n = 0 then 1 else if n = 1 then 2 else 3) ∧ (if n = 0 then 1 else if n = 1 then 2 else 3) ≤ (100:Int)
    split
    · omega
    · split <;> omega
  · refine ⟨by decide, by simp⟩
  · refine ⟨by decide, by simp⟩
  · decide
  · decide

/-- a small mode with two zeros, two infinities and a NaN -/
inductive Fp | nan | ninf | neg | nzero | pzero | pos | pinf
  deriving DecidableEq

/-- the least and greatest finite values are the borders of the mode, ir/tv/tv.c:438-441 -/
def fpMode : FMode Fp where
  key | .nan => none | .ninf => some (-2) | .neg => some (-1) | .nzero => some 0 | .pzero => some 0 | .pos => some 1 | .pinf => some 2
  min := .neg
  max := .pos

/-- Wrong: "x >= 0" is confirmed and x is infinite; `x == infinity` is found not to hold. -/
theorem confirm_infinity_wrong : ∃ (env : Nat → Fp) (left right : Node Fp), Respects fpMode env left ∧ Respects fpMode env right ∧
    computedValue fpMode left right Rel.equal = some false ∧ Holds Rel.equal (outcome fpMode (env left.id) (env right.id)) = true := by
  refine ⟨fun n => if n = 1 then .pzero else .pinf, .confirm 0 Rel.greaterEqual 1 (some .pzero), .const 2 .pinf, ?_, ?_, ?_, ?_⟩
  · exact ⟨by decide, by intro v h; cases h; rfl⟩
  · show Fp.pinf = _; rfl
  · decide
  · decide

/-- Wrong: "x == -0" is confirmed; `x == +0` is found not to hold. -/
theorem confirm_two_zeros_wrong : ∃ (env : Nat → Fp) (left right : Node Fp), Respects fpMode env left ∧ Respects fpMode env right ∧
    computedValue fpMode left right Rel.equal = some false ∧ Holds Rel.equal (outcome fpMode (env left.id) (env right.id)) = true := by
  refine ⟨fun n => if n = 1 then .nzero else .pzero, .confirm 0 Rel.equal 1 (some .nzero), .const 2 .pzero, ?_, ?_, ?_, ?_⟩
  · exact ⟨by decide, by intro v h; cases h; rfl⟩
  · show Fp.pzero = _; rfl
  · decide
  · decide

/-- "x < 5" is confirmed, so `x < 7` holds and `x >= 5` does not -/
example : computedValue (⟨some, -128, 127⟩ : FMode Int) (.confirm 0 Rel.less 1 (some 5)) (.const 2 7) Rel.less = some true ∧
    computedValue (⟨some, -128, 127⟩ : FMode Int) (.confirm 0 Rel.less 1 (some 5)) (.const 2 5) Rel.greaterEqual = some false ∧
    computedValue (⟨some, -128, 127⟩ : FMode Int) (.const 2 7) (.confirm 0 Rel.less 1 (some 5)) Rel.greater = some true := by decide
/-- "x < z" and "y > z" are confirmed, so `x < y` -/
example : computedValue (⟨some, -128, 127⟩ : FMode Int) (.confirm 0 Rel.less 9 none) (.confirm 1 Rel.greater 9 none) Rel.less = some true := by decide

end Verif.Props
