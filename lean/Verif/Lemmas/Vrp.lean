import Verif.Model.Vrp
import Verif.Lemmas.ConstBitsMono
import Verif.Lemmas.IrOptCmp
/-!
# The value range analysis: what one update of a node finds out
-/
namespace Verif.Model.Vrp
open Verif.Spec Verif.Model.IrOpt
open BitInfo (tvCmp convertTo)

variable {m k : IMode} {G : SsaGraph} {w : Nat}

/-- the known bits of an entry -/
abbrev Attr.bi (a : Attr w) : BitInfo w := ⟨a.notSet, a.set⟩

/-- what a range says about a value -/
def Range.Desc (m : IMode) : Range m.bits → BitVec m.bits → Prop
  | .undefined, _ => True
  | .range b t, v => m.num b ≤ m.num v ∧ m.num v ≤ m.num t
  | .anti b t, v => ¬ (m.num b ≤ m.num v ∧ m.num v ≤ m.num t)
  | .varying, _ => True

theorem initial_desc (v : BitVec w) : (Attr.initial w).bi.Desc v := describes_unknown v

theorem cmp_less {x y : BitVec m.bits} : tvCmp m.signed x y = Rel.less ↔ m.num x < m.num y := by
  rw [num_eq, num_eq, tvCmp]
  split
  · exact ⟨fun h => absurd h (by decide), fun h => by omega⟩
  · split
    · exact ⟨fun _ => by assumption, fun _ => rfl⟩
    · exact ⟨fun h => absurd h (by decide), fun h => by omega⟩

theorem cmp_greater {x y : BitVec m.bits} : tvCmp m.signed x y = Rel.greater ↔ m.num y < m.num x := by
  rw [num_eq, num_eq, tvCmp]
  split
  · exact ⟨fun h => absurd h (by decide), fun h => by omega⟩
  · split
    · exact ⟨fun h => absurd h (by decide), fun h => by omega⟩
    · exact ⟨fun _ => by omega, fun _ => rfl⟩

/-! ## The bits -/

theorem operand_desc {s : State} {env : Env} (a : Expr m) (h : ∀ k i, a.Uses k i → (s k i).bi.Desc (env k i)) :
    (operand s a).bi.Desc (a.eval env) := by
  cases a
  case leaf i => exact h _ _ ⟨rfl, rfl⟩
  all_goals exact initial_desc _

theorem operand_le {s s' : State} (h : ∀ m i, (s m i).bi.Le (s' m i).bi) (a : Expr m) : (operand s a).bi.Le (operand s' a).bi := by
  cases a
  case leaf i => exact h _ _
  all_goals exact le_refl _

theorem operand_cons {s : State} (h : ∀ m i, (s m i).bi.Cons) (a : Expr m) : (operand s a).bi.Cons := by
  cases a
  case leaf i => exact h _ _
  all_goals exact cons_of_desc (initial_desc 0)

theorem constOf_eq {a : Expr m} {c : BitVec m.bits} (h : constOf G a = some c) : ∃ i, a = .leaf m i ∧ G.node m i = .op (.const c) := by
  cases a
  case leaf i =>
    simp only [constOf] at h
    split at h
    · next hc => cases h; exact ⟨i, rfl, hc⟩
    · cases h
  all_goals cases h

theorem eorBits_le {a a' b b' : Attr w} (ha : a.bi.Le a'.bi) (hb : b.bi.Le b'.bi) :
    (BitInfo.mk (eorBits a b).2 (eorBits a b).1).Le ⟨(eorBits a' b').2, (eorBits a' b').1⟩ := by
  intro i hi
  obtain ⟨h1, h2⟩ := ha i hi
  obtain ⟨h3, h4⟩ := hb i hi
  simp only [eorBits, BitVec.getLsbD_or, BitVec.getLsbD_and, BitVec.getLsbD_not, hi, decide_true, Bool.true_and] at *
  generalize a.set.getLsbD i = p1, a.notSet.getLsbD i = p2, b.set.getLsbD i = p3, b.notSet.getLsbD i = p4,
    a'.set.getLsbD i = q1, a'.notSet.getLsbD i = q2, b'.set.getLsbD i = q3, b'.notSet.getLsbD i = q4 at *
  revert p1 p2 p3 p4 q1 q2 q3 q4
  decide

theorem eorBits_desc {a b : Attr w} {x y : BitVec w} (ha : a.bi.Desc x) (hb : b.bi.Desc y) :
    (BitInfo.mk (eorBits a b).2 (eorBits a b).1).Desc (x ^^^ y) := by
  intro i hi
  obtain ⟨h1, h2⟩ := ha i hi
  obtain ⟨h3, h4⟩ := hb i hi
  simp only [eorBits, BitVec.getLsbD_or, BitVec.getLsbD_and, BitVec.getLsbD_not, BitVec.getLsbD_xor, hi, decide_true, Bool.true_and] at *
  generalize a.set.getLsbD i = p1, a.notSet.getLsbD i = p2, b.set.getLsbD i = p3, b.notSet.getLsbD i = p4,
    x.getLsbD i = q1, y.getLsbD i = q2 at *
  revert p1 p2 p3 p4 q1 q2
  decide

theorem convBits_le (hk : 0 < k.bits) {a b : Attr k.bits} (h : a.bi.Le b.bi) (ca : a.bi.Cons) :
    (BitInfo.mk (convBits k m a).2 (convBits k m a).1).Le ⟨(convBits k m b).2, (convBits k m b).1⟩ := by
  intro i hi
  have h1 := conv_le k.signed m.bits hk h i hi
  have h2 := cons_of_desc (conv_sound k.signed m.bits hk (cons_z ca)) i hi
  simp only [convBits, BitInfo.conv, BitVec.getLsbD_and] at *
  generalize (convertTo k.signed m.bits (BitVec.allOnes k.bits)).getLsbD i = p0, (convertTo k.signed m.bits a.set).getLsbD i = p1,
    (convertTo k.signed m.bits a.notSet).getLsbD i = p2, (convertTo k.signed m.bits b.set).getLsbD i = p3,
    (convertTo k.signed m.bits b.notSet).getLsbD i = p4 at *
  revert h1 h2 p0 p1 p2 p3 p4
  decide

/-- what the constants of the graph are -/
def ConstsRight (G : SsaGraph) (env : Env) (e : Expr m) : Prop := ∀ k i c, e.Uses k i → G.node k i = .op (.const c) → env k i = c

theorem convBits_desc (hk : 0 < k.bits) {a : Attr k.bits} {x : BitVec k.bits} (h : a.bi.Desc x) :
    (BitInfo.mk (convBits k m a).2 (convBits k m a).1).Desc (convertTo k.signed m.bits x) := by
  intro i hi
  have h1 := conv_sound k.signed m.bits hk h i hi
  have h2 := conv_sound k.signed m.bits hk (describes_unknown x) i hi
  simp only [convBits, BitInfo.conv, BitInfo.unknown, BitVec.getLsbD_and] at *
  generalize (convertTo k.signed m.bits (BitVec.allOnes k.bits)).getLsbD i = p0, (convertTo k.signed m.bits a.set).getLsbD i = p1,
    (convertTo k.signed m.bits a.notSet).getLsbD i = p2, (convertTo k.signed m.bits x).getLsbD i = p3 at *
  replace h2 := h2.1
  revert h1 h2 p0 p1 p2 p3
  decide

theorem shrs_describes {z o v : BitVec w} (h : Describes z o v) (s : Nat) : Describes (z.sshiftRight s) (o.sshiftRight s) (v.sshiftRight s) :=
  sshr_le (a := BitInfo.const v) (b := ⟨z, o⟩) h s

theorem shiftBits_inv {f : Nat → BitVec w → BitVec w} {a : Attr w} {c : Option (BitVec k.bits)} {new : New w}
    (h : shiftBits f a c = some new) : new = New.nothing w ∨ ∃ x, c = some x ∧ new = ⟨some (f x.toNat a.set, f x.toNat a.notSet), .undefined⟩ := by
  cases c with
  | none => cases h; exact Or.inl rfl
  | some x =>
    simp only [shiftBits] at h
    split at h
    · cases h
    · cases h; exact Or.inr ⟨x, rfl, rfl⟩

local macro "inj1 " h:ident hb:ident : tactic =>
  `(tactic| (simp only [transferOp, New.nothing, Option.some.injEq] at $h:ident; subst $h:ident; simp only [Option.some.injEq, Prod.mk.injEq, reduceCtorEq] at $hb:ident))
local macro "inj2 " h:ident : tactic => `(tactic| (simp only [transferOp, New.nothing, Option.some.injEq] at $h:ident ⊢; subst $h:ident))

theorem transferOp_desc {s : State} {env : Env} {e : Expr m} {new : New m.bits} {b n : BitVec m.bits} (h : transferOp G s e = some new)
    (hb : new.bits = some (b, n)) (hs : ∀ k i, e.Uses k i → (s k i).bi.Desc (env k i)) (hc : ConstsRight G env e) (hok : e.Ok env) :
    (BitInfo.mk n b).Desc (e.eval env) := by
  cases e with
  | leaf m i => inj1 h hb; obtain ⟨rfl, rfl⟩ := hb; exact hs _ _ ⟨rfl, rfl⟩
  | const c => inj1 h hb; obtain ⟨rfl, rfl⟩ := hb; exact describes_refl _
  | and x y =>
    inj1 h hb; obtain ⟨rfl, rfl⟩ := hb
    simp only [Expr.eval]
    exact and_sound (l := (operand s x).bi) (r := (operand s y).bi) (operand_desc x fun k i hu => hs k i (Or.inl hu)) (operand_desc y fun k i hu => hs k i (Or.inr hu))
  | or x y =>
    inj1 h hb; obtain ⟨rfl, rfl⟩ := hb
    simp only [Expr.eval]
    exact or_sound (l := (operand s x).bi) (r := (operand s y).bi) (operand_desc x fun k i hu => hs k i (Or.inl hu)) (operand_desc y fun k i hu => hs k i (Or.inr hu))
  | eor x y =>
    inj1 h hb; obtain ⟨rfl, rfl⟩ := hb
    simp only [Expr.eval]
    exact eorBits_desc (a := operand s x) (b := operand s y) (operand_desc x fun k i hu => hs k i (Or.inl hu)) (operand_desc y fun k i hu => hs k i (Or.inr hu))
  | not x =>
    inj1 h hb; obtain ⟨rfl, rfl⟩ := hb
    simp only [Expr.eval]
    exact not_sound (b := (operand s x).bi) (operand_desc x hs)
  | conv m x =>
    simp only [transferOp] at h
    split at h
    · cases h; cases hb
      exact convBits_desc (ok_pos hok.1) (operand_desc x hs)
    · cases h; cases hb
  | shl x c =>
    simp only [transferOp] at h
    rcases shiftBits_inv h with rfl | ⟨v, hv, rfl⟩
    · cases hb
    · cases hb
      obtain ⟨i, rfl, hi⟩ := constOf_eq hv
      have : (Expr.leaf _ i).eval env = v := hc _ _ _ (Or.inr ⟨rfl, rfl⟩) hi
      simp only [Expr.eval] at this ⊢
      rw [this]
      exact shl_describes (operand_desc x fun k i hu => hs k i (Or.inl hu)) _
  | shr x c =>
    simp only [transferOp] at h
    rcases shiftBits_inv h with rfl | ⟨v, hv, rfl⟩
    · cases hb
    · cases hb
      obtain ⟨i, rfl, hi⟩ := constOf_eq hv
      have : (Expr.leaf _ i).eval env = v := hc _ _ _ (Or.inr ⟨rfl, rfl⟩) hi
      simp only [Expr.eval] at this ⊢
      rw [this]
      exact shr_describes (operand_desc x fun k i hu => hs k i (Or.inl hu)) _
  | shrs x c =>
    simp only [transferOp] at h
    rcases shiftBits_inv h with rfl | ⟨v, hv, rfl⟩
    · cases hb
    · cases hb
      obtain ⟨i, rfl, hi⟩ := constOf_eq hv
      have : (Expr.leaf _ i).eval env = v := hc _ _ _ (Or.inr ⟨rfl, rfl⟩) hi
      simp only [Expr.eval] at this ⊢
      rw [this]
      exact shrs_describes (operand_desc x fun k i hu => hs k i (Or.inl hu)) _
  | _ => inj1 h hb

/-- whether something is found out about the bits does not depend on the state, and more is found out from more -/
theorem transferOp_le {s s' : State} {e : Expr m} {new : New m.bits} (hw : e.WellFormed) (h : transferOp G s e = some new)
    (hs : ∀ k i, (s' k i).bi.Le (s k i).bi) (hcons : ∀ k i, (s' k i).bi.Cons) :
    ∃ new', transferOp G s' e = some new' ∧
      ((new.bits = none ∧ new'.bits = none) ∨ ∃ b n b' n', new.bits = some (b, n) ∧ new'.bits = some (b', n') ∧
        (BitInfo.mk n' b').Le ⟨n, b⟩ ∧ (BitInfo.mk n' b').Cons) := by
  cases e with
  | leaf m i => inj2 h; exact ⟨_, rfl, Or.inr ⟨_, _, _, _, rfl, rfl, hs _ _, hcons _ _⟩⟩
  | const c => inj2 h; exact ⟨_, rfl, Or.inr ⟨_, _, _, _, rfl, rfl, le_refl _, cons_of_desc (describes_refl _)⟩⟩
  | and x y =>
    inj2 h
    exact ⟨_, rfl, Or.inr ⟨_, _, _, _, rfl, rfl, and_le (a := (operand s' x).bi) (a' := (operand s x).bi) (b := (operand s' y).bi) (b' := (operand s y).bi) (operand_le hs x) (operand_le hs y),
      cons_of_desc (and_sound (l := (operand s' x).bi) (r := (operand s' y).bi) (cons_z (operand_cons hcons x)) (cons_z (operand_cons hcons y)))⟩⟩
  | or x y =>
    inj2 h
    exact ⟨_, rfl, Or.inr ⟨_, _, _, _, rfl, rfl, or_le (a := (operand s' x).bi) (a' := (operand s x).bi) (b := (operand s' y).bi) (b' := (operand s y).bi) (operand_le hs x) (operand_le hs y),
      cons_of_desc (or_sound (l := (operand s' x).bi) (r := (operand s' y).bi) (cons_z (operand_cons hcons x)) (cons_z (operand_cons hcons y)))⟩⟩
  | eor x y =>
    inj2 h
    exact ⟨_, rfl, Or.inr ⟨_, _, _, _, rfl, rfl, eorBits_le (operand_le hs x) (operand_le hs y),
      cons_of_desc (eorBits_desc (cons_z (operand_cons hcons x)) (cons_z (operand_cons hcons y)))⟩⟩
  | not x =>
    inj2 h
    exact ⟨_, rfl, Or.inr ⟨_, _, _, _, rfl, rfl, not_le (a := (operand s' x).bi) (b := (operand s x).bi) (operand_le hs x), not_cons (a := (operand s' x).bi) (operand_cons hcons x)⟩⟩
  | @conv k m x =>
    by_cases hk : isInt k = true
    · simp only [transferOp, hk, if_true, Option.some.injEq] at h ⊢
      subst h
      exact ⟨_, rfl, Or.inr ⟨_, _, _, _, rfl, rfl, convBits_le (wf_pos hw.1) (operand_le hs x) (operand_cons hcons x),
        cons_of_desc (convBits_desc (wf_pos hw.1) (cons_z (operand_cons hcons x)))⟩⟩
    · simp only [transferOp, hk, Bool.false_eq_true, if_false, Option.some.injEq] at h ⊢
      subst h; exact ⟨_, rfl, Or.inl ⟨rfl, rfl⟩⟩
  | shl x c =>
    simp only [transferOp] at h ⊢
    cases hc : constOf G c with
    | none => rw [hc] at h; cases h; exact ⟨_, rfl, Or.inl ⟨rfl, rfl⟩⟩
    | some v =>
      rw [hc] at h
      simp only [shiftBits] at h ⊢
      split at h
      · cases h
      · next hv =>
        rw [if_neg hv]; cases h
        exact ⟨_, rfl, Or.inr ⟨_, _, _, _, rfl, rfl, shl_le (a := (operand s' x).bi) (b := (operand s x).bi) (operand_le hs x) _,
          cons_of_desc (shl_describes (cons_z (operand_cons hcons x)) _)⟩⟩
  | shr x c =>
    simp only [transferOp] at h ⊢
    cases hc : constOf G c with
    | none => rw [hc] at h; cases h; exact ⟨_, rfl, Or.inl ⟨rfl, rfl⟩⟩
    | some v =>
      rw [hc] at h
      simp only [shiftBits] at h ⊢
      split at h
      · cases h
      · next hv =>
        rw [if_neg hv]; cases h
        exact ⟨_, rfl, Or.inr ⟨_, _, _, _, rfl, rfl, shr_le (a := (operand s' x).bi) (b := (operand s x).bi) (operand_le hs x) _,
          cons_of_desc (shr_describes (cons_z (operand_cons hcons x)) _)⟩⟩
  | shrs x c =>
    simp only [transferOp] at h ⊢
    cases hc : constOf G c with
    | none => rw [hc] at h; cases h; exact ⟨_, rfl, Or.inl ⟨rfl, rfl⟩⟩
    | some v =>
      rw [hc] at h
      simp only [shiftBits] at h ⊢
      split at h
      · cases h
      · next hv =>
        rw [if_neg hv]; cases h
        exact ⟨_, rfl, Or.inr ⟨_, _, _, _, rfl, rfl, sshr_le (a := (operand s' x).bi) (b := (operand s x).bi) (operand_le hs x) _,
          cons_of_desc (shrs_describes (cons_z (operand_cons hcons x)) _)⟩⟩
  | _ => inj2 h; exact ⟨_, rfl, Or.inl ⟨rfl, rfl⟩⟩

theorem phi_foldl_bits (s : State) : ∀ (is : List Nat) (acc : (BitVec m.bits × BitVec m.bits) × Range m.bits),
    (BitInfo.mk acc.1.2 acc.1.1).Le ⟨(is.foldl (phiStep m s) acc).1.2, (is.foldl (phiStep m s) acc).1.1⟩ ∧
      ∀ i ∈ is, (s m i).bi.Le ⟨(is.foldl (phiStep m s) acc).1.2, (is.foldl (phiStep m s) acc).1.1⟩
  | [], acc => ⟨le_refl _, fun _ h => by cases h⟩
  | j :: is, acc => by
    obtain ⟨h1, h2⟩ := phi_foldl_bits s is (phiStep m s acc j)
    simp only [List.foldl_cons]
    refine ⟨le_trans (le_join_left (BitInfo.mk acc.1.2 acc.1.1) (s m j).bi) h1, fun i hi => ?_⟩
    rcases List.mem_cons.1 hi with rfl | hi
    · exact le_trans (le_join_right (BitInfo.mk acc.1.2 acc.1.1) (s m i).bi) h1
    · exact h2 i hi

theorem phi_foldl_le {s s' : State} (h : ∀ i, (s' m i).bi.Le (s m i).bi) : ∀ (is : List Nat) (acc acc' : (BitVec m.bits × BitVec m.bits) × Range m.bits),
    (BitInfo.mk acc'.1.2 acc'.1.1).Le ⟨acc.1.2, acc.1.1⟩ →
    (BitInfo.mk (is.foldl (phiStep m s') acc').1.2 (is.foldl (phiStep m s') acc').1.1).Le
      ⟨(is.foldl (phiStep m s) acc).1.2, (is.foldl (phiStep m s) acc).1.1⟩
  | [], _, _, ha => ha
  | j :: is, acc, acc', ha => by
    simp only [List.foldl_cons]
    exact phi_foldl_le h is _ _ (join_le (a := ⟨acc'.1.2, acc'.1.1⟩) (a' := ⟨acc.1.2, acc.1.1⟩) ha (h j))

theorem transferPhi_desc {s : State} {args : List Nat} {new : New m.bits} {b n : BitVec m.bits} (h : transferPhi m s args = some new)
    (hb : new.bits = some (b, n)) {a : Nat} (ha : a ∈ args) {v : BitVec m.bits} (hv : (s m a).bi.Desc v) : (BitInfo.mk n b).Desc v := by
  cases args with
  | nil => cases h
  | cons i is =>
    simp only [transferPhi, Option.some.injEq] at h
    subst h
    simp only [Option.some.injEq] at hb
    obtain ⟨h1, h2⟩ := phi_foldl_bits s is (((s m i).set, (s m i).notSet), (s m i).range)
    rw [hb] at h1 h2
    rcases List.mem_cons.1 ha with rfl | ha
    · exact desc_mono h1 hv
    · exact desc_mono (h2 _ ha) hv

theorem transferPhi_le {s s' : State} {args : List Nat} {new : New m.bits} (h : transferPhi m s args = some new)
    (hs : ∀ i, (s' m i).bi.Le (s m i).bi) (hcons : ∀ i, (s' m i).bi.Cons) :
    ∃ new', transferPhi m s' args = some new' ∧ ∃ b n b' n', new.bits = some (b, n) ∧ new'.bits = some (b', n') ∧
        (BitInfo.mk n' b').Le ⟨n, b⟩ ∧ (BitInfo.mk n' b').Cons := by
  cases args with
  | nil => cases h
  | cons i is =>
    simp only [transferPhi, Option.some.injEq] at h
    subst h
    exact ⟨_, rfl, _, _, _, _, rfl, rfl, phi_foldl_le hs is _ _ (hs i),
      cons_mono (phi_foldl_bits s' is (((s' m i).set, (s' m i).notSet), (s' m i).range)).1 (hcons i)⟩

/-! ## The ranges -/

theorem addNoWrap_eq {x y z : BitVec m.bits} (h : addNoWrap m x y = some z) : m.num z = m.num x + m.num y := by
  unfold addNoWrap at h
  split at h
  · next he => cases h; exact he
  · cases h

theorem subNoWrap_eq {x y z : BitVec m.bits} (h : subNoWrap m x y = some z) : m.num z = m.num x - m.num y := by
  unfold subNoWrap at h
  split at h
  · next he => cases h; exact he
  · cases h

theorem exact_of_mod {x q : Int} (hw : 0 < m.bits) {u v t : BitVec m.bits} (hz : m.num t = x + q * ((2 ^ m.bits : Nat) : Int))
    (h1 : m.num u ≤ x) (h2 : x ≤ m.num v) : m.num t = x := by
  have hpow : ((2 ^ m.bits : Nat) : Int) = 2 * ((2 ^ (m.bits - 1) : Nat) : Int) := by
    have : (2 : Nat) ^ m.bits = 2 * 2 ^ (m.bits - 1) := by rw [← Nat.pow_succ']; congr 1; omega
    omega
  have hp : 0 < ((2 ^ (m.bits - 1) : Nat) : Int) := by have := Nat.two_pow_pos (m.bits - 1); omega
  have r1 := num_range m hw u; have r2 := num_range m hw v; have r3 := num_range m hw t
  rw [hpow] at hz r1 r2 r3
  generalize ((2 ^ (m.bits - 1) : Nat) : Int) = P at *
  have hq : q = 0 := by
    rcases Int.lt_trichotomy q 0 with h | h | h
    · exfalso
      have : q * (2 * P) ≤ -1 * (2 * P) := Int.mul_le_mul_of_nonneg_right (by omega) (by omega)
      cases hs : m.signed <;> simp only [hs, Bool.false_eq_true, false_and, true_and, reduceCtorEq, or_false, false_or] at r1 r2 r3 <;> omega
    · exact h
    · exfalso
      have : 1 * (2 * P) ≤ q * (2 * P) := Int.mul_le_mul_of_nonneg_right (by omega) (by omega)
      cases hs : m.signed <;> simp only [hs, Bool.false_eq_true, false_and, true_and, reduceCtorEq, or_false, false_or] at r1 r2 r3 <;> omega
  rw [hq] at hz
  omega

theorem addRange_desc (hw : 0 < m.bits) {r r' : Range m.bits} {x y : BitVec m.bits} (h : r.Desc m x) (h' : r'.Desc m y) :
    (addRange m r r').Desc m (x + y) := by
  unfold addRange
  split
  · split
    · next ht hb =>
      have e1 := addNoWrap_eq ht
      have e2 := addNoWrap_eq hb
      obtain ⟨q, hq⟩ := num_add m x y
      have h1 := h.1; have h2 := h.2; have h3 := h'.1; have h4 := h'.2
      have := exact_of_mod hw hq (by rw [e2]; omega) (by rw [e1]; omega)
      unfold Range.Desc
      omega
    · trivial
  · trivial

theorem subRange_desc (hw : 0 < m.bits) {r r' : Range m.bits} {x y : BitVec m.bits} (h : r.Desc m x) (h' : r'.Desc m y) :
    (subRange m r r').Desc m (x - y) := by
  unfold subRange
  split
  · split
    · next ht hb =>
      have e1 := subNoWrap_eq ht
      have e2 := subNoWrap_eq hb
      obtain ⟨q, hq⟩ := num_sub m x y
      have h1 := h.1; have h2 := h.2; have h3 := h'.1; have h4 := h'.2
      have := exact_of_mod hw hq (by rw [e2]; omega) (by rw [e1]; omega)
      unfold Range.Desc
      omega
    · trivial
  · trivial

theorem confirmRange_desc (hw : 0 < m.bits) {r : Rel} {c : Option (BitVec m.bits)} {x y : BitVec m.bits} (hc : ∀ v, c = some v → y = v)
    (h : relHolds r (m.num x) (m.num y) = true) : (confirmRange m r c).Desc m x := by
  unfold confirmRange
  split
  · trivial
  · next v =>
    have := hc v rfl
    subst this
    split
    · next hr =>
      subst hr
      rw [relHolds_lessGreater] at h
      have : m.num x ≠ m.num y := by simpa using h
      unfold Range.Desc; omega
    · split
      · next hr =>
        subst hr
        rw [relHolds_lessEqual] at h
        exact ⟨num_min_le hw x, by simpa using h⟩
      · trivial

theorem operand_range {s : State} {env : Env} (a : Expr m) (h : ∀ k i, a.Uses k i → (s k i).range.Desc k (env k i)) :
    (operand s a).range.Desc m (a.eval env) := by
  cases a
  case leaf i => exact h _ _ ⟨rfl, rfl⟩
  all_goals trivial

theorem transferOp_range {s : State} {env : Env} {e : Expr m} {new : New m.bits} (h : transferOp G s e = some new)
    (hs : ∀ k i, e.Uses k i → (s k i).range.Desc k (env k i)) (hc : ConstsRight G env e) (hok : e.Ok env) :
    new.range.Desc m (e.eval env) := by
  cases e with
  | leaf m i => inj2 h; exact hs _ _ ⟨rfl, rfl⟩
  | const c => inj2 h; exact ⟨Int.le_refl _, Int.le_refl _⟩
  | add x y =>
    inj2 h
    exact addRange_desc (ok_pos hok.1) (operand_range x fun k i hu => hs k i (Or.inl hu)) (operand_range y fun k i hu => hs k i (Or.inr hu))
  | sub x y =>
    inj2 h
    exact subRange_desc (ok_pos hok.1) (operand_range x fun k i hu => hs k i (Or.inl hu)) (operand_range y fun k i hu => hs k i (Or.inr hu))
  | confirm x r b =>
    inj2 h
    refine confirmRange_desc (ok_pos hok.1) (fun v hv => ?_) hok.2.2
    obtain ⟨i, rfl, hi⟩ := constOf_eq hv
    exact hc _ _ _ (Or.inr ⟨rfl, rfl⟩) hi
  | conv m x =>
    simp only [transferOp] at h
    split at h <;> cases h <;> trivial
  | shl x c =>
    simp only [transferOp] at h
    rcases shiftBits_inv h with rfl | ⟨v, hv, rfl⟩ <;> trivial
  | shr x c =>
    simp only [transferOp] at h
    rcases shiftBits_inv h with rfl | ⟨v, hv, rfl⟩ <;> trivial
  | shrs x c =>
    simp only [transferOp] at h
    rcases shiftBits_inv h with rfl | ⟨v, hv, rfl⟩ <;> trivial
  | _ => inj2 h; trivial

/-- `r'` says at most as much as `r` -/
def Range.Weaker (m : IMode) (r r' : Range m.bits) : Prop := ∀ v, r.Desc m v → r'.Desc m v

theorem phiRange_weaker (r r' : Range m.bits) : r.Weaker m (phiRange m r r') ∧ r'.Weaker m (phiRange m r r') := by
  unfold phiRange
  split
  · next b t b' t' =>
    constructor
    · intro v h
      obtain ⟨h1, h2⟩ := h
      constructor
      · split
        · next hc => rw [cmp_greater] at hc; omega
        · exact h1
      · split
        · next hc => rw [cmp_less] at hc; omega
        · exact h2
    · intro v h
      obtain ⟨h1, h2⟩ := h
      constructor
      · split
        · exact h1
        · next hc => rw [cmp_greater] at hc; omega
      · split
        · exact h2
        · next hc => rw [cmp_less] at hc; omega
  · exact ⟨fun _ _ => trivial, fun _ _ => trivial⟩

theorem phi_foldl_range (s : State) : ∀ (is : List Nat) (acc : (BitVec m.bits × BitVec m.bits) × Range m.bits),
    acc.2.Weaker m (is.foldl (phiStep m s) acc).2 ∧ ∀ i ∈ is, (s m i).range.Weaker m (is.foldl (phiStep m s) acc).2
  | [], _ => ⟨fun _ h => h, fun _ h => by cases h⟩
  | j :: is, acc => by
    obtain ⟨h1, h2⟩ := phi_foldl_range s is (phiStep m s acc j)
    obtain ⟨h3, h4⟩ := phiRange_weaker acc.2 (s m j).range
    simp only [List.foldl_cons]
    refine ⟨fun v h => h1 v (h3 v h), fun i hi => ?_⟩
    rcases List.mem_cons.1 hi with rfl | hi
    · exact fun v h => h1 v (h4 v h)
    · exact h2 i hi

theorem transferPhi_range {s : State} {args : List Nat} {new : New m.bits} (h : transferPhi m s args = some new)
    {a : Nat} (ha : a ∈ args) {v : BitVec m.bits} (hv : (s m a).range.Desc m v) : new.range.Desc m v := by
  cases args with
  | nil => cases h
  | cons i is =>
    simp only [transferPhi, Option.some.injEq] at h
    subst h
    obtain ⟨h1, h2⟩ := phi_foldl_range s is (((s m i).set, (s m i).notSet), (s m i).range)
    rcases List.mem_cons.1 ha with rfl | ha
    · exact h1 v hv
    · exact h2 _ ha v hv

/-! ## The kinds of ranges -/

/-- ranges of the same kind; anti-ranges are equal -/
def SameKind : Range w → Range w → Prop
  | .range _ _, .range _ _ => True
  | .anti b t, .anti b' t' => b = b' ∧ t = t'
  | .varying, .varying => True
  | _, _ => False

theorem SameKind.refl {r : Range w} (h : r ≠ .undefined) : SameKind r r := by
  cases r <;> simp_all [SameKind]

theorem SameKind.symm {r r' : Range w} (h : SameKind r r') : SameKind r' r := by
  cases r <;> cases r' <;> simp_all [SameKind]

theorem SameKind.trans {r r' r'' : Range w} (h : SameKind r r') (h' : SameKind r' r'') : SameKind r r'' := by
  cases r <;> cases r' <;> cases r'' <;> simp_all [SameKind]

theorem SameKind.left {r r' : Range w} (h : SameKind r r') : r ≠ .undefined := by
  cases r <;> simp_all [SameKind]

/-- the new range may be added to the old one -/
def Compat : Range w → Range w → Prop
  | .undefined, _ => True
  | .range _ _, .anti _ _ => False
  | .range _ _, _ => True
  | .anti b t, r => r = .anti b t
  | .varying, _ => True

theorem mergeRange_kind {sg : Bool} {r r' : Range w} (h : Compat r r') : r = .undefined ∨ SameKind r (mergeRange sg r r') := by
  cases r with
  | undefined => exact Or.inl rfl
  | range b t => cases r' <;> simp_all [SameKind, mergeRange, Compat]
  | anti b t =>
    unfold Compat at h
    subst h
    simp [SameKind, mergeRange]
  | varying => simp [SameKind, mergeRange]

theorem mergeRange_anti {sg : Bool} (b t : BitVec w) : mergeRange sg (.anti b t) (.anti b t) = .anti b t := by
  simp [mergeRange]

theorem mergeRange_desc {r r' : Range m.bits} (hc : Compat r r') {v : BitVec m.bits} (h : r.Desc m v) (h' : r'.Desc m v) :
    (mergeRange m.signed r r').Desc m v := by
  cases r with
  | undefined => exact h'
  | range b t =>
    cases r' with
    | range b' t' =>
      simp only [mergeRange]
      constructor
      · split
        · exact h'.1
        · exact h.1
      · split
        · exact h'.2
        · exact h.2
    | anti b' t' => exact hc.elim
    | undefined => exact h
    | varying => exact h
  | anti b t =>
    unfold Compat at hc
    subst hc
    rw [mergeRange_anti]
    exact h
  | varying => trivial

/-- the node whose entry is copied: the operand of an Id or of a Phi with one operand -/
def copySource (G : SsaGraph) (m : IMode) (n : Nat) : Option Nat :=
  match G.node m n with
  | .op (.leaf _ i) => some i
  | .phi [i] => some i
  | _ => none

theorem transfer_copy {s : State} {n i : Nat} {new : New m.bits} (h : copySource G m n = some i) (ht : transfer G s m n = some new)
    (hm : isInt m = true) : new.range = (s m i).range := by
  unfold transfer at ht
  simp only [hm, Bool.not_true, Bool.false_eq_true, if_false] at ht
  unfold copySource at h
  split at h
  · next he =>
    cases h
    rw [he] at ht
    simp only [transferOp, Option.some.injEq] at ht
    subst ht
    rfl
  · next he =>
    cases h
    rw [he] at ht
    simp only [transferPhi, List.foldl_nil, Option.some.injEq] at ht
    subst ht
    rfl
  · cases h

/-- the range that is found out for a node is always this anti-range -/
def AlwaysAnti (G : SsaGraph) (m : IMode) (n : Nat) (b t : BitVec m.bits) : Prop :=
  ∀ s new, transfer G s m n = some new → new.range = .anti b t

theorem phi_foldl_not_anti (s : State) : ∀ (is : List Nat) (acc : (BitVec m.bits × BitVec m.bits) × Range m.bits) (b t : BitVec m.bits),
    (is.foldl (phiStep m s) acc).2 = .anti b t → is = []
  | [], _, _, _, _ => rfl
  | j :: is, acc, b, t, h => by
    exfalso
    simp only [List.foldl_cons] at h
    have := phi_foldl_not_anti s is _ b t h
    subst this
    simp only [List.foldl_nil, phiStep, phiRange] at h
    split at h <;> cases h

theorem addRange_not_anti {r r' : Range m.bits} {b t : BitVec m.bits} : addRange m r r' ≠ .anti b t := by
  unfold addRange
  split
  · split <;> simp
  · simp

theorem subRange_not_anti {r r' : Range m.bits} {b t : BitVec m.bits} : subRange m r r' ≠ .anti b t := by
  unfold subRange
  split
  · split <;> simp
  · simp

theorem transfer_anti {s : State} {n : Nat} {new : New m.bits} {b t : BitVec m.bits} (h : copySource G m n = none)
    (ht : transfer G s m n = some new) (hr : new.range = .anti b t) : AlwaysAnti G m n b t := by
  unfold transfer at ht
  split at ht
  · cases ht; cases hr
  · next hm =>
    split at ht
    · next e he =>
      cases e with
      | leaf m i => simp only [copySource, he] at h; cases h
      | const c => inj2 ht; cases hr
      | add x y => inj2 ht; exact (addRange_not_anti hr).elim
      | sub x y => inj2 ht; exact (subRange_not_anti hr).elim
      | confirm x r c =>
        inj2 ht
        intro s' new' ht'
        simp only [transfer, hm, Bool.false_eq_true, if_false, he, transferOp, Option.some.injEq] at ht'
        subst ht'
        exact hr
      | conv m x =>
        simp only [transferOp] at ht
        split at ht <;> cases ht <;> cases hr
      | shl x c =>
        simp only [transferOp] at ht
        rcases shiftBits_inv ht with rfl | ⟨v, hv, rfl⟩ <;> cases hr
      | shr x c =>
        simp only [transferOp] at ht
        rcases shiftBits_inv ht with rfl | ⟨v, hv, rfl⟩ <;> cases hr
      | shrs x c =>
        simp only [transferOp] at ht
        rcases shiftBits_inv ht with rfl | ⟨v, hv, rfl⟩ <;> cases hr
      | _ => inj2 ht; cases hr
    · next args he =>
      cases args with
      | nil => cases ht
      | cons i is =>
        simp only [transferPhi, Option.some.injEq] at ht
        subst ht
        have := phi_foldl_not_anti s is _ b t hr
        subst this
        simp only [copySource, he] at h
        cases h
    · cases ht; cases hr

/-- what the analysis keeps true about the kinds of the ranges -/
structure Kinds (G : SsaGraph) (s : State) : Prop where
  copy : ∀ m n i, isInt m = true → copySource G m n = some i → (s m n).range = .undefined ∨ SameKind (s m n).range (s m i).range
  anti : ∀ m n b t, isInt m = true → copySource G m n = none → (s m n).range = .anti b t → AlwaysAnti G m n b t
  always : ∀ m n b t, isInt m = true → copySource G m n = none → AlwaysAnti G m n b t → (s m n).range = .undefined ∨ (s m n).range = .anti b t

theorem Kinds.compat {s : State} {n : Nat} {new : New m.bits} (K : Kinds G s) (hm : isInt m = true) (ht : transfer G s m n = some new) :
    Compat (s m n).range new.range := by
  cases hc : copySource G m n with
  | some i =>
    rw [transfer_copy hc ht hm]
    rcases K.copy m n i hm hc with h | h
    · rw [h]; trivial
    · revert h
      cases (s m n).range <;> cases (s m i).range <;> simp [SameKind, Compat]
      rintro rfl rfl
      exact ⟨rfl, rfl⟩
  | none =>
    cases hr : (s m n).range with
    | undefined => trivial
    | varying => trivial
    | anti b t => exact K.anti m n b t hm hc hr s new ht
    | range b t =>
      cases hn : new.range with
      | anti b' t' =>
        rcases K.always m n b' t' hm hc (transfer_anti hc ht hn) with h | h
        · rw [hr] at h; cases h
        · rw [hr] at h; cases h
      | _ => trivial

theorem put_same (s : State) (m : IMode) (n : Nat) (a : Attr m.bits) : s.put m n a m n = a := by
  simp [State.put]

theorem put_other (s : State) (m : IMode) (n : Nat) (a : Attr m.bits) {m' : IMode} {n' : Nat} (h : ¬ (m = m' ∧ n' = n)) :
    s.put m n a m' n' = s m' n' := by
  simp [State.put, h]

theorem updateNode_inv {s s' : State} {n : Nat} (h : updateNode G s m n = some s') :
    ∃ new, transfer G s m n = some new ∧ s' = s.put m n (merge m.signed (s m n) new) := by
  unfold updateNode at h
  split at h
  · cases h
  · next new hn =>
    simp only at h
    split at h
    · cases h; exact ⟨new, hn, rfl⟩
    · cases h

theorem merge_range (sg : Bool) (a : Attr w) (new : New w) : (merge sg a new).range = mergeRange sg a.range new.range := by
  unfold merge; split <;> rfl

theorem transfer_not_int {s : State} {n : Nat} {new : New m.bits} (hm : isInt m = false) (h : transfer G s m n = some new) :
    new = New.nothing m.bits := by
  simp only [transfer, hm, Bool.not_false, if_true, Option.some.injEq] at h
  exact h.symm

theorem Kinds.update {s s' : State} {n : Nat} (K : Kinds G s) (h : updateNode G s m n = some s') : Kinds G s' := by
  obtain ⟨new, ht, rfl⟩ := updateNode_inv h
  -- how the range of any node changes
  have step : ∀ m' n', isInt m' = true → (s m' n').range = .undefined ∨
      SameKind (s m' n').range (s.put m n (merge m.signed (s m n) new) m' n').range := by
    intro m' n' hm'
    by_cases hp : m = m' ∧ n' = n
    · obtain ⟨rfl, rfl⟩ := hp
      rw [put_same, merge_range]
      exact mergeRange_kind (K.compat hm' ht)
    · rw [put_other _ _ _ _ hp]
      by_cases hu : (s m' n').range = .undefined
      · exact Or.inl hu
      · exact Or.inr (SameKind.refl hu)
  refine ⟨fun m' n' i hm' hc => ?_, fun m' n' b t hm' hc hr => ?_, fun m' n' b t hm' hc ha => ?_⟩
  · by_cases hp : m = m' ∧ n' = n
    · obtain ⟨rfl, rfl⟩ := hp
      by_cases hu : (s m n').range = .undefined
      · have hmr : (s.put m n' (merge m.signed (s m n') new) m n').range = (s m i).range := by
          rw [put_same, merge_range, hu, transfer_copy hc ht hm']; rfl
        rw [hmr]
        rcases step m i hm' with h | h
        · exact Or.inl h
        · exact Or.inr h
      · have h1 := (K.copy m n' i hm' hc).resolve_left hu
        have h2 := (step m n' hm').resolve_left hu
        have h3 := (step m i hm').resolve_left h1.symm.left
        exact Or.inr (h2.symm.trans (h1.trans h3))
    · rw [put_other _ _ _ _ hp]
      rcases K.copy m' n' i hm' hc with h | h
      · exact Or.inl h
      · exact Or.inr (h.trans ((step m' i hm').resolve_left h.symm.left))
  · by_cases hp : m = m' ∧ n' = n
    · obtain ⟨rfl, rfl⟩ := hp
      by_cases hu : (s m n').range = .undefined
      · rw [put_same, merge_range, hu] at hr
        exact transfer_anti hc ht hr
      · have h2 := (step m n' hm').resolve_left hu
        rw [hr] at h2
        refine K.anti m n' b t hm' hc ?_
        revert h2
        cases (s m n').range <;> simp [SameKind]
    · rw [put_other _ _ _ _ hp] at hr
      exact K.anti m' n' b t hm' hc hr
  · by_cases hp : m = m' ∧ n' = n
    · obtain ⟨rfl, rfl⟩ := hp
      rcases K.always m n' b t hm' hc ha with h | h
      · right
        rw [put_same, merge_range, h]
        exact ha s new ht
      · right
        rw [put_same, merge_range, h, ha s new ht]
        exact mergeRange_anti b t
    · rw [put_other _ _ _ _ hp]
      exact K.always m' n' b t hm' hc ha

end Verif.Model.Vrp
