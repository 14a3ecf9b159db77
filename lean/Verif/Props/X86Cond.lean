import Verif.Lemmas.X86Cond
import Verif.Props.Ia32Encode
/-!
# C110: condition codes

A comparison of the intermediate representation, the flags of the instruction it becomes, and the
condition code that reads them.  The flags are given by `Spec/X86Flags`, a condition code holds by
`ccMeans` (`Spec/X86Exec`), a relation by the outcomes it contains (`Holds`).
-/
namespace Verif.Props.X86Cond
open Verif.Spec.X86 Verif.Model.X86Cond Verif.Lemmas.X86Cond Verif.Props
open Verif.Model (Rel)

/-- The kind of an integer mode. -/
def kindOf (s : Bool) : Kind := if s then .signed else .unsigned

theorem relation_table_int : ∀ (s ov : Bool) (rel : Rel), ∀ cc ∈ relationToCc rel (kindOf s) ov,
    ∀ (zf sf of cf pf : Bool) (o : Fin 3),
    zf = ([Outcome.eq, .lt, .gt][o] == .eq) →
    (s = true → (sf != of) = ([Outcome.eq, .lt, .gt][o] == .lt)) →
    (s = false → cf = ([Outcome.eq, .lt, .gt][o] == .lt)) →
    (s = true → ov = false → sf = ([Outcome.eq, .lt, .gt][o] == .lt)) →
      ccMeans cc ⟨cf, pf, zf, sf, of⟩ = Holds rel [Outcome.eq, .lt, .gt][o] := by
  decide +kernel

theorem relation_table {s ov : Bool} {rel : Rel} {o : Outcome} {f : EFlags} {cc : Cc} (ho : o ≠ .un)
    (hz : f.zf = (o == .eq)) (hl : s = true → (f.sf != f.of) = (o == .lt))
    (hc : s = false → f.cf = (o == .lt)) (hs : s = true → ov = false → f.sf = (o == .lt))
    (h : relationToCc rel (kindOf s) ov = some cc) : ccMeans cc f = Holds rel o := by
  obtain ⟨cf, pf, zf, sf, of⟩ := f
  cases o with
  | eq => exact relation_table_int s ov rel cc h zf sf of cf pf 0 hz hl hc hs
  | lt => exact relation_table_int s ov rel cc h zf sf of cf pf 1 hz hl hc hs
  | gt => exact relation_table_int s ov rel cc h zf sf of cf pf 2 hz hl hc hs
  | un => exact absurd rfl ho

theorem sf_sub_zero {w : Nat} (a : BitVec w) :
    (subFlags a 0).sf = (outcome true a 0 == .lt) := by
  have h := (signed_flags a 0).2
  have hof : (subFlags a 0).of = false := by
    have h0 : (0 : BitVec w).toInt = 0 := BitVec.toInt_zero
    have h1 : a - 0 = a := BitVec.sub_zero a
    simp only [subFlags, h0, h1, Int.sub_zero]
    simp
  rw [hof] at h
  simpa using h

/-- **C110 (integers).**  The code for a relation holds after `cmp` exactly if the relation holds
between the operands, for operands of any width, with and without a sign.  The variants that look at
the sign flag alone are right because the right operand is zero. -/
theorem cc_of_relation {w : Nat} {rel : Rel} {s ov : Bool} {cc : Cc} (a b : BitVec w)
    (h : relationToCc rel (kindOf s) ov = some cc) (hov : ov = false → b = 0) :
    ccMeans cc (subFlags a b) = Holds rel (outcome s a b) := by
  have hz : (subFlags a b).zf = (outcome s a b == .eq) := by
    cases s
    · exact (unsigned_flags a b).1
    · exact (signed_flags a b).1
  refine relation_table (outcome_ne_un s a b) hz ?_ ?_ ?_ h
  · rintro rfl; exact (signed_flags a b).2
  · rintro rfl; exact (unsigned_flags a b).2
  · rintro rfl ho
    have := hov ho
    subst this
    exact sf_sub_zero a

/-- `-1 < 1` holds with a sign, `0xFFFF < 1` does not without one; the codes differ -/
example :
    relationToCc Rel.less (kindOf true) true = some less ∧
    relationToCc Rel.less (kindOf false) true = some below ∧
    ccMeans less (subFlags (0xFFFF : BitVec 16) 1) = true ∧
    ccMeans below (subFlags (0xFFFF : BitVec 16) 1) = false ∧
    relationToCc Rel.less (kindOf true) false = some sign := by decide

/-- The code for the sign alone is wrong for other right operands. -/
theorem cc_sign_needs_zero :
    relationToCc Rel.less (kindOf true) false = some sign ∧
    ccMeans sign (subFlags (0x80 : BitVec 8) 1) ≠ Holds Rel.less (outcome true (0x80 : BitVec 8) 1) := by
  decide +kernel

/-- **C110 (floating point).**  The code for a relation holds after `ucomis` exactly if the
outcome of the comparison is one of the relation. -/
theorem cc_of_relation_float {rel : Rel} {ov : Bool} {cc : Cc} (o : Outcome)
    (h : relationToCc rel .float ov = some cc) :
    ccMeans cc (ucomiFlags o) = Holds rel o := by
  have key : ∀ (ov : Bool) (rel : Rel), (∀ cc ∈ relationToCc rel .float ov,
      ccMeans cc (ucomiFlags .eq) = Holds rel .eq ∧ ccMeans cc (ucomiFlags .lt) = Holds rel .lt ∧
      ccMeans cc (ucomiFlags .gt) = Holds rel .gt ∧ ccMeans cc (ucomiFlags .un) = Holds rel .un) := by
    decide +kernel
  have := key ov rel cc h
  cases o
  · exact this.1
  · exact this.2.1
  · exact this.2.2.1
  · exact this.2.2.2

/-- `x <= y` does not hold for unordered operands, `!(x > y)` does -/
example :
    relationToCc Rel.lessEqual .float true = some floatBelowEqual ∧
    ccMeans floatBelowEqual (ucomiFlags .un) = false ∧
    relationToCc (Rel.negated Rel.greater) .float true = some floatUnorderedBelowEqual ∧
    ccMeans floatUnorderedBelowEqual (ucomiFlags .un) = true := by decide

/-- A code is found for every relation but "always" and "never", and for integers those that come to
the same. -/
theorem cc_of_relation_defined (rel : Rel) (k : Kind) (ov : Bool) :
    (relationToCc rel k ov).isSome ↔
      rel ≠ Rel.false ∧ rel ≠ Rel.true ∧ (k ≠ .float → rel ≠ Rel.lessEqualGreater ∧ rel ≠ Rel.unordered) := by
  have key : ∀ (rel : Rel) (ov : Bool),
      ((relationToCc rel .float ov).isSome ↔ rel ≠ Rel.false ∧ rel ≠ Rel.true) ∧
      ((relationToCc rel .signed ov).isSome ↔ rel ≠ Rel.false ∧ rel ≠ Rel.true ∧
        rel ≠ Rel.lessEqualGreater ∧ rel ≠ Rel.unordered) ∧
      ((relationToCc rel .unsigned ov).isSome ↔ rel ≠ Rel.false ∧ rel ≠ Rel.true ∧
        rel ≠ Rel.lessEqualGreater ∧ rel ≠ Rel.unordered) := by decide +kernel
  have := key rel ov
  cases k
  · simpa using this.1
  · simpa using this.2.1
  · simpa using this.2.2

/-- **C110 (negation).**  A negated code holds exactly if the code does not. -/
theorem cc_negate_correct (cc : Cc) (f : EFlags) : ccMeans (negate cc) f = !ccMeans cc f :=
  ccMeans_negate cc f

/-- The codes that are used for integer comparisons with `cmp`. -/
def IntCode (cc : Cc) : Prop := ∃ rel s, relationToCc rel (kindOf s) true = some cc

/-- **C110 (inversion, integers).**  The inverted code holds after the comparison with its operands
exchanged exactly if the code holds after the comparison. -/
theorem cc_invert_int {w : Nat} {cc : Cc} (h : IntCode cc) (a b : BitVec w) :
    ccMeans (invert cc) (subFlags b a) = ccMeans cc (subFlags a b) := by
  obtain ⟨rel, s, hr⟩ := h
  have key : ∀ (rel : Rel) (s : Bool), ∀ cc ∈ relationToCc rel (kindOf s) true,
      relationToCc rel.inversed (kindOf s) true = some (invert cc) := by decide +kernel
  rw [cc_of_relation a b hr nofun, cc_of_relation b a (key rel s cc hr) nofun,
    outcome_swap s a b]
  have key2 : ∀ (rel : Rel),
      Holds rel.inversed (Outcome.swap .eq) = Holds rel .eq ∧
      Holds rel.inversed (Outcome.swap .lt) = Holds rel .lt ∧
      Holds rel.inversed (Outcome.swap .gt) = Holds rel .gt ∧
      Holds rel.inversed (Outcome.swap .un) = Holds rel .un := by decide +kernel
  have := key2 rel
  cases outcome s a b
  · exact this.1
  · exact this.2.1
  · exact this.2.2.1
  · exact this.2.2.2

example : IntCode less ∧ IntCode aboveEqual ∧ IntCode notEqual ∧ invert less = greater := by
  exact ⟨⟨Rel.less, true, by decide⟩, ⟨Rel.greaterEqual, false, by decide⟩,
    ⟨Rel.lessGreater, false, by decide⟩, by decide⟩

/-- The sign codes are not inverted, though the sign of the difference does depend on the order. -/
theorem cc_invert_sign_wrong :
    ccMeans (invert sign) (subFlags (5 : BitVec 32) 7) ≠ ccMeans sign (subFlags (7 : BitVec 32) 5) := by
  decide +kernel

/-- **C110 (inversion, floating point).**  The same for all codes of floating point comparisons. -/
theorem cc_invert_float {rel : Rel} {ov : Bool} {cc : Cc} (o : Outcome)
    (h : relationToCc rel .float ov = some cc) :
    ccMeans (invert cc) (ucomiFlags o.swap) = ccMeans cc (ucomiFlags o) := by
  have key : ∀ (ov : Bool) (rel : Rel), (∀ cc ∈ relationToCc rel .float ov,
      ccMeans (invert cc) (ucomiFlags (Outcome.swap .eq)) = ccMeans cc (ucomiFlags .eq) ∧
      ccMeans (invert cc) (ucomiFlags (Outcome.swap .lt)) = ccMeans cc (ucomiFlags .lt) ∧
      ccMeans (invert cc) (ucomiFlags (Outcome.swap .gt)) = ccMeans cc (ucomiFlags .gt) ∧
      ccMeans (invert cc) (ucomiFlags (Outcome.swap .un)) = ccMeans cc (ucomiFlags .un)) := by
    decide +kernel
  have := key ov rel cc h
  cases o
  · exact this.1
  · exact this.2.1
  · exact this.2.2.1
  · exact this.2.2.2

example : ccMeans (invert floatBelow) (ucomiFlags .gt) = true ∧ ccMeans floatBelow (ucomiFlags .lt) = true := by
  decide +kernel

/-- Adding outcomes that are impossible does not change whether a relation holds. -/
theorem widen_sound {rel possible : Rel} {o : Outcome} (h : Holds possible o = true) :
    Holds (widen rel possible) o = Holds rel o := by
  have key : ∀ (rel possible : Rel),
      (Holds possible .eq = true → Holds (widen rel possible) .eq = Holds rel .eq) ∧
      (Holds possible .lt = true → Holds (widen rel possible) .lt = Holds rel .lt) ∧
      (Holds possible .gt = true → Holds (widen rel possible) .gt = Holds rel .gt) ∧
      (Holds possible .un = true → Holds (widen rel possible) .un = Holds rel .un) := by
    decide +kernel
  have := key rel possible
  cases o
  · exact this.1 h
  · exact this.2.1 h
  · exact this.2.2.1 h
  · exact this.2.2.2 h

/-- `p > 0` becomes `p != 0` for a pointer, which is never below zero -/
example : widen Rel.greater (Rel.greaterEqual) = Rel.lessGreater := by decide

theorem holds_inversed (rel : Rel) (o : Outcome) : Holds rel.inversed o.swap = Holds rel o := by
  have key2 : ∀ (rel : Rel),
      Holds rel.inversed (Outcome.swap .eq) = Holds rel .eq ∧
      Holds rel.inversed (Outcome.swap .lt) = Holds rel .lt ∧
      Holds rel.inversed (Outcome.swap .gt) = Holds rel .gt ∧
      Holds rel.inversed (Outcome.swap .un) = Holds rel .un := by decide +kernel
  have := key2 rel
  cases o
  · exact this.1
  · exact this.2.1
  · exact this.2.2.1
  · exact this.2.2.2

theorem ccMeans_xor (cc : Cc) (own : Bool) (f : EFlags) :
    ccMeans (if own then negate cc else cc) f = (ccMeans cc f != own) := by
  cases own
  · simp
  · simp [cc_negate_correct]

theorem intCode_negate {cc : Cc} (h : IntCode cc) : IntCode (negate cc) := by
  obtain ⟨rel, s, h⟩ := h
  refine ⟨(rel ||| Rel.unordered).negated, s, ?_⟩
  have key : ∀ (rel : Rel) (s : Bool), ∀ cc ∈ relationToCc rel (kindOf s) true,
    relationToCc (rel ||| Rel.unordered).negated (kindOf s) true = some (negate cc) := by decide +kernel
  exact key rel s cc h

/-- **C110 (integer comparisons, from the relation to the flags).**  A comparison of `l` and `r` by
a relation is transformed into a `cmp`, or replaced by a subtraction, whose operands may be in the
other order (`swap`); the operands may be exchanged afterwards (`permuted`), and the node that reads
the flags may have been turned around (`own`).  Then the code that is finally emitted holds for the
flags of the instruction exactly if the relation holds between `l` and `r` (or exactly if not, if the
node that reads them was turned around).  The relation is widened by what is impossible. -/
theorem compare_correct {w : Nat} {s useBt swap permuted own : Bool} {before after : CmpNode} {cc : Cc}
    (l r : BitVec w)
    (hk : before.kind = kindOf s)
    (hrel : after.rel = turnCmp swap before.rel)
    (hposs : Holds after.possible (outcome s (if swap then r else l) (if swap then l else r)) = true)
    (hnull : after.rightNull = true → (if swap then l else r) = 0)
    (hperm : permuted = true → after.rightNull = false)
    (h : flagsNode useBt before after = some (.cmp, cc)) :
    ccMeans (finalCc cc own false permuted)
        (if permuted then subFlags (if swap then l else r) (if swap then r else l)
         else subFlags (if swap then r else l) (if swap then l else r)) =
      (Holds before.rel (outcome s l r) != own) := by
  have hturn : Holds after.rel (outcome s (if swap then r else l) (if swap then l else r)) =
      Holds before.rel (outcome s l r) := by
    rw [hrel]
    cases swap
    · rfl
    · exact (congrArg _ (outcome_swap s l r)).trans (holds_inversed _ _)
  generalize ha : (if swap then r else l) = a at *
  generalize hb : (if swap then l else r) = b at *
  have hcc : relationToCc (widen after.rel after.possible) (kindOf s) (!after.rightNull) = some cc := by
    unfold flagsNode at h
    split at h
    · simp at h
    · rw [hk] at h
      cases hr : relationToCc (widen after.rel after.possible) (kindOf s) (!after.rightNull) with
      | none => rw [hr] at h; simp at h
      | some c => rw [hr] at h; simp at h; rw [h]
  have hmain : ccMeans cc (subFlags a b) = Holds before.rel (outcome s l r) := by
    rw [cc_of_relation a b hcc (fun hn => hnull (by simpa using hn)), widen_sound hposs, hturn]
  unfold finalCc
  cases permuted with
  | false =>
    simp only [Bool.false_eq_true, if_false]
    rw [ccMeans_xor, hmain]
  | true =>
    simp only [Bool.false_eq_true, if_false, if_true]
    have hi : IntCode cc := ⟨_, s, by rw [hperm rfl] at hcc; exact hcc⟩
    have hi' : IntCode (if own then negate cc else cc) := by
      cases own
      · exact hi
      · exact intCode_negate hi
    rw [cc_invert_int hi' a b, ccMeans_xor, hmain]

/-- `l > r` where a subtraction `r - l` exists: the relation is turned, and the code is `less` -/
example : let before : CmpNode := ⟨Rel.greater, .signed, false, false, Rel.lessEqualGreater⟩
    let after : CmpNode := ⟨turnCmp true Rel.greater, .signed, false, false, Rel.lessEqualGreater⟩
    flagsNode true before after = some (.cmp, less) ∧
    ccMeans less (subFlags (3 : BitVec 32) 4) = Holds Rel.greater (outcome true (4 : BitVec 32) 3) := by
  decide +kernel

/-- The right operand must not be zero if the operands have been exchanged: the code for the sign
would be left as it is. -/
theorem compare_permuted_zero_wrong :
    let n : CmpNode := ⟨Rel.less, .signed, false, true, Rel.lessEqualGreater⟩
    flagsNode true n n = some (.cmp, sign) ∧
    ccMeans (finalCc sign false false true) (subFlags 0 (1 : BitVec 32)) ≠
      Holds Rel.less (outcome true (1 : BitVec 32) 0) := by
  decide +kernel

/-- **C110 (floating point comparisons, from the relation to the flags).** -/
theorem compare_float_correct {useBt permuted own : Bool} {before after : CmpNode} {cc : Cc} (o : Outcome)
    (hk : before.kind = .float) (hrel : after.rel = before.rel)
    (hposs : Holds after.possible o = true)
    (h : flagsNode useBt before after = some (.cmp, cc)) :
    ccMeans (finalCc cc own false permuted) (ucomiFlags (if permuted then o.swap else o)) =
      (Holds before.rel o != own) := by
  have hcc : relationToCc (widen after.rel after.possible) .float (!after.rightNull) = some cc := by
    unfold flagsNode at h
    split at h
    · simp at h
    · rw [hk] at h
      cases hr : relationToCc (widen after.rel after.possible) .float (!after.rightNull) with
      | none => rw [hr] at h; simp at h
      | some c => rw [hr] at h; simp at h; rw [h]
  have hmain : ccMeans cc (ucomiFlags o) = Holds before.rel o := by
    rw [cc_of_relation_float o hcc, widen_sound hposs, hrel]
  have hneg : ∃ rel ov, relationToCc rel .float ov = some (if own then negate cc else cc) := by
    cases own
    · exact ⟨_, _, hcc⟩
    · refine ⟨(widen after.rel after.possible).negated, !after.rightNull, ?_⟩
      have key : ∀ (rel : Rel) (ov : Bool), ∀ cc ∈ relationToCc rel .float ov,
        relationToCc rel.negated .float ov = some (negate cc) := by decide +kernel
      exact key _ _ cc hcc
  unfold finalCc
  cases permuted with
  | false =>
    simp only [Bool.false_eq_true, if_false]
    rw [ccMeans_xor, hmain]
  | true =>
    simp only [Bool.false_eq_true, if_false, if_true]
    obtain ⟨rel, ov, hn⟩ := hneg
    rw [cc_invert_float o hn, ccMeans_xor, hmain]

/-- `x < y` with the operands exchanged: `above`, which does not hold for unordered operands -/
example : let n : CmpNode := ⟨Rel.less, .float, false, false, Rel.true⟩
    flagsNode true n n = some (.cmp, floatBelow) ∧ finalCc floatBelow false false true = floatAbove ∧
    ccMeans floatAbove (ucomiFlags (Outcome.swap .lt)) = true ∧
    ccMeans floatAbove (ucomiFlags (Outcome.swap .un)) = false := by decide

/-- **C110 (tests).**  A comparison of `x & y` with zero is transformed into a `test`, where the order
of the operands does not matter. -/
theorem test_correct {w : Nat} {s useBt permuted own : Bool} {n : CmpNode} {cc : Cc} (x y : BitVec w)
    (hk : n.kind = kindOf s) (hnull : n.rightNull = true)
    (hposs : Holds n.possible (outcome s (x &&& y) 0) = true)
    (h : flagsNode useBt n n = some (.cmp, cc)) :
    ccMeans (finalCc cc own true permuted) (logicFlags (x &&& y)) =
      (Holds n.rel (outcome s (x &&& y) 0) != own) := by
  have hcc : relationToCc (widen n.rel n.possible) (kindOf s) false = some cc := by
    unfold flagsNode at h
    split at h
    · simp at h
    · rw [hk, hnull] at h
      cases hr : relationToCc (widen n.rel n.possible) (kindOf s) (!true) with
      | none => rw [hr] at h; simp at h
      | some c => rw [hr] at h; simp at h; rw [← h]; exact hr
  have hmain : ccMeans cc (logicFlags (x &&& y)) = Holds n.rel (outcome s (x &&& y) 0) := by
    rw [← widen_sound hposs (rel := n.rel)]
    generalize x &&& y = v
    have hz : (logicFlags v).zf = (subFlags v 0).zf := by rw [zf_iff]; rfl
    have hs : (logicFlags v).sf = (subFlags v 0).sf := by
      simp only [logicFlags, subFlags, show v - 0 = v from BitVec.sub_zero v]
    refine relation_table (outcome_ne_un s v 0) ?_ ?_ ?_ ?_ hcc
    · rw [hz]
      cases s
      · exact (unsigned_flags v 0).1
      · exact (signed_flags v 0).1
    · rintro rfl
      rw [hs, sf_sub_zero]
      simp [logicFlags]
    · rintro rfl
      rw [← (unsigned_flags v 0).2]
      simp [logicFlags, subFlags]
    · rintro rfl _
      rw [hs, sf_sub_zero]
  unfold finalCc
  simp only [if_true]
  rw [ccMeans_xor, hmain]

example : let n : CmpNode := ⟨Rel.greater, .signed, false, true, Rel.lessEqualGreater⟩
    flagsNode true n n = some (.cmp, greater) ∧ ccMeans greater (logicFlags (6 &&& 12 : BitVec 8)) = true ∧
    ccMeans greater (logicFlags (0xF0 &&& 0x80 : BitVec 8)) = false := by decide

/-- **C110 (wider comparisons).**  Where the bits above the mode are copies of the sign, or zero, the
comparison of the whole registers has the same outcome. -/
theorem compare_wide {w W : Nat} (h : w ≤ W) (s : Bool) (a b : BitVec w) :
    outcome s (if s then a.signExtend W else a.setWidth W) (if s then b.signExtend W else b.setWidth W) =
      outcome s a b := by
  cases s with
  | false =>
    have e : ∀ x : BitVec w, (x.setWidth W).toNat = x.toNat := fun x => by
      rw [BitVec.toNat_setWidth]
      exact Nat.mod_eq_of_lt (Nat.lt_of_lt_of_le x.isLt (Nat.pow_le_pow_right (by decide) h))
    simp only [outcome, Bool.false_eq_true, if_false, e]
  | true =>
    simp only [outcome, if_true, BitVec.toInt_signExtend_of_le h]

example : outcome true ((0xFF : BitVec 8).signExtend 32) ((1 : BitVec 8).signExtend 32) = .lt ∧
    outcome false ((0xFF : BitVec 8).setWidth 32) ((1 : BitVec 8).setWidth 32) = .gt := by decide

/-- **C110 (bit tests).**  `(1 << n) & x` compared with zero is transformed into a `bt` of the
registers, which copies bit `n mod 32` into the carry and leaves the other flags undefined; the code
holds exactly if the relation does.  `x` are the lower bits of the register `reg`.  Partial: for modes
of fewer than 32 bits only if the shift amount is less than the width. -/
theorem bit_test_correct_partial {w : Nat} {s useBt : Bool} {before after : CmpNode} {cc : Cc}
    (reg : BitVec 32) (n : Nat) (f : EFlags) (hw : w ≤ 32) (hn : n % 32 < w)
    (hk : before.kind = kindOf s)
    (h : flagsNode useBt before after = some (.bt, cc)) (hf : f.cf = reg.getLsbD (n % 32)) :
    ccMeans cc f =
      Holds before.rel (outcome s ((1#w <<< (n % 32)) &&& reg.setWidth w) 0) := by
  have hbt : isBtRelation before.rel (kindOf s) = true ∧
      cc = if before.rel &&& Rel.equal ≠ 0 then aboveEqual else below := by
    unfold flagsNode at h
    split at h
    case isTrue hc =>
      simp only [Bool.and_eq_true] at hc
      rw [hk] at hc
      injection h with h
      injection h with _ h
      exact ⟨hc.1.2, h.symm⟩
    case isFalse => 
      cases hr : relationToCc (widen after.rel after.possible) before.kind (!after.rightNull) with
      | none => rw [hr] at h; simp at h
      | some c => rw [hr] at h; simp at h
  obtain ⟨hrel, rfl⟩ := hbt
  have hv : ((1#w <<< (n % 32)) &&& reg.setWidth w) = 0 ↔ f.cf = false := by
    rw [hf]
    constructor
    · intro h0
      have := congrArg (fun v => BitVec.getLsbD v (n % 32)) h0
      simpa [hn] using this
    · intro h0
      apply BitVec.eq_of_getLsbD_eq
      intro i hi
      simp only [BitVec.getLsbD_and, BitVec.getLsbD_shiftLeft, BitVec.getLsbD_one, BitVec.getLsbD_setWidth,
        BitVec.getLsbD_zero]
      by_cases hin : i = n % 32
      · subst hin; simp [h0]
      · by_cases hlt : i < n % 32
        · simp [hlt]
        · have : i - n % 32 ≠ 0 := by omega
          simp [this]
  generalize hvd : ((1#w <<< (n % 32)) &&& reg.setWidth w) = v at hv
  have key : ∀ (rel : Rel) (s : Bool), isBtRelation rel (kindOf s) = true → ∀ (cf pf zf sf of : Bool),
      ((cf = false → ccMeans (if rel &&& Rel.equal ≠ 0 then aboveEqual else below) ⟨cf, pf, zf, sf, of⟩ = Holds rel .eq) ∧
       (cf = true → ccMeans (if rel &&& Rel.equal ≠ 0 then aboveEqual else below) ⟨cf, pf, zf, sf, of⟩ = Holds rel .gt) ∧
       (cf = true → s = true → ccMeans (if rel &&& Rel.equal ≠ 0 then aboveEqual else below) ⟨cf, pf, zf, sf, of⟩ = Holds rel .lt)) := by
    decide +kernel
  obtain ⟨cf, pf, zf, sf, of⟩ := f
  have hkey := key before.rel s hrel cf pf zf sf of
  dsimp only at hv
  by_cases h0 : v = 0
  · rw [h0]
    have : outcome s (0 : BitVec w) 0 = .eq := by simp [outcome]
    rw [this]
    exact hkey.1 (hv.mp h0)
  · have hcf : cf = true := by
      cases cf with
      | true => rfl
      | false => exact absurd (hv.mpr rfl) h0
    have hne : outcome s v 0 ≠ .eq := by
      intro he
      have h1 := (unsigned_flags v 0).1
      have h2 := (signed_flags v 0).1
      rw [zf_iff] at h1 h2
      cases s
      · rw [he, decide_eq_false h0] at h1; exact absurd h1 (by decide)
      · rw [he, decide_eq_false h0] at h2; exact absurd h2 (by decide)
    cases ho : outcome s v 0 with
    | eq => exact absurd ho hne
    | un => exact absurd ho (outcome_ne_un _ _ _)
    | gt => exact hkey.2.1 hcf
    | lt =>
      cases s with
      | true => exact hkey.2.2 hcf rfl
      | false =>
        exfalso
        have h1 := (unsigned_flags v 0).2
        rw [ho] at h1
        simp [subFlags] at h1

/-- bit 5 of `0x20` is tested -/
example : let n : CmpNode := ⟨Rel.lessGreater, .signed, true, true, Rel.lessEqualGreater⟩
    flagsNode true n n = some (.bt, below) ∧
    Holds Rel.lessGreater (outcome true ((1#32 <<< (37 % 32)) &&& (0x20 : BitVec 32).setWidth 32) 0) = true := by
  decide

/-- With sixteen bits, a shift amount of sixteen, which gives zero, and anything in the upper half
of the register, which does not belong to the value, `bt` reads a bit of the upper half. -/
theorem bit_test_narrow_wrong :
    let n : CmpNode := ⟨Rel.lessGreater, .unsigned, true, true, Rel.lessEqualGreater⟩
    let reg : BitVec 32 := 0x10000
    let f : EFlags := ⟨reg.getLsbD (16 % 32), false, false, false, false⟩
    flagsNode true n n = some (.bt, below) ∧
    ccMeans below f ≠ Holds Rel.lessGreater (outcome false ((1#16 <<< (16 % 32)) &&& reg.setWidth 16) 0) := by
  decide

/-- **C110 (constant conditions).**  After `stc` the code for a constant holds exactly if the constant
is not null. -/
theorem const_condition (isNull : Bool) (f : EFlags) (h : f.cf = true) : ccMeans (constCc isNull) f = !isNull := by
  obtain ⟨cf, pf, zf, sf, of⟩ := f
  subst h
  have : ∀ b pf zf sf of, ccMeans (constCc b) ⟨true, pf, zf, sf, of⟩ = !b := by decide +kernel
  exact this _ _ _ _ _

/-- **C110 (jumps).**  From the comparison to the machine code of the jump: control gets to the block
for true exactly if the relation holds. -/
theorem compare_jump {w : Nat} {s useBt swap permuted : Bool} {before after : CmpNode} {cc : Cc}
    (l r : BitVec w) (t f : Nat) (ft ff sw : Bool) (hx : ¬ (ft = true ∧ ff = true))
    (hk : before.kind = kindOf s)
    (hrel : after.rel = turnCmp swap before.rel)
    (hposs : Holds after.possible (outcome s (if swap then r else l) (if swap then l else r)) = true)
    (hnull : after.rightNull = true → (if swap then l else r) = 0)
    (hperm : permuted = true → after.rightNull = false)
    (h : flagsNode useBt before after = some (.cmp, cc)) :
    jumpRun (if permuted then subFlags (if swap then l else r) (if swap then r else l)
         else subFlags (if swap then r else l) (if swap then l else r)) 3
      (Model.Ia32.encIa32Jcc (finalCc cc false false permuted) t f ft ff sw) =
      some (if Holds before.rel (outcome s l r) then (if ft then none else some t)
        else (if ff then none else some f)) := by
  rw [enc_ia32_jcc_correct _ t f ft ff sw hx,
    compare_correct (own := false) l r hk hrel hposs hnull hperm h]
  simp

example : jumpRun (subFlags (3 : BitVec 32) 4) 3 (Model.Ia32.encIa32Jcc less 1 2 false true false) =
    some (some 1) := by decide

/-- The flags of a `Sub` or `Cmp` for the contents of the registers. -/
def nodeFlags (v : Nat → BitVec 32) (n : FlagsNode) : EFlags :=
  subFlags ((v n.left).setWidth n.bits) ((v n.right).setWidth n.bits)

/-- **C110 (flags of another comparison).**  Where the flags are needed and those of the comparison with
the operands in the other order are available, the consumers read these with inverted codes, and
their conditions do not change.  Partial: the two must have the same size and the same exchange of
operands, and the consumers must have codes of integer comparisons and evaluate them. -/
theorem replace_flags_partial {flags available : FlagsNode} {ccs ccs' : List Cc} (v : Nat → BitVec 32)
    (own : Bool)
    (h : tryReplaceFlags ccs flags available = some ccs')
    (hbits : flags.bits = available.bits) (hperm : flags.permuted = available.permuted)
    (hcc : ∀ cc ∈ ccs, IntCode cc) :
    ccs'.map (fun cc => ccMeans (finalCc cc own false available.permuted) (nodeFlags v available)) =
      ccs.map (fun cc => ccMeans (finalCc cc own false flags.permuted) (nodeFlags v flags)) := by
  unfold tryReplaceFlags at h
  split at h
  · simp at h
  · rename_i h1
    split at h
    · simp at h
    · rename_i h2
      have h1 := Classical.not_not.mp h1
      have h2 := Classical.not_not.mp h2
      injection h with h
      subst h
      rw [List.map_map]
      apply List.map_congr_left
      intro cc hc
      have hi := hcc cc hc
      have hcomm : ∀ cc, IntCode cc → negate (invert cc) = invert (negate cc) ∧ invert (invert cc) = cc := by
        rintro c ⟨rel, s, hr⟩
        have key : ∀ (rel : Rel) (s : Bool), ∀ cc ∈ relationToCc rel (kindOf s) true,
          negate (invert cc) = invert (negate cc) ∧ invert (invert cc) = cc := by decide +kernel
        exact key rel s c hr
      have hiv : ∀ cc, IntCode cc → IntCode (invert cc) := by
        rintro c ⟨rel, s, hr⟩
        have key : ∀ (rel : Rel) (s : Bool), ∀ cc ∈ relationToCc rel (kindOf s) true,
          relationToCc rel.inversed (kindOf s) true = some (invert cc) := by decide +kernel
        exact ⟨_, s, key rel s c hr⟩
      have hfin : finalCc (invert cc) own false flags.permuted = invert (finalCc cc own false flags.permuted) ∧
          IntCode (finalCc cc own false flags.permuted) := by
        unfold finalCc
        cases own <;> cases flags.permuted <;> simp only [Bool.false_eq_true, if_false, if_true]
        · exact ⟨trivial, hi⟩
        · exact ⟨trivial, hiv _ hi⟩
        · exact ⟨(hcomm _ hi).1, intCode_negate hi⟩
        · rw [(hcomm _ hi).1]
          exact ⟨rfl, hiv _ (intCode_negate hi)⟩
      simp only [Function.comp]
      rw [← hperm, hfin.1]
      have hfl : nodeFlags v flags = subFlags ((v flags.left).setWidth flags.bits) ((v flags.right).setWidth flags.bits) := rfl
      have hav : nodeFlags v available = subFlags ((v flags.right).setWidth flags.bits) ((v flags.left).setWidth flags.bits) := by
        unfold nodeFlags
        rw [← h1, h2, ← hbits]
      rw [hfl, hav]
      exact cc_invert_int hfin.2 _ _

example : tryReplaceFlags [less, notEqual] ⟨1, 2, 32, false⟩ ⟨2, 1, 32, false⟩ = some [greater, notEqual] := by
  decide +kernel

/-- The sizes are not compared: the flags of a subtraction of whole registers replace those of a
comparison of their lower halves. -/
theorem replace_flags_size_wrong :
    let v : Nat → BitVec 32 := fun n => if n = 1 then 0x10001 else 0x2
    let flags : FlagsNode := ⟨1, 2, 16, false⟩
    let available : FlagsNode := ⟨2, 1, 32, false⟩
    tryReplaceFlags [below] flags available = some [above] ∧
    ccMeans (finalCc above false false false) (nodeFlags v available) ≠
      ccMeans (finalCc below false false false) (nodeFlags v flags) := by
  decide +kernel

/-- `adc` and `sbb` carry the code `below` but read the carry flag whatever their code is; their
flags are replaced as well. -/
theorem replace_flags_carry_wrong :
    let v : Nat → BitVec 32 := fun n => if n = 1 then 5 else 7
    let flags : FlagsNode := ⟨1, 2, 32, false⟩
    let available : FlagsNode := ⟨2, 1, 32, false⟩
    tryReplaceFlags [below] flags available = some [above] ∧
    (nodeFlags v available).cf ≠ (nodeFlags v flags).cf := by
  decide +kernel

/-- The flags after an instruction whose result is `r` (the upper half of the product for `mul`), as
far as the manual defines them; a shift by zero leaves the flags as they were. -/
def FlagsAfter {w : Nat} (p : Producer) (old : EFlags) (r : BitVec w) (f : EFlags) : Prop :=
  match p with
  | .arith => f.zf = decide (r = 0) ∧ f.sf = r.msb
  | .shift none => f = old ∨ (f.zf = decide (r = 0) ∧ f.sf = r.msb)
  | .shift (some c) => if c % 32 = 0 then f = old else f.zf = decide (r = 0) ∧ f.sf = r.msb
  | .mul => f.cf = decide (r ≠ 0)
  | .other => True

/-- **C110 (superfluous tests).**  Where the test of a result with itself is removed, the conditions of
the users of the flags do not change: they read the flags of the instruction that computed the
result, the carry after a multiplication. -/
theorem remove_test_correct {w : Nat} {p : Producer} {res resHigh same : Bool} {users users' : List Cc}
    (old f : EFlags) (r : BitVec w)
    (h : removeTest (producesZeroSign p res resHigh) same users = some users') (hf : FlagsAfter p old r f) :
    same = true ∧
    users'.map (fun cc => ccMeans cc f) = users.map (fun cc => ccMeans cc (logicFlags r)) := by
  unfold removeTest at h
  split at h
  · simp at h
  rename_i hp
  split at h
  · simp at h
  rename_i hu
  split at h
  · simp at h
  rename_i hs
  refine ⟨by simpa using hs, ?_⟩
  have hall : ∀ cc ∈ users, userAllowed (producesZeroSign p res resHigh) cc = true := by
    simpa using hu
  have hzs : ∀ {f : EFlags}, f.zf = decide (r = 0) → f.sf = r.msb → ∀ cc, userAllowed .zeroSign cc = true →
      ccMeans cc f = ccMeans cc (logicFlags r) := by
    intro f h1 h2 cc hc
    have key : ∀ cc : Cc, userAllowed .zeroSign cc = true → ∀ (a b c d e a' b' e' : Bool),
        ccMeans cc ⟨a, b, c, d, e⟩ = ccMeans cc ⟨a', b', c, d, e'⟩ := by decide +kernel
    obtain ⟨a, b, c, d, e⟩ := f
    simp only at h1 h2
    subst h1; subst h2
    exact key cc hc _ _ _ _ _ _ _ _
  have hzs' : producesZeroSign p res resHigh = .zeroSign → f.zf = decide (r = 0) ∧ f.sf = r.msb := by
    intro hz
    cases p with
    | arith => exact hf
    | shift c =>
      cases c with
      | none => simp [producesZeroSign] at hz
      | some c =>
        simp only [producesZeroSign] at hz
        split at hz
        · cases hz
        · rename_i hc
          simpa [FlagsAfter, hc] using hf
    | mul => simp only [producesZeroSign] at hz; split at hz <;> cases hz
    | other => simp [producesZeroSign] at hz
  have hcar : producesZeroSign p res resHigh = .zeroInCarry → f.cf = decide (r ≠ 0) := by
    intro hz
    cases p with
    | arith => simp only [producesZeroSign] at hz; split at hz <;> cases hz
    | shift c =>
      cases c with
      | none => simp [producesZeroSign] at hz
      | some c => simp only [producesZeroSign] at hz; split at hz <;> (try split at hz) <;> cases hz
    | mul => exact hf
    | other => simp [producesZeroSign] at hz
  split at h
  · rename_i hz
    injection h with h
    subst h
    rw [List.map_map]
    apply List.map_congr_left
    intro cc hc
    have := hall cc hc
    rw [hz] at this
    have hcf := hcar hz
    have hc2 : cc = equal ∨ cc = notEqual := by
      simpa [userAllowed] using this
    simp only [Function.comp]
    obtain ⟨a, b, c, d, e⟩ := f
    simp only at hcf
    subst hcf
    have k1 : ∀ a b c d e, ccMeans aboveEqual ⟨a, b, c, d, e⟩ = !a ∧ ccMeans below ⟨a, b, c, d, e⟩ = a ∧
        ccMeans equal ⟨a, b, c, d, e⟩ = c ∧ ccMeans notEqual ⟨a, b, c, d, e⟩ = !c := by decide +kernel
    rcases hc2 with rfl | rfl
    · rw [if_pos rfl, (k1 _ _ _ _ _).1]
      simp only [logicFlags]
      rw [(k1 _ _ _ _ _).2.2.1]
      simp
    · rw [if_neg (by decide), (k1 _ _ _ _ _).2.1]
      simp only [logicFlags]
      rw [(k1 _ _ _ _ _).2.2.2]
      simp
  · rename_i hnc
    injection h with h
    subst h
    have hz : producesZeroSign p res resHigh = .zeroSign := by
      cases hq : producesZeroSign p res resHigh with
      | none => exact absurd hq hp
      | zeroSign => rfl
      | zeroInCarry => exact absurd hq hnc
    apply List.map_congr_left
    intro cc hc
    have := hall cc hc
    rw [hz] at this
    exact hzs (hzs' hz).1 (hzs' hz).2 cc this

example : removeTest (producesZeroSign .arith true false) true [sign, equal] = some [sign, equal] ∧
    removeTest (producesZeroSign .mul false true) true [equal, notEqual] = some [aboveEqual, below] ∧
    removeTest (producesZeroSign .arith true false) true [less] = none ∧
    removeTest (producesZeroSign (.shift (some 32)) true false) true [equal] = none := by decide

/-- The instructions do leave these flags: `add`, `adc`, `sub`, `sbb` and the logical ones. -/
theorem flags_after_arith {w : Nat} (a b : BitVec w) (c : Bool) (old : EFlags) :
    FlagsAfter .arith old (a - b) (subFlags a b) ∧ FlagsAfter .arith old (adcValue a b c) (adcFlags a b c) ∧
    FlagsAfter .arith old (sbbValue a b c) (sbbFlags a b c) ∧ FlagsAfter .arith old (a &&& b) (logicFlags (a &&& b)) :=
  ⟨⟨rfl, rfl⟩, ⟨rfl, rfl⟩, ⟨rfl, rfl⟩, ⟨rfl, rfl⟩⟩

/-- A multiplication whose operands have been exchanged, as they are for an operand that is reloaded
from the stack: the code for the carry is inverted in the end, as if it read a comparison. -/
theorem remove_test_mul_permuted_wrong :
    removeTest (producesZeroSign .mul false true) true [notEqual] = some [below] ∧
    ∃ (f : EFlags) (r : BitVec 32), FlagsAfter .mul f r f ∧
      ccMeans (finalCc below false false true) f ≠ ccMeans notEqual (logicFlags r) := by
  refine ⟨by decide, ⟨true, false, false, false, true⟩, 1, ?_, ?_⟩
  · show true = decide ((1 : BitVec 32) ≠ 0)
    decide
  · decide

/-- **C110 (comparison with zero).**  `test x, x` leaves the flags of `cmp x, 0`
(`peephole_ia32_Cmp`, ir/be/ia32/ia32_optimize.c:325-356). -/
theorem cmp_zero_test {w : Nat} (x : BitVec w) : logicFlags (x &&& x) = subFlags x 0 := by
  have h1 : x - 0 = x := BitVec.sub_zero x
  have h0 : (0 : BitVec w).toInt = 0 := BitVec.toInt_zero
  simp only [logicFlags, subFlags, BitVec.and_self, h1, h0, Int.sub_zero]
  simp

example : logicFlags (0x80 &&& 0x80 : BitVec 8) = ⟨false, false, false, true, false⟩ := by decide

theorem ofNat_toInt {w : Nat} (n : Nat) : (BitVec.ofNat w n).toInt = (n : Int).bmod (2 ^ w) := by
  rw [BitVec.toInt_eq_toNat_bmod, BitVec.toNat_ofNat]
  have := Int.emod_bmod (n : Int) (2 ^ w)
  simpa using this

theorem adc_not {w : Nat} (a b : BitVec w) (c : Bool) : adcValue (~~~b) a c = sbbValue a b (!c) := by
  unfold adcValue sbbValue
  apply BitVec.eq_of_toInt_eq
  have h : ∀ n : Nat, (BitVec.ofNat w n).toInt = (n : Int).bmod (2 ^ w)  := fun n => ofNat_toInt n
  have h1 : (~~~b).toInt = (-b.toInt - 1).bmod (2 ^ w) := by
    rw [BitVec.not_eq_neg_add, BitVec.toInt_sub, BitVec.toInt_neg, h 1]
    simp
  simp only [BitVec.toInt_add, BitVec.toInt_sub, h, h1]
  have hc : (((!c).toNat : Nat) : Int) = 1 - (c.toNat : Int) := by cases c <;> rfl
  rw [hc]
  simp only [Int.bmod_add_bmod, Int.add_bmod_bmod, Int.bmod_sub_bmod, Int.sub_bmod_bmod]
  congr 1
  omega

theorem toInt_not' {w : Nat} (hw : 0 < w) (b : BitVec w) : (~~~b).toInt = -b.toInt - 1 := by
  have h1 : (~~~b).toInt = (-b.toInt - 1).bmod (2 ^ w) := by
    rw [BitVec.not_eq_neg_add, BitVec.toInt_sub, BitVec.toInt_neg,
      show (1#w) = BitVec.ofNat w 1 from rfl, ofNat_toInt]
    simp
  rw [h1]
  have hb := toInt_range hw b
  have hp : (0 : Int) < 2 ^ (w - 1) := Int.pow_pos (by decide)
  have := pow_split hw
  rw [bmod_cases (-b.toInt - 1) (2 ^ (w - 1)) (2 ^ w) (by simpa using this) hp (by omega) (by omega)]
  rw [if_neg (by omega), if_neg (by omega)]

/-- `cmc` -/
def complementCarry (f : EFlags) : EFlags := { f with cf := !f.cf }

/-- **C110 (subtraction with borrow in the register of the subtrahend).**  `cmc`, `not b`,
`adc b, a` leave the difference less the borrow, and after another `cmc` all flags of `sbb`. -/
theorem sbb_by_adc {w : Nat} (hw : 0 < w) (a b : BitVec w) (c : Bool) :
    adcValue (~~~b) a (!c) = sbbValue a b c ∧
    complementCarry (adcFlags (~~~b) a (!c)) = sbbFlags a b c := by
  have hv : adcValue (~~~b) a (!c) = sbbValue a b c := by rw [adc_not, Bool.not_not]
  refine ⟨hv, ?_⟩
  have hcf : (!decide (2 ^ w ≤ (~~~b).toNat + a.toNat + (!c).toNat)) = decide (a.toNat < b.toNat + c.toNat) := by
    rw [BitVec.toNat_not]
    have hb := b.isLt
    rw [← decide_not]
    apply decide_eq_decide.mpr
    cases c <;> simp <;> omega
  have hof : decide ((sbbValue a b c).toInt ≠ (~~~b).toInt + a.toInt + (!c).toNat) =
      decide ((sbbValue a b c).toInt ≠ a.toInt - b.toInt - c.toNat) := by
    rw [toInt_not' hw]
    apply decide_eq_decide.mpr
    have : -b.toInt - 1 + a.toInt + ((!c).toNat : Int) = a.toInt - b.toInt - (c.toNat : Int) := by
      cases c <;> simp <;> omega
    rw [this]
  simp only [complementCarry, adcFlags, sbbFlags, hv, hcf, hof]

example : adcValue (~~~(7 : BitVec 8)) 5 (!true) = 253 ∧ (sbbFlags (5 : BitVec 8) 7 true).cf = true := by decide

theorem sbb_false {w : Nat} (a b : BitVec w) :
    sbbValue a b false = a - b ∧ sbbFlags a b false = subFlags a b := by
  have h : sbbValue a b false = a - b := by
    unfold sbbValue
    exact BitVec.sub_zero _
  refine ⟨h, ?_⟩
  simp [sbbFlags, subFlags, h]

/-- **C110 (subtraction in the register of the subtrahend, with carry).**  `stc`, `not b`, `adc b, a`
leave the difference, and after `cmc` all flags of the subtraction. -/
theorem sub_by_adc {w : Nat} (hw : 0 < w) (a b : BitVec w) :
    adcValue (~~~b) a true = a - b ∧ complementCarry (adcFlags (~~~b) a true) = subFlags a b := by
  have := sbb_by_adc hw a b false
  rw [(sbb_false a b).1, (sbb_false a b).2] at this
  exact this

theorem toInt_neg_ne {w : Nat} (hw : 0 < w) {b : BitVec w} (hb : b.toInt ≠ -(2 ^ (w - 1))) :
    (-b).toInt = -b.toInt := by
  rw [BitVec.toInt_neg]
  have h := toInt_range hw b
  have hp : (0 : Int) < 2 ^ (w - 1) := Int.pow_pos (by decide)
  have := pow_split hw
  rw [bmod_cases (-b.toInt) (2 ^ (w - 1)) (2 ^ w) (by simpa using this) hp (by omega) (by omega)]
  rw [if_neg (by omega), if_neg (by omega)]

theorem neg_add_value {w : Nat} (a b : BitVec w) : adcValue (-b) a false = a - b := by
  unfold adcValue
  rw [BitVec.sub_eq_add_neg]
  rw [show BitVec.ofNat w (false.toNat) = 0#w from rfl, BitVec.add_zero, BitVec.add_comm]

/-- The codes that occur: the sixteen of the manual and the ones for floating point. -/
def Known (cc : Cc) : Prop :=
  cc < 16 ∨ ∃ rel ov, relationToCc rel .float ov = some cc

/-- **C110 (subtraction in the register of the subtrahend).**  What replaces `a - b` computes the
difference, and the conditions of the users of the flags do not change.  Partial: if no user reads
the carry, the subtraction becomes `neg b`, `add b, a`, whose overflow is the wrong one where `b`
is the least negative number, so this is excluded. -/
theorem sub_to_neg_add_partial {w : Nat} (hw : 0 < w) (a b : BitVec w) (users : List Cc)
    (hknown : ∀ cc ∈ users, Known cc) (hb : b.toInt ≠ -(2 ^ (w - 1))) :
    (subBy false users = .notStcAdc →
      adcValue (~~~b) a true = a - b ∧
      users.map (fun cc => ccMeans cc (complementCarry (adcFlags (~~~b) a true))) =
        users.map (fun cc => ccMeans cc (subFlags a b))) ∧
    (subBy false users = .negAdd →
      adcValue (-b) a false = a - b ∧
      users.map (fun cc => ccMeans cc (adcFlags (-b) a false)) =
        users.map (fun cc => ccMeans cc (subFlags a b))) ∧
    subBy false users ≠ .notCmcAdc := by
  refine ⟨fun _ => ⟨(sub_by_adc hw a b).1, by rw [(sub_by_adc hw a b).2]⟩, fun h => ⟨neg_add_value a b, ?_⟩, ?_⟩
  · have hno : ∀ cc ∈ users, readsCarry cc = false := by
      unfold subBy at h
      rw [if_neg (by decide)] at h
      split at h
      · cases h
      · rename_i hn
        intro cc hc
        cases hr : readsCarry cc with
        | false => rfl
        | true => exact absurd (List.any_eq_true.mpr ⟨cc, hc, hr⟩) hn
    apply List.map_congr_left
    intro cc hc
    have hv := neg_add_value a b
    have hof : (adcFlags (-b) a false).of = (subFlags a b).of := by
      simp only [adcFlags, subFlags, hv]
      rw [toInt_neg_ne hw hb]
      apply decide_eq_decide.mpr
      have : -b.toInt + a.toInt + ((false.toNat : Nat) : Int) = a.toInt - b.toInt := by
        simp; omega
      rw [this]
    have hrest : (adcFlags (-b) a false).pf = (subFlags a b).pf ∧ (adcFlags (-b) a false).zf = (subFlags a b).zf ∧
        (adcFlags (-b) a false).sf = (subFlags a b).sf := by
      simp only [adcFlags, subFlags, hv]
      exact ⟨trivial, trivial, trivial⟩
    have key : ∀ cc : Cc, cc < 16 → readsCarry cc = false → ∀ (c c' p z s o : Bool),
        ccMeans cc ⟨c, p, z, s, o⟩ = ccMeans cc ⟨c', p, z, s, o⟩ := by decide +kernel
    have keyf : ∀ (rel : Rel) (ov : Bool), ∀ cc ∈ relationToCc rel .float ov, readsCarry cc = false →
        ∀ (c c' p z s o : Bool), ccMeans cc ⟨c, p, z, s, o⟩ = ccMeans cc ⟨c', p, z, s, o⟩ := by
      decide +kernel
    have hall : ∀ (c c' p z s o : Bool), ccMeans cc ⟨c, p, z, s, o⟩ = ccMeans cc ⟨c', p, z, s, o⟩ := by
      rcases hknown cc hc with hk | ⟨rel, ov, hk⟩
      · exact key cc hk (hno cc hc)
      · exact keyf rel ov cc hk (hno cc hc)
    generalize adcFlags (-b) a false = f at *
    generalize subFlags a b = g at *
    obtain ⟨c, p, z, s, o⟩ := f
    obtain ⟨c', p', z', s', o'⟩ := g
    simp only at hof hrest
    obtain ⟨h1, h2, h3⟩ := hrest
    subst hof; subst h1; subst h2; subst h3
    exact hall _ _ _ _ _ _
  · unfold subBy
    rw [if_neg (by decide)]
    split <;> simp

example : subBy false [less] = .negAdd ∧ subBy false [less, aboveEqual] = .notStcAdc ∧ subBy true [] = .notCmcAdc := by
  decide +kernel

/-- A signed comparison that uses the flags of a subtraction of the least negative number:
`0 < -2147483648` holds after `neg` and `add`. -/
theorem sub_to_neg_add_wrong :
    subBy false [less] = .negAdd ∧
    ccMeans less (adcFlags (-(0x80000000 : BitVec 32)) 0 false) = true ∧
    ccMeans less (subFlags (0 : BitVec 32) 0x80000000) = false := by
  decide +kernel

end Verif.Props.X86Cond
