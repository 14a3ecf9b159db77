import Verif.Lemmas.Ia32Patterns
/-!
# C112: instruction patterns of the ia32 backend

The sequences that stand for a `Mux` of constants, for rotations and double shifts, for the difference
or zero, for the 64-bit negation and for the builtins compute the value of the nodes they replace; the
shorter instructions of the peephole optimizations do the same as those they replace.
-/
namespace Verif.Props.Ia32Patterns
open Verif.Spec.X86Small Verif.Spec.X86 Verif.Model.X86Cond Verif.Model.Ia32Patterns
open Verif.Lemmas.Ia32Patterns
open Verif.Props (Outcome Holds)

/-! ### A choice between two constants -/

/-- **C112 (constants).**  The sequence for `Mux` of two constants leaves the one the condition asks
for, whatever the register of the `setcc` held. -/
theorem mux_const (cc : Cc) (f : EFlags) (bits : Nat) (hb : bits > 8) (junk t e : BitVec 32) :
    muxConst cc f bits junk t e = some (if ccMeans cc f then t else e) := by
  unfold muxConst
  rw [show findConst cc t e = ((findConst cc t e).1, (findConst cc t e).2) from rfl]
  dsimp only
  rw [setReg_wide hb]
  exact findConst_exec cc t e f

/-- **C112 (constants of 8 bits).**  Without the `movzx` the low 8 bits are right. -/
theorem mux_const_low (cc : Cc) (f : EFlags) (bits : Nat) (junk t e : BitVec 32) :
    (muxConst cc f bits junk t e).map (·.setWidth 8)
      = some ((if ccMeans cc f then t else e).setWidth 8) := by
  unfold muxConst
  rw [show findConst cc t e = ((findConst cc t e).1, (findConst cc t e).2) from rfl]
  dsimp only
  have := execSteps_low (n := 8) (by omega) (setReg_low bits junk (ccMeans (findConst cc t e).1 f))
    (findConst cc t e).2
  rw [this, findConst_exec]
  rfl

example : (findConst 4 7 12).2 = [⟨.leaxx, 7, 2⟩, ⟨.set, 0, 0⟩] := by decide
example : muxConst 4 ⟨false, false, true, false, false⟩ 32 0xdeadbeef 7 12 = some 7 := by decide
example : muxConst 4 ⟨false, false, false, false, false⟩ 32 0xdeadbeef 7 12 = some 12 := by decide
example : (findConst 4 100 40).2 = [⟨.add, 40, 0⟩, ⟨.and, 60, 0⟩, ⟨.neg, 0, 0⟩, ⟨.set, 0, 0⟩] := by
  decide

/-! ### Rotations and double shifts -/

/-- The value of a node of a mode with 32 bits; the amounts are taken modulo 32. -/
def eval (env : Nat → BitVec 32) : E → BitVec 32
  | .val n => env n
  | .const v => BitVec.ofInt 32 v
  | .minus a => - eval env a
  | .not a => ~~~ eval env a
  | .sub a b => eval env a - eval env b
  | .shl a b => eval env a <<< ((eval env b).toNat % 32)
  | .shr a b => eval env a >>> ((eval env b).toNat % 32)
  | .or a b => eval env a ||| eval env b
  | .add a b => eval env a + eval env b

/-- The double shift instructions. -/
def Sh64.exec (env : Nat → BitVec 32) : Sh64 → BitVec 32
  | .shld h l c => shld (eval env h) (eval env l) (eval env c).toNat
  | .shrd l h c => shrd (eval env l) (eval env h) (eval env c).toNat

/-- The sum and the disjunction of two patterns without common ones. -/
theorem add_eq_or_of_shifts (x y : BitVec 32) {c d : Nat} (h : c + d = 32) :
    (x <<< c) + (y >>> d) = (x <<< c) ||| (y >>> d) := by
  apply BitVec.add_eq_or_of_and_eq_zero
  apply BitVec.eq_of_getLsbD_eq
  intro i hi
  simp only [BitVec.getLsbD_and, BitVec.getLsbD_shiftLeft, BitVec.getLsbD_ushiftRight,
    BitVec.getLsbD_zero]
  by_cases hc : i < c
  · simp [hc]
  · rw [BitVec.getLsbD_of_ge y (d + i) (by omega)]
    simp

theorem rotateLeft_shifts (x : BitVec 32) {c d : Nat} (h : c + d = 32) (hc : c < 32) :
    (x <<< c) ||| (x >>> d) = x.rotateLeft c := by
  rw [BitVec.rotateLeft_def, Nat.mod_eq_of_lt hc, show d = 32 - c by omega]

theorem neg_mod (a : BitVec 32) : (-a).toNat % 32 = (32 - a.toNat % 32) % 32 := by
  rw [BitVec.toNat_neg]
  have := a.isLt
  omega

theorem not_mod (a : BitVec 32) : (~~~ a).toNat % 32 = 31 - a.toNat % 32 := by
  rw [BitVec.toNat_not]
  have := a.isLt
  omega

theorem sub_mod (a b : BitVec 32) : (a - b).toNat % 32 = (32 - (b - a).toNat % 32) % 32 := by
  rw [show a - b = -(b - a) by rw [BitVec.neg_sub, BitVec.add_comm, BitVec.sub_eq_add_neg]]
  exact neg_mod _

theorem negated_mod (env : Nat → BitVec 32) {a b : E} (h : isNegated a b = true) :
    (eval env b).toNat % 32 = (32 - (eval env a).toNat % 32) % 32 := by
  have back : ∀ x y : Nat, x % 32 = (32 - y % 32) % 32 → y % 32 = (32 - x % 32) % 32 := by omega
  unfold isNegated at h
  split at h
  · rename_i c
    rw [Bool.or_eq_true] at h
    rcases h with h | h
    · have : c = b := by simpa using h
      subst this
      exact back _ _ (neg_mod _)
    · split at h
      · rename_i e
        have he : e = .minus c := by simpa using h
        subst he
        exact neg_mod _
      · simp at h
  · rename_i c d
    have : c = a := by simpa using h
    subst this
    exact neg_mod _
  · simp only [Bool.and_eq_true, beq_iff_eq] at h
    obtain ⟨rfl, rfl⟩ := h
    exact sub_mod _ _
  · simp at h

theorem shlShr_cases {e : E} {a b c d : E} (h : shlShr e = some (a, b, c, d))
    (env : Nat → BitVec 32) :
    eval env e = (eval env a <<< ((eval env b).toNat % 32)) ||| (eval env c >>> ((eval env d).toNat % 32))
    ∨ eval env e = (eval env a <<< ((eval env b).toNat % 32)) + (eval env c >>> ((eval env d).toNat % 32)) := by
  unfold shlShr at h
  split at h
  · obtain ⟨rfl, rfl, rfl, rfl⟩ : _ = a ∧ _ = b ∧ _ = c ∧ _ = d := by simpa using h
    exact Or.inl rfl
  · obtain ⟨rfl, rfl, rfl, rfl⟩ : _ = a ∧ _ = b ∧ _ = c ∧ _ = d := by simpa using h
    exact Or.inl (BitVec.or_comm _ _)
  · obtain ⟨rfl, rfl, rfl, rfl⟩ : _ = a ∧ _ = b ∧ _ = c ∧ _ = d := by simpa using h
    exact Or.inr rfl
  · obtain ⟨rfl, rfl, rfl, rfl⟩ : _ = a ∧ _ = b ∧ _ = c ∧ _ = d := by simpa using h
    exact Or.inr (BitVec.add_comm _ _)
  · simp at h

/-- Whether the root of the pattern is an `Add`. -/
def isAdd : E → Bool
  | .add _ _ => true
  | _ => false

theorem shlShr_or {e : E} {a b c d : E} (h : shlShr e = some (a, b, c, d)) (ha : isAdd e = false)
    (env : Nat → BitVec 32) :
    eval env e = (eval env a <<< ((eval env b).toNat % 32))
      ||| (eval env c >>> ((eval env d).toNat % 32)) := by
  unfold shlShr at h
  split at h
  · obtain ⟨rfl, rfl, rfl, rfl⟩ : _ = a ∧ _ = b ∧ _ = c ∧ _ = d := by simpa using h
    rfl
  · obtain ⟨rfl, rfl, rfl, rfl⟩ : _ = a ∧ _ = b ∧ _ = c ∧ _ = d := by simpa using h
    exact (BitVec.or_comm _ _)
  · simp [isAdd] at ha
  · simp [isAdd] at ha
  · simp at h

theorem rotate_of_mod (x : BitVec 32) (m n : Nat) (h : n % 32 = (32 - m % 32) % 32)
    : (x <<< (m % 32)) ||| (x >>> (n % 32)) = x.rotateLeft (m % 32) := by
  by_cases h0 : m % 32 = 0
  · rw [h, h0]
    have hz : x >>> 32 = 0 := by
      apply BitVec.eq_of_getLsbD_eq
      intro i hi
      rw [BitVec.getLsbD_ushiftRight, BitVec.getLsbD_of_ge _ _ (by omega)]
      simp
    simp [BitVec.rotateLeft_def, hz]
  · exact rotateLeft_shifts x (by omega) (by omega)

theorem rotl_amounts {e x c : E} (h : rotl 32 e = some (x, c)) :
    ∃ d, shlShr e = some (x, c, x, d) ∧
      ((∃ v1 v2 : Int, c = .const v1 ∧ d = .const v2 ∧ v1 + v2 = 32) ∨ isNegated c d = true) := by
  unfold rotl at h
  cases hs : shlShr e with
  | none => simp [hs] at h
  | some q =>
    obtain ⟨a, c1, y, c2⟩ := q
    simp only [hs, Option.bind_eq_bind, Option.bind_some] at h
    by_cases hxy : a = y
    · subst hxy
      simp only [ne_eq, not_true_eq_false, if_false] at h
      refine ⟨c2, ?_⟩
      split at h
      · rename_i v1 v2
        split at h
        · rename_i hv
          obtain ⟨rfl, rfl⟩ : _ = x ∧ _ = c := by simpa using h
          exact ⟨rfl, Or.inl ⟨v1, v2, rfl, rfl, by simpa using hv⟩⟩
        · simp at h
      · split at h
        · rename_i hv
          obtain ⟨rfl, rfl⟩ : _ = x ∧ _ = c := by simpa using h
          exact ⟨rfl, Or.inr hv⟩
        · simp at h
    · simp [hxy] at h

theorem const_mod {v1 v2 : Int} (h : v1 + v2 = 32) :
    (BitVec.ofInt 32 v2).toNat % 32 = (32 - (BitVec.ofInt 32 v1).toNat % 32) % 32 := by
  rw [BitVec.toNat_ofInt, BitVec.toNat_ofInt]
  omega

/-- **C112 (rotation).**  A disjunction taken for a rotation is one, for all amounts. -/
theorem rotl_or {e x c : E} (h : rotl 32 e = some (x, c)) (ho : isAdd e = false)
    (env : Nat → BitVec 32) :
    eval env e = (eval env x).rotateLeft ((eval env c).toNat % 32) := by
  obtain ⟨d, hs, hd⟩ := rotl_amounts h
  rw [shlShr_or hs ho]
  apply rotate_of_mod
  rcases hd with ⟨v1, v2, rfl, rfl, hv⟩ | hn
  · exact const_mod hv
  · exact negated_mod env hn

/-- **C112 (rotation by a sum).**  A sum taken for a rotation is one unless the amount is a multiple
of 32. -/
theorem rotl_add_partial {e x c : E} (h : rotl 32 e = some (x, c)) (env : Nat → BitVec 32)
    (hc : (eval env c).toNat % 32 ≠ 0) :
    eval env e = (eval env x).rotateLeft ((eval env c).toNat % 32) := by
  obtain ⟨d, hs, hd⟩ := rotl_amounts h
  have hm : (eval env d).toNat % 32 = (32 - (eval env c).toNat % 32) % 32 := by
    rcases hd with ⟨v1, v2, rfl, rfl, hv⟩ | hn
    · exact const_mod hv
    · exact negated_mod env hn
  rcases shlShr_cases hs env with he | he
  · rw [he]
    exact rotate_of_mod _ _ _ hm
  · rw [he, add_eq_or_of_shifts _ _ (by omega)]
    exact rotate_of_mod _ _ _ hm

/-- Refutation: `(x << c) + (x >> -c)` is taken for a rotation, and for amount 0 it is `2 * x`. -/
theorem rotl_add_refuted :
    ¬ ∀ (e x c : E) (_ : rotl 32 e = some (x, c)) (env : Nat → BitVec 32),
      eval env e = (eval env x).rotateLeft ((eval env c).toNat % 32) := by
  intro h
  have := h (.add (.shl (.val 0) (.val 1)) (.shr (.val 0) (.minus (.val 1)))) (.val 0) (.val 1)
    (by decide) (fun n => if n = 0 then 1 else 0)
  exact absurd this (by decide)

example : rotl 32 (.or (.shr (.val 0) (.const 27)) (.shl (.val 0) (.const 5)))
    = some (.val 0, .const 5) := by decide
example : rotl 32 (.or (.shr (.val 0) (.val 1)) (.shl (.val 0) (.const 5))) = none := by decide

/-- Refutation: in a mode of 16 bits, whose shifts have 32 bits, `(x << c) | (x >> -c)` is no
rotation of the 16 bits: for amount 4 the right shift is by 28. -/
theorem rotl_narrow_refuted :
    rotl 16 (.or (.shl (.val 0) (.val 1)) (.shr (.val 0) (.minus (.val 1)))) = some (.val 0, .val 1)
    ∧ ∃ (x : BitVec 16) (c : BitVec 16),
        (x <<< (c.toNat % 32)) ||| (x >>> ((-c).toNat % 32)) ≠ x.rotateLeft c.toNat := by
  refine ⟨by decide, 0xF000, 4, by decide⟩

/-- **C112 (double shifts).**  What is matched as a double shift is one; constants have to be amounts
of the mode. -/
theorem match64_correct {e : E} {s : Sh64} (h : match64 e = some s) (env : Nat → BitVec 32)
    (hc : ∀ a v1 c v2, shlShr e = some (a, .const v1, c, .const v2) → 0 < v1 ∧ v1 < 32) :
    eval env e = Sh64.exec env s := by
  unfold match64 at h
  cases hs : shlShr e with
  | none => simp [hs] at h
  | some q =>
    obtain ⟨a, b, c, d⟩ := q
    simp only [hs] at h
    by_cases hcomp : complementary b d = true
    · rw [if_pos hcomp] at h
      unfold complementary at hcomp
      split at hcomp
      · rename_i v1 v2
        have hr := hc _ _ _ _ hs
        have hv : v2 = 32 - v1 := by simpa using hcomp
        obtain rfl : _ = s := by simpa using h
        have hv1 : (BitVec.ofInt 32 v1).toNat = v1.toNat := by
          rw [BitVec.toNat_ofInt]; omega
        have hv2 : (BitVec.ofInt 32 v2).toNat = 32 - v1.toNat := by
          rw [BitVec.toNat_ofInt]; omega
        have h1 : v1.toNat % 32 = v1.toNat := by omega
        have h2 : (32 - v1.toNat) % 32 = 32 - v1.toNat := by omega
        rcases shlShr_cases hs env with he | he <;> rw [he]
        · simp only [Sh64.exec, eval, hv1, hv2, shld, h1, h2]
          rw [if_neg (by omega)]
        · simp only [Sh64.exec, eval, hv1, hv2, shld, h1, h2]
          rw [if_neg (by omega), add_eq_or_of_shifts _ _ (by omega)]
      · simp at hcomp
    · rw [if_neg hcomp, Option.or_eq_some_iff] at h
      rcases h with h | ⟨-, h⟩
      · unfold dwShl at h
        split at h
        · rename_i hh cc
          split at h
          · rename_i hcc
            subst hcc
            obtain rfl : _ = s := by simpa using h
            have hk := Nat.mod_lt (eval env cc).toNat (show 32 > 0 by omega)
            have hfin : ∀ k, k < 32 → (eval env hh >>> 1) >>> (31 - k)
                = if k = 0 then 0 else eval env hh >>> (32 - k) := by
              intro k hk
              rw [← BitVec.shiftRight_add]
              split
              · subst_vars
                apply BitVec.eq_of_getLsbD_eq
                intro i hi
                rw [BitVec.getLsbD_ushiftRight, BitVec.getLsbD_of_ge _ _ (by omega)]
                simp
              · rw [show 1 + (31 - k) = 32 - k by omega]
            have one : (BitVec.ofInt 32 1).toNat % 32 = 1 := by decide
            have e1 : eval env (E.shr hh (.const 1)) = eval env hh >>> 1 := by
              simp only [eval, one]
            have e2 : (eval env (E.not cc)).toNat % 32 = 31 - (eval env cc).toNat % 32 := by
              simp only [eval]; exact not_mod _
            have hx : ∀ x y : BitVec 32, x ||| (if (eval env cc).toNat % 32 = 0 then 0 else y) =
                if (eval env cc).toNat % 32 = 0 then x else x ||| y := by
              intro x y; split <;> simp
            have hor : (eval env a <<< ((eval env cc).toNat % 32))
                ||| (eval env hh >>> 1) >>> (31 - (eval env cc).toNat % 32)
                = Sh64.exec env (.shld a hh cc) := by
              rw [hfin _ hk, hx]
              simp only [Sh64.exec, shld]
              split
              · rename_i h0; rw [h0]; simp
              · rfl
            rcases shlShr_cases hs env with he | he
            · rw [he, e1, e2, hor]
            · rw [he, e1, e2, ← hor, ← BitVec.shiftRight_add, add_eq_or_of_shifts _ _ (by omega)]
          · simp at h
        · simp at h
      · unfold dwShr at h
        split at h
        · rename_i hh cc
          split at h
          · rename_i hcc
            subst hcc
            obtain rfl : _ = s := by simpa using h
            have hk := Nat.mod_lt (eval env cc).toNat (show 32 > 0 by omega)
            have hfin : ∀ k, k < 32 → (eval env hh <<< 1) <<< (31 - k)
                = if k = 0 then 0 else eval env hh <<< (32 - k) := by
              intro k hk
              rw [← BitVec.shiftLeft_add]
              split
              · subst_vars
                apply BitVec.eq_of_getLsbD_eq
                intro i hi
                rw [BitVec.getLsbD_shiftLeft]
                simp [show i < 32 from hi]
              · rw [show 1 + (31 - k) = 32 - k by omega]
            have one : (BitVec.ofInt 32 1).toNat % 32 = 1 := by decide
            have e1 : eval env (E.shl hh (.const 1)) = eval env hh <<< 1 := by
              simp only [eval, one]
            have e2 : (eval env (E.not cc)).toNat % 32 = 31 - (eval env cc).toNat % 32 := by
              simp only [eval]; exact not_mod _
            have hx : ∀ x y : BitVec 32, (if (eval env cc).toNat % 32 = 0 then 0 else y) ||| x =
                if (eval env cc).toNat % 32 = 0 then x else x ||| y := by
              intro x y; split <;> simp [BitVec.or_comm]
            have hor : (eval env hh <<< 1) <<< (31 - (eval env cc).toNat % 32)
                ||| (eval env c >>> ((eval env cc).toNat % 32))
                = Sh64.exec env (.shrd c hh cc) := by
              rw [hfin _ hk, hx]
              simp only [Sh64.exec, shrd]
              split
              · rename_i h0; rw [h0]; simp
              · rfl
            rcases shlShr_cases hs env with he | he
            · rw [he, e1, e2, hor]
            · rw [he, e1, e2, ← hor, ← BitVec.shiftLeft_add, add_eq_or_of_shifts _ _ (by omega)]
          · simp at h
        · simp at h

/-- The shifts that lower_dw makes are matched for all amounts. -/
theorem match64_lower_dw (l h c : E) (hc : ∀ v, c ≠ .const v) :
    match64 (.or (.shr (.shr h (.const 1)) (.not c)) (.shl l c)) = some (.shld l h c)
    ∧ match64 (.or (.shl (.shl h (.const 1)) (.not c)) (.shr l c)) = some (.shrd l h c) := by
  constructor
  · cases c <;> simp [match64, shlShr, complementary, dwShl]
  · cases c <;> simp [match64, shlShr, complementary, dwShl, dwShr]
    rename_i a
    split
    · rename_i hq
      cases hq
      rw [if_neg]
      · rfl
      · intro he
        have := congrArg sizeOf he
        simp at this
        omega
    · rfl

example : match64 (.or (.shl (.val 0) (.const 3)) (.shr (.val 1) (.const 29)))
    = some (.shld (.val 0) (.val 1) (.const 3)) := by decide

/-- Refutation: constants 0 and 32 make a double shift by 0, which leaves the upper register; the
nodes, with amounts modulo 32, are the disjunction of both. -/
theorem match64_zero_refuted :
    ∃ (e : E) (s : Sh64) (env : Nat → BitVec 32), match64 e = some s ∧ eval env e ≠ Sh64.exec env s :=
  ⟨.or (.shl (.val 0) (.const 0)) (.shr (.val 1) (.const 32)), .shld (.val 0) (.val 1) (.const 0),
    fun n => BitVec.ofNat 32 (n + 1), by decide, by decide⟩

/-- Refutation: the pattern has no test of the mode.  In a mode of 16 bits, whose registers may hold
anything above, `(a << 20) | (b >> 12)` is `b >> 12`; the double shift takes the bits above the 16 of
`b`. -/
theorem match64_narrow_refuted :
    match64 (.or (.shl (.val 0) (.const 20)) (.shr (.val 1) (.const 12)))
      = some (.shld (.val 0) (.val 1) (.const 20))
    ∧ ∃ ra rb : BitVec 32,
      (shld ra rb 20).setWidth 16 ≠ (ra.setWidth 16 <<< 20) ||| (rb.setWidth 16 >>> 12) :=
  ⟨by decide, 0, 0x00010000, by decide⟩

/-- **C112 (operands in the wrong registers).**  The exchanged instruction for a count from 1 to 31
computes the same. -/
theorem shld_to_shrd (hi lo : BitVec 32) (c : Nat) (h1 : 1 ≤ c) (h2 : c ≤ 31) :
    shldToShrd hi lo c = shld hi lo c := by
  unfold shldToShrd shld shrd
  rw [if_neg (by omega), if_neg (by omega), show (32 - c) % 32 = 32 - c by omega,
    show c % 32 = c by omega, show 32 - (32 - c) = c by omega, BitVec.or_comm]

example : shld 0x12345678 0x9abcdef0 8 = 0x3456789a := by decide

/-! ### The difference or zero, and the saturating increment -/

/-- **C112 (difference or zero).** -/
theorem doz_correct (a b : BitVec 32) : doz a b = if b.toNat ≤ a.toNat then a - b else 0 := by
  unfold doz sbbValue subFlags
  dsimp only
  by_cases h : a.toNat < b.toNat
  · rw [if_neg (by omega)]
    simp only [h, decide_true]
    rw [show ~~~ ((0 : BitVec 32) - 0 - BitVec.ofNat 32 true.toNat) = 0 by decide]
    simp
  · rw [if_pos (by omega)]
    simp only [h, decide_false]
    rw [show ~~~ ((0 : BitVec 32) - 0 - BitVec.ofNat 32 false.toNat) = BitVec.allOnes 32 by decide,
      BitVec.and_allOnes]

/-- What a `Mux` with a comparison of unsigned numbers gives; the difference is `l - r` or, if
`reversed`, `r - l`. -/
def muxDiff (signed : Bool) (rel : BitVec 4) (zeroOnTrue reversed : Bool) (l r : BitVec 32) : BitVec 32 :=
  let d := if reversed then r - l else l - r
  if Holds rel (outcome signed l r) then (if zeroOnTrue then 0 else d)
  else (if zeroOnTrue then d else 0)

/-- **C112 (choice of difference or zero).**  Where `gen_Mux` chooses it, a comparison of unsigned
numbers of 32 bits makes it right. -/
theorem doz_choice_partial {rel : BitVec 4} {z reversed x : Bool}
    (h : dozChoice rel z reversed = some x) (l r : BitVec 32) :
    muxDiff false rel z reversed l r = if x then doz r l else doz l r := by
  have table : ∀ (rel : BitVec 4) (z reversed x : Bool), dozChoice rel z reversed = some x →
      x = reversed ∧
      (Holds rel .lt != z) = reversed ∧ (Holds rel .gt != z) = !reversed := by
    decide +kernel
  obtain ⟨rfl, hlt, hgt⟩ := table rel z reversed x h
  unfold muxDiff outcome
  simp only [Bool.false_eq_true, if_false]
  rw [doz_correct, doz_correct]
  by_cases heq : (l.toNat : Int) = r.toNat
  · have hlr : l = r := BitVec.eq_of_toNat_eq (by omega)
    subst hlr
    cases x <;> simp
  · rw [if_neg heq]
    by_cases hl : (l.toNat : Int) < r.toNat
    · rw [if_pos hl]
      cases x <;> cases z <;> simp_all <;> first | omega | (intro hh; omega)
    · rw [if_neg hl]
      cases x <;> cases z <;> simp_all <;> first | omega | (intro hh; omega)

/-- Refutation: `gen_Mux` has no test for the sign of the mode; `a > b ? a - b : 0` on signed numbers
1 and -1, which reaches it if `cmov` may be used, is 2, and the sequence gives 0. -/
theorem doz_signed_refuted :
    dozChoice 4 false false = some false ∧ muxDiff true 4 false false 1 (-1) = 2 ∧ doz 1 (-1) = 0 := by
  decide

/-- Refutation: nor one for the width.  The registers of numbers with 16 bits may hold anything above:
5 and 3, with a one above the 3. -/
theorem doz_narrow_refuted :
    ∃ a b : BitVec 32, (b.setWidth 16).toNat ≤ (a.setWidth 16).toNat ∧
      (doz a b).setWidth 16 ≠ a.setWidth 16 - b.setWidth 16 :=
  ⟨5, 0x10003, by decide, by decide⟩

/-- **C112 (saturating increment).** -/
theorem sat_inc_correct (a : BitVec 32) :
    satInc a = if a = BitVec.allOnes 32 then a else a + 1 := by
  unfold satInc sbbValue adcFlags
  dsimp only
  have hone : (1 : BitVec 32).toNat = 1 := by decide
  have hl := a.isLt
  by_cases h : a = BitVec.allOnes 32
  · subst h; decide
  · have : ¬ 2 ^ 32 ≤ a.toNat + (1 : BitVec 32).toNat + false.toNat := by
      intro hc
      apply h
      apply BitVec.eq_of_toNat_eq
      rw [BitVec.toNat_allOnes]
      simp only [Bool.toNat_false] at hc
      omega
    rw [if_neg h, decide_eq_false this]
    simp

/-! ### The 64-bit negation -/

/-- The states after a sequence that negates the pair of registers: all others are as before. -/
def NegatesPair (l : List Instr) (inLo inHi outLo outHi : Nat) : Prop :=
  ∀ s : State,
    (run s l).reg outHi ++ (run s l).reg outLo = - (s.reg inHi ++ s.reg inLo) ∧
    ∀ q, q ≠ outLo → q ≠ outHi → q ≠ inLo → q ≠ inHi → (run s l).reg q = s.reg q

theorem neg_append (hi lo : BitVec 32) :
    -(hi ++ lo) = (-hi - BitVec.ofNat 32 (decide (lo ≠ 0)).toNat) ++ (-lo) := by
  apply BitVec.eq_of_toNat_eq
  have h1 := hi.isLt
  have h2 := lo.isLt
  by_cases h : lo = 0
  · subst h
    rw [show decide ((0 : BitVec 32) ≠ 0) = false by decide]
    rw [BitVec.toNat_append, ← Nat.shiftLeft_add_eq_or_of_lt (BitVec.isLt _), BitVec.toNat_neg,
      BitVec.toNat_append, ← Nat.shiftLeft_add_eq_or_of_lt (BitVec.isLt _), BitVec.toNat_sub,
      BitVec.toNat_neg, BitVec.toNat_neg, Nat.shiftLeft_eq, Nat.shiftLeft_eq]
    simp
    omega
  · have h0 : lo.toNat ≠ 0 := fun hc => h (BitVec.eq_of_toNat_eq (by simpa using hc))
    simp only [ne_eq, h, not_false_eq_true, decide_true, Bool.toNat_true]
    rw [BitVec.toNat_append, ← Nat.shiftLeft_add_eq_or_of_lt (BitVec.isLt _), BitVec.toNat_neg,
      BitVec.toNat_append, ← Nat.shiftLeft_add_eq_or_of_lt (BitVec.isLt _), BitVec.toNat_sub,
      BitVec.toNat_neg, BitVec.toNat_neg, Nat.shiftLeft_eq, Nat.shiftLeft_eq]
    simp
    omega

/-- **C112 (64-bit negation).**  The text emitter negates the pair, unless the upper output is the
register of both inputs. -/
theorem emit_minus64_partial (inLo inHi outLo outHi : Nat) (ho : outLo ≠ outHi)
    (hx : ¬ (inLo = inHi ∧ outHi = inLo)) :
    NegatesPair (emitMinus64 inLo inHi outLo outHi) inLo inHi outLo outHi := by
  intro s
  rw [neg_append]
  unfold emitMinus64 minus64Rest normalNeg zeroNeg
  constructor
  · congr 1
    · repeat' split
      all_goals
        simp_all [run, step, State.set, sbbValue, BitVec.sub_eq_add_neg]
        try (repeat' split) <;> first | (exfalso; omega) | (intro hh; exfalso; omega) | simp | rfl
    · repeat' split
      all_goals
        simp_all [run, step, State.set, sbbValue]
        try (repeat' split) <;> first | (exfalso; omega) | (intro hh; exfalso; omega) | simp | rfl
  · intro q h1 h2 h3 h4
    repeat' split
    all_goals
      simp_all [run, step, State.set]

/-- **C112 (64-bit negation in machine code).**  The binary emitter has one more exception: the lower
output is the register of both inputs. -/
theorem enc_minus64_partial (inLo inHi outLo outHi : Nat) (ho : outLo ≠ outHi) (hx : inLo ≠ inHi) :
    NegatesPair (encMinus64 inLo inHi outLo outHi) inLo inHi outLo outHi := by
  have : encMinus64 inLo inHi outLo outHi = emitMinus64 inLo inHi outLo outHi := by
    unfold encMinus64 emitMinus64
    simp [hx]
  rw [this]
  exact emit_minus64_partial inLo inHi outLo outHi ho (fun h => hx h.1)

/-- Refutation: `eax`, `eax` to `edx` (low) and `eax` (high). -/
theorem emit_minus64_refuted : ¬ NegatesPair (emitMinus64 0 0 1 0) 0 0 1 0 := by
  intro h
  exact absurd (h ⟨fun _ => 1, false⟩).1 (by decide)

/-- Refutation: the case the text emitter has and the binary one has not. -/
theorem enc_minus64_refuted :
    NegatesPair (emitMinus64 0 0 0 1) 0 0 0 1 ∧ ¬ NegatesPair (encMinus64 0 0 0 1) 0 0 0 1 := by
  refine ⟨emit_minus64_partial 0 0 0 1 (by decide) (by decide), fun h => ?_⟩
  exact absurd (h ⟨fun _ => 1, false⟩).1 (by decide)

/-! ### Shorter instructions -/

theorem short_and {hl : Bool} {val : BitVec 32} {s : Short} (h : shortAnd hl val = some s)
    (r : BitVec 32) : s.exec r = r &&& val := by
  unfold shortAnd at h
  repeat' split at h
  all_goals cases h
  all_goals
    apply bits_eq
    intro i hi
    rw [BitVec.getLsbD_and]
    simp only [Short.exec]
  · rename_i hv
    subst hv
    rw [getLsbD_writeLow16 _ _ _ hi,
      bit_0xFFFF0000 i hi]
    by_cases h16 : i < 16 <;> simp [h16, show (16 ≤ i) = (¬ i < 16) by simp]
  · rename_i hv
    subst hv
    rw [getLsbD_writeLow8 _ _ _ hi,
      bit_0xFFFFFF00 i hi]
    by_cases h16 : i < 8 <;> simp [h16, show (8 ≤ i) = (¬ i < 8) by simp]
  · rename_i hv
    subst hv
    rw [getLsbD_writeHigh _ _ _ hi,
      bit_0xFFFF00FF i hi]
    by_cases h16 : 8 ≤ i ∧ i < 16 <;> simp [h16]
  · rename_i hv
    have hb := bit_of_mask hv i
    rw [getLsbD_writeLow8 _ _ _ hi]
    rw [bit_0xFFFFFF80 i hi,
      bit_0xFFFFFF00 i hi] at hb
    by_cases h8 : i < 8
    · rw [if_pos h8, BitVec.getLsbD_and, getLsbD_low _ _ h8, getLsbD_low _ _ h8, BitVec.getLsbD_and,
        bit_0xFF i hi]
      simp [h8]
    · rw [if_neg h8, hb (by simp; omega)]
      simp; omega
  · rename_i hv
    have hb := bit_of_mask hv i
    rw [getLsbD_writeHigh _ _ _ hi]
    rw [bit_0xFFFF00FF i hi] at hb
    by_cases h8 : 8 ≤ i ∧ i < 16
    · have h7 : i - 8 < 8 := by omega
      rw [if_pos h8, BitVec.getLsbD_and, getLsbD_high, getLsbD_low _ _ h7, BitVec.getLsbD_and,
        BitVec.getLsbD_ushiftRight,
        bit_0xFF (i - 8) (by omega)]
      simp [h7, show 8 + (i - 8) = i by omega]
    · rw [if_neg h8, hb (by simp; omega)]
      simp; omega

theorem short_or {hl : Bool} {val : BitVec 32} {s : Short} (h : shortOr hl val = some s)
    (r : BitVec 32) : s.exec r = r ||| val := by
  unfold shortOr at h
  repeat' split at h
  all_goals cases h
  all_goals
    apply bits_eq
    intro i hi
    rw [BitVec.getLsbD_or]
    simp only [Short.exec]
  · rename_i hv
    have hb := bit_of_mask hv i
    rw [getLsbD_writeLow8 _ _ _ hi]
    rw [bit_0xFFFFFF80 i hi,
      bit_0x00000080 i hi] at hb
    by_cases h8 : i < 8
    · rw [if_pos h8, BitVec.getLsbD_or, getLsbD_low _ _ h8, getLsbD_low _ _ h8]
    · rw [if_neg h8, hb (by simp; omega)]
      simp; omega
  · rename_i hv
    have hb := bit_of_mask hv i
    rw [getLsbD_writeHigh _ _ _ hi]
    rw [bit_0xFFFF00FF i hi] at hb
    by_cases h8 : 8 ≤ i ∧ i < 16
    · have h7 : i - 8 < 8 := by omega
      rw [if_pos h8, BitVec.getLsbD_or, getLsbD_high, getLsbD_low _ _ h7,
        BitVec.getLsbD_ushiftRight]
      simp [h7, show 8 + (i - 8) = i by omega]
    · rw [if_neg h8, hb (by simp; omega)]
      simp

theorem short_xor {hl : Bool} {val : BitVec 32} {s : Short} (h : shortXor hl val = some s)
    (r : BitVec 32) : s.exec r = r ^^^ val := by
  unfold shortXor at h
  repeat' split at h
  all_goals cases h
  all_goals
    apply bits_eq
    intro i hi
    rw [BitVec.getLsbD_xor]
    simp only [Short.exec]
  · rename_i hv
    subst hv
    rw [getLsbD_writeLow16 _ _ _ hi,
      bit_0x0000FFFF i hi]
    by_cases h16 : i < 16
    · rw [if_pos h16, BitVec.getLsbD_not, getLsbD_low _ _ h16]
      simp [h16]
    · simp [h16]
  · rename_i hv
    subst hv
    rw [getLsbD_writeLow8 _ _ _ hi,
      bit_0xFF i hi]
    by_cases h16 : i < 8
    · rw [if_pos h16, BitVec.getLsbD_not, getLsbD_low _ _ h16]
      simp [h16]
    · simp [h16]
  · rename_i hv
    subst hv
    rw [getLsbD_writeHigh _ _ _ hi,
      bit_0x0000FF00 i hi]
    by_cases h16 : 8 ≤ i ∧ i < 16
    · rw [if_pos h16, BitVec.getLsbD_not, getLsbD_high]
      simp [h16, show i - 8 < 8 by omega, show 8 + (i - 8) = i by omega]
    · simp [h16]
  · rename_i hv
    have hb := bit_of_mask hv i
    rw [getLsbD_writeLow8 _ _ _ hi]
    rw [bit_0xFFFFFF80 i hi,
      bit_0x00000080 i hi] at hb
    by_cases h8 : i < 8
    · rw [if_pos h8, BitVec.getLsbD_xor, getLsbD_low _ _ h8, getLsbD_low _ _ h8]
    · rw [if_neg h8, hb (by simp; omega), decide_eq_false (by omega)]
      simp
  · rename_i hv
    have hb := bit_of_mask hv i
    rw [getLsbD_writeHigh _ _ _ hi]
    rw [bit_0xFFFF00FF i hi] at hb
    by_cases h8 : 8 ≤ i ∧ i < 16
    · have h7 : i - 8 < 8 := by omega
      rw [if_pos h8, BitVec.getLsbD_xor, getLsbD_high, getLsbD_low _ _ h7,
        BitVec.getLsbD_ushiftRight]
      simp [h7, show 8 + (i - 8) = i by omega]
    · rw [if_neg h8, hb (by simp; omega)]
      simp

/-- **C112 (shorter logical instructions).**  The short forms of `and`, `or` and `xor` with a constant
leave the register as the long ones do. -/
theorem short_logic (hl : Bool) (val r : BitVec 32) :
    (∀ s, shortAnd hl val = some s → s.exec r = r &&& val) ∧
    (∀ s, shortOr hl val = some s → s.exec r = r ||| val) ∧
    (∀ s, shortXor hl val = some s → s.exec r = r ^^^ val) :=
  ⟨fun _ h => short_and h r, fun _ h => short_or h r, fun _ h => short_xor h r⟩

example : shortAnd true 0xFFFF12FF = some (.and8h 0x12) := by decide
example : shortOr true 0xC3 = some (.or8 0xC3) := by decide
example : shortXor true 0xC300 = some (.eor8h 0xC3) := by decide

/-- **C112 (shorter test).**  The test of one byte leaves the flags of the test of all four, as far as
carry, zero, sign and overflow go. -/
theorem short_test {mem hl : Bool} {off : BitVec 32} {k : Nat} {v : BitVec 8}
    (h : shortTest mem hl off = some (k, v)) (r : BitVec 32) :
    let long := logicFlags (r &&& off)
    let short := logicFlags ((r >>> (8 * k)).setWidth 8 &&& v)
    short.zf = long.zf ∧ short.cf = long.cf ∧ short.of = long.of ∧ short.sf = long.sf := by
  have key : ∀ (k : Nat) (b : Nat), k ≤ 3 → b ≤ 8 → (k = 3 → b = 8) → (k ≠ 3 → b < 8) →
      (∀ i, i < 32 → ¬ (8 * k ≤ i ∧ i < 8 * k + b) → off.getLsbD i = false) →
      (logicFlags ((r >>> (8 * k)).setWidth 8 &&& (off >>> (8 * k)).setWidth 8)).zf
          = (logicFlags (r &&& off)).zf ∧
        (logicFlags ((r >>> (8 * k)).setWidth 8 &&& (off >>> (8 * k)).setWidth 8)).sf
          = (logicFlags (r &&& off)).sf := by
    intro k b hk hb hk3 hk3' hoff
    refine ⟨?_, ?_⟩
    · show decide (_ = _) = decide (_ = _)
      rw [decide_eq_decide]
      constructor
      · intro h0
        apply bits_eq
        intro i hi
        by_cases hin : 8 * k ≤ i ∧ i < 8 * k + b
        · have := congrArg (fun z => z.getLsbD (i - 8 * k)) h0
          simp only [BitVec.getLsbD_and, BitVec.getLsbD_zero] at this
          rw [getLsbD_low _ _ (by omega), getLsbD_low _ _ (by omega), BitVec.getLsbD_ushiftRight,
            BitVec.getLsbD_ushiftRight, show 8 * k + (i - 8 * k) = i by omega] at this
          rw [BitVec.getLsbD_and, this]
          simp
        · rw [BitVec.getLsbD_and, hoff i hi hin, Bool.and_false]
          simp
      · intro h0
        apply BitVec.eq_of_getLsbD_eq
        intro i hi
        rw [BitVec.getLsbD_and, getLsbD_low _ _ hi, getLsbD_low _ _ hi, BitVec.getLsbD_ushiftRight,
          BitVec.getLsbD_ushiftRight, ← BitVec.getLsbD_and, h0]
        simp
    · dsimp only [logicFlags]
      rw [BitVec.msb_eq_getLsbD_last, BitVec.msb_eq_getLsbD_last, BitVec.getLsbD_and,
        BitVec.getLsbD_and, getLsbD_low _ _ (by omega), getLsbD_low _ _ (by omega),
        BitVec.getLsbD_ushiftRight, BitVec.getLsbD_ushiftRight]
      by_cases h3 : k = 3
      · subst h3; rfl
      · rw [hoff (8 * k + (8 - 1)) (by omega) (by omega), hoff (32 - 1) (by omega) (by omega)]
        simp
  have zero : ∀ {m : BitVec 32} (_ : off &&& m = 0) (i : Nat), m.getLsbD i = true →
      off.getLsbD i = false := by
    intro m hm i hi
    rw [bit_of_mask hm i hi]
    simp
  have k0 : off &&& 0xFFFFFF80 = 0 → ∀ i, i < 32 → ¬ (8 * 0 ≤ i ∧ i < 8 * 0 + 7) →
      off.getLsbD i = false := by
    intro hm i hi hn
    exact zero hm i (by rw [bit_0xFFFFFF80 i hi]; simp; omega)
  have k1 : off &&& 0xFFFF80FF = 0 → ∀ i, i < 32 → ¬ (8 * 1 ≤ i ∧ i < 8 * 1 + 7) →
      off.getLsbD i = false := by
    intro hm i hi hn
    exact zero hm i (by rw [bit_0xFFFF80FF i hi]; simp; omega)
  have k2 : off &&& 0xFF80FFFF = 0 → ∀ i, i < 32 → ¬ (8 * 2 ≤ i ∧ i < 8 * 2 + 7) →
      off.getLsbD i = false := by
    intro hm i hi hn
    exact zero hm i (by rw [bit_0xFF80FFFF i hi]; simp; omega)
  have k3 : off &&& 0x00FFFFFF = 0 → ∀ i, i < 32 → ¬ (8 * 3 ≤ i ∧ i < 8 * 3 + 8) →
      off.getLsbD i = false := by
    intro hm i hi hn
    exact zero hm i (by rw [bit_0x00FFFFFF i hi]; simp; omega)
  unfold shortTest at h
  repeat' split at h
  all_goals cases h
  all_goals dsimp only
  all_goals rename_i hm
  · have := key 0 7 (by omega) (by omega) (by omega) (by omega) (k0 hm)
    simp only [Nat.mul_zero, BitVec.ushiftRight_zero] at this ⊢
    exact ⟨this.1, rfl, rfl, this.2⟩
  · have := key 1 7 (by omega) (by omega) (by omega) (by omega) (k1 hm)
    exact ⟨this.1, rfl, rfl, this.2⟩
  · have := key 2 7 (by omega) (by omega) (by omega) (by omega) (k2 hm)
    exact ⟨this.1, rfl, rfl, this.2⟩
  · have := key 3 8 (by omega) (by omega) (by omega) (by omega) (k3 hm)
    exact ⟨this.1, rfl, rfl, this.2⟩
  · have := key 0 7 (by omega) (by omega) (by omega) (by omega) (k0 hm)
    simp only [Nat.mul_zero, BitVec.ushiftRight_zero] at this ⊢
    exact ⟨this.1, rfl, rfl, this.2⟩
  · have := key 1 7 (by omega) (by omega) (by omega) (by omega) (k1 hm)
    exact ⟨this.1, rfl, rfl, this.2⟩

example : shortTest true false 0x80000000 = some (3, 0x80) := by decide
example : shortTest false true 0x4200 = some (1, 0x42) := by decide

/-- **C112 (address computation).**  What replaces a `lea` leaves the same registers. -/
theorem short_lea (flags incdec : Bool) (b i : Option Nat) (sc : Nat) (hs : sc < 32) (d : BitVec 32)
    (o : Nat) (s : State) :
    (step s (shortLea flags incdec b i sc d o)).reg = (step s (.lea b i sc d o)).reg := by
  have last : (step s (match b, i with
      | none, some r => if sc = 1 then Instr.lea (some r) (some r) 0 d o else .lea b i sc d o
      | _, _ => .lea b i sc d o)).reg = (step s (.lea b i sc d o)).reg := by
    split
    · rename_i r
      split
      · rename_i h1
        subst h1
        funext q
        simp only [step, State.set, Option.elim]
        split
        · congr 1
          rw [BitVec.shiftLeft_zero, show (0 : BitVec 32) + s.reg r <<< 1 = s.reg r <<< 1 by simp]
          apply BitVec.eq_of_toNat_eq
          rw [BitVec.toNat_add, BitVec.toNat_shiftLeft, Nat.shiftLeft_eq]
          congr 1; omega
        · rfl
      · rfl
    · rfl
  unfold shortLea
  dsimp only
  split
  · exact last
  · split
    · rename_i hd
      subst hd
      split
      · split
        · rename_i hr
          subst hr
          funext q
          simp only [step, State.set, Option.elim, Nat.mod_eq_of_lt hs]
          simp
        · exact last
      · funext q
        simp only [step, State.set, Option.elim]
        simp
      · rename_i r q
        split
        · rename_i hr
          obtain ⟨rfl, rfl⟩ := hr
          funext p
          simp only [step, State.set, Option.elim]
          simp
        · split
          · rename_i hr
            obtain ⟨rfl, rfl⟩ := hr
            funext p
            simp only [step, State.set, Option.elim]
            simp [BitVec.add_comm]
          · exact last
      · exact last
    · split
      · split
        · rename_i hr
          subst hr
          split
          · rename_i h1
            obtain ⟨-, rfl⟩ := h1
            funext p
            simp only [step, State.set, Option.elim]
            simp
          · split
            · rename_i h1
              obtain ⟨-, rfl⟩ := h1
              funext p
              simp only [step, State.set, Option.elim]
              simp [BitVec.sub_eq_add_neg]
            · funext p
              simp only [step, State.set, Option.elim]
              simp
        · exact last
      · exact last

example : shortLea false true (some 3) none 0 (-1) 3 = .dec 3 := rfl
example : shortLea false true none (some 2) 1 8 5 = .lea (some 2) (some 2) 0 8 5 := rfl

/-- **C112 (rotation of 16 bits).**  The exchange of the two bytes is the rotation by 8. -/
theorem short_rol_partial (hl : Bool) (r : BitVec 32) :
    shortRol hl r 8 = writeLow r ((r.setWidth 16).rotateLeft 8) := by
  unfold shortRol
  split
  · apply bits_eq
    intro i hi
    rw [getLsbD_writeHigh _ _ _ hi, getLsbD_writeLow8 _ _ _ hi, getLsbD_rolw _ _ hi, getLsbD_high]
    by_cases h8 : i < 8
    · simp [h8, show ¬ 8 ≤ i by omega, Nat.add_comm]
    · by_cases h16 : i < 16
      · rw [if_pos ⟨by omega, h16⟩, if_neg h8, if_pos h16, getLsbD_low _ _ (by omega)]
      · simp [h8, h16]
  · rfl

/-- Refutation: `peephole_ia32_Rol` exchanges the bytes for every count; it looks at the size of the
operation only. -/
theorem short_rol_refuted :
    ∃ (r : BitVec 32) (c : Nat), shortRol true r c ≠ writeLow r ((r.setWidth 16).rotateLeft (c % 32)) :=
  ⟨1, 4, by decide⟩

/-! ### Builtins -/

/-- The number of the lowest one. -/
def IsLowest (x : BitVec 32) (k : Nat) : Prop :=
  x.getLsbD k = true ∧ ∀ i, i < k → x.getLsbD i = false

def IsHighest (x : BitVec 32) (k : Nat) : Prop :=
  k < 32 ∧ x.getLsbD k = true ∧ ∀ i, k < i → x.getLsbD i = false

theorem bsf_lowest (junk x : BitVec 32) (k : Nat) (h : IsLowest x k) :
    bsf junk x = BitVec.ofNat 32 k := by
  have hk : k < 32 := by
    apply Classical.byContradiction
    intro hn
    have := h.1
    rw [BitVec.getLsbD_of_ge x k (by omega)] at this
    simp at this
  unfold bsf
  have : (List.range 32).find? (fun i => x.getLsbD i) = some k := by
    rw [List.find?_range_eq_some]
    exact ⟨h.1, by simpa using hk, fun j hj => by simp [h.2 j hj]⟩
  rw [this]
  rfl

theorem bsr_highest (junk x : BitVec 32) (k : Nat) (h : IsHighest x k) :
    bsr junk x = BitVec.ofNat 32 k := by
  unfold bsr
  have e : List.range 32 = List.range k ++ k :: (List.range' (k + 1) (31 - k)) := by
    have := h.1
    rw [List.range_eq_range', List.range_eq_range',
      show (32 : Nat) = k + (1 + (31 - k)) by omega, ← List.range'_append_1,
      show 1 + (31 - k) = (31 - k) + 1 by omega, List.range'_succ]
    simp
  have : (List.range 32).reverse.find? (fun i => x.getLsbD i) = some k := by
    rw [e, List.reverse_append, List.reverse_cons, List.append_assoc, List.find?_append,
      List.find?_eq_none.mpr]
    · simp [h.2.1]
    · intro i hi
      simp only [List.mem_reverse, List.mem_range'_1] at hi
      simp [h.2.2 i (by omega)]
  rw [this]
  rfl

/-- **C112 (ffs).**  One more than the number of the lowest one, 0 for zero, whatever the instruction
leaves for zero. -/
theorem ffs_correct (junk x : BitVec 32) :
    (x = 0 → ffs junk x = 0) ∧ ∀ k, IsLowest x k → ffs junk x = BitVec.ofNat 32 (k + 1) := by
  constructor
  · intro h
    subst h
    unfold ffs
    rw [setReg_wide (by omega)]
    simp only [decide_true, Bool.toNat_true]
    rw [show -BitVec.ofNat 32 1 = BitVec.allOnes 32 by decide, BitVec.or_allOnes]
    decide
  · intro k hk
    have hx : x ≠ 0 := by
      intro h0
      subst h0
      simpa using hk.1
    unfold ffs
    rw [setReg_wide (by omega), bsf_lowest _ _ _ hk]
    simp only [hx, decide_false, Bool.toNat_false]
    rw [show -BitVec.ofNat 32 0 = 0#32 by decide, BitVec.or_zero]
    apply BitVec.eq_of_toNat_eq
    simp [BitVec.toNat_add]

/-- **C112 (clz).**  The number of zeros above the highest one. -/
theorem clz_correct (junk x : BitVec 32) (k : Nat) (h : IsHighest x k) :
    clz junk x = BitVec.ofNat 32 (31 - k) := by
  unfold clz
  rw [bsr_highest _ _ _ h]
  have : ∀ k : Fin 32, BitVec.ofNat 32 k.val ^^^ 31 = BitVec.ofNat 32 (31 - k.val) := by decide +kernel
  exact this ⟨k, h.1⟩

/-- The parity: whether the number of ones is odd. -/
def ones (x : BitVec 32) (n : Nat) : Nat := (List.range n).countP fun i => x.getLsbD i

/-- **C112 (parity).** -/
theorem parity_correct (junk x : BitVec 32) :
    Model.Ia32Patterns.parity junk x = BitVec.ofNat 32 (ones x 32 % 2) := by
  unfold Model.Ia32Patterns.parity
  rw [setReg_wide (by omega)]
  dsimp only [logicFlags]
  congr 1
  have e : evenLow (((x >>> 16) ^^^ x).setWidth 8 ^^^ high ((x >>> 16) ^^^ x)) = decide (ones x 32 % 2 = 0) := by
    unfold evenLow ones
    have hr : List.range 8 = [0, 1, 2, 3, 4, 5, 6, 7] := by decide
    have hr2 : List.range 32 = [0, 1, 2, 3, 4, 5, 6, 7, 8, 9, 10, 11, 12, 13, 14, 15, 16, 17, 18, 19,
      20, 21, 22, 23, 24, 25, 26, 27, 28, 29, 30, 31] := by decide
    rw [hr, hr2]
    simp only [List.countP_cons, List.countP_nil, BitVec.getLsbD_xor, getLsbD_high,
      BitVec.getLsbD_setWidth, BitVec.getLsbD_ushiftRight]
    have hpar : ∀ b : Bool, (if b = true then 1 else 0) = b.toNat := by intro b; cases b <;> rfl
    have hxor : ∀ a b : Bool, (Bool.xor a b).toNat % 2 = (a.toNat + b.toNat) % 2 := by decide
    simp only [hpar]
    simp only [show (0:Nat) < 8 by omega, show (1:Nat) < 8 by omega, show (2:Nat) < 8 by omega,
      show (3:Nat) < 8 by omega, show (4:Nat) < 8 by omega, show (5:Nat) < 8 by omega,
      show (6:Nat) < 8 by omega, show (7:Nat) < 8 by omega, decide_true, Bool.true_and, Nat.reduceAdd]
    have hx4 : ∀ a b c d : Bool, (Bool.xor (Bool.xor a b) (Bool.xor c d)).toNat
        = (a.toNat + b.toNat + c.toNat + d.toNat) % 2 := by decide
    simp only [hx4]
    rw [Bool.eq_iff_iff]
    simp only [beq_iff_eq, decide_eq_true_eq]
    omega
  rw [e]
  by_cases h0 : ones x 32 % 2 = 0
  · simp [h0]
  · simp [h0]
    omega

/-- **C112 (bswap).**  The four bytes in the other order. -/
theorem bswap_correct (a b c d : BitVec 8) : bswap (a ++ b ++ c ++ d) = d ++ c ++ b ++ a := by
  unfold bswap
  apply bits_eq
  intro i hi
  dsimp only
  have app : ∀ (p q r s : BitVec 8) (j : Nat), j < 32 → (p ++ q ++ r ++ s).getLsbD j =
      if j < 8 then s.getLsbD j else if j < 16 then r.getLsbD (j - 8)
      else if j < 24 then q.getLsbD (j - 16) else p.getLsbD (j - 24) := by
    intro p q r s j hj
    simp only [BitVec.getLsbD_append]
    by_cases h1 : j < 8
    · simp [h1]
    · by_cases h2 : j < 16
      · simp [h1, h2, show j - 8 < 8 by omega]
      · by_cases h3 : j < 24
        · simp only [h1, h2, h3, show ¬ j - 8 < 8 by omega, show j - 8 - 8 < 8 by omega, if_true,
            if_false, cond_true, cond_false, decide_true, decide_false]
          rw [show j - 8 - 8 = j - 16 by omega]
        · simp only [h1, h2, h3, show ¬ j - 8 < 8 by omega, show ¬ j - 8 - 8 < 8 by omega, if_true,
            if_false, cond_true, cond_false, decide_true, decide_false]
          rw [show j - 8 - 8 - 8 = j - 24 by omega]
  rw [getLsbD_rolw _ _ hi, getLsbD_roll _ _ (by (repeat' split) <;> omega),
    getLsbD_rolw _ _ (by (repeat' split) <;> omega),
    app _ _ _ _ _ (by (repeat' split) <;> omega), app _ _ _ _ _ hi]
  by_cases h1 : i < 8
  · simp [h1, show i + 8 < 16 by omega, show ¬ i + 8 + 16 < 8 by omega,
      show ¬ i + 8 + 16 < 16 by omega, show ¬ i + 8 + 16 < 24 by omega]
  · by_cases h2 : i < 16
    · simp [h1, h2, show i - 8 < 16 by omega, show ¬ i - 8 + 16 < 8 by omega,
        show ¬ i - 8 + 16 < 16 by omega, show i - 8 + 16 < 24 by omega]
    · by_cases h3 : i < 24
      · simp [h1, h2, h3, show i - 16 < 8 by omega, show ¬ i - 16 + 8 < 8 by omega,
          show i - 16 + 8 < 16 by omega]
      · simp [h1, h2, h3, show ¬ i - 16 < 8 by omega, show i - 16 < 16 by omega,
          show i - 24 < 8 by omega, show i - 16 - 8 = i - 24 by omega]

example : bswap 0x12345678 = 0x78563412 := by decide
example : IsLowest 0x00A0 5 := by
  refine ⟨by decide, ?_⟩
  intro i hi
  have h : ∀ i : Fin 5, (0x00A0 : BitVec 32).getLsbD i.val = false := by decide
  exact h ⟨i, hi⟩
example : ffs 77 0x00A0 = 6 ∧ ffs 77 0 = 0 := by decide
example : clz 77 0x00A0 = 24 := by decide
example : Model.Ia32Patterns.parity 77 0x80A1 = 0 := by decide

/-! ### Minimum and maximum of floating point numbers -/

/-- What `minss` and `maxss` leave: the first operand if it is below (above) the second, and otherwise
the second one, also if they are equal or not comparable. -/
def MinMax.takes : MinMax → Outcome → Side
  | .mins, .lt => .left
  | .mins, _ => .right
  | .maxs, .gt => .left
  | .maxs, _ => .right

def other : Side → Side
  | .left => .right
  | .right => .left

/-- What the `Mux` takes. -/
def muxTakes (rel : BitVec 4) (onTrue : Side) (o : Outcome) : Side :=
  if Holds rel o then onTrue else other onTrue

/-- What the instruction takes; `exchanged` says that `match_commutative` has exchanged its operands.
-/
def instrTakes (i : MinMax) (exchanged : Bool) (o : Outcome) : Side :=
  if exchanged then other (MinMax.takes i o.swap) else MinMax.takes i o

/-- **C112 (minimum and maximum).**  Of numbers that differ the instruction takes the one the `Mux`
takes; with the operands in their order and the left one where the relation holds, also where one is
no number. -/
theorem float_minmax_partial {rel : BitVec 4} {t : Side} {i : MinMax}
    (h : floatMinMax rel t = some i) :
    (∀ x, instrTakes i x .lt = muxTakes rel t .lt ∧ instrTakes i x .gt = muxTakes rel t .gt) ∧
    (t = .left → instrTakes i false .un = muxTakes rel t .un) := by
  have hl : ∀ (rel : BitVec 4) (i : MinMax), floatMinMax rel .left = some i →
      (∀ x, instrTakes i x .lt = muxTakes rel .left .lt ∧
        instrTakes i x .gt = muxTakes rel .left .gt) ∧
      instrTakes i false .un = muxTakes rel .left .un := by
    intro rel i
    cases i <;> (revert rel; decide +kernel)
  have hr : ∀ (rel : BitVec 4) (i : MinMax), floatMinMax rel .right = some i →
      (∀ x, instrTakes i x .lt = muxTakes rel .right .lt ∧
        instrTakes i x .gt = muxTakes rel .right .gt) := by
    intro rel i
    cases i <;> (revert rel; decide +kernel)
  cases t
  · exact ⟨(hl rel i h).1, fun _ => (hl rel i h).2⟩
  · exact ⟨hr rel i h, fun hh => nomatch hh⟩

/-- Refutation: `a < b ? a : b` with exchanged operands, which `match_commutative` allows, takes the
other operand where one is no number. -/
theorem float_minmax_exchanged_refuted :
    floatMinMax 2 .left = some .mins ∧ instrTakes .mins true .un ≠ muxTakes 2 .left .un := by decide

/-- Refutation: `a < b ? b : a` becomes a maximum, which takes the second operand where one is no
number; the `Mux` takes the first. -/
theorem float_minmax_right_refuted :
    floatMinMax 2 .right = some .maxs ∧ instrTakes .maxs false .un ≠ muxTakes 2 .right .un := by decide

/-- Refutation: `a <= b ? a : b` on zeros of different sign. -/
theorem float_minmax_zero_refuted :
    floatMinMax 3 .left = some .mins ∧ instrTakes .mins false .eq ≠ muxTakes 3 .left .eq := by decide

/-- Refutation: `mux_is_float_min_max` allows a `Mux` with the relation `unordered or less`, for which
`gen_Mux` has no instruction. -/
theorem float_minmax_panics : minMaxAllowed 10 .right = true ∧ floatMinMax 10 .right = none := by decide

/-- The ordered relations it allows are handled. -/
theorem float_minmax_allowed (rel : BitVec 4) (t : Side) (h : minMaxAllowed rel t = true)
    (ho : rel.getLsbD 3 = false) : (floatMinMax rel t).isSome = true := by
  cases t <;> (revert rel; decide +kernel)

end Verif.Props.Ia32Patterns
