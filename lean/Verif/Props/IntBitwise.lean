import Verif.Props.IntArith
/-!
# C03: bitwise operations act bit by bit

The specification: bit `i` (`Spec.ibit`) of the result, for every `i` below
the size of the mode, is the Boolean operation applied to bit `i` of the
operands, and the result is in the range of the mode (so it is determined).
-/
namespace Verif.Props
open Verif.Spec Verif.Model

/-- bits of a denoted value are the bits of its buffer -/
theorem ibit_of_buf {E : TvEnv} {md : Mode} {p : List Nat} (ok : ModeOk E md) (lp : p.length = 2 * E.m) (bp : Bytes p)
    {i : Nat} (hi : i < md.bits) : ibit (svalue p) i = (value p).testBit i := by
  have := modeOk_lt ok
  rw [ibit_svalue bp (by omega), if_pos (by omega)]

theorem bitwise_aux {E : TvEnv} {a b : TarVal} {md : Mode} {x y : Int}
    (bop : Bool → Bool → Bool) (f : Nat → Nat → Nat) (g : Bool → Bool → Bool)
    (hf : ∀ x y, x < 256 → y < 256 → f x y < 256)
    (hfg : ∀ x y i, x < 256 → y < 256 → i < 8 → (f x y).testBit i = g (x.testBit i) (y.testBit i))
    (ha : Denotes E a md x) (hb : Denotes E b md y) :
    ∃ r z, tvBitwise bop (List.zipWith f) a b = some r ∧ Denotes E r md z ∧
      ∀ i, i < md.bits → ibit z i = g (ibit x i) (ibit y i) := by
  have ok := ha.ok
  have hlt := modeOk_lt ok
  obtain ⟨p, rfl, lp, bp, sp⟩ := ha.repr
  obtain ⟨q, rfl, lq, bq, sq⟩ := hb.repr
  have hl : p.length = q.length := by omega
  have hlen : (List.zipWith f p q).length = 2 * E.m := by simp [lp, lq]
  have hby := zipWith_bytes f hl bp bq hf
  refine ⟨_, _, ?_, getIntTarval_denotes ok hlen hby, ?_⟩
  · unfold tvBitwise
    simp [TarVal.mode, ok.twos]
  · intro i hi
    rw [ibit_wrap_lt hi, ibit_of_buf ok hlen hby hi, ← sp, ← sq, ibit_of_buf ok lp bp hi, ibit_of_buf ok lq bq hi]
    exact zipWith_testBit f g hl bp bq hf hfg (by omega)

/-- C03: `tarval_and`. -/
theorem tarval_and_bits {E : TvEnv} {a b : TarVal} {md : Mode} {x y : Int} (ha : Denotes E a md x) (hb : Denotes E b md y) :
    ∃ r z, tarvalAnd a b = some r ∧ Denotes E r md z ∧ ∀ i, i < md.bits → ibit z i = (ibit x i && ibit y i) :=
  bitwise_aux _ _ (· && ·) (fun x y hx _ => and_lt256 x y hx) (fun _ _ _ _ _ _ => Nat.testBit_and _ _ _) ha hb

/-- C03: `tarval_or`. -/
theorem tarval_or_bits {E : TvEnv} {a b : TarVal} {md : Mode} {x y : Int} (ha : Denotes E a md x) (hb : Denotes E b md y) :
    ∃ r z, tarvalOr a b = some r ∧ Denotes E r md z ∧ ∀ i, i < md.bits → ibit z i = (ibit x i || ibit y i) :=
  bitwise_aux _ _ (· || ·) byte_lt (fun _ _ _ _ _ _ => Nat.testBit_or _ _ _) ha hb

/-- C03: `tarval_eor`. -/
theorem tarval_eor_bits {E : TvEnv} {a b : TarVal} {md : Mode} {x y : Int} (ha : Denotes E a md x) (hb : Denotes E b md y) :
    ∃ r z, tarvalEor a b = some r ∧ Denotes E r md z ∧ ∀ i, i < md.bits → ibit z i = (ibit x i ^^ ibit y i) :=
  bitwise_aux _ _ (· ^^ ·) xor_lt256 (fun _ _ _ _ _ _ => Nat.testBit_xor _ _ _) ha hb

/-- C03: `tarval_andnot`. -/
theorem tarval_andnot_bits {E : TvEnv} {a b : TarVal} {md : Mode} {x y : Int} (ha : Denotes E a md x) (hb : Denotes E b md y) :
    ∃ r z, tarvalAndNot a b = some r ∧ Denotes E r md z ∧ ∀ i, i < md.bits → ibit z i = (ibit x i && !ibit y i) :=
  bitwise_aux _ _ (fun a b => a && !b) (fun x y hx _ => and_lt256 x _ hx)
    (fun x y i _ _ hi => by simp only [Nat.testBit_and, Nat.testBit_xor, testBit_255, hi, decide_true, Bool.true_xor]) ha hb

/-- C03: `tarval_ornot`. -/
theorem tarval_ornot_bits {E : TvEnv} {a b : TarVal} {md : Mode} {x y : Int} (ha : Denotes E a md x) (hb : Denotes E b md y) :
    ∃ r z, tarvalOrNot a b = some r ∧ Denotes E r md z ∧ ∀ i, i < md.bits → ibit z i = (ibit x i || !ibit y i) :=
  bitwise_aux _ _ (fun a b => a || !b) (fun x y hx hy => byte_lt _ _ hx (xor_lt256 _ _ (by decide) hy))
    (fun x y i _ _ hi => by simp only [Nat.testBit_or, Nat.testBit_xor, testBit_255, hi, decide_true, Bool.true_xor]) ha hb

/-- C03: `tarval_not`. -/
theorem tarval_not_bits {E : TvEnv} {a : TarVal} {md : Mode} {x : Int} (ha : Denotes E a md x) :
    ∃ r z, tarvalNot a = some r ∧ Denotes E r md z ∧ ∀ i, i < md.bits → ibit z i = !ibit x i := by
  have ok := ha.ok
  have hlt := modeOk_lt ok
  obtain ⟨p, rfl, lp, bp, sp⟩ := ha.repr
  have hlen : (scNot p).length = 2 * E.m := by rw [scNot_length, lp]
  refine ⟨_, _, by unfold tarvalNot; simp only [ok.twos, if_true], getIntTarval_denotes ok hlen (scNot_bytes bp), ?_⟩
  intro i hi
  rw [ibit_wrap_lt hi, ibit_of_buf ok hlen (scNot_bytes bp) hi, ← sp, ibit_of_buf ok lp bp hi, testBit_value (scNot_bytes bp),
    testBit_value bp]
  unfold scNot
  rw [getD_map, if_pos (by omega), Nat.testBit_xor, testBit_255]
  simp [Nat.mod_lt]

/-- C03 on the Boolean mode `mode_b`. -/
theorem tarval_bool_ops (a b : Bool) :
    tarvalAnd (.bool a) (.bool b) = some (.bool (a && b)) ∧ tarvalOr (.bool a) (.bool b) = some (.bool (a || b)) ∧
    tarvalEor (.bool a) (.bool b) = some (.bool (a ^^ b)) ∧ tarvalNot (.bool a) = some (.bool (!a)) ∧
    tarvalAndNot (.bool a) (.bool b) = some (.bool (a && !b)) ∧ tarvalOrNot (.bool a) (.bool b) = some (.bool (a || !b)) := by
  cases a <;> cases b <;> decide

/-- non-vacuity: `0b1100_1000 & ~0b0110_0100 = 0b1000_1000`. -/
example : tarvalAndNot (.int modeBu (200 :: scZero 33)) (.int modeBu (100 :: scZero 33))
    = some (.int modeBu (136 :: scZero 33)) := by decide +kernel

example : ∃ r z, tarvalNot (.int modeBu (200 :: scZero 33)) = some r ∧ Denotes TvEnv.default r modeBu z ∧
    ∀ i, i < 8 → ibit z i = !ibit 200 i := tarval_not_bits denotes_example

end Verif.Props
