import Verif.Model.BackendImm
import Verif.Props.BitFiddle
/-!
# Lemmas: constants and offsets in the backends
-/
namespace Verif.Lemmas.BackendImm
open Verif.Spec.Machine Verif.Model Verif.Model.BackendImm

theorem toInt_cases (v : Word) :
    (v.toNat < 2 ^ 31 ∧ v.toInt = v.toNat) ∨ (2 ^ 31 ≤ v.toNat ∧ v.toInt = v.toNat - 2 ^ 32) := by
  have := v.isLt
  rw [BitVec.toInt_eq_toNat_cond]
  split <;> omega

theorem ofInt_toNat (i : Int) : ((BitVec.ofInt 32 i).toNat : Int) = i % 2 ^ 32 := by
  rw [BitVec.toNat_ofInt]
  omega

theorem ofInt_toInt (v : Word) : BitVec.ofInt 32 v.toInt = v := BitVec.ofInt_toInt

/-! ## RISC-V -/

theorem isSimm12_iff (v : Word) : isSimm12 v = true ↔ -2048 ≤ v.toInt ∧ v.toInt < 2048 := by
  simp [isSimm12]

/-- the two parts of a value, as numbers -/
theorem calcHiLo_spec (val : Word) :
    ∃ hi lo : Int, calcHiLo val = (hi, lo) ∧ 0 ≤ hi ∧ hi < 2 ^ 20 ∧ -2048 ≤ lo ∧ lo < 2048 ∧
      (hi * 4096 + lo) % 2 ^ 32 = val.toNat := by
  have hv := val.isLt
  refine ⟨_, _, rfl, ?_⟩
  have h1 : ((val >>> 12) + ((val >>> 11) &&& 1#32)).toNat = val.toNat / 4096 + val.toNat / 2048 % 2 := by
    rw [BitVec.toNat_add, BitVec.toNat_and, BitVec.toNat_ushiftRight, BitVec.toNat_ushiftRight, Nat.shiftRight_eq_div_pow,
      Nat.shiftRight_eq_div_pow]
    have : (1#32).toNat = 2 ^ 1 - 1 := rfl
    rw [this, Nat.and_two_pow_sub_one_eq_mod]
    omega
  have h0 : val.toNat / 4096 = val.toNat / 2048 / 2 := by rw [Nat.div_div_eq_div_mul]
  generalize hH : (val >>> 12) + ((val >>> 11) &&& 1#32) = H at h1 ⊢
  have hHi := toInt_cases H
  by_cases hc : H.toInt ≥ 1048576
  · rw [if_pos hc]
    have h2 := toInt_cases (val - 0#32 <<< 12)
    have h3 : (val - 0#32 <<< 12).toNat = val.toNat := by simp
    rw [h3] at h2
    simp only [BitVec.toInt_zero]
    omega
  · rw [if_neg hc]
    have h2 := toInt_cases (val - H <<< 12)
    have h3 : (val - H <<< 12).toNat = (2 ^ 32 - H.toNat * 4096 % 2 ^ 32 + val.toNat) % 2 ^ 32 := by
      rw [BitVec.toNat_sub, BitVec.toNat_shiftLeft, Nat.shiftLeft_eq]
    rw [h3] at h2
    omega

theorem rvConstFromImm_eval (val : Word) (env : Nat → Word) : (rvConstFromImm val).eval env = val := by
  obtain ⟨hi, lo, e, h1, h2, h3, h4, h5⟩ := calcHiLo_spec val
  apply BitVec.eq_of_toNat_eq
  have hv := val.isLt
  have e1 := ofInt_toNat (hi * 4096)
  have e2 := ofInt_toNat lo
  unfold rvConstFromImm
  rw [e]
  simp only
  by_cases a : hi = 0 <;> by_cases b : lo = 0 <;> simp [a, b, Rv.eval, BitVec.toNat_add] <;> omega

theorem rvConstFromImm_ok (val : Word) : (rvConstFromImm val).ok := by
  obtain ⟨hi, lo, e, h1, h2, h3, h4, h5⟩ := calcHiLo_spec val
  unfold rvConstFromImm
  rw [e]
  simp only
  by_cases a : hi = 0 <;> by_cases b : lo = 0 <;> simp [a, b, Rv.ok] <;> omega

theorem rvConstFromImm_size (val : Word) : (rvConstFromImm val).size ≤ 2 := by
  unfold rvConstFromImm
  by_cases a : (calcHiLo val).1 = 0 <;> by_cases b : (calcHiLo val).2 = 0 <;> simp [a, b, Rv.size]

/-- the upper part is zero only for values of twelve bits -/
theorem calcHiLo_zero (val : Word) : (calcHiLo val).1 = 0 ↔ isSimm12 val = true := by
  obtain ⟨hi, lo, e, h1, h2, h3, h4, h5⟩ := calcHiLo_spec val
  rw [e, isSimm12_iff]
  have := toInt_cases val
  simp only
  omega

/-! ## SPARC -/

theorem and_3ff (v : Word) : (v &&& 0x3ff#32).toNat = v.toNat % 1024 := by
  rw [BitVec.toNat_and]
  have : (0x3ff#32).toNat = 2 ^ 10 - 1 := rfl
  rw [this, Nat.and_two_pow_sub_one_eq_mod]

theorem or_low {a b k : Nat} (h : b < 2 ^ k) : (a * 2 ^ k) ||| b = a * 2 ^ k + b := by
  have := Nat.shiftLeft_add_eq_or_of_lt h a
  rw [Nat.shiftLeft_eq] at this
  exact this.symm

theorem sparcConstFromImm_eval (v : Word) (env : Nat → Word) : (sparcConstFromImm v).eval env = v := by
  have hv := v.isLt
  have h := and_3ff v
  unfold sparcConstFromImm
  apply BitVec.eq_of_toNat_eq
  by_cases h0 : v &&& 0x3ff#32 = 0#32
  · have : v.toNat % 1024 = 0 := by rw [← h, h0]; rfl
    simp [h0, Sparc.eval]
    omega
  · simp only [ne_eq, h0, not_false_eq_true, if_true, Sparc.eval, ofInt_toInt, BitVec.toNat_or, h, BitVec.toNat_ofNat]
    rw [Nat.mod_eq_of_lt (by omega), show 1024 = 2 ^ 10 from rfl, or_low (Nat.mod_lt _ (by decide))]
    omega

theorem sparcConstFromImm_ok (v : Word) : (sparcConstFromImm v).ok := by
  have h := and_3ff v
  have h2 := toInt_cases (v &&& 0x3ff#32)
  unfold sparcConstFromImm
  by_cases h0 : v &&& 0x3ff#32 = 0#32
  · simp [h0, Sparc.ok]
  · simp only [ne_eq, h0, not_false_eq_true, if_true, Sparc.ok]
    exact ⟨trivial, by omega, by omega⟩

theorem sparcImm_iff (v : Int) : sparcImm v = true ↔ -4096 ≤ v ∧ v ≤ 4095 := by simp [sparcImm]

/-! ## ARM -/

theorem rotateRight_def (x : Word) {r : Nat} (h : r < 32) : x.rotateRight r = (x >>> r) ||| (x <<< (32 - r)) := by
  rw [BitVec.rotateRight_eq_rotateRightAux_of_lt h, BitVec.rotateRightAux]

/-- rotating right by `32 - p` moves the value up by `p` bits if nothing is lost -/
theorem armImm_shift {b p : Nat} (hp : p < 32) (hb : b * 2 ^ p < 2 ^ 32) :
    armImm b ((32 - p) % 32) = BitVec.ofNat 32 (b * 2 ^ p) := by
  have hb32 : b < 2 ^ 32 := Nat.lt_of_le_of_lt (Nat.le_mul_of_pos_right _ (Nat.two_pow_pos p)) hb
  unfold armImm
  rw [rotateRight_def _ (Nat.mod_lt _ (by decide))]
  apply BitVec.eq_of_toNat_eq
  rw [BitVec.toNat_or, BitVec.toNat_ushiftRight, BitVec.toNat_shiftLeft, BitVec.toNat_ofNat, BitVec.toNat_ofNat,
    Nat.mod_eq_of_lt hb32, Nat.mod_eq_of_lt hb, Nat.shiftRight_eq_div_pow, Nat.shiftLeft_eq]
  by_cases h0 : p = 0
  · subst h0
    have : b * 2 ^ (32 - (32 - 0) % 32) % 2 ^ 32 = 0 := Nat.mul_mod_left b (2 ^ 32)
    rw [this]
    simp
  · have e : (32 - p) % 32 = 32 - p := Nat.mod_eq_of_lt (by omega)
    rw [e]
    have e2 : 32 - (32 - p) = p := by omega
    rw [e2, Nat.mod_eq_of_lt hb]
    have : b / 2 ^ (32 - p) = 0 := by
      apply Nat.div_eq_of_lt
      have : 2 ^ 32 = 2 ^ (32 - p) * 2 ^ p := by rw [← Nat.pow_add]; congr 1; omega
      rw [this] at hb
      exact Nat.lt_of_mul_lt_mul_right hb
    rw [this, Nat.zero_or]

/-- the number the emitter prints is the value of the operand -/
theorem armEmitImm_eq (b : Nat) {r : Nat} (h : r < 32) : armEmitImm b r = armImm b r := by
  unfold armEmitImm armImm
  rw [rotateRight_def _ h]
  by_cases h0 : r = 0
  · subst h0
    apply BitVec.eq_of_toNat_eq
    simp only [BitVec.toNat_or, BitVec.toNat_ushiftRight, BitVec.toNat_shiftLeft, BitVec.toNat_ofNat]
    have : (b % 2 ^ 32) <<< (32 - 0) % 2 ^ 32 = 0 := by
      rw [Nat.shiftLeft_eq]; exact Nat.mul_mod_left _ _
    rw [this]
    have e : ((32 - 0) &&& 31 : Nat) = 0 := by decide
    rw [e]
    simp
  · have : ((32 - r) &&& 31 : Nat) = 32 - r := by
      rw [show 31 = 2 ^ 5 - 1 from rfl, Nat.and_two_pow_sub_one_eq_mod]
      omega
    rw [this]

/-- a list of bytes with rotations that stands for the sum `s`; the first byte is at bit `k` or above -/
inductive Parts : Nat → List (Nat × Nat) → Nat → Prop
  | nil (k : Nat) : Parts k [] 0
  | cons {k p b s : Nat} {l : List (Nat × Nat)} : k ≤ p → p < 32 → p % 2 = 0 → b < 256 → 0 < b →
      b * 2 ^ p < 2 ^ 32 → Parts (p + 8) l s → Parts k ((b, (32 - p) % 32) :: l) (b * 2 ^ p + s)

theorem Parts.dvd {k s : Nat} {l : List (Nat × Nat)} (h : Parts k l s) : 2 ^ k ∣ s := by
  induction h with
  | nil => exact Nat.dvd_zero _
  | @cons k p b s l h1 _ _ _ _ _ _ ih =>
    refine Nat.dvd_add (Nat.dvd_trans (Nat.pow_dvd_pow 2 h1) (Nat.dvd_mul_left _ _)) ?_
    exact Nat.dvd_trans (Nat.pow_dvd_pow 2 (by omega)) ih

theorem Parts.length {k s : Nat} {l : List (Nat × Nat)} (h : Parts k l s) : 8 * l.length + k ≤ 39 ∨ l = [] := by
  induction h with
  | nil => exact Or.inr rfl
  | cons h1 h2 h3 _ _ _ _ ih =>
    refine Or.inl ?_
    rcases ih with ih | ih
    · simp only [List.length_cons]; omega
    · subst ih; simp; omega

theorem Parts.field {k s : Nat} {l : List (Nat × Nat)} (h : Parts k l s) : ∀ q ∈ l, ArmField q.1 q.2 := by
  induction h with
  | nil => simp
  | @cons k p b s l h1 h2 h3 h4 _ _ _ ih =>
    intro q hq
    rcases List.mem_cons.1 hq with rfl | hq
    · exact ⟨h4, Nat.mod_lt _ (by decide), by simp only; omega⟩
    · exact ih q hq

/-- adding the parts -/
theorem Parts.add {k s : Nat} {l : List (Nat × Nat)} (h : Parts k l s) (e : Arm) (env : Nat → Word) :
    (l.foldl (fun e p => Arm.add e p.1 p.2) e).eval env = e.eval env + BitVec.ofNat 32 s := by
  induction h generalizing e with
  | nil => simp
  | cons h1 h2 _ _ _ h5 _ ih =>
    rw [List.foldl_cons, ih, Arm.eval, armImm_shift h2 h5, BitVec.ofNat_add, BitVec.add_assoc]

theorem Parts.sub {k s : Nat} {l : List (Nat × Nat)} (h : Parts k l s) (e : Arm) (env : Nat → Word) :
    (l.foldl (fun e p => Arm.sub e p.1 p.2) e).eval env = e.eval env - BitVec.ofNat 32 s := by
  induction h generalizing e with
  | nil => simp
  | cons h1 h2 _ _ _ h5 _ ih =>
    rw [List.foldl_cons, ih, Arm.eval, armImm_shift h2 h5, BitVec.ofNat_add, BitVec.sub_eq_add_neg, BitVec.sub_eq_add_neg,
      BitVec.sub_eq_add_neg, BitVec.neg_add, BitVec.sub_eq_add_neg, BitVec.add_assoc]

/-- or-ing the parts -/
theorem Parts.orr {k s : Nat} {l : List (Nat × Nat)} (h : Parts k l s) (e : Arm) (env : Nat → Word) {a : Nat}
    (ha : a < 2 ^ k) (hs : a + s < 2 ^ 32) (he : e.eval env = BitVec.ofNat 32 a) :
    (l.foldl (fun e p => Arm.orr e p.1 p.2) e).eval env = BitVec.ofNat 32 (a + s) := by
  induction h generalizing e a with
  | nil => simpa using he
  | @cons k p b s l h1 h2 _ h4 _ h5 _ ih =>
    rw [List.foldl_cons]
    have hap : a < 2 ^ p := Nat.lt_of_lt_of_le ha (Nat.pow_le_pow_right (by decide) h1)
    have e1 : (Arm.orr e b ((32 - p) % 32)).eval env = BitVec.ofNat 32 (a + b * 2 ^ p) := by
      rw [Arm.eval, armImm_shift h2 h5, he]
      apply BitVec.eq_of_toNat_eq
      rw [BitVec.toNat_or, BitVec.toNat_ofNat, BitVec.toNat_ofNat, BitVec.toNat_ofNat, Nat.mod_eq_of_lt (by omega),
        Nat.mod_eq_of_lt h5, Nat.mod_eq_of_lt (by omega), Nat.or_comm, or_low hap, Nat.add_comm]
    have := ih _ (a := a + b * 2 ^ p) (by
      rw [Nat.pow_add]
      have : b * 2 ^ p ≤ 255 * 2 ^ p := Nat.mul_le_mul_right _ (by omega)
      omega) (by omega) e1
    rw [this, Nat.add_assoc]

/-- clearing the parts -/
theorem Parts.bic {k s : Nat} {l : List (Nat × Nat)} (h : Parts k l s) (e : Arm) (env : Nat → Word) {a : Nat}
    (ha : a < 2 ^ k) (hs : a + s < 2 ^ 32) (he : e.eval env = ~~~ BitVec.ofNat 32 a) :
    (l.foldl (fun e p => Arm.bic e p.1 p.2) e).eval env = ~~~ BitVec.ofNat 32 (a + s) := by
  induction h generalizing e a with
  | nil => simpa using he
  | @cons k p b s l h1 h2 _ h4 _ h5 _ ih =>
    rw [List.foldl_cons]
    have hap : a < 2 ^ p := Nat.lt_of_lt_of_le ha (Nat.pow_le_pow_right (by decide) h1)
    have e1 : (Arm.bic e b ((32 - p) % 32)).eval env = ~~~ BitVec.ofNat 32 (a + b * 2 ^ p) := by
      rw [Arm.eval, armImm_shift h2 h5, he, ← BitVec.not_or]
      congr 1
      apply BitVec.eq_of_toNat_eq
      rw [BitVec.toNat_or, BitVec.toNat_ofNat, BitVec.toNat_ofNat, BitVec.toNat_ofNat, Nat.mod_eq_of_lt (by omega),
        Nat.mod_eq_of_lt h5, Nat.mod_eq_of_lt (by omega), Nat.or_comm, or_low hap, Nat.add_comm]
    have := ih _ (a := a + b * 2 ^ p) (by
      rw [Nat.pow_add]
      have : b * 2 ^ p ≤ 255 * 2 ^ p := Nat.mul_le_mul_right _ (by omega)
      omega) (by omega) e1
    rw [this, Nat.add_assoc]

theorem and_3 (v : Word) : v &&& 3#32 = 0#32 ↔ v.toNat % 4 = 0 := by
  have h : (v &&& 3#32).toNat = v.toNat % 4 := by
    rw [BitVec.toNat_and]
    have : (3#32).toNat = 2 ^ 2 - 1 := rfl
    rw [this, Nat.and_two_pow_sub_one_eq_mod]
  constructor
  · intro e; rw [← h, e]; rfl
  · intro e; apply BitVec.eq_of_toNat_eq; rw [h, e]; rfl

/-- the inner loop ends with a value that has one of its two lowest bits set -/
theorem stripZeros_spec {f : Nat} {v : Word} {i : Nat} (hv : 0 < v.toNat) (hf : v.toNat < 4 ^ f) :
    ∃ (v' : Word) (i' : Nat), stripZeros f v i = some (v', i') ∧ v'.toNat * 2 ^ i' = v.toNat * 2 ^ i ∧ v'.toNat % 4 ≠ 0 ∧
      i ≤ i' ∧ i' % 2 = i % 2 ∧ (v.toNat % 4 = 0 ↔ i + 2 ≤ i') := by
  induction f generalizing v i with
  | zero => simp at hf; omega
  | succ f ih =>
    unfold stripZeros
    by_cases h : v &&& 3#32 = 0#32
    · rw [if_pos h]
      have h4 := (and_3 v).1 h
      have e : (v >>> 2).toNat = v.toNat / 4 := by
        rw [BitVec.toNat_ushiftRight, Nat.shiftRight_eq_div_pow]
      have hlt : v.toNat / 4 < 4 ^ f := by
        rw [Nat.div_lt_iff_lt_mul (by decide), ← Nat.pow_succ]; exact hf
      obtain ⟨v', i', h1, h2, h3, h5, h6, -⟩ := ih (v := v >>> 2) (i := i + 2) (by omega) (by rw [e]; exact hlt)
      refine ⟨v', i', h1, ?_, h3, by omega, by omega, fun _ => by omega, fun _ => h4⟩
      rw [h2, e, Nat.pow_add, show (2 : Nat) ^ 2 = 4 from rfl, Nat.mul_comm (2 ^ i) 4, ← Nat.mul_assoc,
        Nat.div_mul_cancel (Nat.dvd_of_mod_eq_zero h4)]
    · rw [if_neg h]
      exact ⟨v, i, rfl, rfl, fun e => h ((and_3 v).2 e), Nat.le_refl _, rfl, fun e => absurd ((and_3 v).2 e) h,
        fun e => by omega⟩

theorem tmod_rot {i : Nat} (h : i < 32) : ((((32 - (i : Int)).tmod 32) % 256).toNat) = (32 - i) % 32 := by
  by_cases h0 : i = 0
  · subst h0; rfl
  · rw [Int.tmod_eq_of_lt (by omega) (by omega), Nat.mod_eq_of_lt (by omega)]
    omega

/-- the outer loop appends the parts of the value -/
theorem wordLoop_spec {f : Nat} {v : Word} {i : Nat} {acc : List (Nat × Nat)} (hv : 0 < v.toNat)
    (hb : v.toNat * 2 ^ i < 2 ^ 32) (hi : i % 2 = 0) (hacc : 8 * acc.length ≤ i) (hf : 32 < f + i) :
    ∃ l, wordLoop f v i acc = some (acc ++ l) ∧ Parts i l (v.toNat * 2 ^ i) ∧ l ≠ [] ∧
      (v.toNat % 4 = 0 → Parts (i + 2) l (v.toNat * 2 ^ i)) ∧
      (v.toNat % 4 ≠ 0 → ∃ b rest, l = (b, (32 - i) % 32) :: rest) := by
  have hi32 : ∀ {w j : Nat}, 0 < w → w * 2 ^ j < 2 ^ 32 → j < 32 := by
    intro w j hw h
    refine Nat.lt_of_not_le fun hle => ?_
    have : 2 ^ 32 ≤ 2 ^ j := Nat.pow_le_pow_right (by decide) hle
    have : 2 ^ j ≤ w * 2 ^ j := Nat.le_mul_of_pos_left _ hw
    omega
  induction f generalizing v i acc with
  | zero =>
    have := hi32 hv hb
    omega
  | succ f ih =>
    obtain ⟨v', i', h1, h2, h3, h4, h5, h6⟩ := stripZeros_spec (f := 17) (i := i) hv (by have := v.isLt; omega)
    have hv' : 0 < v'.toNat := by omega
    have hi' : i' < 32 := hi32 hv' (by rw [h2]; exact hb)
    unfold wordLoop
    rw [h1]
    simp only
    have hlen : ¬ acc.length ≥ 4 := by omega
    rw [if_neg hlen]
    have eb : (v' &&& 0xFF#32).toNat = v'.toNat % 256 := by
      rw [BitVec.toNat_and]
      have : (0xFF#32).toNat = 2 ^ 8 - 1 := rfl
      rw [this, Nat.and_two_pow_sub_one_eq_mod]
    have es : (v' >>> 8).toNat = v'.toNat / 256 := by rw [BitVec.toNat_ushiftRight, Nat.shiftRight_eq_div_pow]
    rw [eb, tmod_rot hi']
    have hsplit : v'.toNat * 2 ^ i' = v'.toNat % 256 * 2 ^ i' + v'.toNat / 256 * 2 ^ (i' + 8) := by
      have : v'.toNat = v'.toNat % 256 + v'.toNat / 256 * 256 := by omega
      have e2 : (v'.toNat % 256 + v'.toNat / 256 * 256) * 2 ^ i' =
          v'.toNat % 256 * 2 ^ i' + v'.toNat / 256 * (2 ^ i' * 2 ^ 8) := by
        rw [Nat.add_mul, Nat.mul_assoc, Nat.mul_comm 256, show (2 : Nat) ^ 8 = 256 from rfl]
      rw [Nat.pow_add, ← e2, ← this]
    have hlow : v'.toNat % 256 * 2 ^ i' < 2 ^ 32 := by omega
    by_cases hz : v' >>> 8 = 0#32
    · rw [if_pos hz]
      have hz' : v'.toNat / 256 = 0 := by rw [← es, hz]; rfl
      rw [← h2, hsplit, hz', Nat.zero_mul]
      refine ⟨_, rfl, Parts.cons h4 hi' (by omega) (by omega) (by omega) hlow (Parts.nil _), by simp, fun h => ?_,
        fun h => ?_⟩
      · exact Parts.cons (h6.1 h) hi' (by omega) (by omega) (by omega) hlow (Parts.nil _)
      · have : i' = i := by have := mt h6.2 h; omega
        subst this
        exact ⟨_, _, rfl⟩
    · rw [if_neg hz]
      have hz' : 0 < (v' >>> 8).toNat := by
        refine Nat.pos_of_ne_zero fun h => hz ?_
        apply BitVec.eq_of_toNat_eq
        rw [h]; rfl
      obtain ⟨l, g1, g2, g3, -⟩ := ih (v := v' >>> 8) (i := i' + 8)
        (acc := acc ++ [(v'.toNat % 256, (32 - i') % 32)]) hz' (by rw [es]; omega) (by omega)
        (by rw [List.length_append]; simp; omega) (by omega)
      rw [← h2, hsplit]
      rw [es] at g2
      refine ⟨(v'.toNat % 256, (32 - i') % 32) :: l, ?_, Parts.cons h4 hi' (by omega) (by omega) (by omega) hlow g2,
        by simp, fun h => ?_, fun h => ?_⟩
      · rw [g1, List.append_assoc]; rfl
      · exact Parts.cons (h6.1 h) hi' (by omega) (by omega) (by omega) hlow g2
      · have : i' = i := by have := mt h6.2 h; omega
        subst this
        exact ⟨_, _, rfl⟩

/-- the parts of a value other than zero -/
theorem armVals_parts (value : Word) (h0 : 0 < value.toNat) :
    ∃ l, armVals value = some l ∧ Parts 0 l value.toNat ∧ l ≠ [] := by
  unfold armVals
  by_cases h : value.toNat ≤ 0xFF
  · rw [if_pos h]
    refine ⟨_, rfl, ?_, by simp⟩
    have := Parts.cons (k := 0) (p := 0) (b := value.toNat) (s := 0) (l := []) (by omega) (by omega) (by omega) (by omega)
      h0 (by omega) (Parts.nil _)
    simpa using this
  · rw [if_neg h]
    obtain ⟨l, h1, h2, h3, -⟩ := wordLoop_spec (f := 33) (i := 0) (acc := []) h0 (by have := value.isLt; omega) rfl (by simp)
      (by omega)
    exact ⟨l, by simpa using h1, by simpa using h2, h3⟩

/-- with more than eight bits: the first rotation is zero exactly if the value is no multiple of four -/
theorem armVals_big {value : Word} (h : 0xFF < value.toNat) :
    ∃ l, armVals value = some l ∧ Parts 0 l value.toNat ∧ l ≠ [] ∧ (value.toNat % 4 = 0 → Parts 2 l value.toNat) ∧
      (value.toNat % 4 ≠ 0 → ∃ b rest, l = (b, 0) :: rest ∧ rest ≠ []) := by
  unfold armVals
  rw [if_neg (by omega)]
  obtain ⟨l, h1, h2, h3, h4, h5⟩ := wordLoop_spec (f := 33) (i := 0) (acc := []) (v := value) (by omega)
    (by have := value.isLt; omega) rfl (by simp) (by omega)
  refine ⟨l, by simpa using h1, by simpa using h2, h3, by simpa using h4, fun hm => ?_⟩
  obtain ⟨b, rest, e⟩ := h5 hm
  refine ⟨b, rest, e, fun e2 => ?_⟩
  subst e2
  subst e
  simp only [Nat.pow_zero, Nat.mul_one] at h2
  generalize hs : value.toNat = s at h2 h
  generalize hr : (32 - 0) % 32 = r at h2
  cases h2 with
  | @cons _ p _ s' _ g1 g2 g3 g4 g5 g6 g7 =>
    cases g7
    have : p = 0 := by simp at hr; omega
    subst this
    simp at h
    omega

theorem armVals_zero : armVals 0#32 = some [(0, 0)] := by decide

/-! ## encoding as one operand -/

/-- what is rotated left and then right is unchanged -/
theorem rotate_back (val : Word) {rot : Nat} (h0 : 0 < rot) (h : rot < 32) :
    (((val >>> (32 - rot)) ||| (val <<< rot) : Word)).rotateRight rot = val := by
  rw [rotateRight_def _ h]
  apply BitVec.eq_of_getLsbD_eq
  intro i hi
  simp only [BitVec.getLsbD_or, BitVec.getLsbD_ushiftRight, BitVec.getLsbD_shiftLeft]
  by_cases hlt : i < 32 - rot
  · have e1 : decide (rot + i < 32) = true := decide_eq_true (by omega)
    have e2 : val.getLsbD (32 - rot + (rot + i)) = false := BitVec.getLsbD_of_ge _ _ (by omega)
    have e3 : decide (rot + i < rot) = false := decide_eq_false (by omega)
    have e4 : decide (i < 32 - rot) = true := decide_eq_true hlt
    rw [e1, e2, e3, e4, show rot + i - rot = i by omega]
    simp
  · have e1 : decide (rot + i < 32) = false := decide_eq_false (by omega)
    have e2 : val.getLsbD (32 - rot + (rot + i)) = false := BitVec.getLsbD_of_ge _ _ (by omega)
    have e4 : decide (i < 32 - rot) = false := decide_eq_false hlt
    have e5 : decide (i < 32) = true := decide_eq_true hi
    have e6 : decide (i - (32 - rot) < rot) = true := decide_eq_true (by omega)
    rw [e1, e2, e4, e5, e6, show 32 - rot + (i - (32 - rot)) = i by omega]
    simp

theorem armImm_self {v : Word} (b : Nat) (h : v.toNat = b) (r : Nat) : armImm b r = v.rotateRight r := by
  unfold armImm
  rw [← h, BitVec.ofNat_toNat, BitVec.setWidth_eq]

/-- what the positions of the lowest and the highest bit mean -/
theorem low_high {val : Word} (h : 0xff < val.toNat) :
    ∃ q low high : Nat, low = ntzP val.toNat / 2 * 2 ∧ high = (32 - nlzP val.toNat + 1) / 2 * 2 ∧
      val.toNat = q * 2 ^ low ∧ low < 32 ∧ val.toNat < 2 ^ high ∧ high ≤ 32 ∧ low < high := by
  have hv := val.isLt
  obtain ⟨n1, n2, n3⟩ := Verif.Props.nlz_portable hv
  rcases Verif.Props.ntz_portable hv with ⟨e, -⟩ | ⟨hne, d1, -⟩
  · omega
  · have ht : ntzP val.toNat < 32 := by
      refine Nat.lt_of_not_le fun hle => ?_
      have : 2 ^ 32 ≤ val.toNat := Nat.le_trans (Nat.pow_le_pow_right (by decide) hle) (Nat.le_of_dvd (by omega) d1)
      omega
    obtain ⟨q, hq⟩ := Nat.dvd_trans (Nat.pow_dvd_pow 2 (show ntzP val.toNat / 2 * 2 ≤ ntzP val.toNat by omega)) d1
    have hhi : val.toNat < 2 ^ ((32 - nlzP val.toNat + 1) / 2 * 2) :=
      Nat.lt_of_lt_of_le n2 (Nat.pow_le_pow_right (by decide) (by omega))
    refine ⟨q, _, _, rfl, rfl, hq.trans (Nat.mul_comm _ _), by omega, hhi, by omega, ?_⟩
    refine Nat.lt_of_not_le fun hle => ?_
    have h1 : 2 ^ ((32 - nlzP val.toNat + 1) / 2 * 2) ≤ 2 ^ (ntzP val.toNat / 2 * 2) := Nat.pow_le_pow_right (by decide) hle
    have h2 : 0 < q := by
      rcases Nat.eq_zero_or_pos q with h0 | h0
      · rw [h0, Nat.mul_zero] at hq; omega
      · exact h0
    have h3 : 2 ^ (ntzP val.toNat / 2 * 2) ≤ val.toNat :=
      Nat.le_trans (Nat.le_mul_of_pos_right _ h2) (Nat.le_of_eq hq.symm)
    omega

theorem tryEncodeVal_sound {val : Word} {b r : Nat} (h : tryEncodeVal val = some (b, r)) :
    ArmField b r ∧ armImm b r = val := by
  unfold tryEncodeVal at h
  by_cases h1 : val.toNat ≤ 0xff
  · rw [if_pos h1] at h
    cases h
    refine ⟨⟨by omega, by decide, by decide⟩, ?_⟩
    rw [armImm_self _ rfl]
    apply BitVec.eq_of_toNat_eq
    rw [rotateRight_def _ (by decide)]
    simp
  · rw [if_neg h1] at h
    simp only at h
    obtain ⟨q, low, high, e1, e2, hq, hl, hh, hh32, hlh⟩ := low_high (val := val) (by omega)
    rw [← e1, ← e2] at h
    by_cases h2 : high - low ≤ 8
    · rw [if_pos h2] at h
      have es : (val >>> low).toNat = q := by
        rw [BitVec.toNat_ushiftRight, Nat.shiftRight_eq_div_pow, hq, Nat.mul_div_cancel _ (Nat.two_pow_pos _)]
      have hq8 : q < 256 := by
        have : q * 2 ^ low < 2 ^ 8 * 2 ^ low := by
          rw [← hq, ← Nat.pow_add]
          exact Nat.lt_of_lt_of_le hh (Nat.pow_le_pow_right (by decide) (by omega))
        exact Nat.lt_of_mul_lt_mul_right this
      rw [es, Nat.mod_eq_of_lt hq8] at h
      have hlow : low ≠ 0 := by
        intro h0
        rw [h0] at hq
        omega
      have hev : low % 2 = 0 := by omega
      have hb : q = b := by cases h; rfl
      have hr : r = 32 - low := by cases h; rfl
      subst hb hr
      refine ⟨⟨hq8, by omega, by omega⟩, ?_⟩
      have := armImm_shift (b := q) hl (by rw [← hq]; exact val.isLt)
      rw [Nat.mod_eq_of_lt (by omega)] at this
      rw [this, ← hq, BitVec.ofNat_toNat, BitVec.setWidth_eq]
    · rw [if_neg h2] at h
      by_cases h3 : high > 24
      · rw [if_pos h3] at h
        by_cases h4 : ((val >>> (32 - (34 - high))) ||| (val <<< (34 - high))).toNat ≤ 0xff
        · rw [if_pos h4] at h
          have hev : high % 2 = 0 := by omega
          have hrot := rotate_back val (rot := 34 - high) (by omega) (by omega)
          have hb : b = ((val >>> (32 - (34 - high))) ||| (val <<< (34 - high))).toNat := by cases h; rfl
          have hr : r = 34 - high := by cases h; rfl
          subst hr
          refine ⟨⟨by omega, by omega, by omega⟩, ?_⟩
          rw [armImm_self b hb.symm, hrot]
        · rw [if_neg h4] at h
          exact nomatch h
      · rw [if_neg h3] at h
        exact nomatch h

/-- a value that is a byte, shifted by an even number of bits, is encoded -/
theorem tryEncodeVal_complete {val : Word} {b p : Nat} (hb : b < 256) (hp : p % 2 = 0) (he : val.toNat = b * 2 ^ p) :
    (tryEncodeVal val).isSome := by
  unfold tryEncodeVal
  by_cases h1 : val.toNat ≤ 0xff
  · rw [if_pos h1]; rfl
  · rw [if_neg h1]
    simp only
    have hv := val.isLt
    obtain ⟨n1, n2, n3⟩ := Verif.Props.nlz_portable hv
    rcases Verif.Props.ntz_portable hv with ⟨e, -⟩ | ⟨hne, d1, d2⟩
    · omega
    · have hlow : p ≤ ntzP val.toNat := by
        refine Nat.le_of_not_lt fun hlt => d2 ?_
        have := Nat.dvd_trans (Nat.pow_dvd_pow 2 hlt) (Nat.dvd_mul_left (2 ^ p) b)
        rwa [← he] at this
      have hlt : val.toNat < 2 ^ (p + 8) := by
        rw [he, Nat.pow_add, Nat.mul_comm]
        exact Nat.mul_lt_mul_of_pos_left (by omega) (Nat.two_pow_pos _)
      have hhigh : 32 - nlzP val.toNat ≤ p + 8 := by
        refine Nat.le_of_not_lt fun h => ?_
        have := n3 (by omega)
        have : 2 ^ (p + 8) ≤ 2 ^ (31 - nlzP val.toNat) := Nat.pow_le_pow_right (by decide) (by omega)
        omega
      rw [if_pos (by omega)]
      rfl

/-- comparing with a constant by adding its negation sets the same flags, unless the negation is the
constant itself -/
theorem cmn_flags {x val : Word} (h0 : val.toNat ≠ 0) (h1 : val.toNat ≠ 2 ^ 31) : addFlags x (-val) = subFlags x val := by
  have e : x + -val = x - val := (BitVec.sub_eq_add_neg _ _).symm
  have hv := val.isLt
  have hx := x.isLt
  have hn : (-val).toNat = 2 ^ 32 - val.toNat := by
    rw [BitVec.toNat_neg, Nat.mod_eq_of_lt (by omega)]
  have t1 := toInt_cases val
  have t2 := toInt_cases (-val)
  rw [hn] at t2
  have hi : (-val).toInt = -val.toInt := by omega
  unfold addFlags subFlags
  rw [e, hn, hi]
  congr 1
  · exact decide_eq_decide.2 (by omega)

end Verif.Lemmas.BackendImm
