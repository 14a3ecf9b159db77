import Verif.Lemmas.Bytes
import Verif.Model.StrCalc
import Mathlib.Algebra.Order.Ring.Abs
import Mathlib.Tactic.Positivity
/-! Helper lemmas: the arithmetic kernels of strcalc refine arithmetic modulo `256^n`. -/
namespace Verif.Model
open Verif.Spec

/-! ### zero -/
theorem scZero_length (n : Nat) : (scZero n).length = n := by simp [scZero]
theorem scZero_bytes (n : Nat) : Bytes (scZero n) := Bytes.replicate (by decide)
theorem scZero_value (n : Nat) : value (scZero n) = 0 := value_replicate_zero n

/-! ### not / inc / neg -/
theorem xor255 {b : Nat} (h : b < 256) : b ^^^ 255 = 255 - b := by
  apply Nat.eq_of_testBit_eq
  intro i
  have h2 := Nat.testBit_two_pow_sub_succ (x := b) (n := 8) h i
  have h3 : 255 - b = 2 ^ 8 - (b + 1) := by omega
  rw [h3, h2, Nat.testBit_xor, show (255:Nat) = 2^8 - 1 from rfl, Nat.testBit_two_pow_sub_one]
  by_cases hi : i < 8
  · simp [hi]
  · have : b.testBit i = false := Nat.testBit_lt_two_pow (lt_of_lt_of_le h (by
      calc 256 = 2^8 := rfl
        _ ≤ 2^i := Nat.pow_le_pow_right (by decide) (by omega)))
    simp [hi, this]

theorem scNot_length (v : List Nat) : (scNot v).length = v.length := by simp [scNot]

theorem scNot_bytes {v : List Nat} (h : Bytes v) : Bytes (scNot v) := by
  intro b hb
  simp only [scNot, List.mem_map] at hb
  obtain ⟨a, ha, rfl⟩ := hb
  rw [xor255 (h a ha)]; omega

theorem scNot_value {v : List Nat} (h : Bytes v) : value (scNot v) + value v + 1 = 256 ^ v.length := by
  induction v with
  | nil => rfl
  | cons d ds ih =>
    rw [bytes_cons] at h
    have := ih h.2
    simp only [scNot, List.map_cons, value, List.length_cons, Nat.pow_succ] at *
    rw [xor255 h.1]; omega

theorem scInc_length (v : List Nat) : (scInc v).length = v.length := by
  induction v with
  | nil => rfl
  | cons d ds ih => unfold scInc; split <;> simp [ih]

theorem scInc_bytes {v : List Nat} (h : Bytes v) : Bytes (scInc v) := by
  induction v with
  | nil => exact h
  | cons d ds ih =>
    rw [bytes_cons] at h
    unfold scInc; split
    · exact h.2.cons (by omega)
    · exact (ih h.2).cons (by decide)

theorem scInc_value {v : List Nat} (h : Bytes v) :
    value (scInc v) = (value v + 1) % 256 ^ v.length := by
  induction v with
  | nil => simp [scInc, value]
  | cons d ds ih =>
    have hb := h
    rw [bytes_cons] at h
    have hlt := value_lt h.2
    unfold scInc; split
    · rw [Nat.mod_eq_of_lt]
      · simp only [value]; omega
      · simp only [value, List.length_cons, Nat.pow_succ]; omega
    · have hd : d = 255 := by omega
      subst hd
      simp only [value, ih h.2, List.length_cons, Nat.pow_succ]
      rw [show 255 + 256 * value ds + 1 = 256 * (value ds + 1) by ring,
        show 256 ^ ds.length * 256 = 256 * 256 ^ ds.length by ring, Nat.mul_mod_mul_left]
      omega

theorem scNeg_length (v : List Nat) : (scNeg v).length = v.length := by
  rw [scNeg, scInc_length, scNot_length]

theorem scNeg_bytes {v : List Nat} (h : Bytes v) : Bytes (scNeg v) := scInc_bytes (scNot_bytes h)

theorem scNeg_value {v : List Nat} (h : Bytes v) :
    value (scNeg v) = (256 ^ v.length - value v) % 256 ^ v.length := by
  rw [scNeg, scInc_value (scNot_bytes h), scNot_length]
  have := scNot_value h
  congr 1; omega

/-! ### add / sub -/
theorem scAddLoop_length {a b : List Nat} (hl : a.length = b.length) (c : Nat) :
    (scAddLoop a b c).length = a.length := by
  induction a generalizing b c with
  | nil => rfl
  | cons x xs ih => cases b with
    | nil => simp at hl
    | cons y ys => simp only [scAddLoop, List.length_cons]; rw [ih (by simpa using hl)]

theorem scAddLoop_bytes (a b : List Nat) (c : Nat) : Bytes (scAddLoop a b c) := by
  induction a generalizing b c with
  | nil => exact Bytes.nil
  | cons x xs ih => cases b with
    | nil => exact Bytes.nil
    | cons y ys => exact (ih _ _).cons (Nat.mod_lt _ (by decide))

theorem scAddLoop_value {a b : List Nat} (hl : a.length = b.length) (c : Nat) :
    value (scAddLoop a b c) = (value a + value b + c) % 256 ^ a.length := by
  induction a generalizing b c with
  | nil => simp [scAddLoop, value, Nat.mod_one]
  | cons x xs ih => cases b with
    | nil => simp at hl
    | cons y ys =>
      simp only [scAddLoop, value, List.length_cons]
      rw [ih (by simpa using hl)]
      rw [Nat.pow_succ, Nat.mul_comm (256 ^ xs.length) 256, Nat.mod_mul]
      have e1 : (x + 256 * value xs + (y + 256 * value ys) + c) % 256 = (x + y + c) % 256 := by omega
      have e2 : (x + 256 * value xs + (y + 256 * value ys) + c) / 256
          = value xs + value ys + (x + y + c) / 256 := by omega
      rw [e1, e2]

theorem scAdd_length {a b : List Nat} (hl : a.length = b.length) : (scAdd a b).length = a.length :=
  scAddLoop_length hl 0
theorem scAdd_bytes (a b : List Nat) : Bytes (scAdd a b) := scAddLoop_bytes a b 0
theorem scAdd_value {a b : List Nat} (hl : a.length = b.length) :
    value (scAdd a b) = (value a + value b) % 256 ^ a.length := by
  rw [scAdd, scAddLoop_value hl]; rfl

theorem scSub_length {a b : List Nat} (hl : a.length = b.length) : (scSub a b).length = a.length := by
  rw [scSub, scAdd_length]; rw [scNeg_length, hl]
theorem scSub_bytes (a b : List Nat) : Bytes (scSub a b) := scAdd_bytes a _
theorem scSub_value {a b : List Nat} (hl : a.length = b.length) (hb : Bytes b) :
    value (scSub a b) = (value a + (256 ^ a.length - value b)) % 256 ^ a.length := by
  rw [scSub, scAdd_value (by rw [scNeg_length, hl]), scNeg_value hb, ← hl, Nat.add_mod_mod]

/-! ### signed reading -/
theorem half256 {n : Nat} (hn : 0 < n) : 256 ^ n = 2 * 2 ^ (8 * n - 1) := by
  rw [pow256, ← Nat.pow_succ', Nat.succ_eq_add_one, Nat.sub_add_cancel (by omega)]

theorem svalue_bounds {l : List Nat} (hn : 0 < l.length) :
    -((2 ^ (8 * l.length - 1) : Nat) : Int) ≤ svalue l ∧ svalue l < ((2 ^ (8 * l.length - 1) : Nat) : Int) := by
  unfold svalue
  rw [half256 hn]
  generalize hp : 2 ^ (8 * l.length - 1) = p
  have h0 : 0 < 2 * p := by rw [← hp]; positivity
  have h1 := Int.le_bmod (x := (value l : Int)) h0
  have h2 := Int.bmod_lt (x := (value l : Int)) h0
  constructor <;> omega

theorem scIsNegative_eq {l : List Nat} (h : Bytes l) (hn : 0 < l.length) :
    scIsNegative l = decide (2 ^ (8 * l.length - 1) ≤ value l) := by
  unfold scIsNegative scGetBitAt
  rw [← testBit_value h]
  have e : l.length * 8 - 1 = 8 * l.length - 1 := by omega
  rw [e]
  have hlt := value_lt h
  rw [half256 hn] at hlt
  by_cases hv : 2 ^ (8 * l.length - 1) ≤ value l
  · simp only [hv, decide_true]
    have := Nat.testBit_two_pow_add_eq (value l - 2 ^ (8 * l.length - 1)) (8 * l.length - 1)
    rw [Nat.add_sub_cancel' hv] at this
    rw [this, Nat.testBit_lt_two_pow]; rfl
    omega
  · simp only [hv, decide_false]
    exact Nat.testBit_lt_two_pow (by omega)

theorem svalue_of_nonneg {l : List Nat} (hn : 0 < l.length)
    (hs : value l < 2 ^ (8 * l.length - 1)) : svalue l = value l := by
  unfold svalue
  rw [half256 hn]
  generalize 2 ^ (8 * l.length - 1) = p at *
  apply Int.bmod_eq_of_le <;> omega

theorem svalue_of_neg {l : List Nat} (hb : Bytes l) (hn : 0 < l.length)
    (hs : 2 ^ (8 * l.length - 1) ≤ value l) : svalue l = value l - (256 ^ l.length : Nat) := by
  have hlt := value_lt hb
  unfold svalue
  rw [← Int.sub_bmod_right]
  rw [half256 hn] at *
  generalize 2 ^ (8 * l.length - 1) = p at *
  apply Int.bmod_eq_of_le <;> omega

theorem scIsNegative_iff {l : List Nat} (h : Bytes l) (hn : 0 < l.length) :
    scIsNegative l = true ↔ svalue l < 0 := by
  rw [scIsNegative_eq h hn, decide_eq_true_eq]
  have hlt := value_lt h
  constructor
  · intro hv
    rw [svalue_of_neg h hn hv]
    omega
  · intro hv
    by_contra hc
    rw [svalue_of_nonneg hn (by omega)] at hv
    omega

/-- congruence: the signed reading is congruent to the value. -/
theorem svalue_emod (l : List Nat) : svalue l % (256 ^ l.length : Nat) = (value l : Int) % (256 ^ l.length : Nat) := by
  unfold svalue; exact Int.bmod_emod

/-- a buffer whose value is congruent to `x` has signed reading `x.bmod`. -/
theorem svalue_eq_bmod {l : List Nat} {x : Int}
    (h : (value l : Int) % (256 ^ l.length : Nat) = x % (256 ^ l.length : Nat)) :
    svalue l = x.bmod (256 ^ l.length) := by
  unfold svalue
  rw [← Int.emod_bmod, h, Int.emod_bmod]

theorem bmod_of_range {n : Nat} (hn : 0 < n) {x : Int}
    (h1 : -((2 ^ (8 * n - 1) : Nat) : Int) ≤ x) (h2 : x < ((2 ^ (8 * n - 1) : Nat) : Int)) :
    x.bmod (256 ^ n) = x := by
  rw [half256 hn]
  generalize 2 ^ (8 * n - 1) = p at *
  apply Int.bmod_eq_of_le <;> omega

theorem svalue_inj {a b : List Nat} (hl : a.length = b.length) (ha : Bytes a) (hb : Bytes b)
    (h : svalue a = svalue b) : a = b := by
  apply value_inj hl ha hb
  have h1 := svalue_emod a
  have h2 := svalue_emod b
  rw [h, hl, h2] at h1
  have la := value_lt ha
  have lb := value_lt hb
  rw [hl] at la
  rw [Int.emod_eq_of_lt (by omega) (by omega), Int.emod_eq_of_lt (by omega) (by omega)] at h1
  omega

theorem scNeg_svalue {v : List Nat} (h : Bytes v) : svalue (scNeg v) = (-svalue v).bmod (256 ^ v.length) := by
  have e := svalue_eq_bmod (l := scNeg v) (x := -svalue v)
  rw [scNeg_length] at e
  apply e
  rw [scNeg_value h]
  have hlt := value_lt h
  have := svalue_emod v
  push_cast [Nat.le_of_lt hlt]
  rw [Int.emod_emod, Int.neg_emod_eq_sub_emod (a := svalue v)]
  rw [Int.sub_emod, ← Nat.cast_ofNat (R := Int), ← Nat.cast_pow, ← this, ← Int.sub_emod]

theorem scAdd_svalue {a b : List Nat} (hl : a.length = b.length) :
    svalue (scAdd a b) = (svalue a + svalue b).bmod (256 ^ a.length) := by
  have e := svalue_eq_bmod (l := scAdd a b) (x := svalue a + svalue b)
  rw [scAdd_length hl] at e
  apply e
  have h1 := svalue_emod a
  have h2 := svalue_emod b
  rw [← hl] at h2
  rw [scAdd_value hl, Int.add_emod, h1, h2, ← Int.add_emod]
  push_cast; rw [Int.emod_emod]

theorem scSub_svalue {a b : List Nat} (hl : a.length = b.length) (hb : Bytes b) :
    svalue (scSub a b) = (svalue a - svalue b).bmod (256 ^ a.length) := by
  rw [scSub, scAdd_svalue (by rw [scNeg_length, hl]), scNeg_svalue hb, ← hl, Int.add_bmod_bmod,
    Int.sub_eq_add_neg]

/-! ### multiplication -/
theorem scMulRow_length {o : Nat} {t v : List Nat} {c : Nat} : (scMulRow o t v c).length = t.length := by
  induction t generalizing v c with
  | nil => cases v <;> rfl
  | cons x xs ih => cases v with
    | nil => simp [scMulRow]
    | cons y ys => simp [scMulRow, ih]

theorem scMulRow_bytes {o : Nat} {t v : List Nat} {c : Nat} (ht : Bytes t) : Bytes (scMulRow o t v c) := by
  induction t generalizing v c with
  | nil => cases v <;> exact ht
  | cons x xs ih =>
    rw [bytes_cons] at ht
    cases v with
    | nil => exact ht.2.cons (Nat.mod_lt _ (by decide))
    | cons y ys => exact (ih ht.2).cons (Nat.mod_lt _ (by decide))

/-- the row adds `o * val1 + carry`, provided the cell receiving the last
carry was still zero (it is overwritten, not added to). -/
theorem scMulRow_value {o : Nat} {t v : List Nat} {c : Nat} (ho : o < 256) (hc : c < 256)
    (ht : Bytes t) (hv : Bytes v) (hz : t.drop v.length = 0 :: t.drop (v.length + 1)) :
    value (scMulRow o t v c) = value t + o * value v + c := by
  induction t generalizing v c with
  | nil => simp at hz
  | cons x xs ih =>
    rw [bytes_cons] at ht
    cases v with
    | nil =>
      simp only [List.length_nil, List.drop_zero, List.cons.injEq] at hz
      simp only [scMulRow, value, hz.1, Nat.mod_eq_of_lt hc]; omega
    | cons y ys =>
      rw [bytes_cons] at hv
      simp only [List.length_cons, List.drop_succ_cons] at hz
      have hxy : y * o ≤ 255 * 255 := Nat.mul_le_mul (by omega) (by omega)
      have hc' : (x + y * o + c) / 256 < 256 := by omega
      simp only [scMulRow, value]
      rw [ih hc' ht.2 hv.2 hz]
      have := Nat.mod_add_div (x + y * o + c) 256
      have e : o * (y + 256 * value ys) = y * o + 256 * (o * value ys) := by ring
      rw [e]
      omega

/-- cells at relative position `≥ v.length + 1` are untouched by a row. -/
theorem scMulRow_drop {o : Nat} {t v : List Nat} {c : Nat} :
    (scMulRow o t v c).drop (v.length + 1) = t.drop (v.length + 1) := by
  induction t generalizing v c with
  | nil => cases v <;> rfl
  | cons x xs ih => cases v with
    | nil => rfl
    | cons y ys => simpa [scMulRow] using ih

theorem drop_replicate_cons {n k : Nat} (h : k < n) :
    (List.replicate n 0).drop k = 0 :: (List.replicate n 0).drop (k+1) := by
  rw [List.drop_replicate, List.drop_replicate, show n - k = (n - (k+1)) + 1 by omega, List.replicate_succ]

theorem scMulOuter_length {v os t : List Nat} : (scMulOuter v os t).length = t.length := by
  induction os generalizing t with
  | nil => rfl
  | cons o os ih =>
    unfold scMulOuter
    have hl : (if o = 0 then t else scMulRow o t v 0).length = t.length := by
      split; rfl; exact scMulRow_length
    generalize (if o = 0 then t else scMulRow o t v 0) = t' at *
    cases t' with
    | nil => simpa using hl
    | cons x xs => simp [ih]; simpa using hl

theorem scMulOuter_bytes {v os t : List Nat} (ht : Bytes t) : Bytes (scMulOuter v os t) := by
  induction os generalizing t with
  | nil => exact ht
  | cons o os ih =>
    unfold scMulOuter
    have hl : Bytes (if o = 0 then t else scMulRow o t v 0) := by
      split; exact ht; exact scMulRow_bytes ht
    generalize (if o = 0 then t else scMulRow o t v 0) = t' at *
    cases t' with
    | nil => exact hl
    | cons x xs => rw [bytes_cons] at hl; exact (ih hl.2).cons hl.1

theorem scMulOuter_value {v os t : List Nat} (ht : Bytes t) (hv : Bytes v) (ho : Bytes os)
    (hlen : v.length + os.length ≤ t.length)
    (hz : t.drop v.length = List.replicate (t.length - v.length) 0) :
    value (scMulOuter v os t) = value t + value v * value os := by
  induction os generalizing t with
  | nil => simp [scMulOuter, value]
  | cons o os ih =>
    rw [bytes_cons] at ho
    simp only [List.length_cons] at hlen
    unfold scMulOuter
    have hz' : t.drop v.length = 0 :: t.drop (v.length + 1) := by
      rw [← List.drop_drop, hz, show t.length - v.length = (t.length - v.length - 1) + 1 by omega,
        List.replicate_succ]; rfl
    have hd : t.drop (v.length + 1) = List.replicate (t.length - (v.length + 1)) 0 := by
      rw [← List.drop_drop, hz, List.drop_replicate]; rfl
    have hl : (if o = 0 then t else scMulRow o t v 0).length = t.length := by
      split; rfl; exact scMulRow_length
    have hb : Bytes (if o = 0 then t else scMulRow o t v 0) := by
      split; exact ht; exact scMulRow_bytes ht
    have hval : value (if o = 0 then t else scMulRow o t v 0) = value t + o * value v := by
      split
      · next h => subst h; simp
      · rw [scMulRow_value ho.1 (by decide) ht hv hz']; rfl
    have hdd : (if o = 0 then t else scMulRow o t v 0).drop (v.length + 1)
        = List.replicate (t.length - (v.length + 1)) 0 := by
      split; exact hd; rw [scMulRow_drop, hd]
    generalize (if o = 0 then t else scMulRow o t v 0) = t' at *
    cases t' with
    | nil => simp at hl; omega
    | cons x xs =>
      rw [bytes_cons] at hb
      simp only [List.length_cons] at hl
      simp only [List.drop_succ_cons] at hdd
      simp only [value] at hval ⊢
      rw [ih hb.2 ho.2 (by omega) (by rw [hdd]; congr 1; omega)]
      have e : value v * (o + 256 * value os) = o * value v + 256 * (value v * value os) := by ring
      rw [e]; omega

theorem scMul_length (m : Nat) (a b : List Nat) : (scMul m a b).length = a.length := by
  unfold scMul; simp only []
  split
  · rw [scNeg_length, scMulOuter_length, scZero_length]
  · rw [scMulOuter_length, scZero_length]

theorem scMul_bytes (m : Nat) (a b : List Nat) : Bytes (scMul m a b) := by
  unfold scMul; simp only []
  split
  · exact scNeg_bytes (scMulOuter_bytes (scZero_bytes _))
  · exact scMulOuter_bytes (scZero_bytes _)

/-- absolute value buffer -/
theorem abs_value {l : List Nat} (h : Bytes l) (hn : 0 < l.length)
    (hmin : svalue l ≠ -((2 ^ (8 * l.length - 1) : Nat) : Int)) :
    ((value (if scIsNegative l then scNeg l else l) : Nat) : Int) = |svalue l|
      ∧ value (if scIsNegative l then scNeg l else l) < 2 ^ (8 * l.length - 1) := by
  have hlt := value_lt h
  by_cases hneg : scIsNegative l = true
  · rw [if_pos hneg]
    have hs := hneg
    rw [scIsNegative_iff h hn] at hneg
    rw [scIsNegative_eq h hn, decide_eq_true_eq] at hs
    have e := svalue_of_neg h hn hs
    rw [abs_of_neg hneg, scNeg_value h]
    rw [e] at hmin ⊢
    rw [half256 hn] at *
    generalize 2 ^ (8 * l.length - 1) = p at *
    rw [Nat.mod_eq_of_lt (by omega)]
    omega
  · rw [if_neg hneg]
    have hs := hneg
    rw [scIsNegative_iff h hn, not_lt] at hneg
    rw [scIsNegative_eq h hn, decide_eq_true_eq, not_le] at hs
    rw [abs_of_nonneg hneg, svalue_of_nonneg hn hs]
    exact ⟨rfl, hs⟩

theorem scMul_svalue {m : Nat} {a b : List Nat} (hm : 0 < m) (la : a.length = 2 * m) (lb : b.length = 2 * m)
    (ha : Bytes a) (hb : Bytes b)
    (ra : |svalue a| < (256 ^ m : Nat)) (rb : |svalue b| < (256 ^ m : Nat)) :
    svalue (scMul m a b) = (svalue a * svalue b).bmod (256 ^ (2 * m)) := by
  have hn : 0 < a.length := by omega
  have hn' : 0 < b.length := by omega
  have hpow : 256 ^ m ≤ 2 ^ (8 * (2 * m) - 1) := by
    rw [pow256]; exact Nat.pow_le_pow_right (by decide) (by omega)
  have hA := abs_value ha hn (by
    intro hc; rw [hc, abs_neg, Nat.abs_cast, la] at ra
    have : (256 ^ m : Nat) ≤ 2 ^ (8 * (2 * m) - 1) := hpow
    omega)
  have hB := abs_value hb hn' (by
    intro hc; rw [hc, abs_neg, Nat.abs_cast, lb] at rb
    have : (256 ^ m : Nat) ≤ 2 ^ (8 * (2 * m) - 1) := hpow
    omega)
  set a' := (if scIsNegative a then scNeg a else a) with ha'
  set b' := (if scIsNegative b then scNeg b else b) with hb'
  have la' : a'.length = 2 * m := by rw [ha']; split; rw [scNeg_length, la]; exact la
  have lb' : b'.length = 2 * m := by rw [hb']; split; rw [scNeg_length, lb]; exact lb
  have ba' : Bytes a' := by rw [ha']; split; exact scNeg_bytes ha; exact ha
  have bb' : Bytes b' := by rw [hb']; split; exact scNeg_bytes hb; exact hb
  have va : value (a'.take m) = value a' := by
    rw [value_take ba', Nat.mod_eq_of_lt]; have := hA.1; omega
  have vb : value (b'.take m) = value b' := by
    rw [value_take bb', Nat.mod_eq_of_lt]; have := hB.1; omega
  have lta : (a'.take m).length = m := by rw [List.length_take]; omega
  have ltb : (b'.take m).length = m := by rw [List.length_take]; omega
  have hT : value (scMulOuter (a'.take m) (b'.take m) (scZero a.length)) = value a' * value b' := by
    rw [scMulOuter_value (scZero_bytes _) (ba'.take m) (bb'.take m)
      (by rw [lta, ltb, scZero_length]; omega)
      (by rw [lta, scZero_length, scZero, List.drop_replicate]), scZero_value, va, vb, Nat.zero_add]
  set t := scMulOuter (a'.take m) (b'.take m) (scZero a.length) with ht
  have lt : t.length = 2 * m := by rw [ht, scMulOuter_length, scZero_length, la]
  have bt : Bytes t := scMulOuter_bytes (scZero_bytes _)
  have st : svalue t = (|svalue a| * |svalue b|).bmod (256 ^ (2 * m)) := by
    unfold svalue
    rw [lt, hT]; push_cast; rw [hA.1, hB.1]; rfl
  have hunf : scMul m a b = if scIsNegative a != scIsNegative b then scNeg t else t := by
    unfold scMul; rfl
  rw [hunf]
  have sa := scIsNegative_iff ha hn
  have sb := scIsNegative_iff hb hn'
  cases hna : scIsNegative a <;> cases hnb : scIsNegative b <;> rw [hna] at sa <;> rw [hnb] at sb <;>
    simp only [Bool.false_eq_true, false_iff, not_lt, true_iff] at sa sb <;> simp
  · rw [st, abs_of_nonneg sa, abs_of_nonneg sb]
  · rw [scNeg_svalue bt, st, lt, Int.bmod_neg_bmod, abs_of_nonneg sa, abs_of_neg sb]; congr 1; ring
  · rw [scNeg_svalue bt, st, lt, Int.bmod_neg_bmod, abs_of_neg sa, abs_of_nonneg sb]; congr 1; ring
  · rw [st, abs_of_neg sa, abs_of_neg sb]; congr 1; ring

end Verif.Model
