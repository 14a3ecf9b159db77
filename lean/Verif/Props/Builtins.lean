import Verif.Model.Builtins
/-!
# Lowering of builtins to calls (C127)
-/
namespace Verif.Props.Builtins

open Verif.Spec.Builtins Verif.Model.Builtins

/-- `y` is `x` with more bits `s` above -/
def Ext {w v : Nat} (s : Bool) (x : BitVec w) (y : BitVec v) : Prop :=
  w ≤ v ∧ (∀ i, i < w → y.getLsbD i = x.getLsbD i) ∧ (∀ i, w ≤ i → i < v → y.getLsbD i = s)

theorem countP_upper {p : Nat → Bool} {s : Bool} (w : Nat) : ∀ d, (∀ i, w ≤ i → i < w + d → p i = s) → (List.range (w + d)).countP p = (List.range w).countP p + if s then d else 0 := by
  intro d
  induction d with
  | zero => intro _; cases s <;> rfl
  | succ d ih =>
    intro h
    rw [← Nat.add_assoc, List.range_succ, List.countP_append, ih fun i h1 h2 => h i h1 (by omega)]
    have hp := h (w + d) (by omega) (by omega)
    cases s
    · rw [List.countP_singleton, hp]; rfl
    · rw [List.countP_singleton, hp]; simp only [if_true]; omega

theorem ones_ext {w v : Nat} {s : Bool} {x : BitVec w} {y : BitVec v} (h : Ext s x y) : ones y = ones x + if s then v - w else 0 := by
  obtain ⟨hle, hlo, hhi⟩ := h
  have hv : v = w + (v - w) := by omega
  unfold ones
  have e := countP_upper (p := fun i => y.getLsbD i) (s := s) w (v - w) fun i h1 h2 => hhi i h1 (by omega)
  rw [← hv] at e
  rw [e]
  congr 1
  exact List.countP_congr fun i hi => by rw [hlo i (List.mem_range.1 hi)]

theorem lowest_ext {w v : Nat} {s : Bool} {x : BitVec w} {y : BitVec v} (h : Ext s x y) (hs : s = true → 0 < w ∧ x.getLsbD (w - 1) = true) (n : Nat) :
    Lowest y n ↔ Lowest x n := by
  obtain ⟨hle, hlo, hhi⟩ := h
  constructor
  · rintro ⟨h1, h2, h3⟩
    by_cases hn : n < w
    · exact ⟨hn, by rw [← hlo n hn]; exact h2, fun i hi => by rw [← hlo i (by omega)]; exact h3 i hi⟩
    · rw [hhi n (by omega) h1] at h2
      obtain ⟨hw, hm⟩ := hs h2
      have := h3 (w - 1) (by omega)
      rw [hlo _ (by omega), hm] at this
      cases this
  · rintro ⟨h1, h2, h3⟩
    exact ⟨by omega, by rw [hlo n h1]; exact h2, fun i hi => by rw [hlo i (by omega)]; exact h3 i hi⟩

theorem zero_ext {w v : Nat} {s : Bool} {x : BitVec w} {y : BitVec v} (h : Ext s x y) (hs : s = true → 0 < w ∧ x.getLsbD (w - 1) = true) :
    (∀ i, i < v → y.getLsbD i = false) ↔ ∀ i, i < w → x.getLsbD i = false := by
  obtain ⟨hle, hlo, hhi⟩ := h
  constructor
  · intro hy i hi
    rw [← hlo i hi]; exact hy i (by omega)
  · intro hx i hi
    by_cases hn : i < w
    · rw [hlo i hn]; exact hx i hn
    · rw [hhi i (by omega) hi]
      cases s
      · rfl
      · obtain ⟨hw, hm⟩ := hs rfl
        rw [hx _ (by omega)] at hm
        cases hm

theorem clz_ext {w v : Nat} {x : BitVec w} {y : BitVec v} (h : Ext false x y) (n : Nat) :
    Result .clz y n ↔ ∃ m, Result .clz x m ∧ n = m + (v - w) := by
  obtain ⟨hle, hlo, hhi⟩ := h
  constructor
  · rintro ⟨h1, h2, h3⟩
    have hn : v - w ≤ n := by
      apply Nat.le_of_not_lt
      intro hlt
      rw [hhi (v - 1 - n) (by omega) (by omega)] at h2
      cases h2
    refine ⟨n - (v - w), ⟨by omega, ?_, fun i hi => ?_⟩, by omega⟩
    · rw [hlo _ (by omega)] at h2
      rw [show w - 1 - (n - (v - w)) = v - 1 - n by omega]; exact h2
    · have := h3 (i + (v - w)) (by omega)
      rw [hlo _ (by omega)] at this
      rw [show w - 1 - i = v - 1 - (i + (v - w)) by omega]; exact this
  · rintro ⟨m, ⟨h1, h2, h3⟩, rfl⟩
    refine ⟨by omega, ?_, fun i hi => ?_⟩
    · rw [show v - 1 - (m + (v - w)) = w - 1 - m by omega, hlo _ (by omega)]; exact h2
    · by_cases hc : i < v - w
      · exact hhi _ (by omega) (by omega)
      · rw [hlo _ (by omega), show v - 1 - i = w - 1 - (i - (v - w)) by omega]
        exact h3 _ (by omega)

theorem clz_sext {w v : Nat} {x : BitVec w} {y : BitVec v} (h : Ext true x y) (hw : 0 < w) (hx : x.getLsbD (w - 1) = true) (n : Nat) :
    Result .clz y n ↔ Result .clz x n := by
  obtain ⟨hle, hlo, hhi⟩ := h
  have hy : y.getLsbD (v - 1) = true := by
    by_cases hc : w ≤ v - 1
    · exact hhi _ hc (by omega)
    · rw [show v - 1 = w - 1 by omega, hlo _ (by omega)]; exact hx
  constructor
  · rintro ⟨h1, h2, h3⟩
    rcases Nat.eq_zero_or_pos n with e | hp
    · subst e; exact ⟨hw, hx, fun i hi => absurd hi (by omega)⟩
    · have := h3 0 hp; rw [Nat.sub_zero, hy] at this; cases this
  · rintro ⟨h1, h2, h3⟩
    rcases Nat.eq_zero_or_pos n with e | hp
    · subst e; exact ⟨by omega, hy, fun i hi => absurd hi (by omega)⟩
    · have := h3 0 hp; rw [Nat.sub_zero, hx] at this; cases this

theorem ext_arg {k : Kind} {ptr size : Nat} {signed : Bool} (x : BitVec (8 * size)) (hw : widened k ptr size = true) :
    Ext (signed && x.msb) x (arg k ptr size signed x) := by
  have hlt : size < ptr := by
    unfold widened at hw
    rw [Bool.and_eq_true, Bool.not_eq_true', decide_eq_false_iff_not] at hw
    omega
  have hn : newSize k ptr size = ptr := by rw [newSize, if_pos hw]
  unfold Ext arg
  rw [if_pos hw, hn]
  refine ⟨by omega, fun i hi => ?_, fun i h1 h2 => ?_⟩
  · cases signed
    · simp only [Bool.false_eq_true, if_false, BitVec.getLsbD_setWidth, show i < 8 * ptr by omega, decide_true, Bool.true_and]
    · simp only [if_true, BitVec.getLsbD_signExtend, show i < 8 * ptr by omega, decide_true, Bool.true_and, if_pos hi]
  · cases signed
    · simp only [Bool.false_eq_true, if_false, BitVec.getLsbD_setWidth, h2, decide_true, Bool.true_and, Bool.false_and]
      exact BitVec.getLsbD_of_ge _ _ h1
    · simp only [if_true, BitVec.getLsbD_signExtend, h2, decide_true, Bool.true_and, if_neg (Nat.not_lt.2 h1)]

theorem result_same {w v : Nat} {k : Kind} {x : BitVec w} (e : v = w) (n : Nat) : Result k (x.setWidth v) n ↔ Result k x n := by
  subst e; rw [BitVec.setWidth_eq]

theorem msb_bit {w : Nat} {x : BitVec w} {b : Bool} (h : (b && x.msb) = true) : 0 < w ∧ x.getLsbD (w - 1) = true := by
  rw [Bool.and_eq_true, BitVec.msb_eq_getLsbD_last] at h
  refine ⟨?_, h.2⟩
  rcases Nat.eq_zero_or_pos w with e | hp
  · subst e
    have := h.2
    rw [BitVec.getLsbD_of_ge _ _ (Nat.le_refl 0)] at this
    cases this
  · exact hp

/-- Where code is generated, the called function returns what the builtin returns, and a result for which the builtin is defined is returned: for `ffs`, `ctz`, `parity` and `bswap` always, for `popcount` unless a negative number is widened, for `clz` unless a number that is not a negative one is widened.  Missing: those two cases, see `popcount_widened`, `clz_widened`. -/
theorem lower_right_partial {k : Kind} {ptr size : Nat} {signed : Bool} {x : BitVec (8 * size)} {s : Nat} {y : BitVec (8 * s)}
    (h : lower k ptr size signed x = some ⟨s, y⟩)
    (hp : k = .popcount → size < ptr → (signed && x.msb) = false) (hc : k = .clz → size < ptr → (signed && x.msb) = true) (n : Nat) :
    (s = 4 ∨ s = 8) ∧ (Result k y n ↔ Result k x n) := by
  unfold lower machmode at h
  by_cases hs : newSize k ptr size = 4 ∨ newSize k ptr size = 8
  case neg => rw [if_neg hs] at h; cases h
  case pos =>
    rw [if_pos hs] at h
    cases h
    refine ⟨hs, ?_⟩
    by_cases hw : widened k ptr size = true
    · have he := ext_arg (signed := signed) x hw
      have hlt : size < ptr := by
        unfold widened at hw
        rw [Bool.and_eq_true, Bool.not_eq_true', decide_eq_false_iff_not] at hw
        omega
      cases k with
      | ffs =>
        unfold Result
        dsimp only
        rw [zero_ext he msb_bit]
        exact or_congr Iff.rfl (exists_congr fun m => and_congr (lowest_ext he msb_bit m) Iff.rfl)
      | ctz => exact lowest_ext he msb_bit n
      | clz =>
        rw [hc rfl hlt] at he
        have hm := msb_bit (hc rfl hlt)
        exact clz_sext he hm.1 hm.2 n
      | popcount =>
        rw [hp rfl hlt] at he
        unfold Result
        dsimp only
        rw [ones_ext he]; rfl
      | parity =>
        unfold Result
        dsimp only
        rw [ones_ext he]
        have hn : newSize .parity ptr size = ptr := by rw [newSize, if_pos hw]
        rw [hn]
        have : (ones x + if (signed && x.msb) = true then 8 * ptr - 8 * size else 0) % 2 = ones x % 2 := by
          by_cases hb : (signed && x.msb) = true
          · rw [if_pos hb]; omega
          · rw [if_neg hb]; rfl
        rw [this]
      | bswap => cases (show widened .bswap ptr size = false by unfold widened; simp) ▸ hw
    · have hn : newSize k ptr size = size := by rw [newSize, if_neg hw]
      unfold arg
      rw [if_neg hw]
      exact result_same (by rw [hn]) n

/-- A widened negative number has the ones of its sign as well. -/
theorem popcount_widened {ptr size : Nat} {x : BitVec (8 * size)} (hlt : size < ptr) (hx : x.msb = true) (n : Nat) :
    Result .popcount (arg .popcount ptr size true x) n ↔ ∃ m, Result .popcount x m ∧ n = m + 8 * (ptr - size) := by
  have hw : widened .popcount ptr size = true := by unfold widened; simp; omega
  have he := ext_arg (signed := true) x hw
  rw [hx] at he
  have hn : newSize .popcount ptr size = ptr := by rw [newSize, if_pos hw]
  unfold Result
  dsimp only
  rw [ones_ext he, hn]
  simp only [Bool.and_self, if_true, exists_eq_left]
  rw [Nat.mul_sub]

/-- A widened number that is not negative has the zeros above as well. -/
theorem clz_widened {ptr size : Nat} {signed : Bool} {x : BitVec (8 * size)} (hlt : size < ptr) (hx : (signed && x.msb) = false) (n : Nat) :
    Result .clz (arg .clz ptr size signed x) n ↔ ∃ m, Result .clz x m ∧ n = m + 8 * (ptr - size) := by
  have hw : widened .clz ptr size = true := by unfold widened; simp; omega
  have he := ext_arg (signed := signed) x hw
  rw [hx] at he
  have hn : newSize .clz ptr size = ptr := by rw [newSize, if_pos hw]
  rw [clz_ext he, hn, Nat.mul_sub]

/-- A call is generated exactly for arguments of four or eight bytes, and for smaller ones that are widened to four or eight. -/
theorem lower_defined (k : Kind) (ptr size : Nat) (signed : Bool) (x : BitVec (8 * size)) :
    (∃ r, lower k ptr size signed x = some r) ↔ if size < ptr ∧ k ≠ .bswap then ptr = 4 ∨ ptr = 8 else size = 4 ∨ size = 8 := by
  have hwid : widened k ptr size = true ↔ size < ptr ∧ k ≠ .bswap := by
    unfold widened; cases k <;> simp
  have hsz : newSize k ptr size = if size < ptr ∧ k ≠ .bswap then ptr else size := by
    unfold newSize
    by_cases h : widened k ptr size = true
    · rw [if_pos h, if_pos (hwid.1 h)]
    · rw [if_neg h, if_neg (mt hwid.2 h)]
  have hm : ∀ a : Nat, (machmode a).isSome = true ↔ a = 4 ∨ a = 8 := by
    intro a; unfold machmode; by_cases h : a = 4 ∨ a = 8
    · rw [if_pos h]; exact ⟨fun _ => h, fun _ => rfl⟩
    · rw [if_neg h]; exact ⟨(fun h => nomatch h), fun h' => absurd h' h⟩
  rw [← Option.isSome_iff_exists]
  unfold lower
  rw [Option.isSome_map, hm, hsz]
  by_cases h : size < ptr ∧ k ≠ .bswap
  · rw [if_pos h, if_pos h]
  · rw [if_neg h, if_neg h]

/-- The claim does not hold for `clz`: of the number 1 with four bytes it is 31, the call for pointers of eight bytes returns 63. -/
theorem clz_wrong : Result .clz (1#(8 * 4)) 31 ∧ Result .clz (arg .clz 8 4 false (1#(8 * 4))) 63 ∧ ¬ Result .clz (1#(8 * 4)) 63 :=
  ⟨⟨by decide, by decide, by decide⟩, (clz_widened (by decide) rfl 63).2 ⟨31, ⟨by decide, by decide, by decide⟩, rfl⟩, fun h => absurd h.1 (by decide)⟩

/-- The claim does not hold for `popcount`: -1 with four bytes has 32 ones, the call for pointers of eight bytes returns 64. -/
theorem popcount_wrong : Result .popcount (BitVec.allOnes (8 * 4)) 32 ∧ Result .popcount (arg .popcount 8 4 true (BitVec.allOnes (8 * 4))) 64 ∧
    ¬ Result .popcount (BitVec.allOnes (8 * 4)) 64 :=
  ⟨by unfold Result; decide +kernel, (popcount_widened (by decide) (by decide +kernel) 64).2 ⟨32, by unfold Result; decide +kernel, rfl⟩, by unfold Result; decide +kernel⟩

/-- `popcount` of the unsigned number 0xF0F0F0F0, widened from four to eight bytes -/
example : ∃ y, lower .popcount 8 4 false (0xF0F0F0F0#(8 * 4)) = some ⟨8, y⟩ ∧ Result .popcount y 16 := by
  refine ⟨_, rfl, ?_⟩
  exact ((lower_right_partial (k := .popcount) (ptr := 8) (size := 4) (signed := false) (x := 0xF0F0F0F0#(8 * 4)) rfl (fun _ _ => rfl) (fun h => nomatch h) 16).2).2 (by unfold Result; decide +kernel)

/-- `ctz` of the negative number -8, widened by its sign -/
example : ∃ y, lower .ctz 8 4 true (-8#(8 * 4)) = some ⟨8, y⟩ ∧ Result .ctz y 3 := by
  refine ⟨_, rfl, ?_⟩
  exact ((lower_right_partial (k := .ctz) (ptr := 8) (size := 4) (signed := true) (x := -8#(8 * 4)) rfl (fun h => nomatch h) (fun h => nomatch h) 3).2).2
    ⟨by decide, by decide, by decide⟩

end Verif.Props.Builtins
