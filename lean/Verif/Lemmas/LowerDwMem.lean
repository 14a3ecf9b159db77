import Verif.Lemmas.LowerDwWords
import Verif.Model.LowerDw
/-!
# Lemmas about loads and stores of double words, and about counting bits of double words
-/
namespace Verif.Spec

variable {p : Nat} {mem mem' : Memory p}

theorem little_append (mem : Memory p) (a : BitVec p) (n k : Nat) :
    mem.little a (n + k) = mem.little a n + 256 ^ n * mem.little (a + BitVec.ofNat p n) k := by
  induction n generalizing a with
  | zero => simp [Memory.little]
  | succ n ih =>
    rw [show n + 1 + k = (n + k) + 1 by omega]
    simp only [Memory.little]
    rw [ih, show a + 1#p + BitVec.ofNat p n = a + BitVec.ofNat p (n + 1) by
      rw [BitVec.add_assoc, ← BitVec.ofNat_add, Nat.add_comm 1 n]]
    grind

theorem big_append (mem : Memory p) (a : BitVec p) (n k : Nat) :
    mem.big a (n + k) = mem.big a n * 256 ^ k + mem.big (a + BitVec.ofNat p n) k := by
  induction n generalizing a with
  | zero => simp [Memory.big]
  | succ n ih =>
    rw [show n + 1 + k = (n + k) + 1 by omega]
    simp only [Memory.big]
    rw [ih, show a + 1#p + BitVec.ofNat p n = a + BitVec.ofNat p (n + 1) by
      rw [BitVec.add_assoc, ← BitVec.ofNat_add, Nat.add_comm 1 n], Nat.pow_add]
    grind

theorem little_lt (mem : Memory p) (a : BitVec p) (n : Nat) : mem.little a n < 256 ^ n := by
  induction n generalizing a with
  | zero => simp [Memory.little]
  | succ n ih =>
    have h1 := ih (a + 1#p)
    have h2 := (mem a).isLt
    simp only [Memory.little, Nat.pow_succ]
    omega

theorem big_lt (mem : Memory p) (a : BitVec p) (n : Nat) : mem.big a n < 256 ^ n := by
  induction n generalizing a with
  | zero => simp [Memory.big]
  | succ n ih =>
    have h1 := ih (a + 1#p)
    have h2 : (mem a).toNat * 256 ^ n ≤ 255 * 256 ^ n := Nat.mul_le_mul_right _ (by have := (mem a).isLt; omega)
    simp only [Memory.big, Nat.pow_succ]
    omega

theorem load_lt (be : Bool) (mem : Memory p) (a : BitVec p) (n : Nat) : mem.load be a n < 256 ^ n := by
  unfold Memory.load
  split
  · exact big_lt mem a n
  · exact little_lt mem a n

theorem load_congr (be : Bool) (a : BitVec p) (n : Nat) (h : ∀ i < n, mem (a + BitVec.ofNat p i) = mem' (a + BitVec.ofNat p i)) :
    mem.load be a n = mem'.load be a n := by
  have hl : mem.little a n = mem'.little a n := by
    induction n generalizing a with
    | zero => rfl
    | succ n ih =>
      simp only [Memory.little]
      have h0 := h 0 (by omega)
      simp only [BitVec.ofNat_eq_ofNat, BitVec.add_zero] at h0
      rw [h0, ih]
      intro i hi
      rw [BitVec.add_assoc, ← BitVec.ofNat_add]
      exact h (1 + i) (by omega)
  have hb : mem.big a n = mem'.big a n := by
    clear hl
    induction n generalizing a with
    | zero => rfl
    | succ n ih =>
      simp only [Memory.big]
      have h0 := h 0 (by omega)
      simp only [BitVec.ofNat_eq_ofNat, BitVec.add_zero] at h0
      rw [h0, ih]
      intro i hi
      rw [BitVec.add_assoc, ← BitVec.ofNat_add]
      exact h (1 + i) (by omega)
  unfold Memory.load
  rw [hl, hb]

open Verif.Model.LowerDw

theorem lowerLoad_eq (be : Bool) (n : Nat) (mem : Memory p) (a : BitVec p) :
    mem.load be a (2 * n) = (lowerLoad be n mem a).2 * 256 ^ n + (lowerLoad be n mem a).1 := by
  unfold lowerLoad wordAddrs Memory.load
  cases be
  · simp only [Bool.false_eq_true, if_false]
    rw [Nat.two_mul, little_append]
    grind
  · simp only [if_true]
    rw [Nat.two_mul, big_append]

theorem stored_two (be : Bool) {n : Nat} (hn : 2 * n ≤ 2 ^ p) {mem mem1 mem2 : Memory p} {a : BitVec p} {lo hi : Nat} (hlo : lo < 256 ^ n)
    (hhi : hi < 256 ^ n) (h1 : Memory.Stored be mem mem1 (wordAddrs be n a).1 n lo) (h2 : Memory.Stored be mem1 mem2 (wordAddrs be n a).2 n hi) :
    Memory.Stored be mem mem2 a (2 * n) (hi * 256 ^ n + lo) := by
  obtain ⟨l1, f1⟩ := h1
  obtain ⟨l2, f2⟩ := h2
  have hp := Nat.two_pow_pos p
  have hlow : mem2.load be (wordAddrs be n a).1 n = mem1.load be (wordAddrs be n a).1 n := by
    apply load_congr
    intro i hi
    apply f2
    unfold wordAddrs
    cases be
    · simp only [Bool.false_eq_true, if_false]
      rw [show a + BitVec.ofNat p i - (a + BitVec.ofNat p n) = BitVec.ofNat p i - BitVec.ofNat p n by grind, BitVec.toNat_sub, BitVec.toNat_ofNat,
        BitVec.toNat_ofNat, Nat.mod_eq_of_lt (a := n) (by omega), Nat.mod_eq_of_lt (a := i) (by omega), Nat.mod_eq_of_lt (by omega)]
      omega
    · simp only [if_true]
      rw [show a + BitVec.ofNat p n + BitVec.ofNat p i - a = BitVec.ofNat p (n + i) by rw [BitVec.ofNat_add]; grind, BitVec.toNat_ofNat,
        Nat.mod_eq_of_lt (by omega)]
      omega
  refine ⟨?_, ?_⟩
  · rw [lowerLoad_eq]
    simp only [lowerLoad]
    rw [hlow, l1, l2, Nat.mod_eq_of_lt hlo, Nat.mod_eq_of_lt hhi, Nat.mod_eq_of_lt]
    have : hi * 256 ^ n + 256 ^ n ≤ 256 ^ n * 256 ^ n := by
      rw [← Nat.succ_mul]; exact Nat.mul_le_mul_right _ hhi
    rw [Nat.two_mul, Nat.pow_add]
    omega
  · intro b hb
    have hlt := (b - a).isLt
    have hsub : n ≤ (b - (a + BitVec.ofNat p n)).toNat := by
      rw [show b - (a + BitVec.ofNat p n) = b - a - BitVec.ofNat p n by grind, BitVec.toNat_sub, BitVec.toNat_ofNat]
      generalize (b - a).toNat = x at *
      by_cases hz : n = 0
      · omega
      · rw [Nat.mod_eq_of_lt (a := n) (by omega), show 2 ^ p - n + x = (x - n) + 2 ^ p by omega, Nat.add_mod_right,
          Nat.mod_eq_of_lt (by omega)]
        omega
    have h3 : n ≤ (b - (wordAddrs be n a).1).toNat ∧ n ≤ (b - (wordAddrs be n a).2).toNat := by
      unfold wordAddrs
      cases be
      · exact ⟨by simp only [Bool.false_eq_true, if_false]; omega, hsub⟩
      · exact ⟨hsub, by simp only [if_true]; omega⟩
    rw [f2 b h3.2, f1 b h3.1]

/-! ## Counting bits -/

section
variable {n w : Nat} {v : BitVec n} {l h : BitVec w}

theorem ne_zero_bit (hl : l ≠ 0#w) : ∃ i, l.getLsbD i = true := by
  refine Classical.byContradiction fun hc => hl ?_
  apply BitVec.eq_of_getLsbD_eq
  intro i _
  cases hb : l.getLsbD i with
  | true => exact absurd ⟨i, hb⟩ hc
  | false => simp

theorem splits_eq_zero (hs : Splits v l h) : v = 0#n ↔ l = 0#w ∧ h = 0#w := by
  unfold Splits at hs
  have hw := Nat.two_pow_pos w
  constructor
  · intro hv
    rw [hv, BitVec.toNat_ofNat, Nat.zero_mod] at hs
    have h1 : h.toNat * 2 ^ w = 0 := by omega
    have h2 : h.toNat = 0 := by
      rcases Nat.mul_eq_zero.1 h1 with h | h <;> omega
    exact ⟨BitVec.eq_of_toNat_eq (by simp; omega), BitVec.eq_of_toNat_eq (by simp; omega)⟩
  · rintro ⟨rfl, rfl⟩
    exact BitVec.eq_of_toNat_eq (by simpa using hs)

theorem lowestBit_low (hs : Splits v l h) {k : Nat} (hk : LowestBit l k) : LowestBit v k := by
  obtain ⟨h1, h2⟩ := hk
  have hkw := BitVec.lt_of_getLsbD h1
  refine ⟨by rw [getLsbD_of_splits hs, if_pos hkw]; exact h1, ?_⟩
  intro j hj
  rw [getLsbD_of_splits hs, if_pos (by omega)]
  exact h2 j hj

theorem lowestBit_high (hs : Splits v l h) (hl : l = 0#w) {k : Nat} (hk : LowestBit h k) : LowestBit v (k + w) := by
  obtain ⟨h1, h2⟩ := hk
  refine ⟨by rw [getLsbD_of_splits hs, if_neg (by omega), Nat.add_sub_cancel]; exact h1, ?_⟩
  intro j hj
  rw [getLsbD_of_splits hs]
  split
  · rw [hl]; simp
  · exact h2 _ (by omega)

theorem lowerFfs_spec (hs : Splits v l h) (ffs : BitVec w → Nat) (hf : ∀ x, FirstSet x (ffs x)) : FirstSet v (lowerFfs ffs l h) := by
  unfold lowerFfs
  simp only
  split
  · next hl =>
    split
    · next hh => exact Or.inl ⟨(splits_eq_zero hs).2 ⟨hl, hh⟩, rfl⟩
    · next hh =>
      rcases hf h with ⟨h1, -⟩ | ⟨k, h1, h2⟩
      · exact absurd h1 hh
      · exact Or.inr ⟨k + w, by omega, lowestBit_high hs hl h2⟩
  · next hl =>
    rcases hf l with ⟨h1, -⟩ | ⟨k, h1, h2⟩
    · exact absurd h1 hl
    · exact Or.inr ⟨k, h1, lowestBit_low hs h2⟩

theorem lowerCtz_spec (hs : Splits v l h) (ctz : BitVec w → Nat) (hf : ∀ x, x ≠ 0#w → LowestBit x (ctz x)) (hv : v ≠ 0#n) :
    LowestBit v (lowerCtz ctz l h) := by
  unfold lowerCtz
  split
  · next hl => exact lowestBit_high hs hl (hf h fun hh => hv ((splits_eq_zero hs).2 ⟨hl, hh⟩))
  · next hl => exact lowestBit_low hs (hf l hl)

theorem lowerClz_spec (hn : n = 2 * w) (hs : Splits v l h) (clz : BitVec w → Nat) (hf : ∀ x, x ≠ 0#w → LeadingZeros x (clz x)) (hv : v ≠ 0#n) :
    LeadingZeros v (lowerClz clz l h) := by
  unfold lowerClz
  split
  · next hh =>
    obtain ⟨h1, h2, h3⟩ := hf l fun hl => hv ((splits_eq_zero hs).2 ⟨hl, hh⟩)
    refine ⟨by omega, ?_, ?_⟩
    · rw [getLsbD_of_splits hs, if_pos (by omega), show n - 1 - (clz l + w) = w - 1 - clz l by omega]
      exact h2
    · intro j hj
      rw [getLsbD_of_splits hs]
      split
      · exact h3 j (by omega)
      · rw [hh]; simp
  · next hh =>
    obtain ⟨h1, h2, h3⟩ := hf h hh
    refine ⟨by omega, ?_, ?_⟩
    · rw [getLsbD_of_splits hs, if_neg (by omega), show n - 1 - clz h - w = w - 1 - clz h by omega]
      exact h2
    · intro j hj
      rw [getLsbD_of_splits hs, if_neg (by omega)]
      exact h3 _ (by omega)

theorem bitCount_splits (hn : n = 2 * w) (hs : Splits v l h) : bitCount v = bitCount h + bitCount l := by
  subst hn
  unfold bitCount
  rw [show List.range (2 * w) = List.range (w + w) by rw [Nat.two_mul], List.range_add, List.countP_append, List.countP_map, Nat.add_comm]
  congr 1
  · apply List.countP_congr
    intro i _
    simp only [Function.comp, getLsbD_of_splits hs]
    rw [if_neg (by omega), Nat.add_sub_cancel_left]
  · apply List.countP_congr
    intro i hi
    rw [getLsbD_of_splits hs, if_pos (List.mem_range.1 hi)]

theorem countP_xor (L : List Nat) (f g : Nat → Bool) : (L.countP fun i => f i ^^ g i) % 2 = (L.countP f + L.countP g) % 2 := by
  induction L with
  | nil => rfl
  | cons x L ih =>
    simp only [List.countP_cons]
    cases f x <;> cases g x <;> simp <;> omega

theorem bitCount_xor (x y : BitVec w) : bitCount (x ^^^ y) % 2 = (bitCount x + bitCount y) % 2 := by
  unfold bitCount
  simp only [BitVec.getLsbD_xor]
  exact countP_xor _ _ _

theorem lowerBswap_spec {k : Nat} (hw : w = 8 * k) (hs : Splits v l h) (bswap : BitVec w → BitVec w) (hf : ∀ x, BytesReversed k x (bswap x)) {r : BitVec n}
    (hr : Splits r (lowerBswap bswap l h).1 (lowerBswap bswap l h).2) : BytesReversed (2 * k) v r := by
  intro i hi j hj
  rw [getLsbD_of_splits hr, getLsbD_of_splits hs]
  simp only [lowerBswap]
  by_cases hik : i < k
  · rw [if_pos (by omega), if_neg (by omega), hf h i hik j hj]
    congr 1; omega
  · rw [if_neg (by omega), if_pos (by omega), show 8 * i + j - w = 8 * (i - k) + j by omega, hf l (i - k) (by omega) j hj]
    congr 1; omega

/-! ## Wider builtins -/

theorem widenArg_low {w w' : Nat} (hw : w ≤ w') (signed : Bool) (v : BitVec w) (i : Nat) (hi : i < w) : (widenArg signed w' v).getLsbD i = v.getLsbD i := by
  unfold widenArg
  split
  · rw [BitVec.getLsbD_signExtend, if_pos hi]; simp [show i < w' by omega]
  · rw [BitVec.getLsbD_setWidth]; simp [show i < w' by omega]

theorem widenArg_zero {w w' : Nat} (hw : w ≤ w') (signed : Bool) (v : BitVec w) : widenArg signed w' v = 0#w' ↔ v = 0#w := by
  constructor
  · intro hz
    apply BitVec.eq_of_getLsbD_eq
    intro i hi
    rw [← widenArg_low hw signed v i hi, hz]
    simp
  · rintro rfl
    unfold widenArg
    split
    · apply BitVec.eq_of_getLsbD_eq
      intro i hi
      rw [BitVec.getLsbD_signExtend]
      simp [BitVec.msb_eq_getLsbD_last]
    · simp

theorem widen_lowestBit {w w' : Nat} (hw : w ≤ w') (signed : Bool) (v : BitVec w) (hv : v ≠ 0#w) {k : Nat} (h : LowestBit (widenArg signed w' v) k) :
    LowestBit v k := by
  obtain ⟨h1, h2⟩ := h
  have hk : k < w := by
    refine Nat.lt_of_not_le fun hk => ?_
    obtain ⟨i, hi⟩ := ne_zero_bit hv
    have hiw := BitVec.lt_of_getLsbD hi
    have := h2 i (by omega)
    rw [widenArg_low hw signed v i hiw, hi] at this
    cases this
  refine ⟨by rw [← widenArg_low hw signed v k hk]; exact h1, ?_⟩
  intro j hj
  rw [← widenArg_low hw signed v j (by omega)]
  exact h2 j hj

theorem countP_const (L : List Nat) (b : Bool) : L.countP (fun _ => b) = if b then L.length else 0 := by
  cases b <;> simp

theorem widen_bitCount {w w' : Nat} (hw : w ≤ w') (signed : Bool) (v : BitVec w) :
    bitCount (widenArg signed w' v) = bitCount v + if signed && v.msb then w' - w else 0 := by
  unfold bitCount
  rw [show List.range w' = List.range (w + (w' - w)) by rw [Nat.add_sub_cancel' hw], List.range_add, List.countP_append, List.countP_map]
  congr 1
  · apply List.countP_congr
    intro i hi
    rw [widenArg_low hw signed v i (List.mem_range.1 hi)]
  · have : ∀ i ∈ List.range (w' - w), ((fun i => (widenArg signed w' v).getLsbD i) ∘ fun x => w + x) i = (fun _ => signed && v.msb) i := by
      intro i hi
      have hi := List.mem_range.1 hi
      simp only [Function.comp, widenArg]
      cases signed
      · simp
      · simp only [if_true, BitVec.getLsbD_signExtend]
        rw [if_neg (by omega)]
        simp [show w + i < w' by omega]
    rw [List.countP_congr fun i hi => by rw [this i hi], countP_const, List.length_range]

theorem widen_leadingZeros {w w' : Nat} (hw : w ≤ w') (v : BitVec w) {k : Nat} (h : LeadingZeros (widenArg false w' v) k) :
    w' - w ≤ k ∧ LeadingZeros v (k - (w' - w)) := by
  obtain ⟨h1, h2, h3⟩ := h
  have hg : ∀ i, (widenArg false w' v).getLsbD i = v.getLsbD i := by
    intro i
    by_cases hi : i < w
    · exact widenArg_low hw _ _ _ hi
    · simp only [widenArg, Bool.false_eq_true, if_false, BitVec.getLsbD_setWidth]
      rw [BitVec.getLsbD_of_ge v i (by omega)]
      simp
  rw [hg] at h2
  have := BitVec.lt_of_getLsbD h2
  refine ⟨by omega, by omega, ?_, ?_⟩
  · rw [show w - 1 - (k - (w' - w)) = w' - 1 - k by omega]; exact h2
  · intro j hj
    rw [← hg]
    exact h3 j (by omega)

end

end Verif.Spec
