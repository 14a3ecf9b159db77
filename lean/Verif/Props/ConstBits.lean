import Verif.Lemmas.ConstBits2
/-!
# C25–C28: the transfer functions of the known-bits analysis are sound

Throughout, `x` and `y` are values of nodes of an integer mode, and a state of the
analysis describes the bit pattern of the value.  The results are the operations of
`Verif.Spec.IR`.  Each theorem is about the transfer function together with the rule
"undefined if an operand is undefined" (`strict1`, `strict2`).
-/
namespace Verif.Props
open Verif.Model Verif.Spec

/-- the state `b` describes the value `x` of mode `m` -/
abbrev Knows (m : IMode) (b : BitInfo m.bits) (x : Int) : Prop := Describes b.z b.o (m.bv x)

/-- an eight-bit mode and a state that knows some of the bits, for the examples -/
abbrev m8 : IMode := ⟨true, 8, 32⟩
/-- "xxxx0110" -/
abbrev b8 : BitInfo 8 := ⟨0xf6#8, 0x06#8⟩

theorem b8_describes : Knows m8 b8 (-42) ∧ Knows m8 b8 22 := by
  constructor <;> · unfold Knows Describes; decide +kernel

/-! ## C25: logical operations, conversions, joins -/

theorem constbits_const (m : IMode) (x : Int) : Knows m (BitInfo.const (m.bv x)) x := describes_refl _

theorem constbits_and {m : IMode} (hm : 0 < m.bits) {a b : BitInfo m.bits} {x y : Int} (ha : Knows m a x) (hb : Knows m b y) :
    Knows m (BitInfo.strict2 BitInfo.and a b) (irAnd m x y) := by
  rw [strict2_sound hm hm _ ha hb]; unfold Knows; rw [bv_and]; exact and_sound ha hb

theorem constbits_or {m : IMode} (hm : 0 < m.bits) {a b : BitInfo m.bits} {x y : Int} (ha : Knows m a x) (hb : Knows m b y) :
    Knows m (BitInfo.strict2 BitInfo.or a b) (irOr m x y) := by
  rw [strict2_sound hm hm _ ha hb]; unfold Knows; rw [bv_or]; exact or_sound ha hb

theorem constbits_eor {m : IMode} (hm : 0 < m.bits) {a b : BitInfo m.bits} {x y : Int} (ha : Knows m a x) (hb : Knows m b y) :
    Knows m (BitInfo.strict2 BitInfo.eor a b) (irEor m x y) := by
  rw [strict2_sound hm hm _ ha hb]; unfold Knows; rw [bv_eor]; exact eor_sound ha hb

theorem constbits_not {m : IMode} (hm : 0 < m.bits) {a : BitInfo m.bits} {x : Int} (ha : Knows m a x) :
    Knows m (BitInfo.strict1 BitInfo.not a) (irNot m x) := by
  rw [strict1_sound hm _ ha]; unfold Knows; rw [bv_not]; exact not_sound ha

/-- a conversion keeps the number if it fits and reduces it otherwise -/
theorem constbits_conv {m m' : IMode} (hm : 0 < m.bits) {a : BitInfo m.bits} {x : Int} (hx : m.In x) (ha : Knows m a x) :
    Knows m' (BitInfo.strict1 (BitInfo.conv m.signed m'.bits) a) (m'.wrap x) := by
  rw [strict1_sound hm _ ha]
  unfold Knows
  rw [bv_wrap]
  have := conv_sound m.signed m'.bits hm ha
  unfold BitInfo.convertTo at this
  rw [bv_num hm hx] at this
  exact this

/-- the value of a Mux is one of its operands, by the condition -/
theorem constbits_mux {m : IMode} {c : BitInfo 1} {f t : BitInfo m.bits} {s : Bool} {x y : Int}
    (hc : Describes c.z c.o (BitVec.ofBool s)) (hf : s = false → Knows m f x) (ht : s = true → Knows m t y) :
    Knows m (BitInfo.mux c f t) (if s then y else x) := by
  unfold BitInfo.mux Knows
  have h0 := hc 0 (by decide)
  cases s
  · have hf := hf rfl
    have : c.o ≠ 1#1 := by
      intro h
      have := h0.2 (by rw [h]; decide)
      exact absurd this (by decide)
    rw [if_neg this]
    simp only [Bool.false_eq_true, if_false]
    split
    · exact hf
    · exact join_left hf
  · have ht := ht rfl
    simp only [if_true]
    split
    · exact ht
    · have : c.z ≠ 0#1 := by
        intro h
        have := h0.1 (by decide)
        rw [h] at this
        exact absurd this (by decide)
      rw [if_neg this]
      exact join_right ht

/-- the value of a Phi is the operand of the edge the block was entered by, which is not unreachable -/
theorem constbits_phi {m : IMode} (ops : List (Bool × BitInfo m.bits)) (k : Nat) {b : BitInfo m.bits} {x : Int}
    (hk : ops[k]? = some (true, b)) (hx : Knows m b x) : Knows m (BitInfo.phi ops) x := by
  unfold BitInfo.phi
  have hmono : ∀ (l : List (Bool × BitInfo m.bits)) (acc : BitInfo m.bits), acc.Desc (m.bv x) →
      (l.foldl (fun acc p => if p.1 then BitInfo.join acc p.2 else acc) acc).Desc (m.bv x) := by
    intro l
    induction l with
    | nil => intro acc h; exact h
    | cons p l ih =>
      intro acc h
      rw [List.foldl_cons]
      apply ih
      split
      · exact join_left h
      · exact h
  generalize BitInfo.undefined m.bits = acc
  induction ops generalizing k acc with
  | nil => simp at hk
  | cons p l ih =>
    rw [List.foldl_cons]
    cases k with
    | zero =>
      simp only [List.getElem?_cons_zero, Option.some.injEq] at hk
      apply hmono
      rw [hk]
      exact join_right hx
    | succ k =>
      exact ih k (by simpa using hk) _

/-- a Confirm passes its value on, which is in the stated relation to the bound -/
theorem constbits_confirm {m : IMode} (hm : 0 < m.bits) {rel : Rel} {a b : BitInfo m.bits} {x y : Int} (ha : Knows m a x) (hb : Knows m b y)
    (hrel : Holds rel (intCmp.cmp x y) = true) : Knows m (BitInfo.strict2 (BitInfo.confirm rel) a b) x := by
  rw [strict2_sound hm hm _ ha hb]
  unfold BitInfo.confirm
  split
  · rename_i h
    have hxy : x = y := by
      have key : ∀ rel : Rel, rel &&& ~~~Rel.unordered = Rel.equal → Holds rel .lt = false ∧ Holds rel .gt = false := by decide
      obtain ⟨h1, h2⟩ := key rel h
      unfold intCmp at hrel
      simp only at hrel
      by_contra hne
      rw [if_neg hne] at hrel
      split at hrel
      · rw [h1] at hrel; exact absurd hrel (by decide)
      · rw [h2] at hrel; exact absurd hrel (by decide)
    subst hxy
    intro i hi
    have h1 := ha i hi
    have h2 := hb i hi
    simp only [BitInfo.confirmEq, BitVec.getLsbD_and, BitVec.getLsbD_or, Bool.and_eq_true, Bool.or_eq_true]
    exact ⟨fun h => ⟨h1.1 h, h2.1 h⟩, fun h => h.elim h1.2 h2.2⟩
  · exact ha

/-- a state that describes a value is never the undefined one: the assertions of ir/ana/constbits.c:403-404 and 744 hold -/
theorem constbits_never_undefined {m : IMode} (hm : 0 < m.bits) {b : BitInfo m.bits} {x : Int} (h : Knows m b x) : b.isUndefined = false := by
  cases hb : b.isUndefined
  · rfl
  · exact absurd h (not_describes_undefined hm hb _)

example : BitInfo.strict2 BitInfo.and b8 ⟨0x3f#8, 0x03#8⟩ = ⟨0x36#8, 0x02#8⟩ := by decide
example : (BitInfo.strict1 (BitInfo.conv true 16) b8) = ⟨0xfff6#16, 0x0006#16⟩ := by decide

/-! ## C26: arithmetic -/

theorem constbits_add {m : IMode} (hm : 0 < m.bits) {a b : BitInfo m.bits} {x y : Int} (ha : Knows m a x) (hb : Knows m b y) :
    Knows m (BitInfo.strict2 BitInfo.add a b) (irAdd m x y) := by
  rw [strict2_sound hm hm _ ha hb]; unfold Knows; rw [bv_add]; exact add_sound ha hb

theorem constbits_sub {m : IMode} (hm : 0 < m.bits) {a b : BitInfo m.bits} {x y : Int} (ha : Knows m a x) (hb : Knows m b y) :
    Knows m (BitInfo.strict2 BitInfo.sub a b) (irSub m x y) := by
  rw [strict2_sound hm hm _ ha hb]; unfold Knows; rw [bv_sub]; exact sub_sound ha hb

theorem constbits_minus {m : IMode} (hm : 0 < m.bits) {a : BitInfo m.bits} {x : Int} (ha : Knows m a x) :
    Knows m (BitInfo.strict1 BitInfo.minus a) (irNeg m x) := by
  rw [strict1_sound hm _ ha]; unfold Knows; rw [bv_neg]; exact minus_sound ha

theorem constbits_mul {m : IMode} (hm : 0 < m.bits) {a b : BitInfo m.bits} {x y : Int} (ha : Knows m a x) (hb : Knows m b y) :
    Knows m (BitInfo.strict2 BitInfo.mul a b) (irMul m x y) := by
  rw [strict2_sound hm hm _ ha hb]; unfold Knows; rw [bv_mul]; exact mul_sound hm ha hb

/-- the results say something: the low bits of sum and product are known -/
example : BitInfo.strict2 BitInfo.add b8 b8 = ⟨0xfc#8, 0x0c#8⟩ := by decide +kernel
example : BitInfo.strict2 BitInfo.mul b8 b8 = ⟨0xe4#8, 0x04#8⟩ := by decide +kernel
example : BitInfo.strict2 BitInfo.sub b8 (BitInfo.const 6#8) = ⟨0xf0#8, 0x00#8⟩ := by decide +kernel
example : irMul m8 (-42) 22 = 100 ∧ irAdd m8 (-42) 22 = -20 := by decide

/-! ## C27: shifts -/

/-- Shl: the size is a power of two, counts are reduced modulo a power of two or not at all,
and the mode of the count can represent the size -/
theorem constbits_shl {m mc : IMode} {a : Nat} (hw : m.bits = 2 ^ a) (ha : a < mc.bits) (hM : m.modulo = 0 ∨ ∃ b, m.modulo = 2 ^ b)
    {l : BitInfo m.bits} {r : BitInfo mc.bits} {x : Int} {s : Nat} (hs : s < 2 ^ mc.bits)
    (hl : Knows m l x) (hr : Knows mc r s) : Knows m (BitInfo.strict2 (BitInfo.shl m.modulo) l r) (irShl m x s) := by
  have hm : 0 < m.bits := by rw [hw]; exact Nat.two_pow_pos a
  rw [strict2_sound hm (by omega) _ hl hr]
  unfold Knows
  rw [bv_shl]
  have hs' : (mc.bv s).toNat = s := by rw [bv_natCast, BitVec.toNat_ofNat, Nat.mod_eq_of_lt hs]
  rw [← hs']
  exact shift_sound hw ha hM (sh := fun x s => x <<< s) (fun h s => shl_describes h s) hl hr (fun h => BitVec.shiftLeft_eq_zero h)

theorem constbits_shr {m mc : IMode} {a : Nat} (hw : m.bits = 2 ^ a) (ha : a < mc.bits) (hM : m.modulo = 0 ∨ ∃ b, m.modulo = 2 ^ b)
    {l : BitInfo m.bits} {r : BitInfo mc.bits} {x : Int} {s : Nat} (hs : s < 2 ^ mc.bits)
    (hl : Knows m l x) (hr : Knows mc r s) : Knows m (BitInfo.strict2 (BitInfo.shr m.modulo) l r) (irShr m x s) := by
  have hm : 0 < m.bits := by rw [hw]; exact Nat.two_pow_pos a
  rw [strict2_sound hm (by omega) _ hl hr]
  unfold Knows
  rw [bv_shr]
  have hs' : (mc.bv s).toNat = s := by rw [bv_natCast, BitVec.toNat_ofNat, Nat.mod_eq_of_lt hs]
  rw [← hs']
  exact shift_sound hw ha hM (sh := fun x s => x >>> s) (fun h s => shr_describes h s) hl hr (fun h => BitVec.ushiftRight_eq_zero h)

/-- Shrs, when the effective count is below the size, e.g. because the modulo-shift of the mode is at most its
size, or because the count is a constant.  Missing: larger counts, see `constbits_shrs_wrong`. -/
theorem constbits_shrs_partial {m mc : IMode} {a : Nat} (hw : m.bits = 2 ^ a) (ha : a < mc.bits) (hM : m.modulo = 0 ∨ ∃ b, m.modulo = 2 ^ b)
    {l : BitInfo m.bits} {r : BitInfo mc.bits} {x : Int} {s : Nat} (hs : s < 2 ^ mc.bits) (hlt : m.amt s < m.bits ∨ r.z = r.o)
    (hl : Knows m l x) (hr : Knows mc r s) : Knows m (BitInfo.strict2 (BitInfo.shrs m.modulo) l r) (irShrs m x s) := by
  have hm : 0 < m.bits := by rw [hw]; exact Nat.two_pow_pos a
  rw [strict2_sound hm (by omega) _ hl hr]
  unfold Knows
  rw [bv_shrs]
  have hs' : (mc.bv s).toNat = s := by rw [bv_natCast, BitVec.toNat_ofNat, Nat.mod_eq_of_lt hs]
  rcases hlt with hlt | hk
  · rw [← hs'] at hlt ⊢
    exact shift_sound hw ha hM (sh := fun x s => x.sshiftRight s) (fun h s => sshr_describes h s) hl hr
      (fun h => absurd hlt (Nat.not_lt.2 h))
  · have hy : mc.bv s = r.z := describes_eq (by unfold Knows at hr; rw [← hk] at hr; exact hr)
    unfold BitInfo.shrs BitInfo.shift
    rw [if_pos hk, ← hy, hs']
    exact sshr_describes hl _

/-- for a mode whose counts are reduced modulo its size every count is covered -/
theorem constbits_shrs {m mc : IMode} {a : Nat} (hw : m.bits = 2 ^ a) (ha : a < mc.bits) (hM : m.modulo = m.bits)
    {l : BitInfo m.bits} {r : BitInfo mc.bits} {x : Int} {s : Nat} (hs : s < 2 ^ mc.bits)
    (hl : Knows m l x) (hr : Knows mc r s) : Knows m (BitInfo.strict2 (BitInfo.shrs m.modulo) l r) (irShrs m x s) := by
  have hm : 0 < m.bits := by rw [hw]; exact Nat.two_pow_pos a
  refine constbits_shrs_partial hw ha (Or.inr ⟨a, by rw [hM, hw]⟩) hs (Or.inl ?_) hl hr
  unfold IMode.amt
  rw [hM, if_neg (by omega)]
  exact Nat.mod_lt _ hm

/-- The rule for Shrs is wrong for the signed 8- and 16-bit modes, whose counts are reduced modulo 32: an oversize count
is taken to give zero, but it gives -1 for a negative operand.  The left operand is the constant -128, the count is 8 or
0; the analysis says that the result is 0x80 or 0, the value is -1. -/
theorem constbits_shrs_wrong :
    ∃ (m mc : IMode) (l : BitInfo m.bits) (r : BitInfo mc.bits) (x : Int) (s : Nat), m = ⟨true, 8, 32⟩ ∧ mc = ⟨false, 32, 32⟩ ∧ m.In x ∧
      s < 2 ^ mc.bits ∧ Knows m l x ∧ Knows mc r s ∧ ¬ Knows m (BitInfo.strict2 (BitInfo.shrs m.modulo) l r) (irShrs m x s) := by
  refine ⟨⟨true, 8, 32⟩, ⟨false, 32, 32⟩, BitInfo.const 0x80#8, ⟨8#32, 0#32⟩, -128, 8, rfl, rfl, ?_, ?_, ?_, ?_, ?_⟩
  · unfold IMode.In; decide
  · decide
  · unfold Knows Describes; decide +kernel
  · unfold Knows Describes; decide +kernel
  · unfold Knows Describes; decide +kernel

/-- the count is 1 or 3, the low bit of the operand is one: bits 1 to 3 of the result -/
example : BitInfo.strict2 (BitInfo.shl 32) (⟨0xf7#8, 0x07#8⟩ : BitInfo 8) (⟨3#32, 1#32⟩ : BitInfo 32) = ⟨0xfe#8, 0x08#8⟩ := by decide +kernel

/-! ## C28: comparisons -/

/-- the state computed for a comparison describes its outcome -/
theorem constbits_cmp {m : IMode} (hm : 0 < m.bits) (rel : Rel) {l r : BitInfo m.bits} {x y : Int} (hx : m.In x) (hy : m.In y)
    (hl : Knows m l x) (hr : Knows m r y) :
    let c := BitInfo.strict2 (BitInfo.cmp m.signed rel) l r
    Describes c.z c.o (BitVec.ofBool (Holds rel (intCmp.cmp x y))) := by
  intro c
  have hc : c = BitInfo.cmp m.signed rel l r := strict2_sound hm hm _ hl hr
  rw [hc]; clear hc c
  have hux : ∀ b : Bool, Describes (BitInfo.unknown 1).z (BitInfo.unknown 1).o (BitVec.ofBool b) := fun b => describes_unknown _
  have hk : ∀ {b b' : Bool}, b' = b → Describes (BitInfo.known b).z (BitInfo.known b).o (BitVec.ofBool b') := by
    intro b b' h; rw [h]; exact describes_refl _
  have hnx := bv_num hm hx
  have hny := bv_num hm hy
  have hne : BitInfo.bitDiffers l r = true → x ≠ y := by
    intro h hxy
    exact bitDiffers_sound hl hr h (by rw [hxy])
  have heq : BitInfo.bothEqual l r = true → x = y := by
    intro h
    have := bothEqual_sound hl hr h
    rw [← hnx, ← hny, this]
  have hn := names_spec x y
  unfold BitInfo.cmp
  by_cases h1 : rel = Rel.lessGreater
  · rw [if_pos h1, h1, hn.2.2.2.2.2.1]
    split
    · exact hk (by simpa using hne ‹_›)
    · split
      · exact hk (by simpa using heq ‹_›)
      · exact hux _
  rw [if_neg h1]
  by_cases h2 : rel = Rel.equal
  · rw [if_pos h2, h2, hn.2.2.2.2.1]
    split
    · exact hk (by simpa using hne ‹_›)
    · split
      · exact hk (by simpa using heq ‹_›)
      · exact hux _
  rw [if_neg h2]
  -- the bounds of both operands
  have hbounds : BitInfo.someNegative m.signed l r = false →
      (BitInfo.num m.signed l.o ≤ x ∧ x ≤ BitInfo.num m.signed l.z) ∧ (BitInfo.num m.signed r.o ≤ y ∧ y ≤ BitInfo.num m.signed r.z) := by
    intro h
    unfold BitInfo.someNegative at h
    simp only [Bool.or_eq_false_iff, decide_eq_false_iff_not, Int.not_lt] at h
    have b1 := num_bounds (signed := m.signed) hm hl h.1.1.1
    have b2 := num_bounds (signed := m.signed) hm hr h.1.2
    rw [hnx] at b1; rw [hny] at b2
    exact ⟨b1, b2⟩
  have htv : ∀ (a b : BitVec m.bits), BitInfo.tvCmp m.signed a b &&& rel = 0#4 ↔
      Holds rel (intCmp.cmp (BitInfo.num m.signed a) (BitInfo.num m.signed b)) = false := by
    intro a b
    unfold BitInfo.tvCmp intCmp
    have key : ∀ rel : Rel, (Rel.equal &&& rel = 0#4 ↔ Holds rel .eq = false) ∧ (Rel.less &&& rel = 0#4 ↔ Holds rel .lt = false) ∧
        (Rel.greater &&& rel = 0#4 ↔ Holds rel .gt = false) := by decide
    obtain ⟨k1, k2, k3⟩ := key rel
    simp only
    split
    · exact k1
    · split
      · exact k2
      · exact k3
  have hnames := fun (a b : BitVec m.bits) => names_spec (BitInfo.num m.signed a) (BitInfo.num m.signed b)
  unfold BitInfo.cmpOrder
  simp only [ne_eq, htv]
  by_cases h3 : rel = Rel.lessEqual ∨ rel = Rel.less
  · rw [if_pos h3]
    split
    · exact hux _
    rename_i hneg
    obtain ⟨b1, b2⟩ := hbounds (by simpa using hneg)
    simp only [if_true]
    rcases h3 with h3 | h3
    all_goals
      subst h3
      simp only [(hnames _ _).1, (hnames _ _).2.1, hn.1, hn.2.1, decide_eq_false_iff_not, not_not]
      split
      · apply hk; rw [decide_eq_true_iff]; omega
      · split
        · apply hk; rw [decide_eq_false_iff_not]; omega
        · exact hux _
  rw [if_neg h3]
  by_cases h4 : rel = Rel.greaterEqual ∨ rel = Rel.greater
  · rw [if_pos h4]
    split
    · exact hux _
    rename_i hneg
    obtain ⟨b1, b2⟩ := hbounds (by simpa using hneg)
    simp only [Bool.false_eq_true, if_false]
    rcases h4 with h4 | h4
    all_goals
      subst h4
      simp only [(hnames _ _).2.2.1, (hnames _ _).2.2.2.1, hn.2.2.1, hn.2.2.2.1, decide_eq_false_iff_not, not_not]
      split
      · apply hk; rw [decide_eq_false_iff_not]; omega
      · split
        · apply hk; rw [decide_eq_true_iff]; omega
        · exact hux _
  rw [if_neg h4]
  exact hux _

/-- when the analysis declares the outcome known, it is the outcome -/
theorem constbits_cmp_known {m : IMode} (hm : 0 < m.bits) (rel : Rel) {l r : BitInfo m.bits} {x y : Int} (hx : m.In x) (hy : m.In y)
    (hl : Knows m l x) (hr : Knows m r y) (b : Bool) (hk : BitInfo.strict2 (BitInfo.cmp m.signed rel) l r = BitInfo.known b) :
    Holds rel (intCmp.cmp x y) = b := by
  have h := constbits_cmp hm rel hx hy hl hr
  simp only at h
  rw [hk] at h
  have := describes_eq h
  revert this
  generalize Holds rel (intCmp.cmp x y) = c
  revert b c
  intro b _ _ c
  cases b <;> cases c <;> decide

/-- 0000xxxx < 0001xxxx is known to hold -/
example : BitInfo.strict2 (BitInfo.cmp true Rel.less) (⟨0x0f#8, 0#8⟩ : BitInfo 8) ⟨0x1f#8, 0x10#8⟩ = BitInfo.known true := by decide +kernel

end Verif.Props
