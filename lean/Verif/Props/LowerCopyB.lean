import Verif.Model.LowerCopyB
/-!
# Lowering of block copies and of stack allocation (C121)
-/
namespace Verif.Props.LowerCopyB

open Verif.Spec.BlockCopy Verif.Model.LowerCopyB

/-- the accesses follow one another from `off` to `size` -/
def Covers (size : Nat) : Nat → List Access → Prop
  | off, [] => off = size
  | off, (o, n) :: l => o = off ∧ 0 < n ∧ Covers size (off + n) l

theorem inner_covers (mb size : Nat) (hmb : 0 < mb) : ∀ (k off : Nat) (rest : List Access), size - off ≤ k →
    Covers size (inner mb size off).2 rest → Covers size off ((inner mb size off).1 ++ rest) := by
  intro k
  induction k with
  | zero =>
    intro off rest hk h
    have : ¬ (0 < mb ∧ off + mb ≤ size) := by omega
    rw [inner, if_neg this] at h ⊢
    exact h
  | succ k ih =>
    intro off rest hk h
    by_cases hc : 0 < mb ∧ off + mb ≤ size
    · rw [inner, if_pos hc] at h ⊢
      exact ⟨rfl, hmb, ih (off + mb) rest (by omega) h⟩
    · rw [inner, if_neg hc] at h ⊢
      exact h

theorem inner_end (mb size : Nat) (hmb : 0 < mb) : ∀ (k off : Nat), size - off ≤ k → off ≤ size →
    off ≤ (inner mb size off).2 ∧ (inner mb size off).2 ≤ size ∧ size < (inner mb size off).2 + mb ∧ ((mb ∣ off) → mb ∣ (inner mb size off).2) ∧
      ∀ x ∈ (inner mb size off).1, x.2 = mb ∧ (mb ∣ off → mb ∣ x.1) := by
  intro k
  induction k with
  | zero =>
    intro off hk ho
    have : ¬ (0 < mb ∧ off + mb ≤ size) := by omega
    rw [inner, if_neg this]
    exact ⟨Nat.le_refl _, ho, by show size < off + mb; omega, id, fun x h => nomatch h⟩
  | succ k ih =>
    intro off hk ho
    by_cases hc : 0 < mb ∧ off + mb ≤ size
    · rw [inner, if_pos hc]
      obtain ⟨h1, h2, h3, h4, h5⟩ := ih (off + mb) (by omega) hc.2
      refine ⟨by show off ≤ (inner mb size (off + mb)).2; omega, h2, h3, fun h => h4 (Nat.dvd_add h (Nat.dvd_refl mb)), ?_⟩
      intro x hx
      rcases List.mem_cons.1 hx with hx | hx
      · subst hx; exact ⟨rfl, id⟩
      · exact ⟨(h5 x hx).1, fun h => (h5 x hx).2 (Nat.dvd_add h (Nat.dvd_refl mb))⟩
    · rw [inner, if_neg hc]
      exact ⟨Nat.le_refl _, ho, by show size < off + mb; omega, id, fun x h => nomatch h⟩

/-- all there is to say about the accesses for a size with a mode -/
theorem accesses_spec (mb : Nat) : (hasMode mb = true ∨ mb = 0) → ∀ size off, off ≤ size → (mb = 0 → off = size) →
    ∃ l, accesses mb size off = some l ∧ Covers size off l ∧ (mb ∣ off → ∀ x ∈ l, x.2 ∣ x.1 ∧ x.2 ∣ mb) := by
  induction mb using Nat.strongRecOn with
  | ind mb ih =>
    intro hm size off ho h0
    by_cases hlt : off < size
    · have hmode : hasMode mb = true := by
        rcases hm with h | h
        · exact h
        · have := h0 h; omega
      have hmb : 0 < mb ∧ (hasMode (mb / 2) = true ∨ mb / 2 = 0) ∧ (mb = 1 ∨ mb / 2 ∣ mb) ∧ mb ≤ 8 := by
        have hm' := hmode
        unfold hasMode at hm'
        simp only [Bool.or_eq_true, decide_eq_true_eq] at hm'
        rcases hm' with ((h | h) | h) | h <;> subst h <;> decide
      rw [accesses, if_pos hlt, dif_pos hmode]
      obtain ⟨e1, e2, e3, e4, e5⟩ := inner_end mb size hmb.1 (size - off) off (Nat.le_refl _) ho
      obtain ⟨l, hl, hcov, hal⟩ := ih (mb / 2) (Nat.div_lt_self hmb.1 (by decide)) hmb.2.1 size (inner mb size off).2 e2
        (fun h => by
          have : mb = 1 := by omega
          omega)
      refine ⟨(inner mb size off).1 ++ l, by dsimp only; rw [hl]; rfl, inner_covers mb size hmb.1 (size - off) off l (Nat.le_refl _) hcov, ?_⟩
      intro hd x hx
      rcases List.mem_append.1 hx with hy | hy
      · obtain ⟨a1, a2⟩ := e5 x hy
        rw [a1]; exact ⟨a2 hd, Nat.dvd_refl _⟩
      · rcases hmb.2.2.1 with h1 | h2
        · subst h1
          rw [accesses, if_neg (by omega)] at hl
          have hl : [] = l := Option.some.inj hl
          rw [← hl] at hy
          exact absurd hy List.not_mem_nil
        · obtain ⟨a1, a2⟩ := hal (Nat.dvd_trans h2 (e4 hd)) x hy
          exact ⟨a1, Nat.dvd_trans a2 h2⟩
    · have he : off = size := by omega
      rw [accesses, if_neg hlt]
      exact ⟨[], rfl, he, fun _ x h => nomatch h⟩

theorem access_eq (src dst : Nat) (m : Mem) (off n a : Nat) :
    access src dst m (off, n) a = if dst + off ≤ a ∧ a < dst + off + n then m (src + (a - dst)) else m a := by
  unfold access
  dsimp only
  by_cases h : dst + off ≤ a ∧ a < dst + off + n
  · rw [if_pos h, if_pos h]
    have hlt : a - (dst + off) < n := by omega
    rw [List.getD_eq_getElem?_getD, List.getElem?_map, List.getElem?_range hlt]
    show m (src + off + (a - (dst + off))) = _
    congr 1
    omega
  · rw [if_neg h, if_neg h]

theorem covers_copy (src dst size : Nat) (hd : dst ≤ src ∨ src + size ≤ dst) (l : List Access) : ∀ (off : Nat) (m : Mem), off ≤ size → Covers size off l →
    ∀ a, l.foldl (access src dst) m a = if dst + off ≤ a ∧ a < dst + size then m (src + (a - dst)) else m a := by
  induction l with
  | nil =>
    intro off m _ h a
    have h : off = size := h
    rw [if_neg (by omega)]; rfl
  | cons x l ih =>
    obtain ⟨o, n⟩ := x
    intro off m ho h a
    obtain ⟨h1, h2, h3⟩ := h
    subst h1
    have hle : o + n ≤ size := by
      have : ∀ (l : List Access) (q : Nat), Covers size q l → q ≤ size := by
        intro l
        induction l with
        | nil => intro q h; exact Nat.le_of_eq h
        | cons y l ih => intro q h; have := ih _ h.2.2; omega
      exact this l _ h3
    rw [List.foldl_cons, ih (o + n) _ hle h3 a]
    by_cases ha : dst + (o + n) ≤ a ∧ a < dst + size
    · rw [if_pos ha, if_pos (by omega), access_eq, if_neg (by omega)]
    · rw [if_neg ha, access_eq]
      by_cases hb : dst + o ≤ a ∧ a < dst + o + n
      · rw [if_pos hb, if_pos (by omega)]
      · rw [if_neg hb, if_neg (by omega)]

/-- **A small CopyB becomes a copy**: the bytes of the source as they were arrive at the destination, and nothing else changes, for all sizes, if the widest access
has a mode and the destination does not begin inside of the source.  (The full claim, for all alignments, is false: `alignment_panics`.) -/
theorem small_copy_partial (mis : Bool) (native alignment size src dst : Nat) (m : Mem) (hm : hasMode (if mis then native else alignment) = true)
    (hd : dst ≤ src ∨ src + size ≤ dst) : smallCopy mis native alignment size src dst m = some (copied src dst size m) := by
  obtain ⟨l, hl, hc, _⟩ := accesses_spec _ (Or.inl hm) size 0 (Nat.zero_le _) (fun h => by rw [h] at hm; exact absurd hm (by decide))
  unfold smallCopy
  rw [hl]
  dsimp only
  congr 1
  funext a
  rw [covers_copy src dst size hd l 0 m (Nat.zero_le _) hc a]
  rfl

/-- **All accesses are aligned** if the addresses are aligned as the type says and misaligned accesses are not allowed. -/
theorem accesses_aligned (alignment size src dst : Nat) (hm : hasMode alignment = true) (hs : alignment ∣ src) (ht : alignment ∣ dst) :
    ∃ l, accesses alignment size 0 = some l ∧ ∀ x ∈ l, x.2 ∣ src + x.1 ∧ x.2 ∣ dst + x.1 := by
  obtain ⟨l, hl, _, ha⟩ := accesses_spec alignment (Or.inl hm) size 0 (Nat.zero_le _) (fun h => by rw [h] at hm; exact absurd hm (by decide))
  refine ⟨l, hl, fun x hx => ?_⟩
  obtain ⟨h1, h2⟩ := ha (Nat.dvd_zero _) x hx
  exact ⟨Nat.dvd_add (Nat.dvd_trans h2 hs) h1, Nat.dvd_add (Nat.dvd_trans h2 ht) h1⟩

/-- **A type that is aligned to more than eight bytes stops the compiler**, if misaligned accesses are not allowed. -/
theorem alignment_panics (alignment size src dst native : Nat) (h8 : 8 < alignment) (hs : 0 < size) (m : Mem) :
    smallCopy false native alignment size src dst m = none := by
  have : hasMode alignment = false := by
    unfold hasMode
    simp only [Bool.or_eq_false_iff, decide_eq_false_iff_not]
    omega
  unfold smallCopy
  simp only [Bool.false_eq_true, if_false]
  rw [accesses, if_pos hs, dif_neg (by rw [this]; decide)]

/-- **Overlapping**: with the destination inside of the source bytes are copied twice. -/
theorem overlap_wrong : ∃ m' : Mem, smallCopy false 4 1 2 0 1 (fun a => BitVec.ofNat 8 a) = some m' ∧ m' 2 ≠ copied 0 1 2 (fun a => BitVec.ofNat 8 a) 2 := by
  obtain ⟨l, hl, hc, _⟩ := accesses_spec 1 (Or.inl (by decide)) 2 0 (Nat.zero_le _) (fun h => by omega)
  have e : accesses 1 2 0 = some [(0, 1), (1, 1)] := by
    rw [accesses, if_pos (by decide), dif_pos (by decide), inner, if_pos (by decide), inner, if_pos (by decide), inner, if_neg (by decide)]
    dsimp only
    rw [accesses, if_neg (by decide)]
    rfl
  refine ⟨_, by rw [smallCopy]; simp only [Bool.false_eq_true, if_false]; rw [e], ?_⟩
  decide

/-- **Every CopyB with a size outside of the middle range is lowered**, and those in it are kept; no size is invalid. -/
theorem lowering_total (maxSmall minLarge size : Nat) :
    decide' maxSmall minLarge size = some (if size ≤ maxSmall then .small else if size < minLarge then .kept else .large) := by
  unfold decide'
  by_cases h1 : size ≤ maxSmall
  · have : (decide (maxSmall < size) && decide (size < minLarge)) = false := by simp; omega
    rw [this, if_neg Bool.false_ne_true, if_pos h1, if_pos h1]
  · by_cases h2 : size < minLarge
    · have : (decide (maxSmall < size) && decide (size < minLarge)) = true := by simp; omega
      rw [this, if_pos rfl, if_neg h1, if_pos h2]
    · have : (decide (maxSmall < size) && decide (size < minLarge)) = false := by simp; omega
      rw [this, if_neg Bool.false_ne_true, if_neg h1, if_pos (by omega), if_neg h1, if_neg h2]

theorem mask_bit (w po2 i : Nat) (hi : i < w) : ((BitVec.allOnes w >>> po2) <<< po2).getLsbD i = decide (po2 ≤ i) := by
  rw [BitVec.getLsbD_shiftLeft, BitVec.getLsbD_ushiftRight, BitVec.getLsbD_allOnes]
  by_cases h : po2 ≤ i
  · have : ¬ i < po2 := by omega
    simp [hi, this, h]
  · have : i < po2 := by omega
    simp [this, h]

theorem mask_toNat (w po2 : Nat) : (~~~((BitVec.allOnes w >>> po2) <<< po2)).toNat = 2 ^ min po2 w - 1 := by
  have : ~~~((BitVec.allOnes w >>> po2) <<< po2) = BitVec.ofNat w (2 ^ min po2 w - 1) := by
    apply BitVec.eq_of_getLsbD_eq
    intro i hi
    rw [BitVec.getLsbD_not, mask_bit w po2 i hi, BitVec.getLsbD_ofNat, Nat.testBit_two_pow_sub_one]
    by_cases h : po2 ≤ i
    · have h2 : ¬ i < min po2 w := by omega
      simp [h, h2]
    · have h2 : i < min po2 w := by omega
      simp [hi, h, h2]
  rw [this, BitVec.toNat_ofNat]
  apply Nat.mod_eq_of_lt
  have := Nat.pow_le_pow_right (show 0 < 2 by decide) (Nat.min_le_right po2 w)
  have : 0 < 2 ^ min po2 w := Nat.pow_pos (by decide)
  omega

theorem and_mask (w po2 : Nat) (x : BitVec w) : (x &&& ((BitVec.allOnes w >>> po2) <<< po2)).toNat = x.toNat / 2 ^ po2 * 2 ^ po2 := by
  have : x &&& ((BitVec.allOnes w >>> po2) <<< po2) = (x >>> po2) <<< po2 := by
    apply BitVec.eq_of_getLsbD_eq
    intro i hi
    rw [BitVec.getLsbD_and, mask_bit w po2 i hi, BitVec.getLsbD_shiftLeft, BitVec.getLsbD_ushiftRight]
    by_cases h : po2 ≤ i
    · have h2 : ¬ i < po2 := by omega
      have h3 : po2 + (i - po2) = i := by omega
      simp [h, h2, hi, h3]
    · have h2 : i < po2 := by omega
      simp [h, h2]
  rw [this, BitVec.toNat_shiftLeft, BitVec.toNat_ushiftRight, Nat.shiftRight_eq_div_pow, Nat.shiftLeft_eq]
  apply Nat.mod_eq_of_lt
  exact Nat.lt_of_le_of_lt (Nat.div_mul_le_self _ _) x.isLt

/-- **Allocated sizes are rounded up** to the alignment of the stack, if the rounded size is representable. -/
theorem alloc_size_partial (w po2 : Nat) (hp : po2 ≤ w) (size : BitVec w) (h : size.toNat + (2 ^ po2 - 1) < 2 ^ w) :
    RoundsUp (2 ^ po2) size.toNat (adjustAllocSize po2 size).toNat := by
  have e : (adjustAllocSize po2 size).toNat = (size.toNat + (2 ^ po2 - 1)) / 2 ^ po2 * 2 ^ po2 := by
    unfold adjustAllocSize
    dsimp only
    rw [and_mask, BitVec.toNat_add, mask_toNat, Nat.min_eq_left hp, Nat.mod_eq_of_lt h]
  have hpos : 0 < 2 ^ po2 := Nat.pow_pos (by decide)
  rw [e]
  generalize 2 ^ po2 = al at hpos
  generalize size.toNat = n
  refine ⟨Nat.dvd_mul_left _ _, ?_, ?_⟩
  · have h1 := Nat.div_add_mod (n + (al - 1)) al
    have h2 := Nat.mod_lt (n + (al - 1)) hpos
    rw [Nat.mul_comm al] at h1
    omega
  · intro r' hd hn
    obtain ⟨q, hq⟩ := hd
    subst hq
    rw [Nat.mul_comm al q]
    apply Nat.mul_le_mul_right
    rw [Nat.mul_comm al q] at hn
    have : (n + (al - 1)) / al < q + 1 := by
      rw [Nat.div_lt_iff_lt_mul hpos, Nat.add_mul, Nat.one_mul]
      omega
    omega

/-- **A size just below the end of the range becomes 0**, for every width and alignment. -/
theorem alloc_size_wraps (w po2 : Nat) (hp : 0 < po2) (hpw : po2 ≤ w) : (adjustAllocSize po2 (BitVec.allOnes w)).toNat = 0 := by
  unfold adjustAllocSize
  dsimp only
  rw [and_mask, BitVec.toNat_add, mask_toNat, Nat.min_eq_left hpw, BitVec.toNat_allOnes]
  have h1 : 2 ^ po2 ≤ 2 ^ w := Nat.pow_le_pow_right (by decide) hpw
  have h2 : 2 ≤ 2 ^ po2 := by
    have := Nat.pow_le_pow_right (show 0 < 2 by decide) hp
    simpa using this
  have h3 : 2 ^ w - 1 + (2 ^ po2 - 1) = (2 ^ po2 - 2) + 2 ^ w := by omega
  rw [h3, Nat.add_mod_right, Nat.mod_eq_of_lt (by omega), Nat.div_eq_of_lt (by omega), Nat.zero_mul]

/-! Cases -/

/-- seven bytes with four at a time -/
example : ∃ l, accesses 4 7 0 = some l ∧ l = [(0, 4), (4, 2), (6, 1)] := by
  refine ⟨_, ?_, rfl⟩
  rw [accesses, if_pos (by decide), dif_pos (by decide), inner, if_pos (by decide), inner, if_neg (by decide)]
  dsimp only
  rw [accesses, if_pos (by decide), dif_pos (by decide), inner, if_pos (by decide), inner, if_neg (by decide)]
  dsimp only
  rw [accesses, if_pos (by decide), dif_pos (by decide), inner, if_pos (by decide), inner, if_neg (by decide)]
  dsimp only
  rw [accesses, if_neg (by decide)]
  rfl

example : (adjustAllocSize 4 (17#32)).toNat = 32 ∧ 17 + (2 ^ 4 - 1) < 2 ^ 32 := by decide

end Verif.Props.LowerCopyB
