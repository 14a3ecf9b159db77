import Verif.Model.StrCalcInPlace
import Verif.Lemmas.StrCalcBits
/-!
# C06: the kernels may be used in place

For arbitrary buffer names (equal or not) the loop execution leaves in `out`
what the list function of `Model/StrCalc.lean` computes from the initial
contents, and changes no other buffer.
-/
namespace Verif.Props
open Verif.Spec Verif.Model

/-- Specification: executing the kernel turned state `s` into `s'` where buffer
`out` now holds `r` and every other buffer is unchanged. -/
def Stores (s s' : Bufs) (out : Nat) (r : List Nat) : Prop :=
  s' out = r ∧ ∀ b, b ≠ out → s' b = s b

/-! ## generic facts -/

theorem rd_wr (s : Bufs) (b i v b' j : Nat) :
    (s.wr b i v).rd b' j = if b' = b ∧ j = i ∧ i < (s b).length then v else s.rd b' j := by
  unfold Bufs.rd Bufs.wr
  by_cases hb : b' = b
  · subst hb
    rw [if_pos rfl, List.getD_eq_getElem?_getD, List.getElem?_set]
    by_cases hj : i = j
    · subst hj
      by_cases hl : i < (s b').length
      · simp [hl]
      · simp [hl]
    · have : j ≠ i := fun h => hj h.symm
      simp [hj, this]
  · simp [hb]

theorem wr_length (s : Bufs) (b i v b' : Nat) : ((s.wr b i v) b').length = (s b').length := by
  unfold Bufs.wr; split
  · next h => rw [h]; simp
  · rfl

theorem fill_rd (s : Bufs) (b v k i b' j : Nat) (hl : i + k ≤ (s b).length) :
    (s.fill b v k i).rd b' j = if b' = b ∧ i ≤ j ∧ j < i + k then v else s.rd b' j := by
  induction k generalizing s i with
  | zero => simp only [Bufs.fill]; rw [if_neg (by omega)]
  | succ k ih =>
    rw [Bufs.fill, ih _ _ (by rw [wr_length]; omega), rd_wr]
    by_cases hb : b' = b
    · simp only [hb, true_and]
      by_cases h1 : i + 1 ≤ j ∧ j < i + 1 + k
      · rw [if_pos h1, if_pos (by omega)]
      · rw [if_neg h1]
        by_cases h2 : j = i
        · rw [if_pos ⟨h2, by omega⟩, if_pos (by omega)]
        · rw [if_neg (fun h => h2 h.1), if_neg (by omega)]
    · simp [hb]

theorem fill_length (s : Bufs) (b v k i b' : Nat) : ((s.fill b v k i) b').length = (s b').length := by
  induction k generalizing s i with
  | zero => rfl
  | succ k ih => rw [Bufs.fill, ih, wr_length]

theorem bufs_ext {s s' : Bufs} {out : Nat} {r : List Nat} (hlen : ∀ b, (s' b).length = (s b).length)
    (hr : r.length = (s out).length)
    (h : ∀ b j, s'.rd b j = if b = out then r.getD j 0 else s.rd b j) : Stores s s' out r := by
  constructor
  · apply list_ext_getD (by rw [hlen, hr])
    intro i _
    have := h out i
    rw [if_pos rfl] at this; exact this
  · intro b hb
    apply list_ext_getD (hlen b)
    intro i _
    have := h b i
    rw [if_neg hb] at this; exact this

/-- the values a forward loop stores, computed from the initial state only -/
def fwdVals {γ : Type} (step : Nat → Bufs → γ → Nat × γ) (s : Bufs) : Nat → Nat → γ → List Nat
  | 0, _, _ => []
  | k + 1, i, c => (step i s c).1 :: fwdVals step s k (i + 1) (step i s c).2

/-- A forward loop whose iteration `i` reads only words at positions `≥ i` may
overwrite any of its inputs. -/
theorem fwdLoop_spec {γ : Type} (out : Nat) (step : Nat → Bufs → γ → Nat × γ)
    (hdep : ∀ i c (s s' : Bufs), (∀ b j, i ≤ j → s.rd b j = s'.rd b j) → step i s c = step i s' c) (s0 : Bufs) :
    ∀ k i c (s : Bufs), (∀ b, (s b).length = (s0 b).length) → i + k ≤ (s0 out).length →
      (∀ b j, i ≤ j → s.rd b j = s0.rd b j) →
      (∀ b, ((fwdLoop out step k i c s) b).length = (s0 b).length) ∧
      ∀ b j, (fwdLoop out step k i c s).rd b j =
        if b = out ∧ i ≤ j ∧ j < i + k then (fwdVals step s0 k i c).getD (j - i) 0 else s.rd b j := by
  intro k
  induction k with
  | zero =>
    intro i c s hl _ _
    refine ⟨hl, fun b j => ?_⟩
    rw [if_neg (by omega)]; rfl
  | succ k ih =>
    intro i c s hl hn hrd
    rw [fwdLoop, hdep i c s s0 hrd]
    obtain ⟨h1, h2⟩ := ih (i + 1) (step i s0 c).2 (s.wr out i (step i s0 c).1)
      (by intro b; rw [wr_length, hl]) (by omega)
      (by intro b j hj; rw [rd_wr, if_neg (by omega)]; exact hrd b j (by omega))
    refine ⟨h1, fun b j => ?_⟩
    rw [h2, rd_wr]
    have hlo : i < (s out).length := by rw [hl]; omega
    by_cases hb : b = out
    · simp only [hb, true_and, hlo, and_true, fwdVals]
      by_cases c1 : i + 1 ≤ j ∧ j < i + 1 + k
      · rw [if_pos c1, if_pos (by omega), show j - i = (j - (i + 1)) + 1 by omega, List.getD_cons_succ]
      · rw [if_neg c1]
        by_cases c2 : j = i
        · rw [if_pos c2, if_pos (by omega), c2, Nat.sub_self, List.getD_cons_zero]
        · rw [if_neg c2, if_neg (by omega)]
    · simp [hb]

/-- the value a backward loop stores at position `lo + k` -/
def bwdVals {γ : Type} (step : Nat → Bufs → γ → Nat × γ) (s : Bufs) (lo : Nat) : Nat → γ → Nat → Nat
  | 0, _, _ => 0
  | k + 1, c, j => if j = lo + k then (step (lo + k) s c).1 else bwdVals step s lo k (step (lo + k) s c).2 j

theorem bwdLoop_spec {γ : Type} (out : Nat) (step : Nat → Bufs → γ → Nat × γ) (lo : Nat)
    (hdep : ∀ i c (s s' : Bufs), (∀ b j, j ≤ i → s.rd b j = s'.rd b j) → step i s c = step i s' c) (s0 : Bufs) :
    ∀ k c (s : Bufs), (∀ b, (s b).length = (s0 b).length) → lo + k ≤ (s0 out).length →
      (∀ b j, j < lo + k → s.rd b j = s0.rd b j) →
      (∀ b, ((bwdLoop out step lo k c s) b).length = (s0 b).length) ∧
      ∀ b j, (bwdLoop out step lo k c s).rd b j =
        if b = out ∧ lo ≤ j ∧ j < lo + k then bwdVals step s0 lo k c j else s.rd b j := by
  intro k
  induction k with
  | zero =>
    intro c s hl _ _
    refine ⟨hl, fun b j => ?_⟩
    rw [if_neg (by omega)]; rfl
  | succ k ih =>
    intro c s hl hn hrd
    rw [bwdLoop, hdep (lo + k) c s s0 (fun b j hj => hrd b j (by omega))]
    obtain ⟨h1, h2⟩ := ih (step (lo + k) s0 c).2 (s.wr out (lo + k) (step (lo + k) s0 c).1)
      (by intro b; rw [wr_length, hl]) (by omega)
      (by intro b j hj; rw [rd_wr, if_neg (by omega)]; exact hrd b j (by omega))
    refine ⟨h1, fun b j => ?_⟩
    rw [h2, rd_wr]
    have hlo : lo + k < (s out).length := by rw [hl]; omega
    by_cases hb : b = out
    · simp only [hb, true_and, hlo, and_true, bwdVals]
      by_cases c1 : lo ≤ j ∧ j < lo + k
      · rw [if_pos c1, if_pos (by omega), if_neg (by omega)]
      · rw [if_neg c1]
        by_cases c2 : j = lo + k
        · rw [if_pos c2, if_pos (by omega), if_pos c2]
        · rw [if_neg c2, if_neg (by omega)]
    · simp [hb]

theorem getD_fwdVals_unit (f : Nat → Bufs → Nat) (s : Bufs) (k i j : Nat) (hj : j < k) :
    (fwdVals (fun i s (_ : Unit) => (f i s, ())) s k i ()).getD j 0 = f (i + j) s := by
  induction k generalizing i j with
  | zero => omega
  | succ k ih =>
    cases j with
    | zero => rfl
    | succ j => rw [fwdVals, List.getD_cons_succ, ih (i + 1) j (by omega)]; congr 1; omega

/-! ## C06 -/

/-- C06: `sc_not` in place. -/
theorem sc_not_in_place (n val out : Nat) (s : Bufs) (hv : (s val).length = n) (ho : (s out).length = n) :
    Stores s (ipNot n val out s) out (scNot (s val)) := by
  obtain ⟨h1, h2⟩ := fwdLoop_spec out (fun i s (_ : Unit) => (s.rd val i ^^^ 255, ()))
    (by intro i c s s' h; simp only [h val i (le_refl _)]) s n 0 () s (fun _ => rfl) (by omega) (fun _ _ _ => rfl)
  apply bufs_ext h1 (by rw [scNot_length, hv, ho])
  intro b j
  rw [h2]
  by_cases hb : b = out
  · subst hb
    simp only [true_and, Nat.zero_le, Nat.zero_add, if_true, Nat.sub_zero, scNot]
    rw [getD_map, hv]
    by_cases hj : j < n
    · rw [if_pos hj, if_pos hj, getD_fwdVals_unit _ _ _ _ _ hj, Nat.zero_add]; rfl
    · rw [if_neg hj, if_neg hj]; exact getD_of_ge (by omega)
  · simp [hb]

/-- C06: the bitwise binary kernels in place (any aliasing of the three names). -/
theorem sc_zip_in_place (f : Nat → Nat → Nat) (n v1 v2 out : Nat) (s : Bufs) (h1 : (s v1).length = n) (h2 : (s v2).length = n)
    (ho : (s out).length = n) : Stores s (ipZip f n v1 v2 out s) out (List.zipWith f (s v1) (s v2)) := by
  obtain ⟨g1, g2⟩ := fwdLoop_spec out (fun i s (_ : Unit) => (f (s.rd v1 i) (s.rd v2 i), ()))
    (by intro i c s s' h; simp only [h v1 i (le_refl _), h v2 i (le_refl _)]) s n 0 () s (fun _ => rfl) (by omega) (fun _ _ _ => rfl)
  apply bufs_ext g1 (by simp [h1, h2, ho])
  intro b j
  rw [g2]
  by_cases hb : b = out
  · subst hb
    simp only [true_and, Nat.zero_le, Nat.zero_add, if_true, Nat.sub_zero]
    rw [getD_zipWith _ (by omega), h1]
    by_cases hj : j < n
    · rw [if_pos hj, if_pos hj, getD_fwdVals_unit _ _ _ _ _ hj, Nat.zero_add]; rfl
    · rw [if_neg hj, if_neg hj]; exact getD_of_ge (by omega)
  · simp [hb]

theorem sc_bitwise_in_place (n v1 v2 out : Nat) (s : Bufs) (h1 : (s v1).length = n) (h2 : (s v2).length = n) (ho : (s out).length = n) :
    Stores s (ipZip (· ||| ·) n v1 v2 out s) out (scOr (s v1) (s v2)) ∧
    Stores s (ipZip (· &&& ·) n v1 v2 out s) out (scAnd (s v1) (s v2)) ∧
    Stores s (ipZip (· ^^^ ·) n v1 v2 out s) out (scXor (s v1) (s v2)) ∧
    Stores s (ipZip (fun x y => x &&& (255 ^^^ y)) n v1 v2 out s) out (scAndNot (s v1) (s v2)) ∧
    Stores s (ipZip (fun x y => x ||| (255 ^^^ y)) n v1 v2 out s) out (scOrNot (s v1) (s v2)) :=
  ⟨sc_zip_in_place _ n v1 v2 out s h1 h2 ho, sc_zip_in_place _ n v1 v2 out s h1 h2 ho, sc_zip_in_place _ n v1 v2 out s h1 h2 ho,
    sc_zip_in_place _ n v1 v2 out s h1 h2 ho, sc_zip_in_place _ n v1 v2 out s h1 h2 ho⟩

theorem drop_getD (l : List Nat) (i : Nat) (h : i < l.length) : l.drop i = l.getD i 0 :: l.drop (i + 1) := by
  rw [List.drop_eq_getElem_cons h, List.getD_eq_getElem?_getD, List.getElem?_eq_getElem h, Option.getD_some]

theorem fwdVals_add (v1 v2 : Nat) (s : Bufs) (n : Nat) (h1 : (s v1).length = n) (h2 : (s v2).length = n) :
    ∀ k i c, i + k = n →
      fwdVals (fun i s (c : Nat) => let sum := s.rd v1 i + s.rd v2 i + c; (sum % 256, sum / 256)) s k i c =
        scAddLoop ((s v1).drop i) ((s v2).drop i) c := by
  intro k
  induction k with
  | zero =>
    intro i c hi
    rw [List.drop_of_length_le (by omega), List.drop_of_length_le (by omega)]; rfl
  | succ k ih =>
    intro i c hi
    rw [drop_getD _ i (by omega), drop_getD _ i (by omega), fwdVals, ih (i + 1) _ (by omega)]
    rfl

/-- C06: `sc_add` in place. -/
theorem sc_add_in_place (n v1 v2 out : Nat) (s : Bufs) (h1 : (s v1).length = n) (h2 : (s v2).length = n) (ho : (s out).length = n) :
    Stores s (ipAdd n v1 v2 out s) out (scAdd (s v1) (s v2)) := by
  obtain ⟨g1, g2⟩ := fwdLoop_spec out (fun i s (c : Nat) => let sum := s.rd v1 i + s.rd v2 i + c; (sum % 256, sum / 256))
    (by intro i c s s' h; simp only [h v1 i (le_refl _), h v2 i (le_refl _)]) s n 0 0 s (fun _ => rfl) (by omega) (fun _ _ _ => rfl)
  have hv := fwdVals_add v1 v2 s n h1 h2 n 0 0 (by omega)
  rw [List.drop_zero, List.drop_zero] at hv
  have hl : (scAdd (s v1) (s v2)).length = n := by rw [scAdd_length (by omega), h1]
  apply bufs_ext g1 (by rw [hl, ho])
  intro b j
  rw [g2, hv]
  by_cases hb : b = out
  · subst hb
    simp only [true_and, Nat.zero_le, Nat.zero_add, if_true, Nat.sub_zero]
    by_cases hj : j < n
    · rw [if_pos hj]; rfl
    · rw [if_neg hj, getD_of_ge (by omega)]; exact getD_of_ge (by omega)
  · simp [hb]

theorem fwdVals_inc (v : Nat) (s : Bufs) (n : Nat) (h1 : (s v).length = n) :
    ∀ k i c, i + k = n →
      fwdVals (fun i s (c : Bool) => let w := s.rd v i
        if c then (if w < 255 then (w + 1, false) else (0, true)) else (w, false)) s k i c =
        if c then scInc ((s v).drop i) else (s v).drop i := by
  intro k
  induction k with
  | zero =>
    intro i c hi
    rw [List.drop_of_length_le (by omega)]; cases c <;> rfl
  | succ k ih =>
    intro i c hi
    rw [drop_getD _ i (by omega), fwdVals, ih (i + 1) _ (by omega)]
    cases c with
    | false => rfl
    | true =>
      simp only [if_true, scInc, Bufs.rd]
      by_cases h : (s v).getD i 0 < 255
      · simp only [h, if_true, Bool.false_eq_true, if_false]
      · simp only [h, if_false, if_true]

theorem sc_inc_in_place (n buf : Nat) (s : Bufs) (h : (s buf).length = n) :
    Stores s (ipInc n buf s) buf (scInc (s buf)) := by
  obtain ⟨g1, g2⟩ := fwdLoop_spec buf (fun i s (c : Bool) => let w := s.rd buf i
      if c then (if w < 255 then (w + 1, false) else (0, true)) else (w, false))
    (by intro i c s s' h; simp only [h buf i (le_refl _)]) s n 0 true s (fun _ => rfl) (by omega) (fun _ _ _ => rfl)
  have hv := fwdVals_inc buf s n h n 0 true (by omega)
  rw [List.drop_zero, if_pos rfl] at hv
  have hl : (scInc (s buf)).length = n := by rw [scInc_length, h]
  apply bufs_ext g1 (by rw [hl, h])
  intro b j
  rw [g2, hv]
  by_cases hb : b = buf
  · subst hb
    simp only [true_and, Nat.zero_le, Nat.zero_add, if_true, Nat.sub_zero]
    by_cases hj : j < n
    · rw [if_pos hj]
    · rw [if_neg hj, getD_of_ge (by omega)]; exact getD_of_ge (by omega)
  · simp [hb]

theorem Stores.trans {s s' s'' : Bufs} {out : Nat} {r r' : List Nat} (h1 : Stores s s' out r) (h2 : Stores s' s'' out r') :
    Stores s s'' out r' := ⟨h2.1, fun b hb => by rw [h2.2 b hb, h1.2 b hb]⟩

/-- C06: `sc_neg` in place. -/
theorem sc_neg_in_place (n val out : Nat) (s : Bufs) (hv : (s val).length = n) (ho : (s out).length = n) :
    Stores s (ipNeg n val out s) out (scNeg (s val)) := by
  have h1 := sc_not_in_place n val out s hv ho
  have hl : ((ipNot n val out s) out).length = n := by rw [h1.1, scNot_length, hv]
  have h2 := sc_inc_in_place n out (ipNot n val out s) hl
  rw [h1.1] at h2
  exact h1.trans h2

/-- C06: `sc_sub` with the result overwriting either operand; `tmp` is fresh. -/
theorem sc_sub_in_place (n v1 v2 out tmp : Nat) (s : Bufs) (h1 : (s v1).length = n) (h2 : (s v2).length = n) (ho : (s out).length = n)
    (ht : (s tmp).length = n) (f1 : tmp ≠ v1) (f3 : tmp ≠ out) :
    (ipSub n v1 v2 out tmp s) out = scSub (s v1) (s v2) ∧ ∀ b, b ≠ out → b ≠ tmp → (ipSub n v1 v2 out tmp s) b = s b := by
  have g1 := sc_neg_in_place n v2 tmp s h2 ht
  have e1 : (ipNeg n v2 tmp s) v1 = s v1 := g1.2 v1 (fun h => f1 h.symm)
  have e3 : (ipNeg n v2 tmp s) out = s out := g1.2 out (fun h => f3 h.symm)
  have g2 := sc_add_in_place n v1 tmp out (ipNeg n v2 tmp s) (by rw [e1]; exact h1) (by rw [g1.1, scNeg_length, h2]) (by rw [e3]; exact ho)
  rw [e1, g1.1] at g2
  exact ⟨g2.1, fun b hb hb2 => by unfold ipSub; rw [g2.2 b hb, g1.2 b hb2]⟩

/-! ### shifts -/

theorem getD_replicate (n d j : Nat) : (List.replicate n d).getD j 0 = if j < n then d else 0 := by
  rw [List.getD_eq_getElem?_getD, List.getElem?_replicate]
  split <;> rfl

theorem fill_all {s : Bufs} {out n v : Nat} (ho : (s out).length = n) : Stores s (s.fill out v n 0) out (List.replicate n v) := by
  apply bufs_ext (fun b => fill_length _ _ _ _ _ _) (by simp [ho])
  intro b j
  rw [fill_rd _ _ _ _ _ _ _ (by omega), getD_replicate]
  by_cases hb : b = out
  · subst hb
    simp only [true_and, Nat.zero_le, Nat.zero_add, if_true]
    by_cases hj : j < n
    · rw [if_pos hj, if_pos hj]
    · rw [if_neg hj, if_neg hj]; exact getD_of_ge (by omega)
  · simp [hb]

theorem bwdVals_unit (f : Nat → Bufs → Nat) (s : Bufs) (lo k j : Nat) (h1 : lo ≤ j) (h2 : j < lo + k) :
    bwdVals (fun i s (_ : Unit) => (f i s, ())) s lo k () j = f j s := by
  induction k with
  | zero => omega
  | succ k ih =>
    rw [bwdVals]
    by_cases h : j = lo + k
    · rw [if_pos h, h]
    · rw [if_neg h]; exact ih (by omega)

/-- backward loop carrying the word for the next iteration -/
theorem bwdVals_carry (val sw sb : Nat) (s : Bufs) (k j : Nat) (h1 : sw ≤ j) (h2 : j < sw + k) :
    bwdVals (fun i s (v : Nat) =>
      let next := if i - sw = 0 then 0 else s.rd val (i - sw - 1)
      ((v <<< sb) % 256 ||| (next >>> (8 - sb)) % 256, next)) s sw k (s.rd val (k - 1)) j =
    (s.rd val (j - sw) <<< sb) % 256 ||| ((if j - sw = 0 then 0 else s.rd val (j - sw - 1)) >>> (8 - sb)) % 256 := by
  induction k with
  | zero => omega
  | succ k ih =>
    rw [bwdVals]
    by_cases h : j = sw + k
    · rw [if_pos h]; subst h; simp only [Nat.add_sub_cancel, Nat.add_sub_cancel_left]
    · rw [if_neg h]
      have hk : k ≠ 0 := by omega
      simp only [Nat.add_sub_cancel_left, hk, if_false]
      exact ih (by omega)

/-- forward loop carrying the word for the next iteration -/
theorem fwdVals_carry (val sw sb limit fillw : Nat) (s : Bufs) :
    ∀ (k i j : Nat), j < k → i + k + sw = limit →
    (fwdVals (fun i s (v : Nat) =>
      let next := if i + sw + 1 < limit then s.rd val (i + sw + 1) else fillw
      ((v >>> sb) % 256 ||| (next <<< (8 - sb)) % 256, next)) s k i (s.rd val (i + sw))).getD j 0 =
    (s.rd val (i + j + sw) >>> sb) % 256 ||| ((if i + j + sw + 1 < limit then s.rd val (i + j + sw + 1) else fillw) <<< (8 - sb)) % 256 := by
  intro k
  induction k with
  | zero => intro i j h; omega
  | succ k ih =>
    intro i j hj hl
    rw [fwdVals]
    cases j with
    | zero => rw [List.getD_cons_zero]; rfl
    | succ j =>
      rw [List.getD_cons_succ]
      have : i + sw + 1 < limit := by omega
      simp only [this, if_true]
      have e := ih (i + 1) j (by omega) (by omega)
      rw [show i + 1 + sw = i + sw + 1 by omega, show i + 1 + j = i + (j + 1) by omega] at e
      exact e

/-- C06: `sc_shlI` in place. -/
theorem sc_shl_in_place (n val count out : Nat) (s : Bufs) (hv : (s val).length = n) (ho : (s out).length = n) :
    Stores s (ipShl n val count out s) out (scShlI (s val) count) := by
  unfold ipShl
  by_cases hc : count ≥ n * 8
  · rw [if_pos hc]
    have : scShlI (s val) count = List.replicate n 0 := by unfold scShlI; simp only [hv]; rw [if_pos hc]; rfl
    rw [this]; exact fill_all ho
  · rw [if_neg hc]
    simp only
    have hsw : count / 8 < n := by omega
    have hn : count / 8 + (n - count / 8) = n := by omega
    have fin : ∀ (s1 : Bufs) (f : Nat → Nat), (∀ b, (s1 b).length = (s b).length) →
        (∀ b j, s1.rd b j = if b = out ∧ count / 8 ≤ j ∧ j < count / 8 + (n - count / 8) then f j else s.rd b j) →
        (∀ j, count / 8 ≤ j → j < n → f j = (scShlI (s val) count).getD j 0) →
        Stores s (s1.fill out 0 (count / 8) 0) out (scShlI (s val) count) := by
      intro s1 f hl hr hf
      apply bufs_ext (fun b => by rw [fill_length, hl]) (by rw [scShlI_length, hv, ho])
      intro b j
      rw [fill_rd _ _ _ _ _ _ _ (by rw [hl]; omega), hr, hn]
      by_cases hb : b = out
      · subst hb
        simp only [true_and, Nat.zero_le, Nat.zero_add, if_true]
        by_cases hj : j < count / 8
        · rw [if_pos hj]
          unfold scShlI
          simp only [hv, if_neg hc]
          rw [getD_mapIdx, if_pos (by omega), if_pos hj]
        · rw [if_neg hj]
          by_cases hj2 : j < n
          · rw [if_pos ⟨by omega, hj2⟩]; exact hf j (by omega) hj2
          · rw [if_neg (by omega), getD_of_ge (by rw [scShlI_length]; omega)]; exact getD_of_ge (by omega)
      · simp [hb]
    by_cases h0 : count % 8 = 0
    · simp only [h0, if_true]
      obtain ⟨g1, g2⟩ := bwdLoop_spec out (fun i s (_ : Unit) => (s.rd val (i - count / 8), ())) (count / 8)
        (by intro i c s s' h; simp only [h val (i - count / 8) (by omega)]) s (n - count / 8) () s (fun _ => rfl) (by omega) (fun _ _ _ => rfl)
      apply fin _ _ g1 g2
      intro j hj hj2
      rw [bwdVals_unit (fun i s => s.rd val (i - count / 8)) s _ _ _ hj (by omega)]
      unfold scShlI
      simp only [hv, if_neg hc]
      rw [getD_mapIdx, if_pos (by omega), if_neg (by omega), if_pos h0]
      rfl
    · simp only [h0, if_false]
      obtain ⟨g1, g2⟩ := bwdLoop_spec out (fun i s (v : Nat) =>
          let next := if i - count / 8 = 0 then 0 else s.rd val (i - count / 8 - 1)
          ((v <<< (count % 8)) % 256 ||| (next >>> (8 - count % 8)) % 256, next)) (count / 8)
        (by intro i c s s' h; simp only [h val (i - count / 8 - 1) (by omega)]) s (n - count / 8) (s.rd val (n - count / 8 - 1)) s
        (fun _ => rfl) (by omega) (fun _ _ _ => rfl)
      apply fin _ _ g1 g2
      intro j hj hj2
      rw [bwdVals_carry val (count / 8) (count % 8) s _ _ hj (by omega)]
      unfold scShlI
      simp only [hv, if_neg hc]
      have hj3 : ¬ j < count / 8 := by omega
      rw [getD_mapIdx, hv]
      simp only [hj2, hj3, h0, if_true, if_false]
      rfl

/-- the common part of the right shifts: `limit` words take part, the rest is filled -/
theorem shr_common (n val out limit sw sb fillw : Nat) (s : Bufs) (hv : (s val).length = n) (ho : (s out).length = n)
    (hsb : sb < 8) (hlim : limit ≤ n) (hsw : sw < limit) :
    Stores s ((if sb = 0 then
        fwdLoop out (fun i s (_ : Unit) => (s.rd val (i + sw), ())) (limit - sw) 0 () s
      else
        fwdLoop out (fun i s (v : Nat) =>
          let next := if i + sw + 1 < limit then s.rd val (i + sw + 1) else fillw
          ((v >>> sb) % 256 ||| (next <<< (8 - sb)) % 256, next)) (limit - sw) 0 (s.rd val sw) s).fill out fillw
            (n - (limit - sw)) (limit - sw)) out
      (if sb = 0 then (s val).mapIdx fun i _ => if i < limit - sw then (s val).getD (i + sw) 0 else fillw
       else (s val).mapIdx fun i _ =>
        if i < limit - sw then
          let val1 := (s val).getD (i + sw) 0
          let next := if i + sw + 1 < limit then (s val).getD (i + sw + 1) 0 else fillw
          (val1 >>> sb) % 256 ||| (next <<< (8 - sb)) % 256
        else fillw) := by
  have fin : ∀ (s1 : Bufs) (r : List Nat) (vals : List Nat), (∀ b, (s1 b).length = (s b).length) → r.length = n →
      (∀ b j, s1.rd b j = if b = out ∧ 0 ≤ j ∧ j < 0 + (limit - sw) then vals.getD (j - 0) 0 else s.rd b j) →
      (∀ j, j < limit - sw → vals.getD j 0 = r.getD j 0) →
      (∀ j, limit - sw ≤ j → j < n → r.getD j 0 = fillw) →
      Stores s (s1.fill out fillw (n - (limit - sw)) (limit - sw)) out r := by
    intro s1 r vals hl hrl hr hf hf2
    apply bufs_ext (fun b => by rw [fill_length, hl]) (by rw [hrl, ho])
    intro b j
    rw [fill_rd _ _ _ _ _ _ _ (by rw [hl]; omega), hr]
    by_cases hb : b = out
    · subst hb
      simp only [true_and, Nat.zero_le, Nat.zero_add, if_true, Nat.sub_zero]
      by_cases hj : j < limit - sw
      · rw [if_neg (by omega), if_pos hj, hf j hj]
      · by_cases hj2 : j < n
        · rw [if_pos (by omega), hf2 j (by omega) hj2]
        · rw [if_neg (by omega), if_neg hj, getD_of_ge (by omega)]; exact getD_of_ge (by omega)
    · simp [hb]
  by_cases h0 : sb = 0
  · simp only [h0, if_true]
    obtain ⟨g1, g2⟩ := fwdLoop_spec out (fun i s (_ : Unit) => (s.rd val (i + sw), ()))
      (by intro i c s s' h; simp only [h val (i + sw) (by omega)]) s (limit - sw) 0 () s (fun _ => rfl) (by omega) (fun _ _ _ => rfl)
    apply fin _ _ _ g1 (by simp [hv]) g2
    · intro j hj
      rw [getD_fwdVals_unit (fun i s => s.rd val (i + sw)) _ _ _ _ hj, getD_mapIdx, if_pos (by omega), if_pos hj, Nat.zero_add]; rfl
    · intro j hj hj2
      rw [getD_mapIdx, if_pos (by omega), if_neg (by omega)]
  · simp only [h0, if_false]
    obtain ⟨g1, g2⟩ := fwdLoop_spec out (fun i s (v : Nat) =>
          let next := if i + sw + 1 < limit then s.rd val (i + sw + 1) else fillw
          ((v >>> sb) % 256 ||| (next <<< (8 - sb)) % 256, next))
      (by intro i c s s' h; simp only [h val (i + sw + 1) (by omega)]) s (limit - sw) 0 (s.rd val sw) s (fun _ => rfl) (by omega) (fun _ _ _ => rfl)
    apply fin _ _ _ g1 (by simp [hv]) g2
    · intro j hj
      have := fwdVals_carry val sw sb limit fillw s (limit - sw) 0 j hj (by omega)
      rw [Nat.zero_add] at this
      have hj2 : j < n := by omega
      rw [this, getD_mapIdx, hv]
      simp only [hj, hj2, if_true, Nat.zero_add]; rfl
    · intro j hj hj2
      rw [getD_mapIdx, if_pos (by omega), if_neg (by omega)]

/-- C06: `sc_shrI` in place. -/
theorem sc_shr_in_place (n val count out : Nat) (s : Bufs) (hv : (s val).length = n) (ho : (s out).length = n) :
    Stores s (ipShr n val count out s) out (scShrI (s val) count).1 := by
  unfold ipShr
  by_cases hc : count ≥ n * 8
  · rw [if_pos hc]
    have : (scShrI (s val) count).1 = List.replicate n 0 := by unfold scShrI; simp only [hv]; rw [if_pos hc]; rfl
    rw [this]; exact fill_all ho
  · rw [if_neg hc]
    have key := shr_common n val out n (count / 8) (count % 8) 0 s hv ho (by omega) (le_refl _) (by omega)
    have e : (scShrI (s val) count).1 = (if count % 8 = 0 then (s val).mapIdx fun i _ => if i < n - count / 8 then (s val).getD (i + count / 8) 0 else 0
       else (s val).mapIdx fun i _ =>
        if i < n - count / 8 then
          let val1 := (s val).getD (i + count / 8) 0
          let next := if i + count / 8 + 1 < n then (s val).getD (i + count / 8 + 1) 0 else 0
          (val1 >>> (count % 8)) % 256 ||| (next <<< (8 - count % 8)) % 256
        else 0) := by
      unfold scShrI
      simp only [hv, if_neg hc]
      split <;> rfl
    rw [e]
    have hn : n - (n - count / 8) = count / 8 := by omega
    rw [hn] at key
    exact key

/-- C06: `sc_shrsI` in place. -/
theorem sc_shrs_in_place (n val count bitsize out : Nat) (s : Bufs) (hv : (s val).length = n) (ho : (s out).length = n)
    (hb : bitsize ≤ 8 * n) :
    match scShrsI (s val) count bitsize with
    | none => ipShrs n val count bitsize out s = none
    | some r => ∃ s', ipShrs n val count bitsize out s = some s' ∧ Stores s s' out r.1 := by
  have hsign : (if (s.rd val ((bitsize - 1) / 8)).testBit ((bitsize - 1) % 8) then 255 else 0)
      = (if scGetBitAt (s val) (bitsize - 1) then 255 else 0) := rfl
  unfold ipShrs scShrsI
  simp only [hsign, hv]
  generalize (if scGetBitAt (s val) (bitsize - 1) = true then 255 else 0) = sign
  by_cases hc : count ≥ bitsize
  · simp only [hc, if_true]
    exact ⟨_, rfl, fill_all ho⟩
  · simp only [hc, if_false]
    by_cases h8 : bitsize % 8 = 0
    · simp only [h8, ne_eq, not_true_eq_false, if_false]
      have key := shr_common n val out (bitsize / 8) (count / 8) (count % 8) sign s hv ho (by omega) (by omega) (by omega)
      by_cases h0 : count % 8 = 0
      · simp only [h0, if_true] at key ⊢
        exact ⟨_, rfl, key⟩
      · simp only [h0, if_false] at key ⊢
        exact ⟨_, rfl, key⟩
    · simp [h8]

/-- non-vacuity: doubling in place, `sc_add(b, b, b)`, and an in-place shift across words -/
example : Stores (fun _ => [200, 1, 0, 0]) (ipAdd 4 0 0 0 (fun _ => [200, 1, 0, 0])) 0 [144, 3, 0, 0] :=
  sc_add_in_place 4 0 0 0 (fun _ => [200, 1, 0, 0]) rfl rfl rfl
example : (ipShl 4 0 9 0 (fun _ => [200, 1, 0, 0])) 0 = [0, 144, 3, 0] := by decide

end Verif.Props
