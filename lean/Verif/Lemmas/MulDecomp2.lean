import Verif.Lemmas.MulDecomp
/-!
# Lemmas on the generalised complement and the gain
-/
namespace Verif.Model
open Verif.Spec

/-- little-endian value of a list of digits -/
def lval : List Nat → Nat
  | [] => 0
  | b :: l => b + 2 * lval l

theorem lval_append (a b : List Nat) : lval (a ++ b) = lval a + 2 ^ a.length * lval b := by
  induction a with
  | nil => simp [lval]
  | cons x a ih => rw [List.cons_append, lval, ih, lval, List.length_cons, Nat.pow_succ]; ring

theorem lval_set {l : List Nat} {i : Nat} (h : l[i]? = some 0) : lval (l.set i 1) = lval l + 2 ^ i := by
  induction l generalizing i with
  | nil => simp at h
  | cons b l ih =>
    cases i with
    | zero =>
      simp at h
      subst h
      rw [List.set_cons_zero, lval, lval]; simp; omega
    | succ i =>
      rw [List.getElem?_cons_succ] at h
      rw [List.set_cons_succ, lval, ih h, lval, Nat.pow_succ]; ring

theorem count_set {l : List Nat} {i : Nat} (h : l[i]? = some 0) : (l.set i 1).count 1 = l.count 1 + 1 := by
  induction l generalizing i with
  | nil => simp at h
  | cons b l ih =>
    cases i with
    | zero =>
      simp at h
      subst h
      simp
    | succ i =>
      rw [List.getElem?_cons_succ] at h
      rw [List.set_cons_succ, List.count_cons, ih h, List.count_cons]; omega

/-- digits 0 and 1 -/
def Bin (l : List Nat) : Prop := ∀ x ∈ l, x ≤ 1

theorem Bin.set {l : List Nat} (h : Bin l) (i : Nat) {v : Nat} (hv : v ≤ 1) : Bin (l.set i v) := by
  intro x hx
  rcases List.mem_or_eq_of_mem_set hx with h1 | h1
  · exact h x h1
  · omega

theorem markLoop_spec : ∀ (ds : List Nat) (j : Nat) (value : List Nat), (∀ d ∈ ds, 1 ≤ d) → Bin value →
    (∀ k, j < k → k < value.length → value[k]? = some 0) → j + ds.sum < value.length →
    ∃ v', markLoop ds j value = some (v', j + ds.sum) ∧ v'.length = value.length ∧ Bin v' ∧
      lval v' = lval value + 2 ^ j * condVal ds ∧ v'.count 1 = value.count 1 + ds.length ∧
      ∀ k, j + ds.sum < k → k < value.length → v'[k]? = some 0 := by
  intro ds
  induction ds with
  | nil => intro j value _ hb hz _; exact ⟨value, by simp [markLoop], rfl, hb, by simp [condVal], by simp, by simpa using hz⟩
  | cons d ds ih =>
    intro j value hd hb hz hlt
    rw [List.sum_cons] at hlt
    have hd1 := hd d (by simp)
    have hz0 := hz (j + d) (by omega) (by omega)
    obtain ⟨v', e, h1, h2, h3, h4, h5⟩ := ih (j + d) (value.set (j + d) 1) (fun x hx => hd x (List.mem_cons_of_mem _ hx))
      (hb.set _ (le_refl _)) (by
        intro k hk hkl
        rw [List.length_set] at hkl
        rw [List.getElem?_set, if_neg (by omega)]; exact hz k (by omega) hkl) (by rw [List.length_set]; omega)
    refine ⟨v', ?_, by rw [h1, List.length_set], h2, ?_, ?_, ?_⟩
    · rw [markLoop, if_pos (by omega), e, List.sum_cons, Nat.add_assoc]
    · rw [h3, lval_set hz0, condVal, Nat.pow_add]; ring
    · rw [h4, count_set hz0, List.length_cons]; omega
    · intro k hk hkl
      rw [List.sum_cons] at hk
      exact h5 k (by omega) (by rw [List.length_set]; exact hkl)

/-- the first bit may be at position 0 -/
theorem mark_spec (bits : Nat) (R : List Nat) (hne : R ≠ []) (ht : ∀ x ∈ R.tail, 1 ≤ x) (hs : R.sum < bits) :
    ∃ v', markLoop R 0 (List.replicate bits 0) = some (v', R.sum) ∧ v'.length = bits ∧ Bin v' ∧
      lval v' = condVal R ∧ v'.count 1 = R.length ∧ ∀ k, R.sum < k → k < bits → v'[k]? = some 0 := by
  cases R with
  | nil => exact absurd rfl hne
  | cons d ds =>
    rw [List.sum_cons] at hs
    have hrep : ∀ k < bits, (List.replicate bits 0)[k]? = some 0 := fun k hk => by rw [List.getElem?_replicate, if_pos hk]
    have hl0 : lval (List.replicate bits 0) = 0 := by
      generalize bits = b
      induction b with
      | zero => rfl
      | succ b ih => rw [List.replicate_succ, lval, ih]
    have hbin : Bin (List.replicate bits 0) := fun x hx => by rw [List.eq_of_mem_replicate hx]; omega
    obtain ⟨v', e, h1, h2, h3, h4, h5⟩ := markLoop_spec ds d ((List.replicate bits 0).set d 1) ht (hbin.set _ (le_refl _)) (by
        intro k hk hkl
        rw [List.length_set, List.length_replicate] at hkl
        rw [List.getElem?_set, if_neg (by omega)]; exact hrep k hkl) (by rw [List.length_set, List.length_replicate]; omega)
    rw [List.length_set, List.length_replicate] at h1
    refine ⟨v', ?_, h1, h2, ?_, ?_, ?_⟩
    · rw [markLoop, if_pos (by rw [List.length_replicate]; omega), Nat.zero_add, e, List.sum_cons]
    · rw [h3, lval_set (hrep d (by omega)), hl0, condVal]; ring
    · rw [h4, count_set (hrep d (by omega)), List.length_cons]
      have : (List.replicate bits 0).count 1 = 0 := by rw [List.count_replicate]; rfl
      omega
    · intro k hk hkl
      rw [List.sum_cons] at hk
      exact h5 k hk (by rw [List.length_set, List.length_replicate]; exact hkl)

/-- negation of a digit list with carry -/
def negB : Nat → List Nat → List Nat
  | _, [] => []
  | c, x :: l => ((if x = 0 then 1 else 0) ^^^ c) :: negB ((if x = 0 then 1 else 0) &&& c) l

theorem negB_length (c : Nat) (l : List Nat) : (negB c l).length = l.length := by
  induction l generalizing c with
  | nil => rfl
  | cons x l ih => rw [negB, List.length_cons, ih, List.length_cons]

theorem negateLoop_spec : ∀ (l : List Nat) (c : Nat) (pre post : List Nat),
    negateLoop l.length pre.length c (pre ++ l ++ post) = some (pre ++ negB c l ++ post) := by
  intro l
  induction l with
  | nil => intro c pre post; simp [negateLoop, negB]
  | cons x l ih =>
    intro c pre post
    rw [List.length_cons, negateLoop]
    have hg : (pre ++ x :: l ++ post)[pre.length]? = some x := by simp
    rw [hg]
    simp only []
    have hset : (pre ++ x :: l ++ post).set pre.length ((if x = 0 then 1 else 0) ^^^ c) = (pre ++ [(if x = 0 then 1 else 0) ^^^ c]) ++ l ++ post := by
      rw [List.append_assoc, List.set_append_right _ _ (le_refl _), Nat.sub_self]
      simp
    rw [hset]
    have := ih ((if x = 0 then 1 else 0) &&& c) (pre ++ [(if x = 0 then 1 else 0) ^^^ c]) post
    rw [List.length_append, List.length_singleton] at this
    rw [this, negB]
    simp

theorem negB_bin {c : Nat} (hc : c ≤ 1) (l : List Nat) : Bin (negB c l) := by
  induction l generalizing c with
  | nil => intro x hx; simp [negB] at hx
  | cons y l ih =>
    intro x hx
    rw [negB] at hx
    have h01 : (if y = 0 then 1 else 0 : Nat) ≤ 1 := by split <;> omega
    rcases List.mem_cons.1 hx with rfl | hx
    · rcases (show c = 0 ∨ c = 1 by omega) with rfl | rfl <;> split <;> decide
    · refine ih ?_ x hx
      rcases (show c = 0 ∨ c = 1 by omega) with rfl | rfl <;> split <;> decide

/-- final carry -/
def negC : Nat → List Nat → Nat
  | c, [] => c
  | c, x :: l => negC ((if x = 0 then 1 else 0) &&& c) l

theorem negB_val {c : Nat} (hc : c ≤ 1) {l : List Nat} (hl : Bin l) : lval (negB c l) + lval l + 1 + 2 ^ l.length * negC c l = 2 ^ l.length + c := by
  induction l generalizing c with
  | nil => simp [negB, lval, negC]
  | cons x l ih =>
    have hx := hl x (by simp)
    have hl' : Bin l := fun y hy => hl y (List.mem_cons_of_mem _ hy)
    rw [negB, lval, lval, negC, List.length_cons, Nat.pow_succ]
    rcases (show c = 0 ∨ c = 1 by omega) with rfl | rfl <;> rcases (show x = 0 ∨ x = 1 by omega) with rfl | rfl
    · have := ih (c := 0) (by omega) hl'
      simp; nlinarith
    · have := ih (c := 0) (by omega) hl'
      simp; nlinarith
    · have := ih (c := 1) (by omega) hl'
      simp; nlinarith
    · have := ih (c := 0) (by omega) hl'
      simp; nlinarith

theorem negC_zero (l : List Nat) : negC 0 l = 0 := by
  induction l with
  | nil => rfl
  | cons x l ih => rw [negC, Nat.and_zero]; exact ih

theorem negC_one {l : List Nat} (hl : Bin l) (h : lval l ≠ 0) : negC 1 l = 0 := by
  induction l with
  | nil => simp [lval] at h
  | cons x l ih =>
    have hx := hl x (by simp)
    have hl' : Bin l := fun y hy => hl y (List.mem_cons_of_mem _ hy)
    rw [negC]
    rcases (show x = 0 ∨ x = 1 by omega) with rfl | rfl
    · exact ih hl' (by rw [lval] at h; omega)
    · exact negC_zero l

theorem negB_zero_count {l : List Nat} (hl : Bin l) : (negB 0 l).count 1 + l.count 1 = l.length := by
  induction l with
  | nil => rfl
  | cons x l ih =>
    have hx := hl x (by simp)
    have hl' : Bin l := fun y hy => hl y (List.mem_cons_of_mem _ hy)
    have ih := ih hl'
    rw [negB, List.count_cons, List.count_cons, List.length_cons]
    rcases (show x = 0 ∨ x = 1 by omega) with rfl | rfl <;> simp <;> omega

theorem negB_one_count {l : List Nat} (hl : Bin l) : (negB 1 l).count 1 + l.count 1 ≤ l.length + 1 := by
  induction l with
  | nil => simp [negB]
  | cons x l ih =>
    have hx := hl x (by simp)
    have hl' : Bin l := fun y hy => hl y (List.mem_cons_of_mem _ hy)
    have ih := ih hl'
    rw [negB, List.count_cons, List.count_cons, List.length_cons]
    rcases (show x = 0 ∨ x = 1 by omega) with rfl | rfl
    · simp; omega
    · have := negB_zero_count hl'
      simp; omega

/-- the in-place loop computes the same as the loop into a fresh array -/
theorem condenseInPlace_spec (bit : Nat → Bool) : ∀ (k i l r : Nat) (value : List Nat), r ≤ i → i + k ≤ value.length →
    (∀ m, i ≤ m → m < i + k → (bit m = true ↔ value[m]? = some 1)) →
    ∃ v', condenseInPlace k i l r value = some (v', r + (condense bit k i l).length) ∧
      v'.take (r + (condense bit k i l).length) = value.take r ++ condense bit k i l := by
  intro k
  induction k with
  | zero => intro i l r value _ _ _; exact ⟨value, by simp [condenseInPlace, condense], by simp [condense]⟩
  | succ k ih =>
    intro i l r value hr hlen hbit
    have hi : i < value.length := by omega
    rw [condenseInPlace, condense]
    have hget : value[i]? = some value[i] := List.getElem?_eq_getElem hi
    rw [hget]
    simp only []
    have hb := hbit i (le_refl _) (by omega)
    rw [hget, Option.some.injEq] at hb
    by_cases h1 : value[i] = 1
    · have hbt : bit i = true := hb.2 h1
      rw [if_pos h1, if_pos hbt]
      obtain ⟨v', e, ht⟩ := ih (i + 1) i (r + 1) (value.set r (u8 (i - l))) (by omega) (by rw [List.length_set]; omega) (by
        intro m hm1 hm2
        rw [List.getElem?_set, if_neg (by omega)]
        exact hbit m (by omega) (by omega))
      refine ⟨v', ?_, ?_⟩
      · rw [e, List.length_cons]; congr 2; omega
      · rw [List.length_cons, show r + ((condense bit k (i + 1) i).length + 1) = r + 1 + (condense bit k (i + 1) i).length by omega, ht]
        rw [List.take_add_one, List.take_set_of_le (le_refl _), List.getElem?_set, if_pos rfl, if_pos (by omega)]
        simp
    · have hbf : ¬ bit i = true := fun h => h1 (hb.1 h)
      rw [if_neg h1, if_neg hbf]
      exact ih (i + 1) l r value (by omega) (by omega) (fun m hm1 hm2 => hbit m (by omega) (by omega))

/-- digits as bits -/
theorem bitSum_lval (bit : Nat → Bool) : ∀ (l : List Nat) (i : Nat), Bin l → (∀ m < l.length, (bit (i + m) = true ↔ l[m]? = some 1)) →
    bitSum bit l.length i = 2 ^ i * lval l := by
  intro l
  induction l with
  | nil => intro i _ _; simp [bitSum, lval]
  | cons x l ih =>
    intro i hl hb
    have hx := hl x (by simp)
    have h0 := hb 0 (by simp)
    rw [Nat.add_zero, List.getElem?_cons_zero, Option.some.injEq] at h0
    rw [List.length_cons, bitSum, lval, ih (i + 1) (fun y hy => hl y (List.mem_cons_of_mem _ hy)) (by
      intro m hm
      have := hb (m + 1) (by rw [List.length_cons]; omega)
      rw [List.getElem?_cons_succ] at this
      rw [← this, show i + 1 + m = i + (m + 1) by omega])]
    rcases (show x = 0 ∨ x = 1 by omega) with rfl | rfl
    · have : ¬ bit i = true := fun h => by simpa using h0.1 h
      rw [if_neg this, Nat.pow_succ]; ring
    · rw [if_pos (h0.2 rfl), Nat.pow_succ]; ring

theorem condense_count (bit : Nat → Bool) : ∀ (l : List Nat) (i p : Nat), (∀ m < l.length, (bit (i + m) = true ↔ l[m]? = some 1)) →
    (condense bit l.length i p).length = l.count 1 := by
  intro l
  induction l with
  | nil => intro i p _; simp [condense]
  | cons x l ih =>
    intro i p hb
    have h0 := hb 0 (by simp)
    rw [Nat.add_zero, List.getElem?_cons_zero, Option.some.injEq] at h0
    have hrec : ∀ m < l.length, (bit (i + 1 + m) = true ↔ l[m]? = some 1) := by
      intro m hm
      have := hb (m + 1) (by rw [List.length_cons]; omega)
      rw [List.getElem?_cons_succ] at this
      rw [← this, show i + 1 + m = i + (m + 1) by omega]
    rw [List.length_cons, condense, List.count_cons]
    by_cases hx : x = 1
    · rw [if_pos (h0.2 hx), List.length_cons, ih (i + 1) i hrec, hx]; simp
    · rw [if_neg (fun h => hx (h0.1 h)), ih (i + 1) p hrec]; simp [hx]

/-- `complement_condensed` on the first `gain` entries -/
theorem complementCondensed_spec {bits : Nat} (hbits : bits ≤ 255) {R : List Nat} {gain : Nat} (hne : R.take gain ≠ [])
    (ht : ∀ x ∈ (R.take gain).tail, 1 ≤ x) (hs : (R.take gain).sum < bits) :
    ∃ R1, complementCondensed bits R gain = some R1 ∧ condVal R1 + condVal (R.take gain) = 2 ^ ((R.take gain).sum + 1) ∧
      R1.length + (R.take gain).length ≤ (R.take gain).sum + 2 ∧ R1 ≠ [] ∧ (∀ x ∈ R1.tail, 1 ≤ x) ∧ R1.sum ≤ (R.take gain).sum := by
  generalize hA : R.take gain = A at *
  obtain ⟨v, e1, hl, hbin, hval, hcnt, hz⟩ := mark_spec bits A hne ht hs
  -- split the array after index j
  have hsplit : v = v.take (A.sum + 1) ++ v.drop (A.sum + 1) := (List.take_append_drop _ _).symm
  have htl : (v.take (A.sum + 1)).length = A.sum + 1 := by rw [List.length_take]; omega
  have hbt : Bin (v.take (A.sum + 1)) := fun x hx => hbin x (List.mem_of_mem_take hx)
  have hdrop0 : ∀ x ∈ v.drop (A.sum + 1), x = 0 := by
    intro x hx
    obtain ⟨n, hn, rfl⟩ := List.mem_iff_getElem.1 hx
    rw [List.length_drop] at hn
    have := hz (A.sum + 1 + n) (by omega) (by omega)
    rw [List.getElem_drop]
    rw [List.getElem?_eq_getElem (by omega)] at this
    exact Option.some.inj this
  have hlv0 : lval (v.drop (A.sum + 1)) = 0 := by
    generalize v.drop (A.sum + 1) = d at hdrop0
    induction d with
    | nil => rfl
    | cons x d ih => rw [lval, hdrop0 x (by simp), ih (fun y hy => hdrop0 y (List.mem_cons_of_mem _ hy))]
  have hct0 : (v.drop (A.sum + 1)).count 1 = 0 := by
    rw [List.count_eq_zero]
    intro h
    have := hdrop0 1 h
    omega
  have hlt : lval (v.take (A.sum + 1)) = condVal A := by
    rw [← hval]; conv_rhs => rw [hsplit, lval_append, hlv0]
    simp
  have hctt : (v.take (A.sum + 1)).count 1 = A.length := by
    rw [← hcnt]; conv_rhs => rw [hsplit, List.count_append, hct0]
    simp
  have hneg := negateLoop_spec (v.take (A.sum + 1)) 1 [] (v.drop (A.sum + 1))
  rw [htl] at hneg
  simp only [List.nil_append, List.length_nil, List.take_append_drop] at hneg
  let w := negB 1 (v.take (A.sum + 1)) ++ v.drop (A.sum + 1)
  have hneg' : negateLoop (A.sum + 1) 0 1 v = some w := hneg
  let bit : Nat → Bool := fun m => decide (w[m]? = some 1)
  have hbiteq : ∀ m, bit m = true ↔ w[m]? = some 1 := fun m => decide_eq_true_iff
  have hnl : (negB 1 (v.take (A.sum + 1))).length = A.sum + 1 := by rw [negB_length, htl]
  have hwl : w.length = bits := by
    show (negB 1 (v.take (A.sum + 1)) ++ v.drop (A.sum + 1)).length = bits
    rw [List.length_append, hnl, List.length_drop]; omega
  have hbitn : ∀ m < (negB 1 (v.take (A.sum + 1))).length, (bit (0 + m) = true ↔ (negB 1 (v.take (A.sum + 1)))[m]? = some 1) := by
    intro m hm
    rw [Nat.zero_add, hbiteq]
    show (negB 1 (v.take (A.sum + 1)) ++ v.drop (A.sum + 1))[m]? = some 1 ↔ _
    rw [List.getElem?_append_left hm]
  obtain ⟨u, e3, h3⟩ := condenseInPlace_spec bit (A.sum + 1) 0 0 0 w (le_refl _) (by omega) (fun m _ _ => hbiteq m)
  have hR1 : complementCondensed bits R gain = some (condense bit (A.sum + 1) 0 0) := by
    unfold complementCondensed
    rw [hA, e1]
    simp only [Option.bind_eq_bind, Option.bind_some]
    rw [hneg']
    simp only [Option.bind_some]
    rw [e3]
    simp only [Option.bind_some, Option.pure_def]
    rw [h3]
    simp
  have hbs := bitSum_lval bit _ 0 (negB_bin (le_refl 1) _) hbitn
  rw [hnl, Nat.pow_zero, Nat.one_mul] at hbs
  have hcv := condense_val bit (A.sum + 1) 0 0 (le_refl _) (by omega)
  rw [Nat.pow_zero, Nat.one_mul, hbs] at hcv
  have hnv := negB_val (le_refl 1) hbt
  have hpos := condVal_pos hne
  rw [negC_one hbt (by rw [hlt]; omega), htl, hlt] at hnv
  have hcc := condense_count bit _ 0 0 hbitn
  rw [hnl] at hcc
  have hc1 := negB_one_count hbt
  rw [hctt, htl] at hc1
  have hne1 : condense bit (A.sum + 1) 0 0 ≠ [] := by
    intro h
    rw [h, condVal] at hcv
    have := condVal_lt A ht
    omega
  refine ⟨_, hR1, by rw [hcv]; omega, by rw [hcc]; omega, hne1, condense_tail bit _ 0 0 (le_refl _) (by omega), ?_⟩
  have := condense_sum bit (A.sum + 1) 0 0 (le_refl _) (by omega) hne1
  omega

/-! ## The gain -/

/-- what `calculate_gain` returns -/
def GainOk (R : List Nat) (idx : Int) : Prop :=
  idx = -1 ∨ ∃ g : Nat, idx = g ∧ 2 ≤ g ∧ g < R.length ∧ (R.take g).sum + 4 ≤ 2 * g ∧ (g + 1 = R.length ∨ ∃ x, R[g]? = some x ∧ 2 ≤ x)

/-- the state of the loop: `idx`, `maxGain` after the gains of `2, …, n` have been looked at -/
def GainState (R : List Nat) (n : Nat) (maxGain idx : Int) : Prop :=
  (idx = -1 ∧ maxGain = 0) ∨ ∃ g : Nat, idx = g ∧ 2 ≤ g ∧ g ≤ n ∧ maxGain = 2 * g - 3 - ((R.take g).sum : Int) ∧ 0 < maxGain ∧
    (g = n ∨ ∃ x, R[g]? = some x ∧ 2 ≤ x)

theorem gainLoop_spec : ∀ (l pre : List Nat) (i : Nat) (gain maxGain idx : Int), pre.length + 1 = i → l ≠ [] → 2 ≤ i →
    gain = 2 * (i - 1 : Nat) - 3 - (pre.sum : Int) → GainState (pre ++ l) (i - 1) maxGain idx →
    (idx = -1 ∨ idx < (i - 1 : Nat) ∨ maxGain = gain) →
    GainOk (pre ++ l) (gainLoop l i gain maxGain idx) := by
  intro l
  induction l with
  | nil => intro pre i _ _ _ _ h; exact absurd rfl h
  | cons a l ih =>
    intro pre i gain maxGain idx hp _ hi hg hst hlast
    cases l with
    | nil =>
      rw [gainLoop]
      rcases hst with ⟨h1, _⟩ | ⟨g, h1, h2, h3, h4, h5, h6⟩
      · exact Or.inl h1
      · refine Or.inr ⟨g, h1, h2, ?_, by omega, ?_⟩
        · rw [List.length_append, List.length_singleton]; omega
        · rcases h6 with h6 | h6
          · left; rw [List.length_append, List.length_singleton]; omega
          · exact Or.inr h6
    | cons b rest =>
      rw [gainLoop]
      have happ : pre ++ a :: b :: rest = (pre ++ [a]) ++ (b :: rest) := by simp
      have htake : (pre ++ a :: b :: rest).take i = pre ++ [a] := by
        rw [happ, List.take_append_of_le_length (by rw [List.length_append, List.length_singleton]; omega), List.take_of_length_le]
        rw [List.length_append, List.length_singleton]; omega
      have hsum : ((pre ++ [a]).sum : Int) = (pre.sum : Int) + a := by
        rw [List.sum_append, List.sum_singleton]; push_cast; rfl
      have hget : (pre ++ a :: b :: rest)[i - 1]? = some a := by
        rw [List.getElem?_append_right (by omega), show i - 1 - pre.length = 0 by omega]; rfl
      have hgain' : gain + (2 - (a : Int)) = 2 * ((i + 1 - 1 : Nat) : Int) - 3 - ((pre ++ [a]).sum : Int) := by
        rw [hsum, hg]; omega
      by_cases hgt : gain + (2 - (a : Int)) > maxGain
      · rw [if_pos hgt, happ]
        refine ih (pre ++ [a]) (i + 1) _ _ _ (by rw [List.length_append, List.length_singleton]; omega) (by simp) (by omega) hgain' ?_ (Or.inr (Or.inr rfl))
        refine Or.inr ⟨i, rfl, hi, by omega, ?_, ?_, Or.inl (by omega)⟩
        · rw [← happ, htake, hgain']; simp
        · rcases hst with ⟨_, h2⟩ | ⟨g, _, _, _, _, h5, _⟩ <;> omega
      · rw [if_neg hgt, happ]
        refine ih (pre ++ [a]) (i + 1) _ _ _ (by rw [List.length_append, List.length_singleton]; omega) (by simp) (by omega) hgain' ?_ ?_
        · rcases hst with h1 | ⟨g, h1, h2, h3, h4, h5, h6⟩
          · exact Or.inl h1
          · refine Or.inr ⟨g, h1, h2, by omega, by rw [← happ]; exact h4, h5, ?_⟩
            right
            rcases h6 with h6 | h6
            · refine ⟨a, by rw [← happ, h6]; exact hget, ?_⟩
              rcases hlast with h | h | h
              · omega
              · omega
              · omega
            · rw [← happ]; exact h6
        · rcases hst with ⟨h1, _⟩ | ⟨g, h1, _, h3, _⟩
          · exact Or.inl h1
          · right; left; omega

theorem calculateGain_spec {R : List Nat} (hR : 2 ≤ R.length) : ∃ g, calculateGain R = some g ∧ GainOk R g := by
  cases R with
  | nil => simp at hR
  | cons r0 rest =>
    have hne : rest ≠ [] := by rintro rfl; simp at hR
    refine ⟨_, rfl, ?_⟩
    have := gainLoop_spec rest [r0] 2 (2 - 3 - (r0 : Int)) 0 (-1) rfl hne (le_refl _) (by simp) (Or.inl ⟨rfl, rfl⟩) (Or.inl rfl)
    simpa using this

end Verif.Model
