import Verif.Model.Pbqp
import Mathlib.Algebra.BigOperators.Group.List.Basic
import Mathlib.Tactic.Ring
/-! # Lemmas about the model of the PBQP solver -/
namespace Verif.Model.Pbqp

/-! ## Vectors and matrices -/

theorem vbuild_length (n : Nat) (f : Nat → ℕ∞) : (vbuild n f).length = n := by simp [vbuild]

theorem vget_vbuild {n : Nat} (f : Nat → ℕ∞) {i : Nat} (h : i < n) : vget (vbuild n f) i = f i := by
  simp [vget, vbuild, List.getD_eq_getElem?_getD, List.getElem?_map, List.getElem?_range h]

theorem vget_set_self {v : Vec} {i : Nat} (h : i < v.length) (x : ℕ∞) : vget (v.set i x) i = x := by
  simp [vget, List.getD_eq_getElem?_getD, h]

theorem vget_set_ne {v : Vec} {i j : Nat} (h : i ≠ j) (x : ℕ∞) : vget (v.set i x) j = vget v j := by
  simp [vget, List.getD_eq_getElem?_getD, List.getElem?_set_ne h]

theorem build_rows (r c : Nat) (f : Nat → Nat → ℕ∞) : (Mat.build r c f).rows = r := rfl
theorem build_cols (r c : Nat) (f : Nat → Nat → ℕ∞) : (Mat.build r c f).cols = c := rfl
theorem build_length (r c : Nat) (f : Nat → Nat → ℕ∞) : (Mat.build r c f).entries.length = r * c := by simp [Mat.build]

theorem get_build {r c : Nat} (f : Nat → Nat → ℕ∞) {i j : Nat} (hi : i < r) (hj : j < c) : (Mat.build r c f).get i j = f i j := by
  have hlt : i * c + j < r * c := by
    have : (i + 1) * c ≤ r * c := Nat.mul_le_mul_right _ hi
    rw [Nat.add_mul] at this
    omega
  have hc : 0 < c := by omega
  have h1 : (i * c + j) / c = i := by
    rw [Nat.mul_comm, Nat.mul_add_div hc, Nat.div_eq_of_lt hj, Nat.add_zero]
  have h2 : (i * c + j) % c = j := by
    rw [Nat.mul_comm, Nat.mul_add_mod, Nat.mod_eq_of_lt hj]
  simp [Mat.get, Mat.build, List.getD_eq_getElem?_getD, List.getElem?_map, List.getElem?_range hlt, h1, h2]

/-- a matrix whose array has the size its dimensions require -/
def Mat.Full (m : Mat) : Prop := m.entries.length = m.rows * m.cols

theorem build_full (r c : Nat) (f : Nat → Nat → ℕ∞) : (Mat.build r c f).Full := build_length r c f

theorem get_add {m s : Mat} (hr : s.rows = m.rows) (hc : s.cols = m.cols) (hm : m.Full) (hs : s.Full) {i j : Nat}
    (hi : i < m.rows) (hj : j < m.cols) : (m.add s).get i j = m.get i j + s.get i j := by
  have hlt : i * m.cols + j < m.rows * m.cols := by
    have : (i + 1) * m.cols ≤ m.rows * m.cols := Nat.mul_le_mul_right _ hi
    rw [Nat.add_mul] at this
    omega
  have h1 : i * m.cols + j < m.entries.length := by rw [hm]; exact hlt
  have h2 : i * m.cols + j < s.entries.length := by rw [hs, hr, hc]; exact hlt
  simp [Mat.get, Mat.add, List.getD_eq_getElem?_getD, List.getElem?_zipWith, hc, h1, h2]

theorem add_full {m s : Mat} (hr : s.rows = m.rows) (hc : s.cols = m.cols) (hm : m.Full) (hs : s.Full) : (m.add s).Full := by
  unfold Mat.Full at *
  simp [Mat.add, hm, hs, hr, hc]

/-! ## Scanning for a minimum -/

theorem scan_spec (n : Nat) (skip : Nat → Bool) (f : Nat → ℕ∞) :
    (∀ k < n, skip k = false → (scan n skip f).2 ≤ f k) ∧
    (((scan n skip f).2 = ⊤ ∧ (scan n skip f).1 = 0) ∨
      ((scan n skip f).1 < n ∧ skip (scan n skip f).1 = false ∧ f (scan n skip f).1 = (scan n skip f).2)) := by
  induction n with
  | zero => simp [scan]
  | succ n ih =>
    have hs : scan (n + 1) skip f = (if skip n then scan n skip f else if f n < (scan n skip f).2 then (n, f n) else scan n skip f) := by
      simp only [scan, List.range_succ, List.foldl_append]
      rfl
    obtain ⟨h1, h2⟩ := ih
    rw [hs]
    by_cases hk : skip n
    · rw [if_pos hk]
      refine ⟨fun k hk' hsk => ?_, ?_⟩
      · rcases Nat.lt_succ_iff_lt_or_eq.mp hk' with h | h
        · exact h1 k h hsk
        · subst h; simp [hk] at hsk
      · rcases h2 with h | ⟨ha, hb⟩
        · exact Or.inl h
        · exact Or.inr ⟨by omega, hb⟩
    · rw [if_neg hk]
      simp only [Bool.not_eq_true] at hk
      by_cases hlt : f n < (scan n skip f).2
      · rw [if_pos hlt]
        refine ⟨fun k hk' hsk => ?_, Or.inr ⟨by simp, hk, rfl⟩⟩
        rcases Nat.lt_succ_iff_lt_or_eq.mp hk' with h | h
        · exact le_trans (le_of_lt hlt) (h1 k h hsk)
        · subst h; exact le_refl _
      · rw [if_neg hlt]
        refine ⟨fun k hk' hsk => ?_, ?_⟩
        · rcases Nat.lt_succ_iff_lt_or_eq.mp hk' with h | h
          · exact h1 k h hsk
          · subst h; exact not_lt.mp hlt
        · rcases h2 with h | ⟨ha, hb⟩
          · exact Or.inl h
          · exact Or.inr ⟨by omega, hb⟩

theorem scan_lt {n : Nat} (hn : 0 < n) (skip : Nat → Bool) (f : Nat → ℕ∞) : (scan n skip f).1 < n := by
  rcases (scan_spec n skip f).2 with ⟨_, h⟩ | ⟨h, _⟩
  · omega
  · exact h

/-- the value at the index found is the minimum -/
theorem scan_val {n : Nat} (hn : 0 < n) (f : Nat → ℕ∞) :
    f (scan n (fun _ => false) f).1 = (scan n (fun _ => false) f).2 := by
  obtain ⟨h1, h2⟩ := scan_spec n (fun _ => false) f
  rcases h2 with ⟨ha, hb⟩ | ⟨_, _, h⟩
  · have := h1 0 hn rfl
    rw [ha] at this ⊢
    rw [hb]
    exact top_le_iff.mp this
  · exact h

theorem scan_congr {n : Nat} {s s' : Nat → Bool} {f g : Nat → ℕ∞} (hs : ∀ i < n, s i = s' i) (h : ∀ i < n, f i = g i) :
    scan n s f = scan n s' g := by
  induction n with
  | zero => simp [scan]
  | succ n ih =>
    have e := ih (fun i hi => hs i (by omega)) (fun i hi => h i (by omega))
    simp only [scan, List.range_succ, List.foldl_append] at e ⊢
    simp only [List.foldl_cons, List.foldl_nil]
    rw [e, hs n (by omega), h n (by omega)]

theorem vecMinIndex_lt {v : Vec} (h : 0 < v.length) : vecMinIndex v < v.length := scan_lt h _ _

theorem vget_vecMinIndex {v : Vec} (h : 0 < v.length) : vget v (vecMinIndex v) = vecMin v := scan_val h _

theorem vecMin_le {v : Vec} {k : Nat} (h : k < v.length) : vecMin v ≤ vget v k := (scan_spec _ _ _).1 k h rfl

/-! ## Normalisation -/

theorem subCost_add {a v : ℕ∞} (h : v ≤ a) : subCost a v + v = a := by
  unfold subCost
  split
  · rename_i hh; rw [hh.1]; simp
  · exact tsub_add_cancel_of_le h

/-- the value of an entry after normalisation: `fl` is the cost of the other node's alternative, `own` that of the node normalised
towards, `mn` the minimum -/
def normEntry (fl own mn x : ℕ∞) : ℕ∞ :=
  if mn = 0 then x else if own = ⊤ then 0 else if fl = ⊤ then 0 else subCost x mn

theorem normTgt_spec (m : Mat) (src tgt : Vec) (hc : m.cols = tgt.length) (n : Nat) (hn : n ≤ tgt.length) :
    let r := (List.range n).foldl (normTgtStep src) (m, tgt)
    r.1.rows = m.rows ∧ r.1.cols = m.cols ∧ (m.Full → r.1.Full) ∧ r.2.length = tgt.length ∧
    (∀ j < tgt.length, vget r.2 j = if j < n then vget tgt j + colMin m j src else vget tgt j) ∧
    (∀ i < m.rows, ∀ j < tgt.length, r.1.get i j =
      if j < n then normEntry (vget src i) (vget tgt j) (colMin m j src) (m.get i j) else m.get i j) := by
  induction n with
  | zero => simp
  | succ n ih =>
    obtain ⟨h1, h2, h3, h4, h5, h6⟩ := ih (by omega)
    simp only [List.range_succ, List.foldl_append, List.foldl_cons, List.foldl_nil]
    generalize (List.range n).foldl (normTgtStep src) (m, tgt) = r at h1 h2 h3 h4 h5 h6 ⊢
    have hmin : colMin r.1 n src = colMin m n src := by
      unfold colMin
      rw [h1]
      congr 1
      exact scan_congr (fun _ _ => rfl) fun i hi => by rw [h6 i hi n (by omega), if_neg (by omega)]
    have hown : vget r.2 n = vget tgt n := by rw [h5 n (by omega), if_neg (by omega)]
    unfold normTgtStep
    simp only [hmin, hown]
    by_cases hz : colMin m n src = 0
    · simp only [hz, ne_eq, not_true_eq_false, if_false]
      refine ⟨h1, h2, h3, h4, fun j hj => ?_, fun i hi j hj => ?_⟩
      · rw [h5 j hj]
        by_cases hjn : j = n
        · subst hjn; simp [hz]
        · have : (j < n + 1) = (j < n) := by simp; omega
          simp only [this]
      · rw [h6 i hi j hj]
        by_cases hjn : j = n
        · subst hjn; simp [hz, normEntry]
        · have : (j < n + 1) = (j < n) := by simp; omega
          simp only [this]
    · rw [if_pos hz]
      by_cases ht : vget tgt n = ⊤
      · rw [if_pos ht]
        refine ⟨h1, h2, fun _ => build_full _ _ _, h4, fun j hj => ?_, fun i hi j hj => ?_⟩
        · rw [h5 j hj]
          by_cases hjn : j = n
          · subst hjn; simp [ht]
          · have : (j < n + 1) = (j < n) := by simp; omega
            simp only [this]
        · unfold setCol
          rw [get_build _ (by omega) (by omega)]
          by_cases hjn : j = n
          · subst hjn; simp [normEntry, hz, ht]
          · rw [if_neg hjn, h6 i hi j hj]
            have : (j < n + 1) = (j < n) := by simp; omega
            simp only [this]
      · rw [if_neg ht]
        refine ⟨h1, h2, fun _ => build_full _ _ _, by simp [h4], fun j hj => ?_, fun i hi j hj => ?_⟩
        · by_cases hjn : j = n
          · subst hjn; rw [vget_set_self (by omega)]; simp
          · rw [vget_set_ne (fun h => hjn h.symm), h5 j hj]
            have : (j < n + 1) = (j < n) := by simp; omega
            simp only [this]
        · unfold subCol
          rw [get_build _ (by omega) (by omega)]
          by_cases hjn : j = n
          · subst hjn
            rw [h6 i hi j hj]
            simp [normEntry, hz, ht]
          · rw [if_neg hjn, h6 i hi j hj]
            have : (j < n + 1) = (j < n) := by simp; omega
            simp only [this]

theorem normSrc_spec (m : Mat) (src tgt : Vec) (hr : m.rows = src.length) (hc : m.cols = tgt.length) (n : Nat)
    (hn : n ≤ src.length) :
    let r := (List.range n).foldl (normSrcStep tgt) (m, src)
    r.1.rows = m.rows ∧ r.1.cols = m.cols ∧ (m.Full → r.1.Full) ∧ r.2.length = src.length ∧
    (∀ i < src.length, vget r.2 i = if i < n then vget src i + rowMin m i tgt else vget src i) ∧
    (∀ i < src.length, ∀ j < tgt.length, r.1.get i j =
      if i < n then normEntry (vget tgt j) (vget src i) (rowMin m i tgt) (m.get i j) else m.get i j) := by
  induction n with
  | zero => simp
  | succ n ih =>
    obtain ⟨h1, h2, h3, h4, h5, h6⟩ := ih (by omega)
    simp only [List.range_succ, List.foldl_append, List.foldl_cons, List.foldl_nil]
    generalize (List.range n).foldl (normSrcStep tgt) (m, src) = r at h1 h2 h3 h4 h5 h6 ⊢
    have hmin : rowMin r.1 n tgt = rowMin m n tgt := by
      unfold rowMin
      congr 1
      exact scan_congr (fun _ _ => rfl) fun j hj => by rw [h6 n (by omega) j hj, if_neg (by omega)]
    have hown : vget r.2 n = vget src n := by rw [h5 n (by omega), if_neg (by omega)]
    unfold normSrcStep
    simp only [hmin, hown]
    by_cases hz : rowMin m n tgt = 0
    · simp only [hz, ne_eq, not_true_eq_false, if_false]
      refine ⟨h1, h2, h3, h4, fun i hi => ?_, fun i hi j hj => ?_⟩
      · rw [h5 i hi]
        by_cases hjn : i = n
        · subst hjn; simp [hz]
        · have : (i < n + 1) = (i < n) := by simp; omega
          simp only [this]
      · rw [h6 i hi j hj]
        by_cases hjn : i = n
        · subst hjn; simp [hz, normEntry]
        · have : (i < n + 1) = (i < n) := by simp; omega
          simp only [this]
    · rw [if_pos hz]
      by_cases ht : vget src n = ⊤
      · rw [if_pos ht]
        refine ⟨h1, h2, fun _ => build_full _ _ _, h4, fun i hi => ?_, fun i hi j hj => ?_⟩
        · rw [h5 i hi]
          by_cases hjn : i = n
          · subst hjn; simp [ht]
          · have : (i < n + 1) = (i < n) := by simp; omega
            simp only [this]
        · unfold setRow
          rw [get_build _ (by omega) (by omega)]
          by_cases hjn : i = n
          · subst hjn; simp [normEntry, hz, ht]
          · rw [if_neg hjn, h6 i hi j hj]
            have : (i < n + 1) = (i < n) := by simp; omega
            simp only [this]
      · rw [if_neg ht]
        refine ⟨h1, h2, fun _ => build_full _ _ _, by simp [h4], fun i hi => ?_, fun i hi j hj => ?_⟩
        · by_cases hjn : i = n
          · subst hjn; rw [vget_set_self (by omega)]; simp
          · rw [vget_set_ne (fun h => hjn h.symm), h5 i hi]
            have : (i < n + 1) = (i < n) := by simp; omega
            simp only [this]
        · unfold subRow
          rw [get_build _ (by omega) (by omega)]
          by_cases hjn : i = n
          · subst hjn
            rw [h6 i hi j hj]
            simp [normEntry, hz, ht]
          · rw [if_neg hjn, h6 i hi j hj]
            have : (i < n + 1) = (i < n) := by simp; omega
            simp only [this]

theorem normTgt_dims {m : Mat} {src tgt : Vec} (hc : m.cols = tgt.length) :
    (normTgt m src tgt).1.rows = m.rows ∧ (normTgt m src tgt).1.cols = m.cols ∧ (m.Full → (normTgt m src tgt).1.Full) ∧
      (normTgt m src tgt).2.length = tgt.length := by
  obtain ⟨h1, h2, h3, h4, _⟩ := normTgt_spec m src tgt hc tgt.length (le_refl _)
  exact ⟨h1, h2, h3, h4⟩

theorem normTgt_vec {m : Mat} {src tgt : Vec} (hc : m.cols = tgt.length) {j : Nat} (hj : j < tgt.length) :
    vget (normTgt m src tgt).2 j = vget tgt j + colMin m j src := by
  obtain ⟨_, _, _, _, h, _⟩ := normTgt_spec m src tgt hc tgt.length (le_refl _)
  rw [show normTgt m src tgt = (List.range tgt.length).foldl (normTgtStep src) (m, tgt) from rfl, h j hj, if_pos hj]

theorem normTgt_get {m : Mat} {src tgt : Vec} (hc : m.cols = tgt.length) {i j : Nat} (hi : i < m.rows) (hj : j < tgt.length) :
    (normTgt m src tgt).1.get i j = normEntry (vget src i) (vget tgt j) (colMin m j src) (m.get i j) := by
  obtain ⟨_, _, _, _, _, h⟩ := normTgt_spec m src tgt hc tgt.length (le_refl _)
  rw [show normTgt m src tgt = (List.range tgt.length).foldl (normTgtStep src) (m, tgt) from rfl, h i hi j hj, if_pos hj]

theorem normSrc_dims {m : Mat} {src tgt : Vec} (hr : m.rows = src.length) (hc : m.cols = tgt.length) :
    (normSrc m src tgt).1.rows = m.rows ∧ (normSrc m src tgt).1.cols = m.cols ∧ (m.Full → (normSrc m src tgt).1.Full) ∧
      (normSrc m src tgt).2.length = src.length := by
  obtain ⟨h1, h2, h3, h4, _⟩ := normSrc_spec m src tgt hr hc src.length (le_refl _)
  exact ⟨h1, h2, h3, h4⟩

theorem normSrc_vec {m : Mat} {src tgt : Vec} (hr : m.rows = src.length) (hc : m.cols = tgt.length) {i : Nat}
    (hi : i < src.length) : vget (normSrc m src tgt).2 i = vget src i + rowMin m i tgt := by
  obtain ⟨_, _, _, _, h, _⟩ := normSrc_spec m src tgt hr hc src.length (le_refl _)
  rw [show normSrc m src tgt = (List.range src.length).foldl (normSrcStep tgt) (m, src) from rfl, h i hi, if_pos hi]

theorem normSrc_get {m : Mat} {src tgt : Vec} (hr : m.rows = src.length) (hc : m.cols = tgt.length) {i j : Nat}
    (hi : i < src.length) (hj : j < tgt.length) :
    (normSrc m src tgt).1.get i j = normEntry (vget tgt j) (vget src i) (rowMin m i tgt) (m.get i j) := by
  obtain ⟨_, _, _, _, _, h⟩ := normSrc_spec m src tgt hr hc src.length (le_refl _)
  rw [show normSrc m src tgt = (List.range src.length).foldl (normSrcStep tgt) (m, src) from rfl, h i hi j hj, if_pos hi]

/-- moving the minimum from the entries to the node does not change the sum -/
theorem normEntry_sum {fl own mn x : ℕ∞} (h : fl ≠ ⊤ → mn ≤ x) : fl + normEntry fl own mn x + (own + mn) = fl + x + own := by
  unfold normEntry
  by_cases hz : mn = 0
  · simp [hz]
  · rw [if_neg hz]
    by_cases ho : own = ⊤
    · simp [ho]
    · rw [if_neg ho]
      by_cases hf : fl = ⊤
      · simp [hf]
      · rw [if_neg hf]
        calc fl + subCost x mn + (own + mn) = fl + (subCost x mn + mn) + own := by ring
          _ = _ := by rw [subCost_add (h hf)]

theorem colMin_le {m : Mat} {j : Nat} {flags : Vec} {i : Nat} (hi : i < m.rows) (h : vget flags i ≠ ⊤) :
    colMin m j flags ≤ m.get i j := (scan_spec _ _ _).1 i hi (by simpa using h)

theorem rowMin_le {m : Mat} {i : Nat} {flags : Vec} {j : Nat} (hj : j < flags.length) (h : vget flags j ≠ ⊤) :
    rowMin m i flags ≤ m.get i j := (scan_spec _ _ _).1 j hj (by simpa using h)

theorem normTgt_sum {m : Mat} {src tgt : Vec} (hr : m.rows = src.length) (hc : m.cols = tgt.length) {i j : Nat}
    (hi : i < src.length) (hj : j < tgt.length) :
    vget src i + (normTgt m src tgt).1.get i j + vget (normTgt m src tgt).2 j = vget src i + m.get i j + vget tgt j := by
  rw [normTgt_get hc (by omega) hj, normTgt_vec hc hj]
  exact normEntry_sum fun h => colMin_le (by omega) h

theorem normSrc_sum {m : Mat} {src tgt : Vec} (hr : m.rows = src.length) (hc : m.cols = tgt.length) {i j : Nat}
    (hi : i < src.length) (hj : j < tgt.length) :
    vget (normSrc m src tgt).2 i + (normSrc m src tgt).1.get i j + vget tgt j = vget src i + m.get i j + vget tgt j := by
  rw [normSrc_get hr hc hi hj, normSrc_vec hr hc hi]
  have := normEntry_sum (fl := vget tgt j) (own := vget src i) (mn := rowMin m i tgt) (x := m.get i j)
    fun h => rowMin_le hj h
  calc _ = vget tgt j + normEntry (vget tgt j) (vget src i) (rowMin m i tgt) (m.get i j) + (vget src i + rowMin m i tgt) := by ring
    _ = _ := by rw [this]; ring

theorem isZero_spec {m : Mat} {src tgt : Vec} (h : isZero m src tgt = true) {i j : Nat} (hi : i < m.rows) (hj : j < m.cols) :
    vget src i = ⊤ ∨ vget tgt j = ⊤ ∨ m.get i j = 0 := by
  simp only [isZero, List.all_eq_true, List.mem_range, Bool.or_eq_true, decide_eq_true_eq] at h
  rcases h i hi with h | h
  · exact Or.inl h
  · rcases h j hj with h | h
    · exact Or.inr (Or.inl h)
    · exact Or.inr (Or.inr h)

/-- the alternative found by back propagation through a normalised line attains the minimum that was moved to the other node.
`flag` are the costs of the reduced node, already contained in the entries `x`. -/
theorem scan_normEntry {n : Nat} (hn : 0 < n) (flag x : Nat → ℕ∞) (own : ℕ∞) (hx : ∀ k < n, flag k = ⊤ → x k = ⊤) (ho : own ≠ ⊤) :
    let mn := (scan n (fun k => decide (flag k = ⊤)) x).2
    x (scan n (fun k => decide (flag k = ⊤)) fun k => normEntry (flag k) own mn (x k)).1 = mn := by
  intro mn
  obtain ⟨h1, h2⟩ := scan_spec n (fun k => decide (flag k = ⊤)) x
  change (∀ k < n, _ → mn ≤ x k) at h1
  change (mn = ⊤ ∧ _) ∨ (_ ∧ _ ∧ x _ = mn) at h2
  obtain ⟨g1, g2⟩ := scan_spec n (fun k => decide (flag k = ⊤)) fun k => normEntry (flag k) own mn (x k)
  have hlt := scan_lt hn (fun k => decide (flag k = ⊤)) fun k => normEntry (flag k) own mn (x k)
  generalize scan n (fun k => decide (flag k = ⊤)) (fun k => normEntry (flag k) own mn (x k)) = r at g1 g2 hlt ⊢
  by_cases ht : mn = ⊤
  · rw [ht]
    by_cases hf : flag r.1 = ⊤
    · exact hx _ hlt hf
    · have := h1 r.1 hlt (by simpa using hf)
      rw [ht] at this
      exact top_le_iff.mp this
  · rcases h2 with ⟨h, _⟩ | ⟨ha, hb, hc⟩
    · exact absurd h ht
    · -- the position of the minimum
      generalize (scan n (fun k => decide (flag k = ⊤)) x).1 = p at ha hb hc
      have hnorm : normEntry (flag p) own mn (x p) = 0 := by
        unfold normEntry
        rw [hc]
        split
        · assumption
        · simp [subCost, ht]
      have hr0 : r.2 = 0 := by
        have hg : r.2 ≤ normEntry (flag p) own mn (x p) := g1 p ha hb
        rw [hnorm] at hg
        exact le_antisymm hg bot_le
      rcases g2 with ⟨h, _⟩ | ⟨_, hskip, hval⟩
      · rw [hr0] at h; exact absurd h (by simp)
      · rw [hr0] at hval
        have hf : flag r.1 ≠ ⊤ := by simpa using hskip
        have hle := h1 r.1 hlt (by simpa using hf)
        refine le_antisymm ?_ hle
        change normEntry (flag r.1) own mn (x r.1) = 0 at hval
        unfold normEntry at hval
        by_cases hz : mn = 0
        · rw [if_pos hz] at hval
          rw [hval, hz]
        · rw [if_neg hz, if_neg ho, if_neg hf] at hval
          have := subCost_add hle
          rw [hval, zero_add] at this
          exact le_of_eq this.symm

/-! ## Sums over the nodes -/

/-- the sum of the node costs -/
def nodeSum (vec : Nat → Vec) (live : List Nat) (σ : Nat → Nat) : ℕ∞ := (live.map fun v => vget (vec v) (σ v)).sum

/-- the sum of the edge costs -/
def edgeSum (es : List Edge) (σ : Nat → Nat) : ℕ∞ := (es.map fun e => e.mat.get (σ e.src) (σ e.tgt)).sum

theorem sum_erase {l : List Nat} {v : Nat} (h : v ∈ l) (f : Nat → ℕ∞) : (l.map f).sum = f v + ((l.erase v).map f).sum := by
  have := (List.perm_cons_erase h).map f
  rw [this.sum_eq]; simp

theorem nodeSum_erase {vec : Nat → Vec} {live : List Nat} {v : Nat} (h : v ∈ live) (σ : Nat → Nat) :
    nodeSum vec live σ = vget (vec v) (σ v) + nodeSum vec (live.erase v) σ := sum_erase h _

theorem nodeSum_congr {vec vec' : Nat → Vec} {live : List Nat} {σ σ' : Nat → Nat}
    (h : ∀ u ∈ live, vget (vec u) (σ u) = vget (vec' u) (σ' u)) : nodeSum vec live σ = nodeSum vec' live σ' := by
  unfold nodeSum
  congr 1
  exact List.map_congr_left h

theorem edgeSum_congr {es : List Edge} {σ σ' : Nat → Nat} (h : ∀ e ∈ es, σ e.src = σ' e.src ∧ σ e.tgt = σ' e.tgt) :
    edgeSum es σ = edgeSum es σ' := by
  unfold edgeSum
  congr 1
  exact List.map_congr_left fun e he => by rw [(h e he).1, (h e he).2]

theorem edgeSum_perm {es es' : List Edge} (h : es.Perm es') (σ : Nat → Nat) : edgeSum es σ = edgeSum es' σ :=
  (h.map _).sum_eq

theorem edgeSum_cons (e : Edge) (es : List Edge) (σ : Nat → Nat) :
    edgeSum (e :: es) σ = e.mat.get (σ e.src) (σ e.tgt) + edgeSum es σ := rfl

theorem edgeSum_nil (σ : Nat → Nat) : edgeSum [] σ = 0 := rfl

theorem upd_self (vec : Nat → Vec) (v : Nat) (x : Vec) : upd vec v x v = x := by simp [upd]
theorem upd_ne (vec : Nat → Vec) {v u : Nat} (x : Vec) (h : u ≠ v) : upd vec v x u = vec u := by simp [upd, h]

/-- replacing the costs of one node changes one summand -/
theorem nodeSum_upd {vec : Nat → Vec} {live : List Nat} (hn : live.Nodup) {w : Nat} (hw : w ∈ live) (x : Vec) (σ : Nat → Nat) :
    nodeSum (upd vec w x) live σ = vget x (σ w) + nodeSum vec (live.erase w) σ := by
  rw [nodeSum_erase hw, upd_self]
  congr 1
  refine nodeSum_congr fun u hu => ?_
  have : u ≠ w := fun h => by subst h; exact absurd hu (List.Nodup.not_mem_erase hn)
  rw [upd_ne _ _ this]

/-! ## Edges -/

theorem addTo_sum {es : List Edge} {a b : Nat} {m : Mat} {σ : Nat → Nat}
    (hd : ∀ e ∈ es, e.src = a → e.tgt = b → e.mat.rows = m.rows ∧ e.mat.cols = m.cols ∧ e.mat.Full)
    (hm : m.Full) (ha : σ a < m.rows) (hb : σ b < m.cols) :
    edgeSum (addTo es a b m) σ = edgeSum es σ + m.get (σ a) (σ b) := by
  induction es with
  | nil => simp [addTo, edgeSum]
  | cons e es ih =>
    unfold addTo
    split
    · rename_i h
      obtain ⟨d1, d2, d3⟩ := hd e List.mem_cons_self h.1 h.2
      rw [edgeSum_cons, edgeSum_cons]
      simp only [h.1, h.2]
      rw [get_add d1.symm d2.symm d3 hm (by omega) (by omega)]
      ring
    · rw [edgeSum_cons, edgeSum_cons, ih fun f hf => hd f (List.mem_cons_of_mem _ hf)]
      ring

theorem addTo_mem {es : List Edge} {a b : Nat} {m : Mat} {f : Edge} (h : f ∈ addTo es a b m) :
    f ∈ es ∨ f = ⟨a, b, m⟩ ∨ ∃ e ∈ es, e.src = a ∧ e.tgt = b ∧ f = { e with mat := e.mat.add m } := by
  induction es with
  | nil => simp only [addTo, List.mem_singleton] at h; exact Or.inr (Or.inl h)
  | cons e es ih =>
    unfold addTo at h
    split at h
    · rename_i hh
      rcases List.mem_cons.mp h with h | h
      · exact Or.inr (Or.inr ⟨e, List.mem_cons_self, hh.1, hh.2, h⟩)
      · exact Or.inl (List.mem_cons_of_mem _ h)
    · rcases List.mem_cons.mp h with h | h
      · rw [h]; exact Or.inl List.mem_cons_self
      · rcases ih h with h | h | ⟨e', he', h⟩
        · exact Or.inl (List.mem_cons_of_mem _ h)
        · exact Or.inr (Or.inl h)
        · exact Or.inr (Or.inr ⟨e', List.mem_cons_of_mem _ he', h⟩)

theorem addTo_keys (es : List Edge) (a b : Nat) (m : Mat) :
    (addTo es a b m).map (fun e => (e.src, e.tgt)) =
      if (a, b) ∈ es.map (fun e => (e.src, e.tgt)) then es.map (fun e => (e.src, e.tgt))
      else es.map (fun e => (e.src, e.tgt)) ++ [(a, b)] := by
  induction es with
  | nil => simp [addTo]
  | cons e es ih =>
    unfold addTo
    split
    · rename_i h; simp [h.1, h.2]
    · rename_i h
      have hne : (a, b) ≠ (e.src, e.tgt) := fun hh => h ⟨(Prod.mk.inj hh).1.symm, (Prod.mk.inj hh).2.symm⟩
      simp only [List.map_cons, ih, List.mem_cons, hne, false_or]
      split <;> simp

theorem addTo_nodup {es : List Edge} (h : (es.map fun e => (e.src, e.tgt)).Nodup) (a b : Nat) (m : Mat) :
    ((addTo es a b m).map fun e => (e.src, e.tgt)).Nodup := by
  rw [addTo_keys]
  split
  · exact h
  · rename_i hn
    rw [List.nodup_append]
    refine ⟨h, by simp, ?_⟩
    intro x hx y hy he
    simp only [List.mem_singleton] at hy
    rw [he, hy] at hx
    exact hn hx

end Verif.Model.Pbqp
