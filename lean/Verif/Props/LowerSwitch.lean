import Verif.Model.LowerSwitch
import Verif.Lemmas.Bits
import Mathlib.Tactic.Ring
/-!
# C31, C32: lowering of switches
-/
namespace Verif.Props.Switch
open Verif.Spec Verif.Model.LowerSwitch

/-! ## Specification -/

def Entry.Has (e : Entry) (sel : Int) : Prop := e.min ≤ sel ∧ sel ≤ e.max

/-- the meaning of a Switch: `pn` is the Proj number taken for the selector `sel` (0 is the default) -/
def Selects (table : List Entry) (sel : Int) (pn : Nat) : Prop :=
  (∃ e ∈ table, e.pn ≠ 0 ∧ e.pn = pn ∧ Entry.Has e sel) ∨ (pn = 0 ∧ ∀ e ∈ table, e.pn ≠ 0 → ¬ Entry.Has e sel)

/-- the table is well-formed for a selector of mode `m`: intervals are non-empty, inside the mode, and pairwise disjoint (default entries
excepted) -/
structure TableOk (m : IMode) (table : List Entry) : Prop where
  bits : 0 < m.bits
  interval : ∀ e ∈ table, e.pn ≠ 0 → e.min ≤ e.max ∧ m.In e.min ∧ m.In e.max
  disjoint : table.Pairwise (fun a b => a.pn ≠ 0 → b.pn ≠ 0 → a.max < b.min ∨ b.max < a.min)

/-- meaning of the tests -/
def evalTest (m : IMode) (sel : Int) : Test → Bool
  | .eq v => decide (sel = v)
  | .less v => decide (sel < v)
  | .range mn adj => decide (irSub m sel mn ≤ adj)

/-- where a tree of conditional jumps leads to -/
def evalTree (m : IMode) (sel : Int) : Tree → Nat
  | .goto pn => pn
  | .cond t y n => if evalTest m sel t then evalTree m sel y else evalTree m sel n

/-- the normalised Switch: bounds check, then the Switch on the converted selector; any Switch on the new table may be used -/
def NormSelects (m selMode : IMode) (n : Normalized) (sel : Int) (pn : Nat) : Prop :=
  let s := irSub (unsignedMode m) ((unsignedMode m).wrap sel) n.sub
  if s ≤ n.bound then Selects n.table (selMode.wrap s) pn else pn = 0

def LoweredSelects (m selMode : IMode) (l : Lowered) (sel : Int) (pn : Nat) : Prop :=
  match l with
  | .cascade t => evalTree m sel t = pn
  | .table n => NormSelects m selMode n sel pn

theorem pairwise_mem {α : Type} {R : α → α → Prop} {l : List α} (h : l.Pairwise R) {a b : α} (ha : a ∈ l) (hb : b ∈ l) : a = b ∨ R a b ∨ R b a := by
  induction l with
  | nil => cases ha
  | cons x t ih =>
    rw [List.pairwise_cons] at h
    rcases List.mem_cons.1 ha with ha' | ha' <;> rcases List.mem_cons.1 hb with hb' | hb'
    · exact .inl (ha'.trans hb'.symm)
    · exact .inr (.inl (ha' ▸ h.1 _ hb'))
    · exact .inr (.inr (hb' ▸ h.1 _ ha'))
    · exact ih h.2 ha' hb'

/-- the target is unique -/
theorem selects_unique {m : IMode} {table : List Entry} (ok : TableOk m table) {sel : Int} {p q : Nat} (hp : Selects table sel p)
    (hq : Selects table sel q) : p = q := by
  rcases hp with ⟨e, he, hne, hpe, hh⟩ | ⟨hp, hall⟩ <;> rcases hq with ⟨e', he', hne', hpe', hh'⟩ | ⟨hq, hall'⟩
  · rcases pairwise_mem ok.disjoint he he' with h | h | h
    · rw [← hpe, ← hpe', h]
    · have := h hne hne'
      unfold Entry.Has at hh hh'
      omega
    · have := h hne' hne
      unfold Entry.Has at hh hh'
      omega
  · exact absurd hh (hall' e he hne)
  · exact absurd hh' (hall e' he' hne')
  · rw [hp, hq]

/-! ## Sorting -/

/-- a list of cases in ascending order -/
def Ascending (l : List Entry) : Prop := l.Pairwise (fun a b => a.max < b.min) ∧ ∀ e ∈ l, e.pn ≠ 0 ∧ e.min ≤ e.max

theorem sorted_cases {m : IMode} {table sorted : List Entry} (ok : TableOk m table) (hs : IsQSort table sorted) :
    Ascending (sorted.takeWhile (fun e => e.pn ≠ 0)) ∧ ∀ e, e ∈ sorted.takeWhile (fun e => e.pn ≠ 0) ↔ e ∈ table ∧ e.pn ≠ 0 := by
  obtain ⟨hperm, hsort⟩ := hs
  have hmem : ∀ e, e ∈ sorted.takeWhile (fun e => e.pn ≠ 0) ↔ e ∈ sorted ∧ e.pn ≠ 0 := by
    clear hperm ok
    induction sorted with
    | nil => simp
    | cons x t ih =>
      rw [List.pairwise_cons] at hsort
      intro e
      by_cases hx : x.pn = 0
      · rw [List.takeWhile_cons_of_neg (by simp [hx])]
        simp only [List.not_mem_nil, false_iff, not_and, not_not]
        intro he
        rcases List.mem_cons.1 he with rfl | he
        · exact hx
        · have := hsort.1 e he
          unfold compareEntries at this
          by_contra hne
          rw [if_neg hne, if_pos hx] at this
          exact this (by decide)
      · rw [List.takeWhile_cons_of_pos (by simpa using hx), List.mem_cons, ih hsort.2 e, List.mem_cons]
        constructor
        · rintro (rfl | h)
          · exact ⟨.inl rfl, hx⟩
          · exact ⟨.inr h.1, h.2⟩
        · rintro ⟨rfl | h, h2⟩
          · exact .inl rfl
          · exact .inr ⟨h, h2⟩
  have hdis : sorted.Pairwise (fun a b => a.pn ≠ 0 → b.pn ≠ 0 → a.max < b.min ∨ b.max < a.min) := by
    refine hperm.symm.pairwise ok.disjoint ?_
    intro a b h h1 h2
    exact (h h2 h1).symm
  refine ⟨⟨?_, ?_⟩, ?_⟩
  · have hsub := (List.takeWhile_sublist (l := sorted) (fun e => e.pn ≠ 0))
    have h1 := (hdis.and hsort).sublist hsub
    have h2 : ∀ e ∈ sorted.takeWhile (fun e => e.pn ≠ 0), e.pn ≠ 0 := fun e he => ((hmem e).1 he).2
    refine List.Pairwise.imp_of_mem ?_ h1
    intro a b ha hb ⟨h3, h4⟩
    have hpa := h2 a ha
    have hpb := h2 b hb
    rcases h3 hpa hpb with h | h
    · exact h
    · exfalso
      apply h4
      unfold compareEntries
      rw [if_neg hpb, if_neg hpa, if_pos h]
      decide
  · intro e he
    obtain ⟨h1, h2⟩ := (hmem e).1 he
    exact ⟨h2, (ok.interval e (hperm.mem_iff.1 h1) h2).1⟩
  · intro e
    rw [hmem, hperm.mem_iff]

theorem takeWhile_ne {l : List Entry} {e : Entry} (h : e ∈ l.takeWhile (fun e => e.pn ≠ 0)) : e.pn ≠ 0 := by
  induction l with
  | nil => cases h
  | cons x t ih =>
    by_cases hx : x.pn = 0
    · rw [List.takeWhile_cons_of_neg (by simp [hx])] at h
      cases h
    · rw [List.takeWhile_cons_of_pos (by simpa using hx)] at h
      rcases List.mem_cons.1 h with rfl | h
      · exact hx
      · exact ih h

/-! ## The cascade -/

/-- the condition under which the test for an interval is right -/
def CaseOk (m : IMode) (e : Entry) : Prop := e.min = e.max ∨ m.signed = false

theorem unsigned_wrap {m : IMode} (hu : m.signed = false) (x : Int) : m.wrap x = x % 2 ^ m.bits := by
  unfold IMode.wrap wrap
  rw [hu]
  rfl

theorem in_unsigned {m : IMode} (hu : m.signed = false) {x : Int} (h : m.In x) : 0 ≤ x ∧ x < 2 ^ m.bits := by
  unfold IMode.In InRange at h
  rw [hu] at h
  exact h

theorem pow_pos' (k : Nat) : (0 : Int) < 2 ^ k := by
  rw [two_pow_cast]
  have : 0 < 2 ^ k := Nat.two_pow_pos k
  exact_mod_cast this

theorem caseCond_spec {m : IMode} {e : Entry} (he : e.min ≤ e.max) (hmin : m.In e.min) (hmax : m.In e.max) (hok : CaseOk m e) {sel : Int}
    (hsel : m.In sel) : evalTest m sel (caseCond m e) = true ↔ Entry.Has e sel := by
  unfold caseCond Entry.Has
  split
  · rename_i h
    simp only [evalTest, decide_eq_true_eq]
    omega
  · rename_i h
    rcases hok with hok | hu
    · exact absurd hok h
    have hcong : evalTest m sel (.range e.min (m.wrap (e.max - e.min))) = true ↔ (sel - e.min) % 2 ^ m.bits ≤ (e.max - e.min) % 2 ^ m.bits := by
      rw [← unsigned_wrap hu, ← unsigned_wrap hu]
      simp only [evalTest, irSub]
      exact decide_eq_true_iff
    rw [hcong]
    have h1 := in_unsigned hu hmin
    have h2 := in_unsigned hu hmax
    have h3 := in_unsigned hu hsel
    have hp := pow_pos' m.bits
    generalize (2 : Int) ^ m.bits = P at *
    have e1 : (e.max - e.min) % P = e.max - e.min := Int.emod_eq_of_lt (by omega) (by omega)
    rw [e1]
    by_cases hlt : e.min ≤ sel
    · rw [Int.emod_eq_of_lt (by omega) (by omega)]
      omega
    · have : (sel - e.min) % P = sel - e.min + P := by
        rw [← Int.add_emod_right, Int.emod_eq_of_lt (by omega) (by omega)]
      rw [this]
      omega

theorem ascending_take {l : List Entry} (h : Ascending l) (k : Nat) : Ascending (l.take k) :=
  ⟨h.1.sublist (List.take_sublist k l), fun e he => h.2 e (List.mem_of_mem_take he)⟩

theorem ascending_drop {l : List Entry} (h : Ascending l) (k : Nat) : Ascending (l.drop k) :=
  ⟨h.1.sublist (List.drop_sublist k l), fun e he => h.2 e (List.mem_of_mem_drop he)⟩

theorem split_spec {l : List Entry} (h : Ascending l) {k : Nat} (hk : k < l.length) (d : Entry) :
    (∀ e ∈ l.take k, e.max < (l.getD k d).min) ∧ ∀ e ∈ l.drop k, (l.getD k d).min ≤ e.min := by
  have hg : l.getD k d = l[k] := by simp [List.getD, hk]
  rw [hg]
  constructor
  · intro e he
    obtain ⟨i, hi, rfl⟩ := List.mem_iff_getElem.1 he
    rw [List.getElem_take]
    rw [List.length_take] at hi
    exact List.pairwise_iff_getElem.1 h.1 i k (by omega) hk (by omega)
  · intro e he
    obtain ⟨i, hi, rfl⟩ := List.mem_iff_getElem.1 he
    rw [List.getElem_drop]
    rw [List.length_drop] at hi
    rcases Nat.eq_zero_or_pos i with rfl | hpos
    · exact Int.le_refl _
    · have h1 := List.pairwise_iff_getElem.1 h.1 k (k + i) hk (by omega) (by omega)
      have h2 := (h.2 l[k] (List.getElem_mem hk)).2
      omega

theorem selects_append_left {a b : List Entry} {sel : Int} {pn : Nat} (h : Selects a sel pn) (hb : ∀ e ∈ b, ¬ Entry.Has e sel) :
    Selects (a ++ b) sel pn := by
  rcases h with ⟨e, he, h⟩ | ⟨h, hall⟩
  · exact .inl ⟨e, List.mem_append_left _ he, h⟩
  · refine .inr ⟨h, fun e he hne => ?_⟩
    rcases List.mem_append.1 he with he | he
    · exact hall e he hne
    · exact hb e he

theorem selects_append_right {a b : List Entry} {sel : Int} {pn : Nat} (h : Selects b sel pn) (hb : ∀ e ∈ a, ¬ Entry.Has e sel) :
    Selects (a ++ b) sel pn := by
  rcases h with ⟨e, he, h⟩ | ⟨h, hall⟩
  · exact .inl ⟨e, List.mem_append_right _ he, h⟩
  · refine .inr ⟨h, fun e he hne => ?_⟩
    rcases List.mem_append.1 he with he | he
    · exact hb e he
    · exact hall e he hne

theorem cascade_sound {m : IMode} {sel : Int} (hsel : m.In sel) (n : Nat) : ∀ (l : List Entry), l.length = n → Ascending l →
    (∀ e ∈ l, m.In e.min ∧ m.In e.max ∧ CaseOk m e) → Selects l sel (evalTree m sel (cascade m l)) := by
  induction n using Nat.strongRecOn with
  | ind n ih =>
    intro l hlen hasc hm
    match l, hlen with
    | [], _ =>
      rw [cascade]
      exact .inr ⟨rfl, fun e he => by cases he⟩
    | [e], _ =>
      rw [cascade]
      have hc := caseCond_spec (hasc.2 e (by simp)).2 (hm e (by simp)).1 (hm e (by simp)).2.1 (hm e (by simp)).2.2 hsel
      simp only [evalTree]
      by_cases h : evalTest m sel (caseCond m e) = true
      · rw [if_pos h]
        exact .inl ⟨e, by simp, (hasc.2 e (by simp)).1, rfl, hc.1 h⟩
      · rw [if_neg h]
        refine .inr ⟨rfl, fun e' he' _ => ?_⟩
        rw [List.mem_singleton.1 he']
        exact fun hh => h (hc.2 hh)
    | [e0, e1], _ =>
      rw [cascade]
      have hc0 := caseCond_spec (hasc.2 e0 (by simp)).2 (hm e0 (by simp)).1 (hm e0 (by simp)).2.1 (hm e0 (by simp)).2.2 hsel
      have hc1 := caseCond_spec (hasc.2 e1 (by simp)).2 (hm e1 (by simp)).1 (hm e1 (by simp)).2.1 (hm e1 (by simp)).2.2 hsel
      simp only [evalTree]
      by_cases h : evalTest m sel (caseCond m e0) = true
      · rw [if_pos h]
        exact .inl ⟨e0, by simp, (hasc.2 e0 (by simp)).1, rfl, hc0.1 h⟩
      · rw [if_neg h]
        by_cases h' : evalTest m sel (caseCond m e1) = true
        · rw [if_pos h']
          exact .inl ⟨e1, by simp, (hasc.2 e1 (by simp)).1, rfl, hc1.1 h'⟩
        · rw [if_neg h']
          refine .inr ⟨rfl, fun e' he' _ => ?_⟩
          rcases List.mem_cons.1 he' with rfl | he'
          · exact fun hh => h (hc0.2 hh)
          · rw [List.mem_singleton.1 he']
            exact fun hh => h' (hc1.2 hh)
    | e0 :: e1 :: e2 :: rest, hlen =>
      rw [cascade]
      have hl : (e0 :: e1 :: e2 :: rest).length = rest.length + 3 := by simp
      generalize hcs : e0 :: e1 :: e2 :: rest = cs at *
      simp only [evalTree]
      have hk : cs.length / 2 < cs.length := by omega
      obtain ⟨s1, s2⟩ := split_spec hasc hk e0
      by_cases h : sel < (cs.getD (cs.length / 2) e0).min
      · rw [if_pos (by simpa [evalTest] using h)]
        have := ih (cs.take (cs.length / 2)).length (by rw [List.length_take]; omega) _ rfl (ascending_take hasc _)
          (fun e he => hm e (List.mem_of_mem_take he))
        have h3 := selects_append_left (b := cs.drop (cs.length / 2)) this (fun e he hh => by
          have := s2 e he
          unfold Entry.Has at hh
          omega)
        rwa [List.take_append_drop] at h3
      · rw [if_neg (by simpa [evalTest] using h)]
        have := ih (cs.drop (cs.length / 2)).length (by rw [List.length_drop]; omega) _ rfl (ascending_drop hasc _)
          (fun e he => hm e (List.mem_of_mem_drop he))
        have h3 := selects_append_right (a := cs.take (cs.length / 2)) this (fun e he hh => by
          have := s1 e he
          unfold Entry.Has at hh
          omega)
        rwa [List.take_append_drop] at h3

theorem normalize_none {m : IMode} (hb : 0 < m.bits) {l : List Entry} (h : ∀ e ∈ l.takeWhile (fun e => e.pn ≠ 0), m.In e.min ∧ m.In e.max) :
    normalizeTable m none l = l.takeWhile (fun e => e.pn ≠ 0) := by
  unfold normalizeTable
  generalize l.takeWhile (fun e => e.pn ≠ 0) = t at *
  conv => rhs; rw [← List.map_id t]
  apply List.map_congr_left
  intro e he
  obtain ⟨h1, h2⟩ := h e he
  unfold normalizeEntry
  simp only [IMode.wrap]
  rw [wrap_of_inRange hb h1, wrap_of_inRange hb h2]
  split
  · rename_i heq
    obtain ⟨a, b, c⟩ := e
    simp only at heq
    simp [heq]
  · rfl

theorem selects_congr {a b : List Entry} (h : ∀ e, e ∈ a ↔ e ∈ b ∧ e.pn ≠ 0) {sel : Int} {pn : Nat} : Selects a sel pn → Selects b sel pn := by
  rintro (⟨e, he, hh⟩ | ⟨hp, hall⟩)
  · exact .inl ⟨e, ((h e).1 he).1, hh⟩
  · exact .inr ⟨hp, fun e he hne => hall e ((h e).2 ⟨he, hne⟩) hne⟩

/-! ## Shape of the cascade -/

/-- the jumps of a tree, from left to right -/
def leaves : Tree → List Nat
  | .goto pn => [pn]
  | .cond _ y n => leaves y ++ leaves n

theorem cascade_leaves_aux (m : IMode) (n : Nat) : ∀ (l : List Entry), l.length = n → (∀ e ∈ l, e.pn ≠ 0) →
    (leaves (cascade m l)).filter (· ≠ 0) = l.map (·.pn) := by
  induction n using Nat.strongRecOn with
  | ind n ih =>
    intro l hlen hne
    match l, hlen with
    | [], _ => rw [cascade]; rfl
    | [e], _ =>
      rw [cascade]
      have := hne e (by simp)
      simp [leaves, this]
    | [e0, e1], _ =>
      rw [cascade]
      have h0 := hne e0 (by simp)
      have h1 := hne e1 (by simp)
      simp [leaves, h0, h1]
    | e0 :: e1 :: e2 :: rest, hlen =>
      rw [cascade]
      have hl : (e0 :: e1 :: e2 :: rest).length = rest.length + 3 := by simp
      generalize hcs : e0 :: e1 :: e2 :: rest = cs at *
      simp only [leaves, List.filter_append]
      rw [ih (cs.take (cs.length / 2)).length (by rw [List.length_take]; omega) _ rfl (fun e he => hne e (List.mem_of_mem_take he)),
        ih (cs.drop (cs.length / 2)).length (by rw [List.length_drop]; omega) _ rfl (fun e he => hne e (List.mem_of_mem_drop he)),
        ← List.map_append, List.take_append_drop]

/-- number of comparisons on the longest path -/
def depth : Tree → Nat
  | .goto _ => 0
  | .cond _ y n => 1 + max (depth y) (depth n)

theorem cascade_depth_aux (m : IMode) (k : Nat) : ∀ (l : List Entry), l.length ≤ 2 ^ k → depth (cascade m l) ≤ k + 1 := by
  induction k with
  | zero =>
    intro l hl
    match l with
    | [] => rw [cascade]; simp [depth]
    | [e] => rw [cascade]; simp [depth]
    | _ :: _ :: _ => simp at hl
  | succ k ih =>
    intro l hl
    match l with
    | [] => rw [cascade]; simp [depth]
    | [e] => rw [cascade]; simp [depth]
    | [e0, e1] => rw [cascade]; simp only [depth]; omega
    | e0 :: e1 :: e2 :: rest =>
      rw [cascade]
      generalize hcs : e0 :: e1 :: e2 :: rest = cs at *
      simp only [depth]
      rw [Nat.pow_succ] at hl
      have h1 := ih (cs.take (cs.length / 2)) (by rw [List.length_take]; omega)
      have h2 := ih (cs.drop (cs.length / 2)) (by rw [List.length_drop]; omega)
      omega

/-! ## Normalisation -/

theorem analyse_spec (m : IMode) (hb : 0 < m.bits) (table : List Entry) (hin : ∀ e ∈ table, e.pn ≠ 0 → e.min ≤ e.max ∧ m.In e.min ∧ m.In e.max)
    (mn mx : Int) (n : Nat) (h : analyse (modeMin m) (modeMax m) table = (mn, mx, n)) :
    m.In mn ∧ m.In mx ∧ (∀ e ∈ table, e.pn ≠ 0 → mn ≤ e.min ∧ e.max ≤ mx) ∧ n = table.countP (fun e => e.pn ≠ 0) := by
  have key : ∀ (t : List Entry) (a b : Int) (c : Nat), (∀ e ∈ t, e.pn ≠ 0 → e.min ≤ e.max ∧ m.In e.min ∧ m.In e.max) → m.In a → m.In b →
      ∀ a' b' c', t.foldl (fun (x : Int × Int × Nat) e => if e.pn = 0 then (x.1, x.2.1, x.2.2)
        else (if e.min < x.1 then e.min else x.1, if x.2.1 < e.max then e.max else x.2.1, x.2.2 + 1)) (a, b, c) = (a', b', c') →
      m.In a' ∧ m.In b' ∧ a' ≤ a ∧ b ≤ b' ∧ (∀ e ∈ t, e.pn ≠ 0 → a' ≤ e.min ∧ e.max ≤ b') ∧ c' = c + t.countP (fun e => e.pn ≠ 0) := by
    intro t
    induction t with
    | nil =>
      intro a b c _ ha hb a' b' c' h
      cases h
      exact ⟨ha, hb, Int.le_refl _, Int.le_refl _, (by intro e he; cases he), rfl⟩
    | cons x t ih =>
      intro a b c hin ha hb a' b' c' h
      rw [List.foldl_cons] at h
      by_cases hx : x.pn = 0
      · rw [if_pos hx] at h
        obtain ⟨h1, h2, h3, h4, h5, h6⟩ := ih a b c (fun e he => hin e (List.mem_cons_of_mem _ he)) ha hb a' b' c' h
        refine ⟨h1, h2, h3, h4, ?_, ?_⟩
        · intro e he hne
          rcases List.mem_cons.1 he with rfl | he
          · exact absurd hx hne
          · exact h5 e he hne
        · rw [List.countP_cons_of_neg (by simp [hx])]
          exact h6
      · rw [if_neg hx] at h
        obtain ⟨_, h8, h9⟩ := hin x (by simp) hx
        have ha' : m.In (if x.min < a then x.min else a) := by split <;> assumption
        have hb' : m.In (if b < x.max then x.max else b) := by split <;> assumption
        obtain ⟨h1, h2, h3, h4, h5, h6⟩ := ih _ _ _ (fun e he => hin e (List.mem_cons_of_mem _ he)) ha' hb' a' b' c' h
        refine ⟨h1, h2, ?_, ?_, ?_, ?_⟩
        · split at h3 <;> omega
        · split at h4 <;> omega
        · intro e he hne
          rcases List.mem_cons.1 he with rfl | he
          · constructor
            · split at h3 <;> omega
            · split at h4 <;> omega
          · exact h5 e he hne
        · rw [List.countP_cons_of_pos (by simpa using hx)]
          have h7 : c' = c + 1 + t.countP (fun e => e.pn ≠ 0) := h6
          omega
  have hmin : m.In (modeMin m) := by
    unfold IMode.In InRange modeMin
    have := pow_pos' (m.bits - 1)
    have := pow_pos' m.bits
    split <;> omega
  have hmax : m.In (modeMax m) := by
    unfold IMode.In InRange modeMax
    have := pow_pos' (m.bits - 1)
    have := pow_pos' m.bits
    split <;> omega
  unfold analyse at h
  obtain ⟨h1, h2, _, _, h5, h6⟩ := key table _ _ 0 hin hmax hmin mn mx n h
  exact ⟨h1, h2, h5, by omega⟩

theorem analyse_nonneg (m : IMode) (table : List Entry) (hin : ∀ e ∈ table, e.pn ≠ 0 → 0 ≤ e.min) {mn mx : Int} {n : Nat}
    (h : analyse (modeMin m) (modeMax m) table = (mn, mx, n)) : 0 ≤ mn := by
  have key : ∀ (t : List Entry) (a b : Int) (c : Nat), (∀ e ∈ t, e.pn ≠ 0 → 0 ≤ e.min) → 0 ≤ a →
      ∀ a' b' c', t.foldl (fun (x : Int × Int × Nat) e => if e.pn = 0 then (x.1, x.2.1, x.2.2)
        else (if e.min < x.1 then e.min else x.1, if x.2.1 < e.max then e.max else x.2.1, x.2.2 + 1)) (a, b, c) = (a', b', c') → 0 ≤ a' := by
    intro t
    induction t with
    | nil =>
      intro a b c _ ha a' b' c' h
      cases h
      exact ha
    | cons x t ih =>
      intro a b c hin ha a' b' c' h
      rw [List.foldl_cons] at h
      by_cases hx : x.pn = 0
      · rw [if_pos hx] at h
        exact ih a b c (fun e he => hin e (List.mem_cons_of_mem _ he)) ha a' b' c' h
      · rw [if_neg hx] at h
        refine ih _ _ _ (fun e he => hin e (List.mem_cons_of_mem _ he)) ?_ a' b' c' h
        have := hin x (by simp) hx
        simp only
        split <;> omega
  refine key table _ _ 0 hin ?_ mn mx n h
  unfold modeMax
  have := pow_pos' (m.bits - 1)
  have := pow_pos' m.bits
  split <;> omega

/-- values of a mode differ by less than `2^bits` -/
theorem in_diff {m : IMode} (hb : 0 < m.bits) {x y : Int} (hx : m.In x) (hy : m.In y) : x - y < 2 ^ m.bits := by
  unfold IMode.In InRange at hx hy
  have h := half_pow hb
  have h2 : (2 : Int) ^ m.bits = 2 * 2 ^ (m.bits - 1) := by
    rw [two_pow_cast, two_pow_cast]
    exact_mod_cast h
  split at hx <;> simp_all <;> omega

theorem uwrap (m : IMode) (x : Int) : (unsignedMode m).wrap x = x % 2 ^ m.bits := unsigned_wrap rfl x

theorem normalize_general (m selMode : IMode) (hu : selMode.signed = false) (mn mx : Int) (sorted : List Entry) :
    normalizeSwitch m selMode mn mx sorted = ⟨mn % 2 ^ m.bits, (mx - mn) % 2 ^ m.bits,
      normalizeTable selMode (some (mn % 2 ^ m.bits % 2 ^ selMode.bits)) sorted⟩ := by
  unfold normalizeSwitch
  simp only [uwrap, unsigned_wrap hu]
  have e1 : (mx % 2 ^ m.bits - mn % 2 ^ m.bits) % 2 ^ m.bits = (mx - mn) % 2 ^ m.bits := (Int.sub_emod ..).symm
  split
  · rename_i h
    rw [h] at e1 ⊢
    rw [← e1, Int.sub_zero, Int.emod_emod_of_dvd _ (Int.dvd_refl _), Int.zero_emod]
    congr 1
    unfold normalizeTable
    apply List.map_congr_left
    intro e _
    unfold normalizeEntry
    simp only [unsigned_wrap hu, Int.sub_zero, Int.emod_emod_of_dvd _ (Int.dvd_refl _)]
  · rw [e1]

theorem normalizeEntry_has {selMode : IMode} (hu : selMode.signed = false) {mn mx d : Int} (hd : d % 2 ^ selMode.bits = mn % 2 ^ selMode.bits)
    (hw : mx - mn < 2 ^ selMode.bits) {e : Entry} (h1 : mn ≤ e.min) (h2 : e.min ≤ e.max) (h3 : e.max ≤ mx) (sel : Int) :
    (normalizeEntry selMode (some d) e).pn = e.pn ∧ (Entry.Has (normalizeEntry selMode (some d) e) (sel - mn) ↔ Entry.Has e sel) := by
  have conv : ∀ x, mn ≤ x → x ≤ mx → (x % 2 ^ selMode.bits - d) % 2 ^ selMode.bits = x - mn := by
    intro x hx hx'
    have : (x % 2 ^ selMode.bits - d) % 2 ^ selMode.bits = (x - mn) % 2 ^ selMode.bits := by
      rw [Int.sub_emod, Int.emod_emod_of_dvd _ (Int.dvd_refl _), hd, ← Int.sub_emod]
    rw [this, Int.emod_eq_of_lt (by omega) (by omega)]
  have c1 := conv e.min h1 (by omega)
  have c2 := conv e.max (by omega) h3
  unfold normalizeEntry
  simp only [unsigned_wrap hu]
  rw [c1, c2]
  split
  · rename_i heq
    refine ⟨rfl, ?_⟩
    unfold Entry.Has
    simp only
    omega
  · refine ⟨rfl, ?_⟩
    unfold Entry.Has
    simp only
    omega

theorem normalize_sound {m selMode : IMode} (hu : selMode.signed = false) {table sorted : List Entry} (ok : TableOk m table)
    (hs : IsQSort table sorted) {mn mx : Int} (hmn : m.In mn) (hmx : m.In mx) (hb : ∀ e ∈ table, e.pn ≠ 0 → mn ≤ e.min ∧ e.max ≤ mx)
    (hw : mx - mn < 2 ^ selMode.bits) (hext : selMode.bits ≤ m.bits ∨ 0 ≤ mn) {sel : Int} (hsel : m.In sel) {pn : Nat}
    (h : NormSelects m selMode (normalizeSwitch m selMode mn mx sorted) sel pn) : Selects table sel pn := by
  obtain ⟨hasc, hmem⟩ := sorted_cases ok hs
  rw [normalize_general m selMode hu] at h
  unfold NormSelects at h
  simp only [irSub, uwrap, unsigned_wrap hu] at h
  have es : (sel % 2 ^ m.bits - mn % 2 ^ m.bits) % 2 ^ m.bits = (sel - mn) % 2 ^ m.bits := (Int.sub_emod ..).symm
  rw [es] at h
  have hd1 := in_diff ok.bits hsel hmn
  have hd2 := in_diff ok.bits hmx hmn
  have hd3 := in_diff ok.bits hmx hsel
  have hd4 := in_diff ok.bits hmn hsel
  have hd5 := in_diff ok.bits hmn hmx
  have hp := pow_pos' m.bits
  by_cases hne : ∃ e ∈ table, e.pn ≠ 0
  swap
  · -- no case at all
    have hpn : pn = 0 := by
      split at h
      · rcases h with ⟨e, he, hpe, _⟩ | h
        · exfalso
          unfold normalizeTable at he
          obtain ⟨e', he', _⟩ := List.mem_map.1 he
          exact hne ⟨e', ((hmem e').1 he').1, ((hmem e').1 he').2⟩
        · exact h.1
      · exact h
    exact .inr ⟨hpn, fun e he hp => absurd ⟨e, he, hp⟩ hne⟩
  obtain ⟨e0, he0, hp0⟩ := hne
  have hle : mn ≤ mx := by
    have := hb e0 he0 hp0
    have := (ok.interval e0 he0 hp0).1
    omega
  have eb : (mx - mn) % 2 ^ m.bits = mx - mn := Int.emod_eq_of_lt (by omega) (by omega)
  rw [eb] at h
  have hdelta : mn % 2 ^ m.bits % 2 ^ selMode.bits % 2 ^ selMode.bits = mn % 2 ^ selMode.bits := by
    rw [Int.emod_emod_of_dvd _ (Int.dvd_refl _)]
    rcases hext with hext | hext
    · exact Int.emod_emod_of_dvd _ (pow_dvd_pow 2 hext)
    · have : mn < 2 ^ m.bits := by
        have hz : m.In 0 := by
          unfold IMode.In InRange
          have := pow_pos' (m.bits - 1)
          split <;> omega
        have := in_diff ok.bits hmn hz
        omega
      rw [Int.emod_eq_of_lt hext this]
  by_cases hlo : mn ≤ sel
  · have e1 : (sel - mn) % 2 ^ m.bits = sel - mn := Int.emod_eq_of_lt (by omega) (by omega)
    rw [e1] at h
    by_cases hhi : sel ≤ mx
    · rw [if_pos (by omega), Int.emod_eq_of_lt (a := sel - mn) (b := 2 ^ selMode.bits) (by omega) (by omega)] at h
      unfold normalizeTable at h
      rcases h with ⟨e', he', hpe, hpn, hh⟩ | ⟨hp, hall⟩
      · obtain ⟨e, he, rfl⟩ := List.mem_map.1 he'
        obtain ⟨ht, hn⟩ := (hmem e).1 he
        obtain ⟨k1, k2⟩ := normalizeEntry_has hu hdelta hw (hb e ht hn).1 (ok.interval e ht hn).1 (hb e ht hn).2 sel
        exact .inl ⟨e, ht, hn, by rw [← hpn, k1], k2.1 hh⟩
      · refine .inr ⟨hp, fun e ht hn hh => ?_⟩
        obtain ⟨k1, k2⟩ := normalizeEntry_has hu hdelta hw (hb e ht hn).1 (ok.interval e ht hn).1 (hb e ht hn).2 sel
        exact hall _ (List.mem_map_of_mem ((hmem e).2 ⟨ht, hn⟩)) (by rw [k1]; exact hn) (k2.2 hh)
    · rw [if_neg (by omega)] at h
      refine .inr ⟨h, fun e ht hn hh => ?_⟩
      have := hb e ht hn
      unfold Entry.Has at hh
      omega
  · have e1 : (sel - mn) % 2 ^ m.bits = sel - mn + 2 ^ m.bits := by
      rw [← Int.add_emod_right, Int.emod_eq_of_lt (by omega) (by omega)]
    rw [e1, if_neg (by omega)] at h
    refine .inr ⟨h, fun e ht hn hh => ?_⟩
    have := hb e ht hn
    unfold Entry.Has at hh
    omega

/-! ## The decision -/

theorem ascending_length (l : List Entry) : ∀ (lo hi : Int), lo ≤ hi + 1 → Ascending l → (∀ e ∈ l, lo ≤ e.min ∧ e.max ≤ hi) → (l.length : Int) ≤ hi - lo + 1 := by
  induction l with
  | nil => intro lo hi h _ _; simp; omega
  | cons x t ih =>
    intro lo hi h hasc hb
    have hx := hb x (by simp)
    have hxx := (hasc.2 x (by simp)).2
    have h1 := List.pairwise_cons.1 hasc.1
    have := ih (x.max + 1) hi (by omega) ⟨h1.2, fun e he => hasc.2 e (List.mem_cons_of_mem _ he)⟩ (fun e he => ⟨by have := h1.1 e he; omega, (hb e (List.mem_cons_of_mem _ he)).2⟩)
    rw [List.length_cons]
    push_cast
    omega

theorem takeWhile_length {l : List Entry} (hs : l.Pairwise (fun a b => ¬ compareEntries b a < 0)) :
    (l.takeWhile (fun e => e.pn ≠ 0)).length = l.countP (fun e => e.pn ≠ 0) := by
  induction l with
  | nil => rfl
  | cons x t ih =>
    rw [List.pairwise_cons] at hs
    by_cases hx : x.pn = 0
    · rw [List.takeWhile_cons_of_neg (by simp [hx])]
      symm
      rw [List.length_nil, List.countP_eq_zero]
      intro e he
      rcases List.mem_cons.1 he with rfl | he
      · simp [hx]
      · have := hs.1 e he
        unfold compareEntries at this
        by_contra hne
        have hne : e.pn ≠ 0 := by simpa using hne
        rw [if_neg hne, if_pos hx] at this
        exact this (by decide)
    · rw [List.takeWhile_cons_of_pos (by simpa using hx), List.length_cons, List.countP_cons_of_pos (by simpa using hx), ih hs.2]

theorem not_cascade_width {m : IMode} {table sorted : List Entry} (ok : TableOk m table) (hs : IsQSort table sorted) {mn mx : Int} {n : Nat}
    (hmn : m.In mn) (hmx : m.In mx) (hb : ∀ e ∈ table, e.pn ≠ 0 → mn ≤ e.min ∧ e.max ≤ mx) (hn : n = table.countP (fun e => e.pn ≠ 0))
    {small spare : Nat} (h : lowerToCascade m small spare mn mx n = false) : mx - mn < spare + n := by
  obtain ⟨hasc, hmem⟩ := sorted_cases ok hs
  have hlen := takeWhile_length hs.2
  rw [hs.1.countP_eq, ← hn] at hlen
  by_cases hle : mn ≤ mx
  swap
  · omega
  have hcard := ascending_length _ mn mx (by omega) hasc (fun e he => hb e ((hmem e).1 he).1 ((hmem e).1 he).2)
  rw [hlen] at hcard
  unfold lowerToCascade at h
  simp only [Bool.or_eq_false_iff, decide_eq_false_iff_not] at h
  obtain ⟨h1, h2⟩ := h
  have hd := in_diff ok.bits hmx hmn
  have hw : m.wrap (mx - mn) % 2 ^ m.bits = mx - mn := by
    unfold IMode.wrap
    rw [wrap_emod, Int.emod_eq_of_lt (by omega) (by omega)]
  have hq : (((n : Int) - 1)) % 2 ^ m.bits = n - 1 := Int.emod_eq_of_lt (by omega) (by omega)
  rw [uwrap, uwrap, uwrap, uwrap, hw, hq, Int.emod_eq_of_lt (a := mx - mn - (n - 1)) (by omega) (by omega)] at h2
  have : ((spare : Int)) % 2 ^ m.bits ≤ spare := by
    have := Int.emod_nonneg (spare : Int) (pow_pos' m.bits).ne'
    have h3 := Int.mul_ediv_add_emod (spare : Int) (2 ^ m.bits)
    have h4 : 0 ≤ 2 ^ m.bits * ((spare : Int) / 2 ^ m.bits) :=
      Int.mul_nonneg (pow_pos' m.bits).le (Int.ediv_nonneg (Int.natCast_nonneg _) (pow_pos' m.bits).le)
    omega
  omega

end Verif.Props.Switch

namespace Verif.Props
open Verif.Spec Verif.Model.LowerSwitch Switch

/-- C31, except for proper intervals in a signed mode: the cascade of comparisons leads to the target of the entry that contains the
selector, or to the default -/
theorem cascade_preserves_target_partial {m : IMode} {table sorted : List Entry} (ok : TableOk m table) (hs : IsQSort table sorted)
    (hcase : ∀ e ∈ table, e.pn ≠ 0 → e.min = e.max ∨ m.signed = false) {sel : Int} (hsel : m.In sel) :
    Selects table sel (evalTree m sel (cascade m (normalizeTable m none sorted))) := by
  obtain ⟨hasc, hmem⟩ := sorted_cases ok hs
  have hin : ∀ e ∈ sorted.takeWhile (fun e => e.pn ≠ 0), m.In e.min ∧ m.In e.max := fun e he =>
    (ok.interval e ((hmem e).1 he).1 ((hmem e).1 he).2).2
  rw [normalize_none ok.bits hin]
  refine selects_congr hmem (cascade_sound hsel _ _ rfl hasc ?_)
  intro e he
  exact ⟨(hin e he).1, (hin e he).2, hcase e ((hmem e).1 he).1 ((hmem e).1 he).2⟩

/-- what is missing in `cascade_preserves_target_partial` is false: the test for an interval is a signed comparison of a difference, so
`case 3 ... 7` is taken for the selector -5 of a signed mode -/
theorem cascade_interval_wrong : TableOk ⟨true, 32, 32⟩ [⟨3, 7, 1⟩] ∧ IsQSort [⟨3, 7, 1⟩] [⟨3, 7, 1⟩] ∧ IMode.In ⟨true, 32, 32⟩ (-5) ∧
    evalTree ⟨true, 32, 32⟩ (-5) (cascade ⟨true, 32, 32⟩ (normalizeTable ⟨true, 32, 32⟩ none [⟨3, 7, 1⟩])) = 1 ∧
    Selects [⟨3, 7, 1⟩] (-5) 0 := by
  refine ⟨⟨by decide, ?_, by simp⟩, ⟨List.Perm.refl _, by simp⟩, by unfold IMode.In; decide, ?_, ?_⟩
  · intro e he _
    rw [List.mem_singleton.1 he]
    unfold IMode.In
    decide
  · have : normalizeTable ⟨true, 32, 32⟩ none [⟨3, 7, 1⟩] = [⟨3, 7, 1⟩] := by decide
    rw [this, cascade]
    decide
  · refine .inr ⟨rfl, fun e he _ => ?_⟩
    rw [List.mem_singleton.1 he]
    unfold Entry.Has
    decide

/-- C31, the edges of the cascade: each target block gets exactly one edge for each of its entries, which is the number of predecessors
`connect_to_target` reserved for it (as long as that number fits the 16 bits of `target_t.n_entries`); all other edges go to the default -/
theorem cascade_edges {m : IMode} {table sorted : List Entry} (hs : IsQSort table sorted) {pn : Nat} (hpn : pn ≠ 0) :
    (leaves (cascade m (normalizeTable m none sorted))).count pn = table.countP (fun e => e.pn = pn) := by
  have hpn' : ∀ e : Entry, (normalizeEntry m none e).pn = e.pn := by
    intro e
    unfold normalizeEntry
    simp only
    split <;> rfl
  have hne : ∀ e ∈ normalizeTable m none sorted, e.pn ≠ 0 := by
    intro e he
    obtain ⟨e', he', rfl⟩ := List.mem_map.1 he
    rw [hpn']
    exact takeWhile_ne he'
  have h1 := cascade_leaves_aux m _ (normalizeTable m none sorted) rfl hne
  have h2 : (leaves (cascade m (normalizeTable m none sorted))).count pn = ((leaves (cascade m (normalizeTable m none sorted))).filter (· ≠ 0)).count pn := by
    rw [List.count_filter (by simpa using hpn)]
  rw [h2, h1, ← hs.1.countP_eq]
  clear h1 h2 hne
  unfold normalizeTable
  rw [List.map_map, List.count_eq_countP, List.countP_map]
  have hsort := hs.2
  clear hs
  induction sorted with
  | nil => rfl
  | cons x t ih =>
    rw [List.pairwise_cons] at hsort
    by_cases hx : x.pn = 0
    · rw [List.takeWhile_cons_of_neg (by simp [hx]), List.countP_nil]
      symm
      rw [List.countP_eq_zero]
      intro e he
      rcases List.mem_cons.1 he with rfl | he
      · simp [hx]; omega
      · have := hsort.1 e he
        unfold compareEntries at this
        by_contra hne
        have hne : e.pn = pn := by simpa using hne
        rw [if_neg (by omega), if_pos hx] at this
        exact this (by decide)
    · rw [List.takeWhile_cons_of_pos (by simpa using hx), List.countP_cons, List.countP_cons, ih hsort.2]
      simp only [Function.comp, hpn']
      congr 1

/-- C31, cost: at most `k + 1` comparisons are made on a path for a table of at most `2^k` cases -/
theorem cascade_comparisons (m : IMode) (l : List Entry) (k : Nat) (h : l.length ≤ 2 ^ k) : depth (cascade m l) ≤ k + 1 :=
  cascade_depth_aux m k l h

/-- C32, except for sign extension: rebasing to zero in an unsigned mode and converting to the mode of the backend keeps the target.
`mn`, `mx` are those computed by `analyse_switch0`; `selMode.bits ≤ m.bits ∨ 0 ≤ mn` excludes a signed selector mode that is narrower than
the mode of the backend with negative cases. -/
theorem normalize_switch_preserves_target_partial {m selMode : IMode} (hu : selMode.signed = false) {table sorted : List Entry}
    (ok : TableOk m table) (hs : IsQSort table sorted) {mn mx : Int} {n : Nat} (ha : analyse (modeMin m) (modeMax m) table = (mn, mx, n))
    (hw : mx - mn < 2 ^ selMode.bits) (hext : selMode.bits ≤ m.bits ∨ 0 ≤ mn) {sel : Int} (hsel : m.In sel) {pn : Nat}
    (h : NormSelects m selMode (normalizeSwitch m selMode mn mx sorted) sel pn) : Selects table sel pn := by
  obtain ⟨h1, h2, h3, _⟩ := analyse_spec m ok.bits table ok.interval mn mx n ha
  exact normalize_sound hu ok hs h1 h2 h3 hw hext hsel h

/-- what is missing in `normalize_switch_preserves_target_partial` is false: a 16-bit signed selector, a 32-bit mode for the backend, and
a negative case.  The case values are sign-extended but the subtracted minimum is zero-extended, so no case matches any more: selector -1
goes to the default although there is a case -1. -/
theorem normalize_sign_extension_wrong :
    let table : List Entry := [⟨-2, -2, 1⟩, ⟨-1, -1, 2⟩, ⟨0, 0, 3⟩]
    let n : Normalized := ⟨65534, 2, [⟨4294901760, 4294901760, 1⟩, ⟨4294901761, 4294901761, 2⟩, ⟨4294901762, 4294901762, 3⟩]⟩
    TableOk ⟨true, 16, 32⟩ table ∧ IsQSort table table ∧ analyse (modeMin ⟨true, 16, 32⟩) (modeMax ⟨true, 16, 32⟩) table = (-2, 0, 3) ∧
      normalizeSwitch ⟨true, 16, 32⟩ ⟨false, 32, 32⟩ (-2) 0 table = n ∧ Selects table (-1) 2 ∧ NormSelects ⟨true, 16, 32⟩ ⟨false, 32, 32⟩ n (-1) 0 ∧
      ¬ NormSelects ⟨true, 16, 32⟩ ⟨false, 32, 32⟩ n (-1) 2 := by
  refine ⟨⟨by decide, ?_, by decide⟩, ⟨List.Perm.refl _, by decide⟩, by decide, by decide, ?_, ?_, ?_⟩
  · intro e he _
    simp only [List.mem_cons, List.not_mem_nil, or_false] at he
    unfold IMode.In
    rcases he with rfl | rfl | rfl <;> decide
  · refine .inl ⟨⟨-1, -1, 2⟩, by simp, by decide, rfl, ?_⟩
    unfold Entry.Has
    decide
  · unfold NormSelects
    simp only
    rw [if_pos (by decide)]
    refine .inr ⟨rfl, ?_⟩
    intro e he _
    simp only [List.mem_cons, List.not_mem_nil, or_false] at he
    unfold Entry.Has
    rcases he with rfl | rfl | rfl <;> decide
  · unfold NormSelects
    simp only
    rw [if_pos (by decide)]
    rintro (⟨e, he, _, _, hh⟩ | ⟨h, _⟩)
    · simp only [List.mem_cons, List.not_mem_nil, or_false] at he
      unfold Entry.Has at hh
      revert hh
      rcases he with rfl | rfl | rfl <;> decide
    · exact absurd h (by decide)

/-- C31 and C32 together: what `find_switch_nodes` makes of a Switch leads to the same target.  Whether the result is a cascade or a table
follows from the decision of the code; `hfit` bounds the number of cases by the width of the mode of the backend. -/
theorem lower_switch_preserves_target_partial {m selMode : IMode} (hu : selMode.signed = false) {smallSwitch spareSize : Nat}
    {table sorted : List Entry} (ok : TableOk m table) (hs : IsQSort table sorted)
    (hcase : ∀ e ∈ table, e.pn ≠ 0 → e.min = e.max ∨ m.signed = false)
    (hext : selMode.bits ≤ m.bits ∨ ∀ e ∈ table, e.pn ≠ 0 → 0 ≤ e.min)
    (hfit : spareSize + table.length ≤ 2 ^ selMode.bits) {sel : Int} (hsel : m.In sel) {pn : Nat}
    (h : LoweredSelects m selMode (lowerSwitch m selMode smallSwitch spareSize table sorted) sel pn) : Selects table sel pn := by
  unfold lowerSwitch at h
  obtain ⟨mn, mx, n, ha⟩ : ∃ mn mx n, analyse (modeMin m) (modeMax m) table = (mn, mx, n) := ⟨_, _, _, rfl⟩
  rw [ha] at h
  simp only at h
  obtain ⟨h1, h2, h3, h4⟩ := analyse_spec m ok.bits table ok.interval mn mx n ha
  by_cases hc : lowerToCascade m smallSwitch spareSize mn mx n = true
  · rw [if_pos hc] at h
    have : evalTree m sel (cascade m (normalizeTable m none sorted)) = pn := h
    rw [← this]
    exact cascade_preserves_target_partial ok hs hcase hsel
  · rw [if_neg hc] at h
    have hw := not_cascade_width ok hs h1 h2 h3 h4 (by simpa using hc)
    have hn : n ≤ table.length := by rw [h4]; exact List.countP_le_length
    have hfit' : (spareSize : Int) + table.length ≤ 2 ^ selMode.bits := by
      rw [two_pow_cast]
      exact_mod_cast hfit
    refine normalize_sound hu ok hs h1 h2 h3 (by omega) ?_ hsel h
    rcases hext with hext | hext
    · exact .inl hext
    · right
      have hnn := analyse_nonneg m table hext ha
      exact hnn

/-- a table with an interval, sorted from another order, satisfying the hypotheses of the theorems above -/
example : TableOk ⟨false, 32, 32⟩ [⟨10, 20, 1⟩, ⟨0, 0, 0⟩, ⟨3, 3, 2⟩, ⟨5, 5, 1⟩] ∧
    IsQSort [⟨10, 20, 1⟩, ⟨0, 0, 0⟩, ⟨3, 3, 2⟩, ⟨5, 5, 1⟩] [⟨3, 3, 2⟩, ⟨5, 5, 1⟩, ⟨10, 20, 1⟩, ⟨0, 0, 0⟩] ∧
    Selects [⟨10, 20, 1⟩, ⟨0, 0, 0⟩, ⟨3, 3, 2⟩, ⟨5, 5, 1⟩] 17 1 ∧
    normalizeSwitch ⟨false, 32, 32⟩ ⟨false, 32, 32⟩ 3 20 [⟨3, 3, 2⟩, ⟨5, 5, 1⟩, ⟨10, 20, 1⟩, ⟨0, 0, 0⟩] = ⟨3, 17, [⟨0, 0, 2⟩, ⟨2, 2, 1⟩, ⟨7, 17, 1⟩]⟩ := by
  refine ⟨⟨by decide, ?_, by decide⟩, ⟨by decide, by decide⟩, ?_, by decide⟩
  · intro e he _
    simp only [List.mem_cons, List.not_mem_nil, or_false] at he
    unfold IMode.In
    rcases he with rfl | rfl | rfl | rfl <;> decide
  · refine .inl ⟨⟨10, 20, 1⟩, by simp, by decide, rfl, ?_⟩
    unfold Entry.Has
    decide

end Verif.Props
