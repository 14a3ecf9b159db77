import Verif.Model.Usage

/-! Lemmas about the usage of variables. -/

namespace Verif.Lemmas.Usage

open Spec.Usage Model.Usage

/-- Flags are ordered by implication. -/
structure Le (a b : Flags) : Prop where
  taken : a.taken = true → b.taken = true
  write : a.write = true → b.write = true
  read : a.read = true → b.read = true

theorem Le.trans {a b c : Flags} (h : Le a b) (h2 : Le b c) : Le a c :=
  ⟨fun x => h2.1 (h.1 x), fun x => h2.2 (h.2 x), fun x => h2.3 (h.3 x)⟩

theorem le_or_left (a b : Flags) : Le a (a.or b) := by
  constructor <;> intro h <;> simp [Flags.or, h]

theorem le_or_right (a b : Flags) : Le b (a.or b) := by
  constructor <;> intro h <;> simp [Flags.or, h]

theorem orAll_mem {α : Type} {f : α → Option Flags} {l : List α} {r : Flags}
    (h : orAll f l = some r) {x : α} (hx : x ∈ l) : ∃ a, f x = some a ∧ Le a r := by
  induction l generalizing r with
  | nil => cases hx
  | cons y ys ih =>
    simp only [orAll] at h
    split at h
    next a b h1 h2 =>
      injection h with h
      subst h
      rcases List.mem_cons.1 hx with rfl | hx
      · exact ⟨a, h1, le_or_left a b⟩
      · obtain ⟨c, hc, hl⟩ := ih h2 hx
        exact ⟨c, hc, hl.trans (le_or_right a b)⟩
    next => exact nomatch h

theorem mem_outs {g : Graph} {n m k : Nat} (hm : m < g.n) (h : (g.ins m)[k]? = some n) :
    (m, k) ∈ outs g n := by
  simp only [outs, List.mem_flatMap, List.mem_map, List.mem_filter, List.mem_range]
  refine ⟨m, hm, k, ⟨?_, by simp [h]⟩, rfl⟩
  exact (List.getElem?_eq_some_iff.1 h).1

/-- A node that is computed from the address of `e` by address arithmetic. -/
inductive Chain (g : Graph) (e : Nat) : Nat → Prop
  | base {n} : n < g.n → g.kind n = .address e → Chain g e n
  | step {n m} : n < g.n → (g.kind n).arith = true → m ∈ g.ins n → Chain g e m → Chain g e n

/-- The flags of all nodes computed from the address are part of the result. -/
theorem chain_flags {g : Graph} {e : Nat} {f : Flags} (h : usage g e = some f) {n : Nat}
    (hc : Chain g e n) : ∃ fuel a, determine g (fuel + 1) n = some a ∧ Le a f := by
  induction hc with
  | @base n hn hk =>
    simp only [usage] at h
    split at h
    next r hr =>
      injection h with h
      subst h
      obtain ⟨a, ha, hl⟩ := orAll_mem hr (List.mem_range.2 hn)
      rw [if_pos hk] at ha
      exact ⟨g.n, a, ha, hl.trans (le_or_right _ _)⟩
    next => exact nomatch h
  | @step n m hn hk hm _ ih =>
    obtain ⟨fuel, a, ha, hl⟩ := ih
    obtain ⟨k, hk'⟩ := List.getElem?_of_mem hm
    simp only [determine] at ha
    obtain ⟨b, hb, hl'⟩ := orAll_mem ha (mem_outs hn hk')
    simp only at hb
    have hb : determine g fuel n = some b := by
      cases hkn : g.kind n <;> rw [hkn] at hk hb <;> first | exact hb | exact nomatch hk
    cases fuel with
    | zero => exact nomatch hb
    | succ fuel => exact ⟨fuel, b, hb, hl'.trans hl⟩

/-- The flags that a user of such a node contributes. -/
theorem chain_use {g : Graph} {e : Nat} {f : Flags} (h : usage g e = some f) {n m k : Nat}
    (hc : Chain g e n) (hm : m < g.n) (hk : (g.ins m)[k]? = some n) :
    (g.kind m = .load → f.read = true) ∧
    (g.kind m = .store → (k = 2 → f.taken = true) ∧ (k = 1 → f.write = true)) ∧
    (g.kind m = .copyB → (k = 1 → f.write = true) ∧ (k = 2 → f.read = true)) ∧
    (∀ agg, g.kind m = .call agg → f.read = true ∧
      (2 ≤ k → agg[k - 2]? ≠ some true → f.taken = true)) ∧
    (g.kind m = .other ∨ g.kind m = .builtin → f.taken = true) := by
  obtain ⟨fuel, a, ha, hl⟩ := chain_flags h hc
  simp only [determine] at ha
  obtain ⟨b, hb, hl'⟩ := orAll_mem ha (mem_outs hm hk)
  have hl := hl'.trans hl
  simp only at hb
  refine ⟨?_, ?_, ?_, ?_, ?_⟩
  · intro hkd
    rw [hkd] at hb
    injection hb with hb
    subst hb
    exact hl.read rfl
  · intro hkd
    rw [hkd] at hb
    refine ⟨?_, ?_⟩
    · rintro rfl
      simp at hb
      subst hb
      exact hl.taken rfl
    · rintro rfl
      simp at hb
      subst hb
      exact hl.write rfl
  · intro hkd
    rw [hkd] at hb
    refine ⟨?_, ?_⟩
    · rintro rfl
      simp at hb
      subst hb
      exact hl.write rfl
    · rintro rfl
      simp at hb
      subst hb
      exact hl.read rfl
  · intro agg hkd
    rw [hkd] at hb
    simp only at hb
    split at hb
    next h1 =>
      injection hb with hb
      subst hb
      exact ⟨hl.read rfl, fun h2 => by omega⟩
    next h1 =>
      split at hb
      · exact nomatch hb
      next h0 =>
        split at hb
        next h3 =>
          injection hb with hb
          subst hb
          exact ⟨hl.read rfl, fun _ h4 => (h4 h3).elim⟩
        next h3 =>
          injection hb with hb
          subst hb
          exact ⟨hl.read rfl, fun _ _ => hl.taken rfl⟩
        next => exact nomatch hb
  · intro hkd
    rcases hkd with hkd | hkd <;> rw [hkd] at hb <;> injection hb with hb <;> subst hb <;>
      exact hl.taken rfl

theorem initial_taken {g : Graph} {e : Nat} {f : Flags} (h : usage g e = some f)
    (hf : f.taken = false) : g.visible e = false ∧ e ∉ g.inits := by
  simp only [usage] at h
  split at h
  next r hr =>
    injection h with h
    subst h
    have hle := (le_or_left (initial g e) r).taken
    cases hn : (g.visible e || g.inits.contains e) with
    | false => simpa using hn
    | true =>
      rw [hle (by simp only [initial, hn]; rfl)] at hf
      exact nomatch hf
  next => exact nomatch h

/-- Taken variables are also marked as read and written. -/
def Full (f : Flags) : Prop := f.taken = true → f.write = true ∧ f.read = true

theorem full_or {a b : Flags} (ha : Full a) (hb : Full b) : Full (a.or b) := by
  intro h
  simp only [Flags.or, Bool.or_eq_true] at h ⊢
  rcases h with h | h
  · exact ⟨Or.inl (ha h).1, Or.inl (ha h).2⟩
  · exact ⟨Or.inr (hb h).1, Or.inr (hb h).2⟩

theorem full_orAll {α : Type} {f : α → Option Flags} (hf : ∀ x a, f x = some a → Full a)
    {l : List α} {r : Flags} (h : orAll f l = some r) : Full r := by
  induction l generalizing r with
  | nil =>
    injection h with h
    subst h
    intro h
    exact nomatch h
  | cons y ys ih =>
    simp only [orAll] at h
    split at h
    next a b h1 h2 =>
      injection h with h
      subst h
      exact full_or (hf _ _ h1) (ih h2)
    next => exact nomatch h

theorem full_determine {g : Graph} : ∀ (fuel n : Nat) (a : Flags),
    determine g fuel n = some a → Full a := by
  intro fuel
  induction fuel with
  | zero => intro n a h; exact nomatch h
  | succ fuel ih =>
    intro n a h
    simp only [determine] at h
    refine full_orAll ?_ h
    intro mk b hb
    have hsome : ∀ {c : Flags}, Full c → some c = some b → Full b := by
      intro c hc hh
      injection hh with hh
      exact hh ▸ hc
    have h1 : Full { read := true } := fun h => nomatch h
    have h2 : Full { write := true } := fun h => nomatch h
    have h3 : Full {} := fun h => nomatch h
    have h4 : Full .unknown := fun _ => ⟨rfl, rfl⟩
    split at hb
    · exact hsome h1 hb
    · split at hb
      · exact hsome h4 hb
      · split at hb
        · exact hsome h2 hb
        · exact hsome h3 hb
    · split at hb
      · exact hsome h2 hb
      · split at hb
        · exact hsome h1 hb
        · exact nomatch hb
    · exact ih _ _ hb
    · exact ih _ _ hb
    · exact ih _ _ hb
    · exact ih _ _ hb
    · exact ih _ _ hb
    · split at hb
      · exact hsome h1 hb
      · split at hb
        · exact nomatch hb
        · split at hb
          · exact hsome h1 hb
          · exact hsome h4 hb
          · exact nomatch hb
    · exact hsome h3 hb
    · exact hsome h4 hb
    · exact hsome h4 hb
    · exact hsome h4 hb

theorem full_usage {g : Graph} {e : Nat} {f : Flags} (h : usage g e = some f) : Full f := by
  simp only [usage] at h
  split at h
  next r hr =>
    injection h with h
    subst h
    refine full_or ?_ (full_orAll ?_ hr)
    · simp only [initial]
      split
      · exact fun _ => ⟨rfl, rfl⟩
      · exact fun h => nomatch h
    · intro n a ha
      split at ha
      · exact full_determine _ _ _ ha
      · injection ha with ha
        subst ha
        exact fun h => nomatch h
  next => exact nomatch h

end Verif.Lemmas.Usage
