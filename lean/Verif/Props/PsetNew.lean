import Verif.Props.HashSet
/-!
# C59: pointer sets
-/
namespace Verif.Props
open Verif.Model

variable {K D : Type} {hash : K → Nat} {keq keq' : K → K → Bool}

/-- the table uses the key comparison only through `hsMatch` -/
theorem match_congr (h : ∀ a b, hash a = hash b → keq a b = keq' a b) (key : K) (e : HEntry K D) :
    hsMatch hash keq key e = hsMatch hash keq' key e := by
  cases e with
  | empty => rfl
  | deleted => rfl
  | full k d =>
    simp only [hsMatch]
    by_cases hh : hash k = hash key
    · rw [h k key hh]
    · rw [beq_eq_false_iff_ne.2 hh]; rfl

theorem findLoop_congr (h : ∀ a b, hash a = hash b → keq a b = keq' a b) (es : List (HEntry K D)) (key : K) :
    ∀ fuel p b, hsFindLoop hash keq es key fuel p b = hsFindLoop hash keq' es key fuel p b := by
  intro fuel
  induction fuel with
  | zero => intro p b; rfl
  | succ fuel ih => intro p b; simp only [hsFindLoop, match_congr h, ih]

theorem insertLoop_congr (h : ∀ a b, hash a = hash b → keq a b = keq' a b) (es : List (HEntry K D)) (key : K) :
    ∀ fuel p b i, hsInsertLoop hash keq es key fuel p b i = hsInsertLoop hash keq' es key fuel p b i := by
  intro fuel
  induction fuel with
  | zero => intro p b i; rfl
  | succ fuel ih => intro p b i; simp only [hsInsertLoop, match_congr h, ih]

theorem step_congr (h : ∀ a b, hash a = hash b → keq a b = keq' a b) (T : HSet K D) (op : HOp K D) :
    HSet.step hash keq T op = HSet.step hash keq' T op := by
  cases op with
  | insert k upd => simp only [HSet.step, HSet.insert, insertLoop_congr h]
  | find k => simp only [HSet.step, HSet.find, findLoop_congr h]
  | remove k => simp only [HSet.step, HSet.remove, findLoop_congr h]

theorem run_congr (h : ∀ a b, hash a = hash b → keq a b = keq' a b) (ops : List (HOp K D)) :
    ∀ T, HSet.run hash keq T ops = HSet.run hash keq' T ops := by
  induction ops with
  | nil => intro T; rfl
  | cons op ops ih => intro T; simp only [HSet.run, step_congr h, ih]

/-- C59, for pointers `K` with addresses `addr` that are pairwise different in their
low 32 bits (always on a 32-bit host): `pset_new` is a set of pointers. -/
theorem pset_new_refines_partial [DecidableEq K] (addr : K → Nat) (hinj : ∀ a b, addr a % 2 ^ 32 = addr b % 2 ^ 32 → a = b)
    (ops : List (HOp K Unit)) (hlen : ops.length ≤ 2 ^ 31) :
    ∃ T' S' as, HSet.run (fun p => psetNewHash (addr p)) (fun a b => psetNewKeysEqual (addr a) (addr b)) HSet.init ops = some (T', as) ∧
      HSpecRun (fun a b => decide (a = b)) [] ops S' as ∧ T'.size = S'.length ∧ T'.iterate.Perm S' := by
  have hc : ∀ a b, psetNewHash (addr a) = psetNewHash (addr b) → psetNewKeysEqual (addr a) (addr b) = decide (a = b) := by
    intro a b h
    rw [decide_eq_true (hinj a b h)]; rfl
  have H : HashEq (fun p => psetNewHash (addr p)) (fun a b : K => decide (a = b)) :=
    ⟨fun x => by simp, fun h => by simp at h ⊢; exact h.symm, fun h1 h2 => by simp at h1 h2 ⊢; exact h1.trans h2, fun h => by
      simp at h; rw [h]⟩
  obtain ⟨T', S', as, e, sp, hs, hp, _⟩ := hashset_new_refines H ops hlen
  exact ⟨T', S', as, by rw [run_congr hc]; exact e, sp, hs, hp⟩

/-- the hypothesis is met by ordinary addresses within 4 GiB -/
example : ∀ a b : Fin 1000, (0x7f0000000000 + 16 * a.val) % 2 ^ 32 = (0x7f0000000000 + 16 * b.val) % 2 ^ 32 → a = b := by
  intro a b h; ext; have := a.2; have := b.2; omega

end Verif.Props
