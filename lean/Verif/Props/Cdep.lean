import Verif.Lemmas.Cdep
import Verif.Props.Dom
/-! # C117: control dependence -/
namespace Verif.Props
open Verif.Model.Dom Verif.Spec

/-- C117: The computation ends without reading a postdominator that is absent, and each block has just the blocks it is control
dependent on, each once. -/
theorem cdep_right {g : Cfg} (h : g.Ok) (hs : g.Ends) :
    ∃ m, g.computeCdep = some m ∧ (∀ a, (m a).Nodup) ∧ ∀ a b, isCdepOn m a b = true ↔ g.CDep a b := by
  obtain ⟨m, h1, h2, h3⟩ := compute_spec h hs g.blockWalk (fun _ => []) (fun s hb => (mem_blockWalk h).1 hb) (fun _ => List.nodup_nil)
  refine ⟨m, h1, h2, fun a b => ?_⟩
  have : isCdepOn m a b = true ↔ b ∈ m a := by simp [isCdepOn]
  rw [this, h3]
  unfold Cfg.CDep
  have hlt : ∀ s, Reachable g.BackEdge g.stop s → s < g.n := by
    intro s hr
    obtain ⟨i, hi⟩ := (pnum_reachable h).2 hr
    obtain ⟨e1, e2⟩ := ((pdfs_done h).1.wf.iff _ _).1 hi
    rw [← e2]
    exact (pdfs_done h).1.wf.lt i e1
  constructor
  · rintro (h' | ⟨s, hm, hp, hd⟩)
    · cases h'
    · have hr := (mem_blockWalk h).1 hm
      have hin := mem_cfgPreds.1 hp
      have hb := h.insLt _ _ (hlt s hr) hin
      exact ⟨hb, s, hr, (h.edge b s hb (hlt s hr)).2 hin, hd⟩
  · rintro ⟨hb, s, hr, hf, hd⟩
    exact .inr ⟨s, (mem_blockWalk h).2 hr, mem_cfgPreds.2 ((h.edge b s hb (hlt s hr)).1 hf), hd⟩

/-- `get_unique_cdep` returns the only block a block is control dependent on. -/
theorem unique_cdep_right {g : Cfg} (h : g.Ok) (hs : g.Ends) {m : Nat → List Nat} (hm : g.computeCdep = some m) (a b : Nat) :
    uniqueCdep m a = some b ↔ ∀ c, g.CDep a c ↔ c = b := by
  obtain ⟨m', h1, h2, h3⟩ := cdep_right h hs
  rw [hm] at h1
  cases h1
  have hmem : ∀ c, c ∈ m a ↔ g.CDep a c := fun c => by rw [← h3]; simp [isCdepOn]
  simp only [← hmem]
  have hn := h2 a
  unfold uniqueCdep
  match hma : m a with
  | [] => simp
  | [d] => simp; exact ⟨fun hh => by subst hh; simp, fun hh => (hh d).1 rfl⟩
  | d :: e :: l =>
    rw [hma] at hn
    constructor
    · intro hh; cases hh
    · intro hh
      have e1 := (hh d).1 (by simp)
      have e2 := (hh e).1 (by simp)
      subst e1
      subst e2
      simp at hn

/-- `has_multiple_cdep` -/
theorem multiple_cdep_right {g : Cfg} (h : g.Ok) (hs : g.Ends) {m : Nat → List Nat} (hm : g.computeCdep = some m) (a : Nat) :
    hasMultipleCdep m a = true ↔ ∃ b c, b ≠ c ∧ g.CDep a b ∧ g.CDep a c := by
  obtain ⟨m', h1, h2, h3⟩ := cdep_right h hs
  rw [hm] at h1
  cases h1
  have hmem : ∀ c, c ∈ m a ↔ g.CDep a c := fun c => by rw [← h3]; simp [isCdepOn]
  simp only [← hmem]
  have hn := h2 a
  unfold hasMultipleCdep
  match hma : m a with
  | [] => simp
  | [d] => simp
  | d :: e :: l =>
    rw [hma] at hn
    simp only [true_iff]
    refine ⟨d, e, ?_, by simp, by simp⟩
    rintro rfl
    simp at hn

/-- What it is for: a block other than the start block that some way leads around, is control dependent on a block. More precisely,
on a path from `b` to the end without `a`, where `a` can be reached from `b` by control flow among the blocks looked at, there is the branch. -/
theorem dependent_on_branch {g : Cfg} {a b : Nat} {l : List Nat} (hf : Path g.Flow b l a) (hl : ∀ x ∈ l, x < g.n ∧ Reachable g.BackEdge g.stop x)
    (hb : ¬ g.Postdom a b) : ∃ c ∈ l, g.CDep a c := by
  induction hf with
  | nil v => exact absurd (dominates_refl _) hb
  | @cons u v w l he hp ih =>
    by_cases hv : g.Postdom w v
    · exact ⟨u, List.mem_cons_self, (hl u List.mem_cons_self).1, v, (hl v (List.mem_cons_of_mem _ (path_first hp))).2, he, hv, fun hh => hb hh.1⟩
    · obtain ⟨c, h1, h2⟩ := ih (fun x hx => hl x (List.mem_cons_of_mem _ hx)) hv
      exact ⟨c, List.mem_cons_of_mem _ h1, h2⟩

theorem exampleCfg_ends : exampleCfg.Ends := by
  refine ⟨?_, fun c hc => (by cases hc), by decide⟩
  intro b hb
  have hlt : b < 8 := by
    refine Nat.lt_of_not_le fun hle => ?_
    have : exampleCfg.outs b = [] := by simp [exampleCfg, List.getD, List.getElem?_eq_none (show [[some 1], [some 2, some 3], [some 1], [some 1, some 4], [some 5, some 7], [], [some 4], [some 7, none]].length ≤ b from hle)]
    rw [this] at hb
    cases hb
  have : ∀ b ∈ List.range 8, some exampleCfg.start ∉ exampleCfg.outs b := by decide
  exact this b (List.mem_range.2 hlt) hb

/-- The head of the loop depends on the start block, on the branch of the loop at its end and on itself, the endless loop 7 on the branch in 4 and on
itself. -/
example : exampleCfg.computeCdep.map (fun m => (List.range 8).map m) = some [[], [3, 0, 1], [1], [3, 0], [0], [], [], [7, 4]] := by decide +kernel
example : exampleCfg.Ok ∧ exampleCfg.Ends := ⟨exampleCfg_ok, exampleCfg_ends⟩
example : Path exampleCfg.Flow 0 [0, 1, 2] 2 := .cons (by simp [Cfg.Flow, exampleCfg]) (.cons (by simp [Cfg.Flow, exampleCfg]) (.nil 2))

end Verif.Props
