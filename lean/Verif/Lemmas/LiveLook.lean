import Verif.Lemmas.LiveChain
/-!
# The loop over the points of view and the loops over the uses
-/
namespace Verif.Model.LiveChk
open Verif.Model.Dom Verif.Spec.LiveTheory

variable {e : Env} {num : Nat → Nat}

/-- a use can be seen from `t` -/
def Sees (e : Env) (lv : LvChk) (b uses t : Nat) : Prop :=
  ∃ u, u ∈ e.blocks ∧ uses.testBit (e.id u) = true ∧ R e.Rd t u ∧ (t = b → lv.red.tgt.testBit (e.id t) = false → u ≠ b)

theorem look_spec (h : e.Ok num) {lv : LvChk} (hr : RedOk e lv.red) (ht : TgtOk e lv.tgt) {b maxDom : Nat} (hb : b ∈ e.blocks)
    (hle : ∀ t, t ∈ e.blocks → e.id t ≤ e.treeMax t)
    (hskip : ∀ t u, t ∈ e.blocks → u ∈ e.blocks → (lv.tgt b).testBit (e.id t) = true → (lv.tgt b).testBit (e.id u) = true →
      e.id t ≤ e.id u → e.id u ≤ e.treeMax t → R e.Rd t u) (uses : Nat) :
    ∀ fuel pos, 0 < fuel → e.n < fuel + pos → (e.look lv b maxDom fuel (next e.n (lv.tgt b) pos) uses = true ↔
      ∃ t, t ∈ e.blocks ∧ pos ≤ e.id t ∧ e.id t ≤ maxDom ∧ (lv.tgt b).testBit (e.id t) = true ∧ Sees e lv b uses t) := by
  intro fuel
  induction fuel with
  | zero => intro pos h0; omega
  | succ fuel ih =>
    intro pos _ hf
    cases hnx : next e.n (lv.tgt b) pos with
    | none =>
      simp only [Env.look]
      constructor
      · intro hh; cases hh
      · rintro ⟨t, h1, h2, h3, h4, -⟩
        have := next_none hnx (e.id t) h2 (h.idLt t h1)
        rw [this] at h4; cases h4
    | some i =>
      obtain ⟨g1, g2, g3, g4⟩ := next_some hnx
      simp only [Env.look]
      by_cases hmax : maxDom < i
      · rw [if_pos hmax]
        constructor
        · intro hh; cases hh
        · rintro ⟨t, h1, h2, h3, h4, -⟩
          have := g4 (e.id t) h2 (by omega)
          rw [this] at h4; cases h4
      · rw [if_neg hmax]
        obtain ⟨t, htm, hti, -⟩ := ht.snd b hb i g3
        have hmap : e.map i = some t := by rw [← hti]; exact map_id h htm
        rw [hmap]
        simp only []
        -- what is seen from here
        have hsee : (lv.red.reach t &&& (if t = b ∧ lv.red.tgt.testBit (e.id t) = false then del uses (e.id t) else uses) ≠ 0) ↔ Sees e lv b uses t := by
          rw [inter_ne]
          constructor
          · rintro ⟨k, k1, k2⟩
            obtain ⟨u, hu, rfl⟩ := hr.reachMem t htm k k1
            refine ⟨u, hu, ?_, (hr.reach t htm u hu).1 k1, ?_⟩
            · split at k2
              · exact ((testBit_del _ _ _).1 k2).1
              · exact k2
            · intro a1 a2
              rw [if_pos ⟨a1, a2⟩, testBit_del] at k2
              rintro rfl
              exact k2.2 (by rw [a1])
          · rintro ⟨u, u1, u2, u3, u4⟩
            refine ⟨e.id u, (hr.reach t htm u u1).2 u3, ?_⟩
            split
            · rename_i hcond
              rw [testBit_del]
              refine ⟨u2, fun hh => ?_⟩
              exact u4 hcond.1 hcond.2 ((h.idInj u t u1 htm hh).trans hcond.1)
            · exact u2
        -- the set of the uses does not change
        have huses : (if uses.testBit (e.id t) = true then
            ins (if t = b ∧ lv.red.tgt.testBit (e.id t) = false then del uses (e.id t) else uses) (e.id t)
            else (if t = b ∧ lv.red.tgt.testBit (e.id t) = false then del uses (e.id t) else uses)) = uses := by
          refine Nat.eq_of_testBit_eq fun k => ?_
          rw [Bool.eq_iff_iff]
          split
          · rename_i hu
            rw [testBit_ins]
            split
            · rw [testBit_del]
              constructor
              · rintro (⟨h, -⟩ | rfl)
                · exact h
                · exact hu
              · intro hk
                by_cases hke : k = e.id t
                · exact Or.inr hke
                · exact Or.inl ⟨hk, hke⟩
            · constructor
              · rintro (h | rfl)
                · exact h
                · exact hu
              · exact Or.inl
          · rename_i hu
            split
            · rw [testBit_del]
              exact ⟨fun h => h.1, fun hk => ⟨hk, by rintro rfl; exact hu hk⟩⟩
            · exact Iff.rfl
        by_cases hS : Sees e lv b uses t
        · rw [if_pos (hsee.2 hS)]
          exact ⟨fun _ => ⟨t, htm, by omega, by omega, by rw [hti]; exact g3, hS⟩, fun _ => rfl⟩
        · rw [if_neg (fun hh => hS (hsee.1 hh)), huses]
          have hlt := hle t htm
          rw [ih (e.treeMax t + 1) (by have := h.idLt t htm; omega) (by omega)]
          constructor
          · rintro ⟨x, x1, x2, x3, x4⟩
            exact ⟨x, x1, by omega, x3, x4⟩
          · rintro ⟨x, x1, x2, x3, x4, x5⟩
            refine ⟨x, x1, Nat.lt_of_not_le fun hxt => ?_, x3, x4, x5⟩
            have hix : i ≤ e.id x := Nat.le_of_not_lt fun hh => by
              rw [g4 _ x2 hh] at x4; cases x4
            have hR := hskip t x htm x1 (by rw [hti]; exact g3) x4 (by omega) hxt
            obtain ⟨u, u1, u2, u3, u4⟩ := x5
            refine hS ⟨u, u1, u2, hR.trans u3, fun a1 a2 hub => ?_⟩
            have hxe : t = x := R_antisymm h htm hR (by rw [a1, ← hub]; exact u3)
            subst hxe
            exact u4 a1 a2 hub

/-! ## The uses -/

theorem uses_spec (b : Nat) (L : List Use) : ∀ r : State × Nat,
    let r' := e.uses b r L
    r'.1.out = r.1.out ∧ (r'.1.inn = true ↔ r.1.inn = true ∨ ∃ u ∈ L, u.block = some b) ∧
    (r'.1.end_ = true ↔ r.1.end_ = true ∨ ∃ u ∈ L, u.phi = true ∧ u.block = some b) ∧
    ∀ k, r'.2.testBit k = true ↔ r.2.testBit k = true ∨ ∃ u ∈ L, ∃ c, u.block = some c ∧ k = e.id c := by
  induction L with
  | nil => intro r; simp [Env.uses]
  | cons u L ih =>
    intro r
    cases hu : u.block with
    | none =>
      simp only [Env.uses, hu]
      obtain ⟨h1, h2, h3, h4⟩ := ih r
      refine ⟨h1, h2.trans ?_, h3.trans ?_, fun k => (h4 k).trans ?_⟩ <;> simp [hu]
    | some c =>
      simp only [Env.uses, hu]
      obtain ⟨h1, h2, h3, h4⟩ := ih (if c = b then { r.1 with inn := true, end_ := r.1.end_ || u.phi } else r.1, ins r.2 (e.id c))
      refine ⟨h1.trans ?_, h2.trans ?_, h3.trans ?_, fun k => (h4 k).trans ?_⟩
      · show (if c = b then { r.1 with inn := true, end_ := r.1.end_ || u.phi } else r.1 : State).out = r.1.out
        split <;> rfl
      · by_cases hcb : c = b
        · simp [hcb, hu]
        · simp [hcb, hu]
      · by_cases hcb : c = b
        · simp only [hcb, if_true, Bool.or_eq_true]
          constructor
          · rintro ((h | h) | ⟨x, a, b⟩)
            · exact Or.inl h
            · exact Or.inr ⟨u, by simp, h, by rw [hu, hcb]⟩
            · exact Or.inr ⟨x, by simp [a], b⟩
          · rintro (h | ⟨x, a, b1, b2⟩)
            · exact Or.inl (Or.inl h)
            · rcases List.mem_cons.1 a with rfl | a
              · exact Or.inl (Or.inr b1)
              · exact Or.inr ⟨x, a, b1, b2⟩
        · simp [hcb, hu]
      · show (ins r.2 (e.id c)).testBit k = true ∨ _ ↔ _
        rw [testBit_ins]
        constructor
        · rintro ((h | h) | ⟨x, a, y, b1, b2⟩)
          · exact Or.inl h
          · exact Or.inr ⟨u, by simp, c, hu, h⟩
          · exact Or.inr ⟨x, by simp [a], y, b1, b2⟩
        · rintro (h | ⟨x, a, y, b1, b2⟩)
          · exact Or.inl (Or.inl h)
          · rcases List.mem_cons.1 a with rfl | a
            · rw [hu] at b1; cases b1; exact Or.inl (Or.inr b2)
            · exact Or.inr ⟨x, a, y, b1, b2⟩

theorem sameBlock_spec (d : Nat) (L : List Use) : ∀ res : State, res.inn = false → res.out = false →
    let s := sameBlock d res L
    s.inn = false ∧ (s.out = true ↔ ∃ u ∈ L, u.block ≠ some d) ∧
    (s.end_ = true ↔ res.end_ = true ∨ (∃ u ∈ L, u.phi = true ∧ u.block = some d) ∨ ∃ u ∈ L, u.block ≠ some d) := by
  induction L with
  | nil => intro res h1 h2; simp [sameBlock, h1, h2]
  | cons u L ih =>
    intro res h1 h2
    simp only [sameBlock]
    by_cases hu : u.block = some d
    · rw [if_neg (by simp [hu])]
      by_cases hp : u.phi = true
      · rw [if_pos ⟨hp, hu⟩]
        obtain ⟨g1, g2, g3⟩ := ih { res with end_ := true } h1 h2
        refine ⟨g1, g2.trans ?_, g3.trans ?_⟩
        · simp [hu]
        · simp [hu, hp]
      · rw [if_neg (fun hh => hp hh.1)]
        obtain ⟨g1, g2, g3⟩ := ih res h1 h2
        refine ⟨g1, g2.trans ?_, g3.trans ?_⟩
        · simp [hu]
        · simp [hu, hp]
    · rw [if_pos hu]
      exact ⟨rfl, ⟨fun _ => ⟨u, by simp, hu⟩, fun _ => rfl⟩, ⟨fun _ => Or.inr (Or.inr ⟨u, by simp, hu⟩), fun _ => rfl⟩⟩

end Verif.Model.LiveChk
