import Verif.Lemmas.SsaRecon
/-!
# The reconstruction of SSA form: the state before the search, and the iterated dominance frontier
-/
namespace Verif.Lemmas.SsaRecon
open Verif.Spec Verif.Model.SsaRecon Verif.Lemmas.Reaching
open Verif.Model.Dom (Cfg set set_same set_other)

/-- the definitions `D` were introduced, nothing else was done -/
structure Pre (P : Prog) (D : List Nat) (s : St) : Prop where
  isDef : ∀ n, s.isDef n = true ↔ (n ∈ D ∨ ∃ d ∈ D, P.skip d = n)
  defn : ∀ d ∈ D, s.defn (P.skip d) = some d
  hasDef : ∀ b, s.hasDef b = true ↔ ∃ d ∈ D, P.block d = b
  last : ∀ b x, s.last b = some x → x ∈ D ∧ P.block x = b ∧ ∀ d ∈ D, P.block d = b → d = x
  proc : s.proc = fun _ => false
  blockProc : s.blockProc = fun _ => false
  sched : s.sched = P.code
  block : s.block = P.block
  isPhi : s.isPhi = P.isPhi
  args : s.args = P.ins
  next : s.next = P.next
  newPhis : s.newPhis = []

/-- the parts of the state that the introduction of a definition leaves alone -/
def Same (s s' : St) : Prop := s'.front = s.front ∧ s'.use = s.use ∧ s'.blockUse = s.blockUse ∧ s'.work = s.work

variable {P : Prog}

theorem pre_init (P : Prog) : Pre P [] (init P) := by
  constructor <;> simp [init]

theorem introduceDef_pre {D : List Nat} {d : Nat} {s : St} (hinj : ∀ d' ∈ D, P.skip d' = P.skip d → d' = d) (h : Pre P D s) :
    ∃ s', introduceDef d (P.skip d) s = some s' ∧ Pre P (D ++ [d]) s' ∧ Same s s' := by
  unfold introduceDef
  rw [h.block, h.blockProc]
  have hisDef : ∀ n, set (set s.isDef d true) (P.skip d) true n = true ↔ (n ∈ D ++ [d] ∨ ∃ d' ∈ D ++ [d], P.skip d' = n) := by
    intro n
    by_cases e : n = P.skip d
    · rw [e, set_same]
      exact iff_of_true rfl (Or.inr ⟨d, by simp, rfl⟩)
    · rw [set_other _ _ e]
      by_cases e2 : n = d
      · rw [e2, set_same]
        exact iff_of_true rfl (Or.inl (by simp))
      · rw [set_other _ _ e2, h.isDef n]
        constructor
        · rintro (h1 | ⟨d', h1, h2⟩)
          · exact Or.inl (List.mem_append_left _ h1)
          · exact Or.inr ⟨d', List.mem_append_left _ h1, h2⟩
        · rintro (h1 | ⟨d', h1, h2⟩)
          · rcases List.mem_append.1 h1 with h1 | h1
            · exact Or.inl h1
            · exact absurd (List.mem_singleton.1 h1) e2
          · rcases List.mem_append.1 h1 with h1 | h1
            · exact Or.inr ⟨d', h1, h2⟩
            · rw [List.mem_singleton.1 h1] at h2; exact absurd h2.symm e
  have hdefn : ∀ d' ∈ D ++ [d], set s.defn (P.skip d) (some d) (P.skip d') = some d' := by
    intro d' hd'
    by_cases e : P.skip d' = P.skip d
    · rw [e, set_same]
      rcases List.mem_append.1 hd' with h1 | h1
      · rw [hinj d' h1 e]
      · rw [List.mem_singleton.1 h1]
    · rw [set_other _ _ e]
      rcases List.mem_append.1 hd' with h1 | h1
      · exact h.defn d' h1
      · rw [List.mem_singleton.1 h1] at e; exact absurd rfl e
  by_cases hd : s.hasDef (P.block d) = true
  · rw [if_pos hd, if_neg (by simp)]
    refine ⟨_, rfl, ⟨hisDef, hdefn, ?_, ?_, h.proc, rfl, h.sched, rfl, h.isPhi, h.args, h.next, h.newPhis⟩, rfl, rfl, rfl, rfl⟩
    · intro b
      show s.hasDef b = true ↔ _
      rw [h.hasDef b]
      constructor
      · rintro ⟨d', h1, h2⟩; exact ⟨d', List.mem_append_left _ h1, h2⟩
      · rintro ⟨d', h1, h2⟩
        rcases List.mem_append.1 h1 with h1 | h1
        · exact ⟨d', h1, h2⟩
        · rw [List.mem_singleton.1 h1] at h2
          obtain ⟨d'', h3, h4⟩ := (h.hasDef _).1 hd
          exact ⟨d'', h3, h4.trans h2⟩
    · intro b x hx
      by_cases e : b = P.block d
      · rw [e] at hx
        have : (none : Option Nat) = some x := (set_same ..).symm.trans hx
        cases this
      · obtain ⟨h1, h2, h3⟩ := h.last b x ((set_other _ _ e).symm.trans hx)
        refine ⟨List.mem_append_left _ h1, h2, fun d' hd' hb => ?_⟩
        rcases List.mem_append.1 hd' with h4 | h4
        · exact h3 d' h4 hb
        · rw [List.mem_singleton.1 h4] at hb; exact absurd hb.symm e
  · rw [if_neg hd]
    refine ⟨_, rfl, ⟨hisDef, hdefn, ?_, ?_, h.proc, rfl, h.sched, rfl, h.isPhi, h.args, h.next, h.newPhis⟩, rfl, rfl, rfl, rfl⟩
    · intro b
      show set s.hasDef (P.block d) true b = true ↔ _
      by_cases e : b = P.block d
      · rw [e, set_same]
        exact iff_of_true rfl ⟨d, by simp, rfl⟩
      · rw [set_other _ _ e, h.hasDef b]
        constructor
        · rintro ⟨d', h1, h2⟩; exact ⟨d', List.mem_append_left _ h1, h2⟩
        · rintro ⟨d', h1, h2⟩
          rcases List.mem_append.1 h1 with h1 | h1
          · exact ⟨d', h1, h2⟩
          · rw [List.mem_singleton.1 h1] at h2; exact absurd h2.symm e
    · intro b x hx
      by_cases e : b = P.block d
      · rw [e] at hx ⊢
        have : some d = some x := (set_same ..).symm.trans hx
        cases this
        refine ⟨by simp, rfl, fun d' hd' hb => ?_⟩
        rcases List.mem_append.1 hd' with h4 | h4
        · exact absurd ((h.hasDef _).2 ⟨d', h4, hb⟩) hd
        · exact List.mem_singleton.1 h4
      · obtain ⟨h1, h2, h3⟩ := h.last b x ((set_other _ _ e).symm.trans hx)
        refine ⟨List.mem_append_left _ h1, h2, fun d' hd' hb => ?_⟩
        rcases List.mem_append.1 hd' with h4 | h4
        · exact h3 d' h4 hb
        · rw [List.mem_singleton.1 h4] at hb; exact absurd hb.symm e

theorem addCopies_pre : ∀ (ds D : List Nat) (s : St) (w : List Nat),
    (∀ d ∈ D ++ ds, ∀ d' ∈ D ++ ds, P.skip d = P.skip d' → d = d') → Pre P D s → (∀ b, b ∈ w ↔ ∃ d ∈ D, P.block d = b) →
    ∃ s' w', addCopies P ds (s, w) = some (s', w') ∧ Pre P (D ++ ds) s' ∧ Same s s' ∧ ∀ b, b ∈ w' ↔ ∃ d ∈ D ++ ds, P.block d = b := by
  intro ds
  induction ds with
  | nil => intro D s w _ h hw; exact ⟨s, w, rfl, by simpa using h, ⟨rfl, rfl, rfl, rfl⟩, by simpa using hw⟩
  | cons d ds ih =>
    intro D s w hinj h hw
    obtain ⟨s1, h1, h2, h3⟩ := introduceDef_pre (fun d' hd' e => hinj d' (by simp [hd']) d (by simp) e) h
    have hw1 : ∀ b, b ∈ (if s.hasDef (s.block d) then w else w ++ [s.block d]) ↔ ∃ d' ∈ D ++ [d], P.block d' = b := by
      intro b
      rw [h.block]
      by_cases hd : s.hasDef (P.block d) = true
      · rw [if_pos hd, hw b]
        constructor
        · rintro ⟨d', h1, h2⟩; exact ⟨d', List.mem_append_left _ h1, h2⟩
        · rintro ⟨d', h1, h2⟩
          rcases List.mem_append.1 h1 with h1 | h1
          · exact ⟨d', h1, h2⟩
          · rw [List.mem_singleton.1 h1] at h2
            obtain ⟨d'', h3, h4⟩ := (h.hasDef _).1 hd
            exact ⟨d'', h3, h4.trans h2⟩
      · rw [if_neg hd, List.mem_append, List.mem_singleton, hw b]
        constructor
        · rintro (⟨d', h1, h2⟩ | h1)
          · exact ⟨d', List.mem_append_left _ h1, h2⟩
          · exact ⟨d, by simp, h1.symm⟩
        · rintro ⟨d', h1, h2⟩
          rcases List.mem_append.1 h1 with h1 | h1
          · exact Or.inl ⟨d', h1, h2⟩
          · rw [List.mem_singleton.1 h1] at h2; exact Or.inr h2.symm
    obtain ⟨s', w', g1, g2, g3, g4⟩ := ih (D ++ [d]) s1 _ (by simpa using hinj) h2 hw1
    refine ⟨s', w', ?_, by simpa using g2, ⟨g3.1.trans h3.1, g3.2.1.trans h3.2.1, g3.2.2.1.trans h3.2.2.1, g3.2.2.2.trans h3.2.2.2⟩,
      by simpa using g4⟩
    unfold addCopies
    rw [h1]
    exact g1

/-! ## The iterated dominance frontier -/

theorem markFront_spec (s : St) : ∀ (ys : List Nat) (front : Nat → Bool) (w : List Nat) (front' : Nat → Bool) (w' : List Nat),
    markFront s ys (front, w) = (front', w') →
    (∀ y, front y = true → front' y = true) ∧ (∀ y ∈ ys, front' y = true) ∧ (∀ b ∈ w, b ∈ w') ∧
    (∀ y, front' y = true → front y = true ∨ y ∈ ys) ∧ (∀ y, front' y = true → front y = true ∨ s.hasDef y = true ∨ y ∈ w') ∧
    (∀ b ∈ w', b ∈ w ∨ b ∈ ys) := by
  intro ys
  induction ys with
  | nil =>
    intro front w front' w' h
    cases h
    exact ⟨fun _ h => h, (fun _ h => nomatch h), fun _ h => h, fun _ h => Or.inl h, fun _ h => Or.inl h, fun _ h => Or.inl h⟩
  | cons y ys ih =>
    intro front w front' w' h
    unfold markFront at h
    by_cases hy : front y = true
    · rw [if_pos hy] at h
      obtain ⟨h1, h2, h3, h4, h5, h6⟩ := ih _ _ _ _ h
      refine ⟨h1, fun z hz => ?_, h3, fun z hz => (h4 z hz).imp id (List.mem_cons_of_mem _), h5, fun b hb => (h6 b hb).imp id (List.mem_cons_of_mem _)⟩
      rcases List.mem_cons.1 hz with e | hz
      · rw [e]; exact h1 y hy
      · exact h2 z hz
    · rw [if_neg hy] at h
      obtain ⟨h1, h2, h3, h4, h5, h6⟩ := ih _ _ _ _ h
      have hset : ∀ z, set front y true z = true ↔ z = y ∨ front z = true := by
        intro z
        by_cases e : z = y
        · rw [e, set_same]; simp
        · rw [set_other _ _ e]; simp [e]
      refine ⟨fun z hz => h1 z ((hset z).2 (Or.inr hz)), fun z hz => ?_, fun b hb => h3 b ?_, fun z hz => ?_, fun z hz => ?_, fun b hb => ?_⟩
      · rcases List.mem_cons.1 hz with e | hz
        · exact h1 z ((hset z).2 (Or.inl e))
        · exact h2 z hz
      · by_cases hd : s.hasDef y = true
        · rw [if_pos hd]; exact hb
        · rw [if_neg hd]; exact List.mem_append_left _ hb
      · rcases h4 z hz with h | h
        · rcases (hset z).1 h with e | h
          · exact Or.inr (by rw [e]; simp)
          · exact Or.inl h
        · exact Or.inr (List.mem_cons_of_mem _ h)
      · rcases h5 z hz with h | h
        · rcases (hset z).1 h with e | h
          · by_cases hd : s.hasDef y = true
            · exact Or.inr (Or.inl (by rw [e]; exact hd))
            · refine Or.inr (Or.inr (h3 z ?_))
              rw [if_neg hd, e]; simp
          · exact Or.inl h
        · exact Or.inr h
      · rcases h6 b hb with h | h
        · by_cases hd : s.hasDef y = true
          · rw [if_pos hd] at h; exact Or.inl h
          · rw [if_neg hd] at h
            rcases List.mem_append.1 h with h | h
            · exact Or.inl h
            · exact Or.inr (by rw [List.mem_singleton.1 h]; simp)
        · exact Or.inr (List.mem_cons_of_mem _ h)

theorem markIdf_spec (s : St) {R Q : Nat → Prop} (hR : ∀ z, R z → ∀ y ∈ P.g.frontier z, R y ∧ Q y) : ∀ fuel (front : Nat → Bool) (w : List Nat) (idf : Nat → Bool),
    (∀ z, (s.hasDef z = true ∨ front z = true) → z ∈ w ∨ ∀ y ∈ P.g.frontier z, front y = true) →
    (∀ y, front y = true → Q y) → (∀ b ∈ w, R b) →
    markIdf P s fuel (front, w) = some idf →
    (∀ z, (s.hasDef z = true ∨ idf z = true) → ∀ y ∈ P.g.frontier z, idf y = true) ∧ (∀ y, idf y = true → Q y) := by
  intro fuel
  induction fuel with
  | zero =>
    intro front w idf h1 h2 _ h
    cases w with
    | nil =>
      cases h
      refine ⟨fun z hz y hy => ?_, h2⟩
      rcases h1 z hz with h | h
      · cases h
      · exact h y hy
    | cons b w => cases h
  | succ fuel ih =>
    intro front w idf h1 h2 h3 h
    cases w with
    | nil =>
      cases h
      refine ⟨fun z hz y hy => ?_, h2⟩
      rcases h1 z hz with h | h
      · cases h
      · exact h y hy
    | cons b w =>
      unfold markIdf at h
      cases hm : markFront s (P.g.frontier b) (front, w) with
      | mk front' w' =>
        rw [hm] at h
        obtain ⟨a1, a2, a3, a4, a5, a6⟩ := markFront_spec s _ _ _ _ _ hm
        refine ih front' w' idf ?_ ?_ ?_ h
        · intro z hz
          have hz' : (s.hasDef z = true ∨ front z = true) ∨ z ∈ w' := by
            rcases hz with hz | hz
            · exact Or.inl (Or.inl hz)
            · rcases a5 z hz with h | h | h
              · exact Or.inl (Or.inr h)
              · exact Or.inl (Or.inl h)
              · exact Or.inr h
          rcases hz' with hz' | hz'
          · rcases h1 z hz' with h | h
            · rcases List.mem_cons.1 h with e | h
              · exact Or.inr (by rw [e]; exact a2)
              · exact Or.inl (a3 z h)
            · exact Or.inr fun y hy => a1 y (h y hy)
          · exact Or.inl hz'
        · intro y hy
          rcases a4 y hy with h | h
          · exact h2 y h
          · exact (hR b (h3 b (by simp)) y h).2
        · intro c hc
          rcases a6 c hc with h | h
          · exact h3 c (List.mem_cons_of_mem _ h)
          · exact (hR b (h3 b (by simp)) c h).1

/-! ## The uses -/

theorem introduceUse_fold : ∀ (us : List Nat) (s : St),
    let s' := us.foldl (fun s u => introduceUse u s) s
    (∀ n, s'.use n = true ↔ s.use n = true ∨ n ∈ us) ∧ s'.work = s.work ++ us ∧ (∀ D, Pre P D s → Pre P D s') ∧ s'.front = s.front := by
  intro us
  induction us with
  | nil => intro s; simp
  | cons u us ih =>
    intro s
    obtain ⟨h1, h2, h3, h4⟩ := ih (introduceUse u s)
    refine ⟨fun n => ?_, ?_, fun D hD => h3 D ?_, h4⟩
    · rw [List.foldl_cons, h1 n]
      show set s.use u true n = true ∨ n ∈ us ↔ _
      by_cases e : n = u
      · rw [e, set_same]; simp
      · rw [set_other _ _ e]; simp [e]
    · rw [List.foldl_cons, h2]
      simp [introduceUse]
    · exact ⟨hD.isDef, hD.defn, hD.hasDef, hD.last, hD.proc, hD.blockProc, hD.sched, hD.block, hD.isPhi, hD.args, hD.next, hD.newPhis⟩

theorem introduceUsers_pre : ∀ (vs D V : List Nat) (s : St),
    (∀ d ∈ D ++ vs, ∀ d' ∈ D ++ vs, P.skip d = P.skip d' → d = d') → Pre P D s →
    (∀ n, s.use n = true ↔ ∃ v ∈ V, n ∈ P.users v) → (∀ n, n ∈ s.work ↔ s.use n = true) →
    ∃ s', introduceUsers P vs s = some s' ∧ Pre P (D ++ vs) s' ∧ s'.front = s.front ∧ (∀ n, s'.use n = true ↔ ∃ v ∈ V ++ vs, n ∈ P.users v) ∧
      ∀ n, n ∈ s'.work ↔ s'.use n = true := by
  intro vs
  induction vs with
  | nil => intro D V s _ h hu hw; exact ⟨s, rfl, by simpa using h, rfl, by simpa using hu, hw⟩
  | cons v vs ih =>
    intro D V s hinj h hu hw
    obtain ⟨s1, h1, h2, h3⟩ := introduceDef_pre (fun d' hd' e => hinj d' (by simp [hd']) v (by simp) e) h
    obtain ⟨a1, a2, a3, a4⟩ := introduceUse_fold (P := P) (P.users v) s1
    have hu' : ∀ n, ((P.users v).foldl (fun s u => introduceUse u s) s1).use n = true ↔ ∃ v' ∈ V ++ [v], n ∈ P.users v' := by
      intro n
      rw [a1 n, h3.2.1, hu n]
      constructor
      · rintro (⟨v', g1, g2⟩ | g1)
        · exact ⟨v', List.mem_append_left _ g1, g2⟩
        · exact ⟨v, by simp, g1⟩
      · rintro ⟨v', g1, g2⟩
        rcases List.mem_append.1 g1 with g1 | g1
        · exact Or.inl ⟨v', g1, g2⟩
        · rw [List.mem_singleton.1 g1] at g2; exact Or.inr g2
    have hw' : ∀ n, n ∈ ((P.users v).foldl (fun s u => introduceUse u s) s1).work ↔
        ((P.users v).foldl (fun s u => introduceUse u s) s1).use n = true := by
      intro n
      rw [a2, a1 n, List.mem_append, h3.2.2.2, h3.2.1, hw n]
    obtain ⟨s', g1, g2, g3, g4, g5⟩ := ih (D ++ [v]) (V ++ [v]) _ (by simpa using hinj) (a3 _ h2) hu' hw'
    refine ⟨s', ?_, by simpa using g2, g3.trans (a4.trans h3.1), by simpa using g4, g5⟩
    unfold introduceUsers
    rw [h1]
    exact g1

/-- the state before the search -/
theorem inv_of_pre {defs : List Nat} {uses : Nat → Prop} {s : St} (G : Good P defs uses) (h : Pre P defs s)
    (hu : ∀ n, s.use n = true ↔ uses n) (hw : ∀ n, n ∈ s.work ↔ s.use n = true) : Inv P defs uses s.front (fun _ => none) none s := by
  constructor
  · intro n; rw [h.isDef n]; simp
  · exact h.defn
  · intro b x hb; cases hb
  · intro b; rw [h.hasDef b]; simp
  · rfl
  · exact hu
  · intro b; rw [h.sched]; rfl
  · intro n _; rw [h.block, h.isPhi]; exact ⟨rfl, rfl⟩
  · intro b x hb; cases hb
  · rw [h.next]; exact Nat.le_refl _
  · intro x; rw [h.newPhis]; simp
  · intro b x hx
    obtain ⟨h1, h2, h3⟩ := h.last b x hx
    refine .own ?_
    have hs := G.defSched x h1
    rw [h2] at hs
    cases e : lastDef (definedBy P.skip defs) (P.code b) with
    | some d =>
      obtain ⟨n, hn, hd⟩ := lastDef_mem e
      obtain ⟨h4, h5⟩ := definedBy_some hd
      have h6 := (G.node _ _ (G.defSched d h4)).1
      rw [h5, (G.node _ _ hn).1] at h6
      rw [h3 d h4 h6.symm]
    | none =>
      have : x ∈ (P.code b).filterMap (definedBy P.skip defs) := List.mem_filterMap.2 ⟨_, hs, definedBy_skip G h1⟩
      unfold lastDef at e
      rw [List.getLast?_eq_none_iff.1 e] at this
      cases this
  · intro u _ _; rw [h.proc, h.args]; exact Or.inl ⟨rfl, rfl⟩
  · intro u _ _; rw [h.proc, h.args]; exact Or.inl ⟨rfl, rfl⟩
  · intro b x hb; cases hb
  · rintro u (hu' | ⟨b, hb⟩)
    · exact Or.inr (Or.inl ((hw u).2 ((hu u).2 hu')))
    · cases hb
  · intro b hb; rw [h.blockProc] at hb; cases hb
  · exact fun u hu' => Or.inl ((hu u).1 ((hw u).1 hu'))
  · intro n _; rw [h.proc]

/-- the whole reconstruction: the blocks that may get a Phi, and the final state -/
theorem reconstruct_inv {copies vals : List Nat} {R Q : Nat → Prop} (hR : ∀ z, R z → ∀ y ∈ P.g.frontier z, R y ∧ Q y)
    (hcR : ∀ d ∈ copies, R (P.block d)) (G : Good P (copies ++ vals) fun u => ∃ v ∈ vals, u ∈ P.users v) {s' : St}
    (he : reconstruct P copies vals = some s') :
    ∃ idf φ, Inv P (copies ++ vals) (fun u => ∃ v ∈ vals, u ∈ P.users v) idf φ none s' ∧ s'.work = [] ∧
      (∀ z, ((∃ d ∈ copies, P.block d = z) ∨ idf z = true) → ∀ y ∈ P.g.frontier z, idf y = true) ∧
      (∀ y, idf y = true → Q y) := by
  unfold reconstruct at he
  have hinj := G.inj
  obtain ⟨s1, w1, h1, h2, h3, h4⟩ := addCopies_pre copies [] (init P) []
    (fun d hd d' hd' => hinj d (List.mem_append_left _ (by simpa using hd)) d' (List.mem_append_left _ (by simpa using hd'))) (pre_init P) (by simp)
  rw [h1] at he
  dsimp only at he
  rw [List.nil_append] at h2 h4
  cases hm : markIdf P s1 (P.g.n + 1 + w1.length) (s1.front, w1) with
  | none => rw [hm] at he; cases he
  | some idf =>
    rw [hm] at he
    dsimp only at he
    have hf : ∀ y, s1.front y = false := fun y => by rw [h3.1]; rfl
    have hclosed := markIdf_spec s1 hR _ _ _ idf
      (fun z hz => by
        rcases hz with hz | hz
        · exact Or.inl ((h4 z).2 ((h2.hasDef z).1 hz))
        · rw [hf z] at hz; cases hz)
      (fun y hy => by rw [hf y] at hy; cases hy)
      (fun b hb => by obtain ⟨d, hd, e⟩ := (h4 b).1 hb; rw [← e]; exact hcR d hd) hm
    simp only [h2.hasDef] at hclosed
    have h2' : Pre P copies { s1 with front := idf } :=
      ⟨h2.isDef, h2.defn, h2.hasDef, h2.last, h2.proc, h2.blockProc, h2.sched, h2.block, h2.isPhi, h2.args, h2.next, h2.newPhis⟩
    have hu1 : s1.use = fun _ => false := h3.2.1
    have hw1 : s1.work = [] := h3.2.2.2
    obtain ⟨s2, g1, g2, g3, g4, g5⟩ := introduceUsers_pre vals copies [] { s1 with front := idf } hinj h2'
      (fun n => by show s1.use n = true ↔ _; rw [hu1]; simp) (fun n => by show n ∈ s1.work ↔ s1.use n = true; rw [hu1, hw1]; simp)
    rw [g1] at he
    dsimp only at he
    have hinv := inv_of_pre G g2 (by simpa using g4) g5
    rw [g3] at hinv
    obtain ⟨φ', -, e1, e2⟩ := mainLoop_inv G _ _ s2 s' hinv he
    exact ⟨idf, φ', e1, e2, hclosed⟩

end Verif.Lemmas.SsaRecon
