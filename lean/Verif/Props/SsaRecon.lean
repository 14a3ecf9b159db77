import Verif.Lemmas.SsaReconTotal
import Verif.Props.Dom
/-!
# Reconstruction of SSA form in the backend (ir/be/bessaconstr.c)
-/
namespace Verif.Props.SsaRecon
open Verif.Spec Verif.Model.SsaRecon Verif.Lemmas.SsaRecon Verif.Lemmas.Reaching
open Verif.Model.Dom (Cfg path_snoc)

/-- the node `u` is a user of one of the values -/
def IsUse (P : Prog) (vals : List Nat) (u : Nat) : Prop := ∃ v ∈ vals, u ∈ P.users v

/-- The callers: the control flow graph is well-formed and no control flow leads to the start block. A value whose users are fixed is one of the
copies, or it is in the block `A`, which dominates the uses: if all values are copies, `A` is the start block. (A Phi uses its operand at the end of
the predecessor.) In the block `A`, a definition is in front of each use -/
structure Task (P : Prog) (copies vals : List Nat) (A : Nat) : Prop where
  good : Good P (copies ++ vals) (IsUse P vals)
  ok : P.g.Ok
  noStart : ∀ b, some P.g.start ∉ P.g.outs b
  top : A = P.g.start ∨ ∃ d ∈ copies ++ vals, P.block d = A
  reach : ∀ d ∈ copies, Reachable P.g.Edge P.g.start (P.block d)
  covered : ∀ v ∈ vals, v ∈ copies ∨ P.block v = A
  plain : ∀ u, IsUse P vals u → P.isPhi u = false → Dominates P.g.Edge P.g.start A (P.block u) ∧
    (A = P.block u → ∀ pre post, P.code A = pre ++ u :: post → lastDef (definedBy P.skip (copies ++ vals)) pre ≠ none)
  phi : ∀ u, IsUse P vals u → P.isPhi u = true → ∀ (i o q : Nat), (P.ins u)[i]? = some o → o ∈ copies ++ vals →
    (P.g.ins (P.block u))[i]? = some (some q) → Dominates P.g.Edge P.g.start A q

/-- Each use is executed after a definition only, and control flow comes from blocks that can be executed, not from Bad nodes -/
structure Strict (P : Prog) (copies vals : List Nat) : Prop where
  preds : ∀ b r, Trace P.g.Flow P.g.start (b :: r) → ∀ q ∈ P.g.ins b, ∃ q' r', q = some q' ∧ Trace P.g.Flow P.g.start (q' :: r')
  plain : ∀ u, IsUse P vals u → P.isPhi u = false → (∃ r, Trace P.g.Flow P.g.start (P.block u :: r)) ∧
    ∀ r pre post, Trace P.g.Flow P.g.start (P.block u :: r) → P.code (P.block u) = pre ++ u :: post →
      lastDef (definedBy P.skip (copies ++ vals)) (executed P.code r ++ pre) ≠ none
  phi : ∀ u, IsUse P vals u → P.isPhi u = true → ∀ (i o : Nat) q, (P.ins u)[i]? = some o → o ∈ copies ++ vals →
    (P.g.ins (P.block u))[i]? = some q → ∃ q', q = some q' ∧ (∃ r, Trace P.g.Flow P.g.start (q' :: r)) ∧
      ∀ r, Trace P.g.Flow P.g.start (q' :: r) → lastDef (definedBy P.skip (copies ++ vals)) (executed P.code (q' :: r)) ≠ none

/-- the blocks of the new Phi nodes -/
def home (s : St) (x : Nat) : Option Nat := if x ∈ s.newPhis then some (s.block x) else none

section
variable {P : Prog} {copies vals : List Nat} {A : Nat} {s : St}

theorem lastDef_block {defs : List Nat} {uses : Nat → Prop} (G : Good P defs uses) (b : Nat) :
    lastDef (definedBy P.skip defs) (P.code b) ≠ none ↔ ∃ d ∈ defs, P.block d = b := by
  constructor
  · intro h
    cases e : lastDef (definedBy P.skip defs) (P.code b) with
    | none => exact absurd e h
    | some d =>
      obtain ⟨n, hn, hd⟩ := lastDef_mem e
      obtain ⟨h3, h4⟩ := definedBy_some hd
      have h5 := (G.node _ _ (G.defSched d h3)).1
      rw [h4, (G.node _ _ hn).1] at h5
      exact ⟨d, h3, h5.symm⟩
  · rintro ⟨d, hd, rfl⟩ e
    have : d ∈ (P.code (P.block d)).filterMap (definedBy P.skip defs) := List.mem_filterMap.2 ⟨_, G.defSched d hd, definedBy_skip G hd⟩
    unfold lastDef at e
    rw [List.getLast?_eq_none_iff.1 e] at this
    cases this

/-- the blocks of the copies -/
abbrev CopyBlock (P : Prog) (copies : List Nat) (b : Nat) : Prop := ∃ d ∈ copies, P.block d = b

/-- the iterated dominance frontier of the blocks of the copies -/
abbrev Frontiers (P : Prog) (copies : List Nat) (b : Nat) : Prop := InIterFrontier P.g.Edge P.g.Flow P.g.start (CopyBlock P copies) b

theorem frontiers_flow {b : Nat} (h : Frontiers P copies b) : ∃ p, Reachable P.g.Edge P.g.start p ∧ P.g.Flow p b := by
  cases h with
  | base _ h => obtain ⟨p, h1, h2, -⟩ := h; exact ⟨p, h1, h2⟩
  | step _ h => obtain ⟨p, h1, h2, -⟩ := h; exact ⟨p, h1, h2⟩

theorem frontiers_step (T : Task P copies vals A) :
    ∀ z, (Reachable P.g.Edge P.g.start z ∧ (CopyBlock P copies z ∨ Frontiers P copies z)) → ∀ y ∈ P.g.frontier z,
      (Reachable P.g.Edge P.g.start y ∧ (CopyBlock P copies y ∨ Frontiers P copies y)) ∧ Frontiers P copies y := by
  intro z hz y hy
  have hf := (frontier_right T.ok T.noStart hz.1 y).1 hy
  have hi : Frontiers P copies y := by
    rcases hz.2 with h1 | h1
    · exact .base h1 hf
    · exact .step h1 hf
  obtain ⟨p, ⟨l, hp⟩, he, -⟩ := hf
  exact ⟨⟨⟨_, path_snoc hp (flow_edge _ _ he)⟩, Or.inr hi⟩, hi⟩

theorem task_front (T : Task P copies vals A) {idf : Nat → Bool}
    (hc : ∀ z, (CopyBlock P copies z ∨ idf z = true) → ∀ y ∈ P.g.frontier z, idf y = true) (hc2 : ∀ y, idf y = true → Frontiers P copies y) :
    Front P.g P.code (definedBy P.skip (copies ++ vals)) idf A := by
  refine ⟨T.ok, T.noStart, ?_, ?_, ?_⟩
  · intro z hz hzA hr y hy
    refine hc z ?_ y ((frontier_right T.ok T.noStart hr y).2 hy)
    rcases hz with hz | hz
    · obtain ⟨d, hd, hb⟩ := (lastDef_block T.good z).1 hz
      rcases List.mem_append.1 hd with hd | hd
      · exact Or.inl ⟨d, hd, hb⟩
      · rcases T.covered d hd with hd | hd
        · exact Or.inl ⟨d, hd, hb⟩
        · exact absurd (hb.symm.trans hd) hzA
    · exact Or.inr hz
  · cases e : idf P.g.start
    · rfl
    · obtain ⟨p, -, hp⟩ := frontiers_flow (hc2 _ e)
      exact absurd hp (T.noStart p)
  · rcases T.top with h1 | h1
    · exact Or.inl h1
    · exact Or.inr ((lastDef_block T.good A).2 h1)

/-- what the theorems need of the final state -/
theorem task_facts (T : Task P copies vals A) (he : reconstruct P copies vals = some s) :
    ∃ idf φ, Inv P (copies ++ vals) (IsUse P vals) idf φ none s ∧ s.work = [] ∧
      (∀ b, idf b = true → Frontiers P copies b) ∧
      Front P.g P.code (definedBy P.skip (copies ++ vals)) idf A ∧
      Phis P.g P.code (definedBy P.skip (copies ++ vals)) idf φ (home s) s.args := by
  obtain ⟨idf, φ, h, hw, hc, hc2⟩ := reconstruct_inv (frontiers_step T) (fun d hd => ⟨T.reach d hd, Or.inl ⟨d, hd, rfl⟩⟩) T.good he
  have hproc : ∀ b x, φ b = some x → s.proc x = true := by
    intro b x hb
    rcases h.cov x (Or.inr ⟨b, hb⟩) with h1 | h1 | h1
    · exact h1
    · rw [hw] at h1; cases h1
    · cases h1
  have hnew : ∀ b x, φ b = some x → NewArgs P (copies ++ vals) idf φ (P.g.ins b) (s.args x) := by
    intro b x hb
    rcases h.newPhi b x hb with h1 | h1
    · rw [hproc b x hb] at h1; exact absurd h1.1 (by simp)
    · exact h1.2
  refine ⟨idf, φ, h, hw, hc2, task_front T hc hc2, ⟨?_, ?_, ?_, ?_, ?_⟩⟩
  · intro b x
    unfold home
    constructor
    · intro hb
      rw [if_pos ((h.newPhis x).2 ⟨b, hb⟩), (h.phi b x hb).2.2.1]
    · intro hx
      split at hx
      · rename_i hm
        obtain ⟨c, hc⟩ := (h.newPhis x).1 hm
        rw [(h.phi c x hc).2.2.1] at hx
        cases hx
        exact hc
      · cases hx
  · exact fun b x hb => (h.phi b x hb).2.2.2.2
  · intro n d hd
    obtain ⟨h1, -⟩ := definedBy_some hd
    unfold home
    refine if_neg fun hm => ?_
    obtain ⟨c, hc⟩ := (h.newPhis d).1 hm
    have := T.good.defLt d h1
    have := (h.phi c d hc).1
    omega
  · exact fun b x hb => (hnew b x hb).1
  · intro b x hb j y q hy hq
    obtain ⟨y', q', h1, h2, h3⟩ := (hnew b x hb).2 j _ hq
    rw [hy] at h1
    cases h1
    cases h2
    exact h3

theorem all_proc {idf : Nat → Bool} {φ : Nat → Option Nat} (h : Inv P (copies ++ vals) (IsUse P vals) idf φ none s)
    (hw : s.work = []) {u : Nat} (hu : IsUse P vals u) : s.proc u = true := by
  rcases h.cov u (Or.inl hu) with h1 | h1 | h1
  · exact h1
  · rw [hw] at h1; cases h1
  · cases h1

/-- Each operand of a use that is one of the definitions is replaced by a node that has, in each execution up to the use, the value of the definition
that was executed last; the other operands stay -/
theorem use_reached (T : Task P copies vals A) (he : reconstruct P copies vals = some s) {u : Nat} (hu : IsUse P vals u) (hp : P.isPhi u = false)
    {pre post : List Nat} (hc : P.code (P.block u) = pre ++ u :: post) {k o : Nat} (ho : (P.ins u)[k]? = some o) :
    ∃ x, (s.args u)[k]? = some x ∧ (o ∉ copies ++ vals → x = o) ∧
      (o ∈ copies ++ vals → ∀ r, Trace P.g.Flow P.g.start (P.block u :: r) → ∀ d,
        (DenotesAlong P.g.ins (home s) s.args (P.block u :: r) x d ↔
          lastDef (definedBy P.skip (copies ++ vals)) (executed P.code r ++ pre) = some d)) := by
  obtain ⟨idf, φ, h, hw, -, F, Ph⟩ := task_facts T he
  have hproc := all_proc h hw hu
  rcases h.plain u (T.good.useLt u hu) hp with h1 | ⟨-, -, pre', post', x, h1, h2, h3⟩
  · rw [hproc] at h1; exact absurd h1.1 (by simp)
  have hpre := nodup_split (T.good.nodup _) hc h1
  subst hpre
  rw [h3]
  unfold replaced
  rw [List.getElem?_map, ho]
  refine ⟨_, rfl, fun hn => if_neg hn, fun hm r ht d => ?_⟩
  dsimp only
  rw [if_pos hm]
  obtain ⟨hA, hA2⟩ := T.plain u hu hp
  exact at_value F Ph ht hA (fun e => hA2 e pre post (by rw [e]; exact hc)) h2

/-- Each operand of a Phi that is one of the definitions is replaced by a node that has, in each execution up to the end of the predecessor, the value
of the definition that was executed last; the other operands stay -/
theorem phi_reached (T : Task P copies vals A) (he : reconstruct P copies vals = some s) {u : Nat} (hu : IsUse P vals u) (hp : P.isPhi u = true)
    {k o : Nat} (ho : (P.ins u)[k]? = some o) :
    ∃ x, (s.args u)[k]? = some x ∧ (o ∉ copies ++ vals → x = o) ∧
      (o ∈ copies ++ vals → ∀ (q : Nat) r, (P.g.ins (P.block u))[k]? = some (some q) → Trace P.g.Flow P.g.start (q :: r) → ∀ d,
        (DenotesAlong P.g.ins (home s) s.args (q :: r) x d ↔ lastDef (definedBy P.skip (copies ++ vals)) (executed P.code (q :: r)) = some d)) := by
  obtain ⟨idf, φ, h, hw, -, F, Ph⟩ := task_facts T he
  have hproc := all_proc h hw hu
  rcases h.oldPhi u (T.good.useLt u hu) hp with h1 | ⟨-, -, h1⟩
  · rw [hproc] at h1; exact absurd h1.1 (by simp)
  have hlen := (T.good.phiArgs u hu hp).2
  have hk : k < (P.ins u).length := by
    refine Nat.lt_of_not_le fun hle => ?_
    rw [List.getElem?_eq_none hle] at ho; cases ho
  have hq := List.getElem?_eq_getElem (hlen ▸ hk)
  generalize hq' : (P.g.ins (P.block u))[k]'(hlen ▸ hk) = q0 at hq
  obtain ⟨x, g1, g2⟩ := h1.2 k o q0 (by rw [List.getElem?_zip_eq_some]; exact ⟨ho, hq⟩)
  refine ⟨x, g1, fun hn => ?_, fun hm q r hq2 ht d => ?_⟩
  · rcases g2 with ⟨h2, -⟩ | ⟨-, h2⟩
    · exact absurd h2 hn
    · exact h2
  · rcases g2 with ⟨-, q', h2, h3⟩ | ⟨h2, -⟩
    · rw [hq] at hq2
      cases hq2
      cases h2
      exact end_value F Ph r.length q r x rfl ht (T.phi u hu hp k o q ho hm hq) h3
    · exact absurd hm h2

/-- New Phi nodes are in the iterated dominance frontier of the copies, one in a block at most; they are first in the schedule, which stays as it
was otherwise, and have an operand for each control flow predecessor. A node of the program that is no use keeps its operands -/
theorem new_phis (T : Task P copies vals A) (he : reconstruct P copies vals = some s) :
    (∀ b, (∃ x, s.sched b = x :: P.code b ∧ home s x = some b) ∨ (s.sched b = P.code b ∧ ∀ x, home s x ≠ some b)) ∧
    (∀ x b, home s x = some b → Frontiers P copies b ∧ P.next ≤ x ∧ (s.args x).length = (P.g.ins b).length) ∧
    (∀ x y b, home s x = some b → home s y = some b → x = y) ∧
    (∀ n, n < P.next → ¬ IsUse P vals n → s.args n = P.ins n) := by
  obtain ⟨idf, φ, h, hw, hfr, F, Ph⟩ := task_facts T he
  refine ⟨fun b => ?_, fun x b hx => ?_, fun x y b hx hy => ?_, fun n hn hu => ?_⟩
  · rw [h.sched b]
    cases hb : φ b with
    | none =>
      refine Or.inr ⟨rfl, fun x hx => ?_⟩
      rw [(Ph.home b x).2 hx] at hb; cases hb
    | some x => exact Or.inl ⟨x, rfl, (Ph.home b x).1 hb⟩
  · have hb := (Ph.home b x).2 hx
    exact ⟨hfr b (Ph.front b x hb), (h.phi b x hb).1, Ph.length b x hb⟩
  · have h1 := (Ph.home b x).2 hx
    rw [(Ph.home b y).2 hy] at h1
    cases h1; rfl
  · cases hp : P.isPhi n
    · rcases h.plain n hn hp with h1 | ⟨-, h1, -⟩
      · exact h1.2
      · exact absurd h1 hu
    · rcases h.oldPhi n hn hp with h1 | ⟨-, h1, -⟩
      · exact h1.2
      · exact absurd h1 hu

/-- If each use is executed after a definition only, no assertion of the reconstruction fails and its loops end -/
theorem reconstruct_succeeds (T : Task P copies vals A) (S : Strict P copies vals) : ∃ s, reconstruct P copies vals = some s := by
  have hlt : ∀ {y}, Reachable P.g.Edge P.g.start y → y < P.g.n := fun h => by
    obtain ⟨i, hi⟩ := (Verif.Model.Dom.num_reachable T.ok).2 h
    have hw := (Verif.Model.Dom.dfs_done T.ok).1.wf
    have h1 := (hw.iff _ _).1 hi
    rw [← h1.2]
    exact hw.lt i h1.1
  obtain ⟨idf, s, he, h, hbp, hn, hc, hc2⟩ := prepare_total (P := P) (copies := copies) (vals := vals)
    (fun z hz y hy => ⟨frontiers_step T z hz y hy, hlt (frontiers_step T z hz y hy).1.1⟩)
    (fun d hd => ⟨T.reach d hd, Or.inl ⟨d, hd, rfl⟩⟩) T.good
  have F := task_front T hc hc2
  have ht : Tot P (copies ++ vals) A (s.work.length : Int) s := by
    refine ⟨fun b hb => ?_, by rw [hn]; exact List.nodup_nil, fun x hx => ?_, by rw [hn]; simp⟩
    · rw [hbp b] at hb; cases hb
    · rw [hn] at hx; cases hx
  rw [he]
  refine mainLoop_tot T.good F ?_ S.preds (fun u hu hp => (S.plain u hu hp).1) ?_ _ _ s _ h ht (by omega)
  · intro u hu hp pre post hcode hl
    obtain ⟨g1, g2⟩ := T.plain u hu hp
    obtain ⟨g3, g4⟩ := S.plain u hu hp
    refine ⟨g3, g1, fun e => g2 e pre post (by rw [e]; exact hcode) hl, fun r hr => ?_⟩
    have := g4 r pre post hr hcode
    rw [lastDef_append, hl] at this
    simpa using this
  · intro u hu hp o q hm ho
    obtain ⟨i, hi⟩ := List.mem_iff_getElem?.1 hm
    obtain ⟨h1, h2⟩ := List.getElem?_zip_eq_some.1 hi
    obtain ⟨q', e, h3, h4⟩ := S.phi u hu hp i o q h1 ho h2
    subst e
    exact ⟨q', rfl, h3, T.phi u hu hp i o q' h1 ho h2, h4⟩

end

/-! ## A program

A loop: block 0 goes to block 1, this one to 2 and 3, and 2 goes back to 1. The node 0 defines the variable in block 0, the node 2 (for example a
copy) uses and redefines it in block 2; 1 and 3 are uses in the blocks 1 and 3. -/

def loopProg : Prog where
  g := { n := 4, start := 0, stop := 3
         outs := fun b => [[some 1], [some 2, some 3], [some 1], []].getD b []
         ins := fun b => [[], [some 0, some 2], [some 1], [some 1]].getD b []
         keep := [] }
  code b := [[0], [1], [2], [3]].getD b []
  block n := n
  skip n := n
  isPhi _ := false
  ins n := [[], [0], [0], [0]].getD n []
  users n := if n = 0 then [1, 2, 3] else []
  next := 4

theorem getD_ge {α : Type} {l : List (List α)} {b : Nat} (h : l.length ≤ b) : l.getD b [] = [] := by
  simp [List.getD, List.getElem?_eq_none h]

theorem loopProg_ok : loopProg.g.Ok := by
  have h4 : ∀ Q : Nat → Prop, (∀ b ∈ List.range 4, Q b) → ∀ b, b < loopProg.g.n → Q b := fun Q h b hb => h b (List.mem_range.2 hb)
  refine ⟨by decide, by decide, fun b c hb hc => ?_, fun b c hb hc => ?_, by decide, fun b c hb hc => ?_, h4 _ (by decide)⟩
  · exact h4 (fun b => ∀ o ∈ loopProg.g.outs b, ∀ c ∈ o, c < 4) (by decide) b hb _ hc c rfl
  · exact h4 (fun b => ∀ o ∈ loopProg.g.ins b, ∀ c ∈ o, c < 4) (by decide) b hb _ hc c rfl
  · have : ∀ b ∈ List.range 4, ∀ c ∈ List.range 4, (some c ∈ loopProg.g.outs b ↔ some b ∈ loopProg.g.ins c) := by decide
    exact this b (List.mem_range.2 hb) c (List.mem_range.2 hc)

theorem loopProg_use {u : Nat} (h : IsUse loopProg [0] u) : u = 1 ∨ u = 2 ∨ u = 3 := by
  obtain ⟨v, hv, hu⟩ := h
  rw [List.mem_singleton.1 hv] at hu
  simpa [loopProg] using hu

theorem loopProg_task : Task loopProg [0, 2] [0] 0 := by
  have hbig : ∀ {l : List (List Nat)} {b n : Nat}, n ∈ l.getD b [] → b < l.length := by
    intro l b n hn
    refine Nat.lt_of_not_le fun h => ?_
    rw [getD_ge h] at hn; cases hn
  have hd : ∀ d ∈ [0, 2] ++ [0], d = 0 ∨ d = 2 := by decide
  refine ⟨⟨?_, ?_, ?_, ?_, ?_, ?_, ?_, ?_, ?_, ?_, ?_⟩, loopProg_ok, ?_, Or.inl rfl, ?_, ?_, ?_, ?_⟩
  · intro b n hn
    have hb : b < 4 := hbig hn
    have : ∀ b ∈ List.range 4, ∀ n ∈ loopProg.code b, loopProg.block n = b ∧ n < loopProg.next := by decide
    exact this b (List.mem_range.2 hb) n hn
  · intro b
    by_cases hb : b < 4
    · have : ∀ b ∈ List.range 4, (loopProg.code b).Nodup := by decide
      exact this b (List.mem_range.2 hb)
    · rw [show loopProg.code b = [] from getD_ge (by simpa using hb)]; exact List.nodup_nil
  · decide
  · decide
  · intro d _ d' _ h; exact h
  · intro _ _ _ _; rfl
  · intro u o ho
    have hb : u < 4 := hbig ho
    have : ∀ b ∈ List.range 4, ∀ n ∈ loopProg.ins b, n < loopProg.next := by decide
    exact this u (List.mem_range.2 hb) o ho
  · intro u o _ d hd e; rw [e]; exact hd
  · intro u hu; rcases loopProg_use hu with rfl | rfl | rfl <;> decide
  · intro u hu _; rcases loopProg_use hu with rfl | rfl | rfl <;> decide
  · intro u _ h; cases h
  · intro b hb
    have hlt : b < 4 := by
      refine Nat.lt_of_not_le fun h => ?_
      rw [show loopProg.g.outs b = [] from getD_ge h] at hb; cases hb
    have : ∀ b ∈ List.range 4, some loopProg.g.start ∉ loopProg.g.outs b := by decide
    exact this b (List.mem_range.2 hlt) hb
  · intro d hd
    have e01 : loopProg.g.Edge 0 1 := by left; decide
    have e12 : loopProg.g.Edge 1 2 := by left; decide
    rcases List.mem_cons.1 hd with rfl | hd
    · exact ⟨_, .nil _⟩
    · rw [List.mem_singleton.1 hd]
      exact ⟨_, .cons e01 (.cons e12 (.nil _))⟩
  · intro v hv; left; rw [List.mem_singleton.1 hv]; simp
  · intro u hu _
    refine ⟨Verif.Model.Dom.dominates_root _, fun e => ?_⟩
    rcases loopProg_use hu with rfl | rfl | rfl <;> cases e
  · intro u _ h; cases h

/-- each execution starts with the definition in block 0 -/
theorem loopProg_first {t : List Nat} (h : Trace loopProg.g.Flow 0 t) : t ≠ [] → lastDef (definedBy loopProg.skip [0, 2, 0]) (executed loopProg.code t) ≠ none := by
  intro _
  induction h with
  | start => decide
  | step h _ ih =>
    rw [executed_cons, lastDef_append]
    intro e
    exact ih (by simp) (Option.or_eq_none_iff.1 e).2

theorem loopProg_strict : Strict loopProg [0, 2] [0] := by
  have t0 : Trace loopProg.g.Flow 0 [0] := .start
  have t1 : Trace loopProg.g.Flow 0 [1, 0] := .step t0 (by show some 1 ∈ loopProg.g.outs 0; decide)
  have t2 : Trace loopProg.g.Flow 0 [2, 1, 0] := .step t1 (by show some 2 ∈ loopProg.g.outs 1; decide)
  have t3 : Trace loopProg.g.Flow 0 [3, 1, 0] := .step t1 (by show some 3 ∈ loopProg.g.outs 1; decide)
  refine ⟨fun b r hr q hq => ?_, fun u hu _ => ?_, fun _ _ h => nomatch h⟩
  · have hb : b < 4 := trace_lt loopProg_ok hr
    have : ∀ b ∈ List.range 4, ∀ q ∈ loopProg.g.ins b, q = some 0 ∨ q = some 1 ∨ q = some 2 := by decide
    rcases this b (List.mem_range.2 hb) q hq with rfl | rfl | rfl
    · exact ⟨_, _, rfl, t0⟩
    · exact ⟨_, _, rfl, t1⟩
    · exact ⟨_, _, rfl, t2⟩
  · have hb : loopProg.block u = u ∧ u ≠ 0 := by rcases loopProg_use hu with rfl | rfl | rfl <;> decide
    rw [hb.1]
    refine ⟨?_, fun r pre post hr hc => ?_⟩
    · rcases loopProg_use hu with rfl | rfl | rfl
      · exact ⟨_, t1⟩
      · exact ⟨_, t2⟩
      · exact ⟨_, t3⟩
    · rw [lastDef_append]
      intro e
      refine loopProg_first (t := r) ?_ ?_ (Option.or_eq_none_iff.1 e).2
      · cases r with
        | nil => cases hr; exact absurd rfl hb.2
        | cons _ _ => exact (trace_tail hr).1
      · rintro rfl
        cases hr
        exact hb.2 rfl

/-- the Phi 4 in block 1 selects the node 0 or the node 2; all uses get it -/
example : (reconstruct loopProg [0, 2] [0]).map (fun s => (s.newPhis, s.block 4, [s.sched 1, s.args 4, s.args 1, s.args 2, s.args 3])) =
    some ([4], 1, [[4, 1], [0, 2], [4], [4], [4]]) := by decide +kernel

/-- after the blocks 0, 1, 2, 1 the Phi has the value of the node 2, the last definition -/
example : lastDef (definedBy loopProg.skip [0, 2, 0]) (executed loopProg.code [2, 1, 0]) = some 2 := by decide +kernel

end Verif.Props.SsaRecon
