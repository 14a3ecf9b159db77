import Verif.Lemmas.LiveQuery
import Verif.Props.Dom
/-!
# Properties of the depth first search and of the liveness check
-/
namespace Verif.Props
open Verif.Model.Dom Verif.Model.LiveChk Verif.Spec

/-! ## The depth first search -/

/-- `a` is `b` or an ancestor of it in the tree of the search -/
inductive TreePath (par : Nat → Option Nat) : Nat → Nat → Prop
  | refl (a : Nat) : TreePath par a a
  | step {a b c : Nat} : par c = some b → TreePath par a b → TreePath par a c

/-- all blocks that can be reached, and the end block, are numbered from 0 on in preorder and in postorder; the arrays belong to the numbers -/
theorem dfs_numbers {succ : Nat → List Nat} {n start stop : Nat} (hsucc : ∀ b c, b < n → c ∈ succ b → c < n) (hs : start < n) (he : stop < n) :
    let s := search succ n start stop
    (∀ b, (∃ i, s.num b = some i) ↔ Reachable (fun b c => c ∈ succ b) start b ∨ b = stop) ∧
    (∀ b i, s.num b = some i ↔ i < s.used ∧ s.block i = b) ∧
    (∀ b i, s.num b = some i → s.post b < s.used ∧ s.order (s.post b) = b) ∧
    (∀ k, k < s.used → ∃ b i, s.num b = some i ∧ s.post b = k ∧ s.order k = b) ∧
    s.num start = some 0 ∧ s.done = s.used ∧ s.used ≤ n := by
  have hB := base_ok hsucc hs
  have hS := search_ok (start := start) hsucc hs he
  have hrev : (fun b c => c ∈ rev succ b) = fun b c => c ∈ succ b := by
    funext b c; exact propext List.mem_reverse
  have hreach : ∀ b, (∃ i, (base succ n start).num b = some i) ↔ Reachable (fun b c => c ∈ succ b) start b := by
    intro b
    have := Verif.Model.Dom.num_iff_reachable hB.fin hB.root (b := b)
    rwa [hrev] at this
  refine ⟨fun b => ⟨?_, ?_⟩, hS.wf.iff, hS.post, hS.order, (hS.old _ _ hB.root).1, hS.done, hS.wf.used_le⟩
  · rintro ⟨i, hi⟩
    rcases hS.new b i hi with h | h
    · exact Or.inl ((hreach b).1 ⟨i, h⟩)
    · exact Or.inr h
  · rintro (h | rfl)
    · obtain ⟨i, hi⟩ := (hreach b).2 h
      exact ⟨i, (hS.old b i hi).1⟩
    · exact hS.stopNum

section
variable {succ : Nat → List Nat} {n start stop : Nat}

theorem treePath_iff (hsucc : ∀ b c, b < n → c ∈ succ b → c < n) (hs : start < n) (he : stop < n) {a b i j : Nat}
    (ha : (base succ n start).num a = some i) (hb : (base succ n start).num b = some j) :
    TreePath (search succ n start stop).anc a b ↔ Verif.Spec.DomTheory.Anc (base succ n start).parent i j := by
  have hB := base_ok hsucc hs
  have hS := search_ok (start := start) hsucc hs he
  constructor
  · intro hp
    induction hp generalizing j with
    | refl => cases Option.some.inj (ha.symm.trans hb); exact .refl
    | @step b c h1 h2 ih =>
      rw [(hS.old c j hb).2.2.2] at h1
      obtain ⟨hj, hcj⟩ := (hB.fin.wf.iff _ _).1 hb
      by_cases h0 : j = 0
      · subst h0
        have : c = start := by rw [← hcj]; exact ((hB.fin.wf.iff _ _).1 hB.root).2
        rw [this, hB.ancRoot] at h1; cases h1
      · have h3 := hB.anc j (by omega) hj
        rw [hcj, h1] at h3
        have hp := hB.parLt (by omega) hj
        refine .step (by omega) (ih ?_)
        rw [Option.some.inj h3]
        exact hB.num_block (by omega)
  · intro hp
    induction hp generalizing b with
    | refl =>
      have : a = b := by rw [← ((hB.fin.wf.iff _ _).1 ha).2, ((hB.fin.wf.iff _ _).1 hb).2]
      subst this; exact .refl a
    | @step j h0 _ ih =>
      obtain ⟨hj, hcj⟩ := (hB.fin.wf.iff _ _).1 hb
      have hp := hB.parLt h0 hj
      refine .step ?_ (ih (hB.num_block (by omega)))
      rw [(hS.old b j hb).2.2.2, ← hcj]
      exact hB.anc j h0 hj

end

/-- The kinds of the edges from a block that can be reached: tree edges, edges to an ancestor or the block itself, edges to other descendants, and the
rest -/
theorem dfs_edge_kinds {succ : Nat → List Nat} {n start stop : Nat} (hsucc : ∀ b c, b < n → c ∈ succ b → c < n) (hs : start < n) (he : stop < n) {b c : Nat}
    (hb : Reachable (fun b c => c ∈ succ b) start b) (hc : c ∈ succ b) :
    let s := search succ n start stop
    (s.kind b c = .anc ↔ s.anc c = some b) ∧ (s.kind b c = .back ↔ TreePath s.anc c b) ∧
    (s.kind b c = .fwd ↔ TreePath s.anc b c ∧ b ≠ c ∧ s.anc c ≠ some b) ∧
    (s.kind b c = .cross ↔ ¬ TreePath s.anc c b ∧ ¬ TreePath s.anc b c) := by
  have hB := base_ok hsucc hs
  have hS := search_ok (start := start) hsucc hs he
  have hrev : (fun b c => c ∈ rev succ b) = fun b c => c ∈ succ b := by
    funext b c; exact propext List.mem_reverse
  obtain ⟨i, hi⟩ : ∃ i, (base succ n start).num b = some i :=
    (Verif.Model.Dom.num_iff_reachable hB.fin hB.root).2 (by rw [hrev]; exact hb)
  obtain ⟨j, hj⟩ := hB.fin.closed hi (List.mem_reverse.2 hc)
  obtain ⟨b1, b2, b3, b4⟩ := hS.old b i hi
  obtain ⟨c1, c2, c3, c4⟩ := hS.old c j hj
  obtain ⟨hi', hbi⟩ := (hB.fin.wf.iff _ _).1 hi
  obtain ⟨hj', hcj⟩ := (hB.fin.wf.iff _ _).1 hj
  have hk : (search succ n start stop).kind b c = (base succ n start).kind b c := by
    unfold Search.kind Search.isAncestor
    rw [b1, c1, b3, c3, c4, hi, hj]
  have hback := hB.kind_back hi hj
  have hA : (base succ n start).isAncestor b c = true ↔ Verif.Spec.DomTheory.Anc (base succ n start).parent i j := by
    unfold Search.isAncestor
    rw [hi, hj, Bool.and_eq_true, decide_eq_true_iff, decide_eq_true_iff, hB.anc_iff hi' hj', hbi]
    exact Iff.rfl
  have hA' : (base succ n start).isAncestor c b = true ↔ Verif.Spec.DomTheory.Anc (base succ n start).parent j i := by
    unfold Search.isAncestor
    rw [hi, hj, Bool.and_eq_true, decide_eq_true_iff, decide_eq_true_iff, hB.anc_iff hj' hi', hcj]
    exact Iff.rfl
  have hpar : (base succ n start).anc c = some b → Verif.Spec.DomTheory.Anc (base succ n start).parent i j := by
    intro h
    refine (treePath_iff hsucc hs he hi hj).1 (.step ?_ (.refl b))
    rw [c4]; exact h
  simp only [hk, treePath_iff hsucc hs he hi hj, treePath_iff hsucc hs he hj hi, c4]
  have heq : b = c ↔ i = j := by
    constructor
    · rintro rfl; exact Option.some.inj (hi.symm.trans hj)
    · rintro rfl; rw [← hbi, hcj]
  have hanti : Verif.Spec.DomTheory.Anc (base succ n start).parent i j → Verif.Spec.DomTheory.Anc (base succ n start).parent j i → i = j := by
    intro h1 h2
    have := h1.le hB.fin.tree hj'
    have := h2.le hB.fin.tree hi'
    omega
  refine ⟨?_, hback, ?_, ?_⟩
  · constructor
    · intro h
      unfold Search.kind at h
      by_cases h1 : (base succ n start).anc c = some b
      · exact h1
      · rw [if_neg h1] at h
        split at h
        · cases h
        · split at h <;> cases h
    · intro h; unfold Search.kind; rw [if_pos h]
  · constructor
    · intro h
      have hnb : (base succ n start).kind b c ≠ .back := by rw [h]; exact fun hh => nomatch hh
      unfold Search.kind at h
      by_cases h1 : (base succ n start).anc c = some b
      · rw [if_pos h1] at h; cases h
      · rw [if_neg h1] at h
        by_cases h2 : (base succ n start).isAncestor c b = true
        · rw [if_pos h2] at h; cases h
        · rw [if_neg h2] at h
          by_cases h3 : (base succ n start).isAncestor b c = true
          · refine ⟨hA.1 h3, fun hh => ?_, h1⟩
            rw [heq] at hh
            subst hh
            exact h2 (hA'.2 .refl)
          · rw [if_neg h3] at h; cases h
    · rintro ⟨h1, h2, h3⟩
      unfold Search.kind
      rw [if_neg h3, if_neg (fun hh => h2 (heq.2 (hanti h1 (hA'.1 hh)))), if_pos (hA.2 h1)]
  · constructor
    · intro h
      unfold Search.kind at h
      by_cases h1 : (base succ n start).anc c = some b
      · rw [if_pos h1] at h; cases h
      · rw [if_neg h1] at h
        by_cases h2 : (base succ n start).isAncestor c b = true
        · rw [if_pos h2] at h; cases h
        · rw [if_neg h2] at h
          by_cases h3 : (base succ n start).isAncestor b c = true
          · rw [if_pos h3] at h; cases h
          · exact ⟨fun hh => h2 (hA'.2 hh), fun hh => h3 (hA.2 hh)⟩
    · rintro ⟨h1, h2⟩
      unfold Search.kind
      rw [if_neg (fun hh => h2 (hpar hh)), if_neg (fun hh => h1 (hA'.1 hh)), if_neg (fun hh => h2 (hA.1 hh))]

/-- Without the back edges the postorder is topological: each edge leads to a smaller number, and only back edges do not -/
theorem dfs_postorder {succ : Nat → List Nat} {n start stop : Nat} (hsucc : ∀ b c, b < n → c ∈ succ b → c < n) (hs : start < n) (he : stop < n) {b c : Nat}
    (hb : Reachable (fun b c => c ∈ succ b) start b) (hc : c ∈ succ b) :
    let s := search succ n start stop
    s.kind b c ≠ .back ↔ s.post c < s.post b := by
  have hB := base_ok hsucc hs
  have hS := search_ok (start := start) hsucc hs he
  have hrev : (fun b c => c ∈ rev succ b) = fun b c => c ∈ succ b := by
    funext b c; exact propext List.mem_reverse
  obtain ⟨i, hi⟩ : ∃ i, (base succ n start).num b = some i :=
    (Verif.Model.Dom.num_iff_reachable hB.fin hB.root).2 (by rw [hrev]; exact hb)
  obtain ⟨j, hj⟩ := hB.fin.closed hi (List.mem_reverse.2 hc)
  obtain ⟨hi', hbi⟩ := (hB.fin.wf.iff _ _).1 hi
  obtain ⟨hj', hcj⟩ := (hB.fin.wf.iff _ _).1 hj
  have hk := (dfs_edge_kinds hsucc hs he hb hc).2.1
  simp only [Ne, hk, treePath_iff hsucc hs he hj hi, (hS.old b i hi).2.1, (hS.old c j hj).2.1]
  constructor
  · intro hna
    have := hB.post_lt ⟨⟨hi', hj', by rw [hbi, hcj]; exact List.mem_reverse.2 hc⟩, hna⟩
    rwa [hbi, hcj] at this
  · intro hlt hanc
    have hle := (hB.anc_iff hj' hi').1 hanc
    rcases Nat.lt_or_eq_of_le hle.1 with h | h
    · have := (hB.late.cmp j i (Nat.zero_le _) h hi').1 hle.2
      rw [hbi, hcj] at this
      omega
    · subst h
      rw [hbi] at hcj
      subst hcj
      omega

/-- so each cycle contains a back edge -/
theorem dfs_cycle {succ : Nat → List Nat} {n start stop : Nat} (hsucc : ∀ b c, b < n → c ∈ succ b → c < n) (hs : start < n) (he : stop < n) {b : Nat} {l : List Nat}
    (hb : Reachable (fun b c => c ∈ succ b) start b)
    (hl : Path (fun x y => y ∈ succ x ∧ (search succ n start stop).kind x y ≠ .back) b l b) : l = [b] := by
  have key : ∀ {u v : Nat} {l : List Nat}, Path (fun x y => y ∈ succ x ∧ (search succ n start stop).kind x y ≠ .back) u l v →
      Reachable (fun b c => c ∈ succ b) start u → l = [v] ∨ (search succ n start stop).post v < (search succ n start stop).post u := by
    intro u v l hp
    induction hp with
    | nil => intro _; exact Or.inl rfl
    | @cons u w v l h1 hp ih =>
      intro hu
      have hlt := (dfs_postorder hsucc hs he hu h1.1).1 h1.2
      obtain ⟨l0, hl0⟩ := hu
      rcases ih ⟨_, path_snoc hl0 h1.1⟩ with rfl | h
      · cases hp with
        | nil => exact Or.inr hlt
        | cons _ hp => cases hp
      · exact Or.inr (Nat.lt_trans h hlt)
  rcases key hl hb with h | h
  · exact h
  · omega

/-! ## The liveness check -/

/-- the blocks of the uses -/
def UsedIn (users : List Use) (c : Nat) : Prop := ∃ u ∈ users, u.block = some c

/-- the blocks at the end of which Phis use the value -/
def PhiAt (users : List Use) (c : Nat) : Prop := ∃ u ∈ users, u.phi = true ∧ u.block = some c

/-- the assertions on the map from numbers to blocks hold -/
theorem live_map_assertions {succ : Nat → List Nat} {g : Cfg} (h : LiveOk succ g) : (env succ g).mapOk = true := mapOk_spec h.env_ok

/-- The check answers exactly right for a value whose definition dominates its uses; in the block of the definition, if no operand of a Phi belongs to a
control flow predecessor that is absent -/
theorem live_check_exact {succ : Nat → List Nat} {g : Cfg} (h : LiveOk succ g) {d b : Nat} (hd : Reachable g.Edge g.start d) (hb : Reachable g.Edge g.start b)
    {users : List Use} (hU : ∀ c, UsedIn users c → Reachable g.Flow g.start c ∧ Dominates g.Edge g.start d c)
    (hbad : b = d → ∀ u ∈ users, u.block ≠ none) :
    ((live succ g d users b).inn = true ↔ LiveIn g.Flow d (UsedIn users) b) ∧
    ((live succ g d users b).end_ = true ↔ LiveEnd g.Flow d (UsedIn users) (PhiAt users) b) ∧
    ((live succ g d users b).out = true ↔ LiveOut g.Flow d (UsedIn users) b) := by
  have hsm := h.small
  have hdom := dominates_block h.ok (by omega) hd hb
  have hUd : ∀ c, UsedIn users c → Dominates g.Edge g.start d c := fun c hc => (hU c hc).2
  unfold live Env.query LiveEnd
  by_cases hdb : Dominates g.Edge g.start d b
  · rw [if_neg (by rw [hdom.2 hdb]; exact fun hh => nomatch hh)]
    by_cases hne : d = b
    · subst hne
      rw [if_pos rfl]
      obtain ⟨h1, h2, h3⟩ := sameBlock_spec d users ⟨false, false, false⟩ rfl rfl
      have hout : (∃ u ∈ users, u.block ≠ some d) ↔ LiveOut g.Flow d (UsedIn users) d := by
        constructor
        · rintro ⟨u, hu, hub⟩
          cases hc : u.block with
          | none => exact absurd hc (hbad rfl u hu)
          | some c =>
            have hcd : c ≠ d := by rintro rfl; exact hub hc
            have hUc : UsedIn users c := ⟨u, hu, hc⟩
            obtain ⟨⟨l, hl⟩, hdc⟩ := hU c hUc
            obtain ⟨x, l', hx, hp, hdl⟩ := path_after hl (hdc l (path_mono (fun _ _ => flow_edge) hl)) hcd
            exact ⟨x, hx, l', c, hp, hUc, hdl⟩
        · rintro ⟨x, -, l, c, hl, ⟨u, hu, hc⟩, hdl⟩
          refine ⟨u, hu, fun hh => ?_⟩
          rw [hc] at hh
          cases hh
          exact hdl (path_last hl)
      refine ⟨?_, ?_, ?_⟩
      · rw [h1]
        exact ⟨fun hh => (nomatch hh), fun hh => absurd hh liveIn_self⟩
      · rw [h3, hout]
        simp [PhiAt]
      · rw [h2, hout]
    · rw [if_neg hne]
      obtain ⟨u1, u2, u3, u4⟩ := uses_spec (e := env succ g) b users (⟨false, false, false⟩, 0)
      have hlook := h.look (h.mem.2 hb) (h.mem.2 hd) hdb hne (U := UsedIn users) (uses := ((env succ g).uses b (⟨false, false, false⟩, 0) users).2)
        (fun k => (u4 k).trans (by
          simp only [Nat.zero_testBit, Bool.false_eq_true, false_or, UsedIn]
          constructor
          · rintro ⟨u, hu, c, hc, hk⟩; exact ⟨c, ⟨u, hu, hc⟩, hk⟩
          · rintro ⟨c, ⟨u, hu, hc⟩, hk⟩; exact ⟨u, hu, c, hc, hk⟩)) hU
      rw [liveIn_iff hne]
      by_cases hl : LiveOut g.Flow d (UsedIn users) b
      · rw [if_pos (hlook.2 hl)]
        simp [hl]
      · simp only []
        rw [if_neg (fun hh => hl (hlook.1 hh))]
        refine ⟨u2.trans ?_, u3.trans ?_, ?_⟩
        · simp [hl, UsedIn]
        · simp [hl, PhiAt]
        · rw [u1]; simp [hl]
  · have hf : g.dominates d b = false := by rw [← Bool.not_eq_true]; exact fun hh => hdb (hdom.1 hh)
    rw [if_pos hf]
    have hin : ¬ LiveIn g.Flow d (UsedIn users) b := fun hh => hdb (live_dom hUd hh)
    have hne : d ≠ b := by rintro rfl; exact hdb (dominates_refl d)
    rw [liveIn_iff hne] at hin
    have h1 : ¬ UsedIn users b := fun hh => hin (Or.inl hh)
    have h2 : ¬ LiveOut g.Flow d (UsedIn users) b := fun hh => hin (Or.inr hh)
    have h3 : ¬ PhiAt users b := fun ⟨u, a, _, c⟩ => h1 ⟨u, a, c⟩
    rw [liveIn_iff hne]
    simp [h1, h2, h3]

/-- In the block of the definition the operand of a Phi counts as a use elsewhere even if its control flow predecessor is absent: a value without any
other use is said to be live out of its block, though it is live nowhere -/
theorem live_check_absent_pred {succ : Nat → List Nat} {g : Cfg} (h : LiveOk succ g) {d : Nat} (hd : Reachable g.Edge g.start d) :
    live succ g d [⟨true, none⟩] d = ⟨false, true, true⟩ ∧ ∀ b, ¬ LiveIn g.Flow d (UsedIn [⟨true, none⟩]) b ∧
      ¬ LiveEnd g.Flow d (UsedIn [⟨true, none⟩]) (PhiAt [⟨true, none⟩]) b := by
  have hsm := h.small
  have hdom := (dominates_block h.ok (by omega) hd hd).2 (dominates_refl d)
  refine ⟨?_, fun b => ⟨?_, ?_⟩⟩
  · unfold live Env.query
    rw [if_neg (by rw [hdom]; exact fun hh => nomatch hh), if_pos rfl]
    rfl
  · rintro ⟨l, u, -, ⟨x, hx, hu⟩, -⟩
    rw [List.mem_singleton] at hx; subst hx; cases hu
  · rintro (⟨x, hx, -, hu⟩ | ⟨c, -, l, u, -, ⟨x, hx, hu⟩, -⟩)
    · rw [List.mem_singleton] at hx; subst hx; cases hu
    · rw [List.mem_singleton] at hx; subst hx; cases hu

/-! ## Examples -/

/-- the blocks that follow in the graph of the example for dominators -/
def exampleSucc (b : Nat) : List Nat := (exampleCfg.outs b).filterMap id

theorem exampleLive : LiveOk exampleSucc exampleCfg where
  ok := exampleCfg_ok
  small := by decide
  succ b c := by
    unfold exampleSucc Cfg.Flow
    rw [List.mem_filterMap]
    constructor
    · rintro ⟨o, ho, rfl⟩; exact ho
    · intro h; exact ⟨some c, h, rfl⟩
  stopOut c := by
    show some c ∉ exampleCfg.outs 5
    have : exampleCfg.outs 5 = [] := rfl
    rw [this]; simp
  stopReach := ⟨[0, 1, 3, 4, 5], .cons (Or.inl (by decide)) (.cons (Or.inl (by decide)) (.cons (Or.inl (by decide)) (.cons (Or.inl (by decide)) (.nil 5))))⟩

/-- the kinds of the edges 2 → 1, 3 → 1, 7 → 7 and 1 → 2 -/
example : let s := search exampleSucc 8 0 5
    [s.kind 2 1, s.kind 3 1, s.kind 7 7, s.kind 1 2] = [EdgeKind.back, .back, .back, .anc] := by decide

/-- a graph that is entered in two places of a loop: 0 to 1 and 2, 1 to 2, 2 to 1 and 3; one of the edges in the loop is a back edge -/
example : let s := search (fun b => [[1, 2], [2], [1, 3], []].getD b []) 4 0 3
    [s.kind 0 1, s.kind 1 2, s.kind 2 1, s.kind 0 2, s.kind 2 3] = [EdgeKind.anc, .anc, .back, .fwd, .anc] := by decide

/-- a value of block 0 that is used in block 4 is live in the loop, and one of block 1 is not live in block 2, from where only 1 follows -/
example : (live exampleSucc exampleCfg 0 [⟨false, some 4⟩] 2).out = true ∧ (live exampleSucc exampleCfg 1 [⟨false, some 4⟩] 2).inn = false := by
  have r2 : Reachable exampleCfg.Edge 0 2 := ⟨[0, 1, 2], .cons (Or.inl (by decide)) (.cons (Or.inl (by decide)) (.nil 2))⟩
  have r1 : Reachable exampleCfg.Edge 0 1 := ⟨[0, 1], .cons (Or.inl (by decide)) (.nil 1)⟩
  have f4 : Reachable exampleCfg.Flow 0 4 :=
    ⟨[0, 1, 3, 4], .cons (show some _ ∈ _ by decide) (.cons (show some _ ∈ _ by decide) (.cons (show some _ ∈ _ by decide) (.nil 4)))⟩
  have e4 : Reachable exampleCfg.Edge 0 4 :=
    ⟨[0, 1, 3, 4], .cons (Or.inl (by decide)) (.cons (Or.inl (by decide)) (.cons (Or.inl (by decide)) (.nil 4)))⟩
  have use : ∀ c, UsedIn [⟨false, some 4⟩] c → c = 4 := by
    rintro c ⟨u, hu, hc⟩
    rw [List.mem_singleton] at hu; subst hu
    exact (Option.some.inj hc).symm
  have d1 : Dominates exampleCfg.Edge 0 1 4 := (block_dominates_right exampleCfg_ok (by decide) r1 e4).1 (by decide)
  constructor
  · refine (live_check_exact exampleLive (d := 0) ⟨[0], .nil 0⟩ r2 (fun c hc => ?_) (fun hh => by cases hh)).2.2.2 ?_
    · rw [use c hc]; exact ⟨f4, dominates_root 4⟩
    · exact ⟨1, show some _ ∈ _ by decide, [1, 3, 4], 4, .cons (show some _ ∈ _ by decide) (.cons (show some _ ∈ _ by decide) (.nil 4)),
        ⟨_, List.mem_singleton.2 rfl, rfl⟩, by decide⟩
  · rw [← Bool.not_eq_true]
    intro hh
    obtain ⟨l, u, hl, hu, hd⟩ := (live_check_exact exampleLive (d := 1) r1 r2 (fun c hc => by rw [use c hc]; exact ⟨f4, d1⟩) (fun hh => by cases hh)).1.1 hh
    rw [use u hu] at hl
    cases hl with
    | @cons _ c _ l h1 hp =>
      have h1' : some c ∈ [some 1] := h1
      have : c = 1 := by simpa using h1'
      subst this
      exact hd (List.mem_cons_of_mem _ (path_first hp))

/-- if the end block is not reachable it has the number of the start block and an assertion fails; an endless loop must be kept alive -/
example : (env (fun b => [[0], []].getD b []) ⟨2, 0, 1, fun b => [[some 0], []].getD b [], fun b => [[some 0], []].getD b [], []⟩).mapOk = false := by decide

end Verif.Props
