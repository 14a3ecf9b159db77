import Verif.Lemmas.X87Shuffle
/-! # Lemmas about the simulation of a graph -/
namespace Verif.Lemmas.X87
open Verif.Spec.X87 Verif.Model.X87

variable {V : Type} {sem : Sem V}

theorem succLoop_none {begins : Nat → Option St} {st : St} : ∀ (ss given : List Nat), (∀ s ∈ ss, begins s = none) →
    (given ++ ss).Nodup → succLoop ss begins given st = some ([], st, given ++ ss) := by
  intro ss
  induction ss with
  | nil => intro given _ _; simp [succLoop]
  | cons s ss ih =>
    intro given h hn
    have hs : s ∉ given := by
      rw [List.nodup_append] at hn
      intro h'
      exact hn.2.2 s h' s (List.mem_cons_self ..) rfl
    unfold succLoop
    rw [if_neg hs, h s (List.mem_cons_self ..)]
    dsimp only
    rw [ih (given ++ [s]) (fun x hx => h x (List.mem_cons_of_mem _ hx)) (by simpa using hn)]
    simp

/-- The state of the simulation; `done` are the blocks that have code. -/
structure Sound (sem : Sem V) (g : List Block) (G : Graph) (done : List Nat) : Prop where
  zero : G.begins 0 = some []
  origin : ∀ b st, G.begins b = some st → (b = 0 ∧ st = []) ∨
    ∃ p P, p ∈ done ∧ g[p]? = some P ∧ b ∈ P.succs ∧ Inv P.live st
  todo : ∀ b st, G.begins b = some st → b ∈ done ∨ b ∈ G.work
  work : ∀ b ∈ G.work, (G.begins b).isSome ∧ b ∉ done ∧ b < g.length
  wnodup : G.work.Nodup
  done_iff : ∀ b, b ∈ done ↔ (G.code b).isSome
  dnodup : done.Nodup
  dlt : ∀ b ∈ done, b < g.length
  code : ∀ b c, G.code b = some c → ∃ B st, g[b]? = some B ∧ G.begins b = some st ∧
    (∀ R : Nat → V, ∃ s, exec sem (st.map R) c = some ((runOps sem R B.ops).1, s)) ∧
    ∀ s ∈ B.succs, ∃ dst, G.begins s = some dst ∧
      ∀ R : Nat → V, exec sem (st.map R) c = some ((runOps sem R B.ops).1, dst.map (runOps sem R B.ops).2)

theorem step_ok {emms : Bool} {g : List Block} (hg : Program g) {G : Graph} {done w : List Nat} {b : Nat}
    (hs : Sound sem g G done) (hw : G.work = b :: w) :
    ∃ G', stepGraph emms g G = some G' ∧ Sound sem g G' (b :: done) := by
  obtain ⟨hb1, hb2, hb3⟩ := hs.work b (by rw [hw]; exact List.mem_cons_self ..)
  have hcb : G.code b = none := by
    cases h : G.code b with
    | none => rfl
    | some c => exact absurd ((hs.done_iff b).mpr (by rw [h]; rfl)) hb2
  have hgb : g[b]? = some g[b] := List.getElem?_eq_getElem hb3
  generalize hB : g[b] = B at hgb
  cases hst : G.begins b with
  | none => rw [hst] at hb1; cases hb1
  | some st =>
    have hprep : st.Nodup ∧ (∀ r ∈ liveIn B.live B.ops, r ∈ st) ∧ ∀ r ∈ st, r < 8 := by
      rcases hs.origin b st hst with ⟨rfl, rfl⟩ | ⟨p, P, hp, hgp, hbp, hI⟩
      · obtain ⟨B', h1, h2⟩ := hg.start
        rw [hgb] at h1
        cases h1
        exact ⟨List.nodup_nil, fun r h => absurd (mem_liveIn.mp h) (h2 r), (fun r h => nomatch h)⟩
      · obtain ⟨-, S, h1, h2⟩ := hg.edge p P hgp b hbp
        rw [hgb] at h1
        cases h1
        exact ⟨hI.nodup, fun r h => (hI.mem r).mpr (h2 r (mem_liveIn.mp h)), hI.small⟩
    obtain ⟨c, st', h1, h2, h3⟩ := simBlock_ok (sem := sem) (emms := emms) (hg.nodes b B hgb) hprep.1 hprep.2.1 hprep.2.2
    have hwn := hs.wnodup
    rw [hw, List.nodup_cons] at hwn
    -- a successor with a state has another predecessor
    have hother : ∀ s ∈ B.succs, ∀ dst, G.begins s = some dst → B.succs = [s] ∧ dst.Nodup ∧ ∀ r, r ∈ st' ↔ r ∈ dst := by
      intro s hsm dst hd
      rcases hs.origin s dst hd with ⟨rfl, rfl⟩ | ⟨p, P, hp, hgp, hsp, hI⟩
      · exact absurd rfl (hg.edge b B hgb 0 hsm).1
      · have hne : b ≠ p := by rintro rfl; exact hb2 hp
        obtain ⟨e, hl⟩ := hg.merge b p B P hgb hgp hne s hsm hsp
        exact ⟨e, hI.nodup, fun r => by rw [h2.mem, hl, hI.mem]⟩
    -- the general form of the new state
    have fin : ∀ (c' : List Insn) (st2 : St) (given : List Nat), succLoop B.succs G.begins [] st' = some (c', st2, given) →
        (∀ R : Nat → V, exec sem (st'.map R) c' = some ([], st2.map R)) → Inv B.live st2 →
        given.Nodup → (∀ s ∈ given, s ∈ B.succs ∧ G.begins s = none) →
        (∀ s ∈ B.succs, s ∈ given ∨ G.begins s = some st2) →
        ∃ G', stepGraph emms g G = some G' ∧ Sound sem g G' (b :: done) := by
      intro c' st2 given hl hx hI hgn hgv hall
      refine ⟨_, by
        unfold stepGraph
        rw [hw]
        dsimp only
        rw [hgb, hst]
        dsimp only
        rw [if_neg (by rw [hcb]; simp), h1]
        dsimp only
        rw [hl], ?_⟩
      have hx' : ∀ R : Nat → V, exec sem (st.map R) (c ++ c') = some ((runOps sem R B.ops).1, st2.map (runOps sem R B.ops).2) := by
        intro R
        have := exec_append (h3 R) (hx (runOps sem R B.ops).2)
        simpa using this
      have hbg : b ∉ given := fun h => by
        have := (hgv b h).2
        rw [hst] at this
        cases this
      have keep : ∀ s dst, G.begins s = some dst → (if s ∈ given then some st2 else G.begins s) = some dst := by
        intro s dst h
        rw [if_neg, h]
        intro h'
        rw [(hgv s h').2] at h
        cases h
      refine ⟨keep 0 [] hs.zero, ?_, ?_, ?_, ?_, ?_, ?_, ?_, ?_⟩
      · intro x sx hsx
        dsimp only at hsx
        by_cases hxg : x ∈ given
        · rw [if_pos hxg] at hsx
          cases hsx
          exact .inr ⟨b, B, List.mem_cons_self .., hgb, (hgv x hxg).1, hI⟩
        · rw [if_neg hxg] at hsx
          rcases hs.origin x sx hsx with h | ⟨p, P, hp, h⟩
          · exact .inl h
          · exact .inr ⟨p, P, List.mem_cons_of_mem _ hp, h⟩
      · intro x sx hsx
        dsimp only at hsx ⊢
        by_cases hxg : x ∈ given
        · exact .inr (List.mem_append_right _ hxg)
        · rw [if_neg hxg] at hsx
          rcases hs.todo x sx hsx with h | h
          · exact .inl (List.mem_cons_of_mem _ h)
          · rw [hw] at h
            rcases List.mem_cons.mp h with rfl | h
            · exact .inl (List.mem_cons_self ..)
            · exact .inr (List.mem_append_left _ h)
      · intro x hxw
        dsimp only at hxw ⊢
        rcases List.mem_append.mp hxw with h | h
        · obtain ⟨a1, a2, a3⟩ := hs.work x (by rw [hw]; exact List.mem_cons_of_mem _ h)
          refine ⟨?_, ?_, a3⟩
          · by_cases hxg : x ∈ given
            · rw [if_pos hxg]; rfl
            · rw [if_neg hxg]; exact a1
          · rw [List.mem_cons, not_or]
            exact ⟨by rintro rfl; exact hwn.1 h, a2⟩
        · refine ⟨by rw [if_pos h]; rfl, ?_, ?_⟩
          · rw [List.mem_cons, not_or]
            refine ⟨by rintro rfl; exact hbg h, fun hd => ?_⟩
            have := (hs.done_iff x).mp hd
            cases hc : G.code x with
            | none => rw [hc] at this; cases this
            | some cx =>
              obtain ⟨_, _, -, hbx, -⟩ := hs.code x cx hc
              rw [(hgv x h).2] at hbx
              cases hbx
          · obtain ⟨-, S, hS, -⟩ := hg.edge b B hgb x (hgv x h).1
            exact (List.getElem?_eq_some_iff.mp hS).1
      · dsimp only
        rw [List.nodup_append]
        refine ⟨hwn.2, hgn, ?_⟩
        rintro x hx y hy rfl
        have := (hs.work x (by rw [hw]; exact List.mem_cons_of_mem _ hx)).1
        rw [(hgv x hy).2] at this
        cases this
      · intro x
        dsimp only
        rw [List.mem_cons]
        by_cases hxb : x = b
        · subst hxb
          simp
        · rw [if_neg hxb, ← hs.done_iff]
          exact ⟨fun h => h.elim (fun e => absurd e hxb) id, .inr⟩
      · exact List.nodup_cons.mpr ⟨hb2, hs.dnodup⟩
      · intro x hx
        rcases List.mem_cons.mp hx with rfl | hx
        · exact hb3
        · exact hs.dlt x hx
      · intro x cx hcx
        dsimp only at hcx ⊢
        by_cases hxb : x = b
        · subst hxb
          rw [if_pos rfl] at hcx
          cases hcx
          refine ⟨B, st, hgb, keep x st hst, fun R => ⟨_, hx' R⟩, ?_⟩
          intro s hsm
          refine ⟨st2, ?_, hx'⟩
          rcases hall s hsm with h | h
          · rw [if_pos h]
          · exact keep s st2 h
        · rw [if_neg hxb] at hcx
          obtain ⟨X, sx, a1, a2, a3, a4⟩ := hs.code x cx hcx
          refine ⟨X, sx, a1, keep x sx a2, a3, ?_⟩
          intro s hsm
          obtain ⟨dst, d1, d2⟩ := a4 s hsm
          exact ⟨dst, keep s dst d1, d2⟩
    by_cases hex : ∃ s ∈ B.succs, ∃ dst, G.begins s = some dst
    · obtain ⟨s, hsm, dst, hd⟩ := hex
      obtain ⟨e, hdn, hme⟩ := hother s hsm dst hd
      obtain ⟨c', hc1, hc2⟩ := shuffle_ok (sem := sem) h2.nodup hdn hme
      refine fin c' dst [] ?_ hc2 ⟨hdn, fun r => by rw [← hme, h2.mem], fun r h => h2.small r ((hme r).mpr h)⟩
        List.nodup_nil (fun s h => nomatch h) ?_
      · rw [e]
        simp [succLoop, hd, hc1]
      · intro s' hs'
        rw [e] at hs'
        simp only [List.mem_cons, List.not_mem_nil, or_false] at hs'
        rw [hs']
        exact .inr hd
    · have hno : ∀ s ∈ B.succs, G.begins s = none := by
        intro s hsm
        cases hd : G.begins s with
        | none => rfl
        | some dst => exact absurd ⟨s, hsm, dst, hd⟩ hex
      have := succLoop_none (st := st') B.succs [] hno (by simpa using hg.once b B hgb)
      refine fin [] st' B.succs (by simpa using this) (fun R => rfl) h2 (hg.once b B hgb) (fun s h => ⟨h, hno s h⟩) (fun s h => .inl h)

theorem run_graph_ok {emms : Bool} {g : List Block} (hg : Program g) : ∀ (fuel : Nat) (G : Graph) (done : List Nat),
    Sound sem g G done → fuel + done.length = g.length →
    ∃ G' done', runGraph emms g fuel G = some G' ∧ Sound sem g G' done' ∧ G'.work = [] := by
  intro fuel
  induction fuel with
  | zero =>
    intro G done hs hl
    refine ⟨G, done, rfl, hs, ?_⟩
    cases hw : G.work with
    | nil => rfl
    | cons b w =>
      exfalso
      obtain ⟨-, h1, h2⟩ := hs.work b (by rw [hw]; exact List.mem_cons_self ..)
      have := Verif.Model.Perm.length_le_of_subset (l := b :: done) (l' := List.range g.length)
        (List.nodup_cons.mpr ⟨h1, hs.dnodup⟩) (by
          intro x hx
          rcases List.mem_cons.mp hx with rfl | hx
          · simpa using h2
          · simpa using hs.dlt x hx)
      simp at this
      omega
  | succ fuel ih =>
    intro G done hs hl
    unfold runGraph
    cases hw : G.work with
    | nil =>
      rw [if_pos (by rfl)]
      exact ⟨G, done, rfl, hs, hw⟩
    | cons b w =>
      rw [if_neg (by simp)]
      obtain ⟨G', h1, h2⟩ := step_ok (emms := emms) hg hs hw
      rw [h1]
      exact ih G' (b :: done) h2 (by simp only [List.length_cons]; omega)

theorem path_ok {g : List Block} {G : Graph} {done : List Nat} (hs : Sound sem g G done) (hw : G.work = []) :
    ∀ (rest : List Nat) (b : Nat) (st : St) (R : Nat → V), G.begins b = some st → Path g (b :: rest) →
      ∃ s, execPath sem G.code (st.map R) (b :: rest) = some ((runPath sem g R (b :: rest)).1, s) := by
  intro rest
  induction rest with
  | nil =>
    intro b st R hb hp
    have hd : b ∈ done := by
      rcases hs.todo b st hb with h | h
      · exact h
      · rw [hw] at h; cases h
    cases hc : G.code b with
    | none => have := (hs.done_iff b).mp hd; rw [hc] at this; cases this
    | some c =>
      obtain ⟨B, st', h1, h2, h3, -⟩ := hs.code b c hc
      rw [hb] at h2
      cases h2
      obtain ⟨s, h3⟩ := h3 R
      exact ⟨s, by simp [execPath, runPath, hc, h1, h3]⟩
  | cons b' rest ih =>
    intro b st R hb hp
    have hd : b ∈ done := by
      rcases hs.todo b st hb with h | h
      · exact h
      · rw [hw] at h; cases h
    cases hc : G.code b with
    | none => have := (hs.done_iff b).mp hd; rw [hc] at this; cases this
    | some c =>
      obtain ⟨B, st', h1, h2, -, h3⟩ := hs.code b c hc
      rw [hb] at h2
      cases h2
      obtain ⟨⟨B', e1, e2⟩, hp'⟩ := hp
      rw [h1] at e1
      cases e1
      obtain ⟨dst, d1, d2⟩ := h3 b' (e2 b' rfl)
      obtain ⟨s, hs'⟩ := ih b' dst (runOps sem R B.ops).2 d1 hp'
      refine ⟨s, ?_⟩
      rw [execPath, hc]
      dsimp only
      rw [d2 R]
      dsimp only
      rw [hs']
      have : runPath sem g R (b :: b' :: rest) = ((runOps sem R B.ops).1 ++ (runPath sem g (runOps sem R B.ops).2 (b' :: rest)).1,
          (runPath sem g (runOps sem R B.ops).2 (b' :: rest)).2) := by
        rw [runPath, h1]
      rw [this]

theorem graph_ok {emms : Bool} {g : List Block} (hg : Program g) :
    ∃ code, simulateGraph emms g = some code ∧ ∀ (rest : List Nat) (R : Nat → V), Path g (0 :: rest) →
      ∃ s, execPath sem code [] (0 :: rest) = some ((runPath sem g R (0 :: rest)).1, s) := by
  obtain ⟨B, hB, -⟩ := hg.start
  have h0 : 0 < g.length := (List.getElem?_eq_some_iff.mp hB).1
  have hs : Sound sem g { begins := fun b => if b = 0 then some [] else none, code := fun _ => none, work := [0] } [] := by
    refine ⟨rfl, ?_, ?_, ?_, by simp, by simp, List.nodup_nil, (fun b h => nomatch h), (fun b c h => nomatch h)⟩
    · intro b st h
      dsimp only at h
      by_cases hb : b = 0
      · rw [if_pos hb] at h; cases h; exact .inl ⟨hb, rfl⟩
      · rw [if_neg hb] at h; cases h
    · intro b st h
      dsimp only at h
      by_cases hb : b = 0
      · rw [hb]; simp
      · rw [if_neg hb] at h; cases h
    · intro b hb
      simp only [List.mem_cons, List.not_mem_nil, or_false] at hb
      subst hb
      exact ⟨rfl, (fun h => nomatch h), h0⟩
  obtain ⟨G', done', h1, h2, h3⟩ := run_graph_ok (emms := emms) hg g.length _ _ hs (by simp)
  refine ⟨G'.code, by simp [simulateGraph, h1], ?_⟩
  intro rest R hp
  exact path_ok h2 h3 rest 0 [] R h2.zero hp

end Verif.Lemmas.X87
