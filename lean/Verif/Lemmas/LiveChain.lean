import Verif.Lemmas.LiveSets
/-!
# The targets of back edges for the liveness check
-/
namespace Verif.Model.LiveChk
open Verif.Model.Dom Verif.Spec.LiveTheory

variable {e : Env} {num : Nat → Nat} {r : Red}

/-- only what matters is in the sets -/
def Snd (e : Env) (t : Chains) : Prop := ∀ x, x ∈ e.blocks → ∀ k, (t.reach x).testBit k = true → ∃ y, TS e.Rd e.Bk x y ∧ e.id y = k

/-- the finished sets of the blocks with small numbers are complete -/
def Ex (e : Env) (num : Nat → Nat) (m : Nat) (t : Chains) : Prop :=
  ∀ x, x ∈ e.blocks → num x < m → t.known x = true → ∀ y, TS e.Rd e.Bk x y → (t.reach x).testBit (e.id y) = true

/-- what `compute_back_edge_chain` did -/
structure Chained (e : Env) (num : Nat → Nat) (b : Nat) (t t' : Chains) : Prop where
  snd : Snd e t'
  ex : Ex e num (num b + 1) t'
  known : t'.known b = true
  keep : ∀ x, x ≠ b → num b ≤ num x → t'.reach x = t.reach x ∧ t'.known x = t.known x
  mono : ∀ x, t.known x = true → t'.known x = true
  tg : ∀ s c, R e.Rd b s → e.Bk s c → ¬ R e.Rd b c → t'.known c = true

/-- in between, with the targets `P` -/
structure Mid (e : Env) (num : Nat → Nat) (b : Nat) (P : Nat → Prop) (t0 t : Chains) : Prop where
  snd : Snd e t
  ex : Ex e num (num b) t
  known : t.known b = true
  keep : ∀ x, x ≠ b → num b ≤ num x → t.reach x = t0.reach x ∧ t.known x = t0.known x
  mono : ∀ x, t0.known x = true → t.known x = true
  acc : ∀ c, P c → c ∈ e.blocks ∧ num c < num b ∧ t.known c = true ∧ (t.reach b).testBit (e.id c) = true ∧
    ∀ y, TS e.Rd e.Bk c y → (t.reach b).testBit (e.id y) = true

/-- the addition of a target -/
theorem mid_add (h : e.Ok num) {b s c : Nat} {P : Nat → Prop} {t0 t t1 : Chains} (hb : b ∈ e.blocks) (hm : Mid e num b P t0 t) (hs : R e.Rd b s)
    (hc : e.Bk s c) (hn : ¬ R e.Rd b c) (ht : t1 = t ∧ t.known c = true ∨ Chained e num c t t1) :
    Mid e num b (fun x => P x ∨ x = c) t0 ⟨set (set t1.reach b (ins (t1.reach b) (e.id c))) b
      (set t1.reach b (ins (t1.reach b) (e.id c)) b ||| set t1.reach b (ins (t1.reach b) (e.id c)) c), t1.known⟩ := by
  have hlt := h.dec b s c hb hs hc hn
  have hcm : c ∈ e.blocks := h.closed _ _ (R_mem h hs hb) hc.1
  have hcb : c ≠ b := by rintro rfl; omega
  -- the state after the call
  have h1 : Snd e t1 ∧ Ex e num (num b) t1 ∧ t1.known c = true ∧ (∀ x, num b ≤ num x → t1.reach x = t.reach x ∧ t1.known x = t.known x) ∧
      (∀ x, t.known x = true → t1.known x = true) := by
    rcases ht with ⟨rfl, hk⟩ | hC
    · exact ⟨hm.snd, hm.ex, hk, fun _ _ => ⟨rfl, rfl⟩, fun _ h => h⟩
    · refine ⟨hC.snd, fun x hx hxb hk y hy => ?_, hC.known, fun x hx => hC.keep x (by rintro rfl; omega) (by omega), hC.mono⟩
      by_cases hxc : num x < num c + 1
      · exact hC.ex x hx hxc hk y hy
      · obtain ⟨e1, e2⟩ := hC.keep x (by rintro rfl; omega) (by omega)
        rw [e1]
        rw [e2] at hk
        exact hm.ex x hx hxb hk y hy
  obtain ⟨hsnd, hex, hkc, hkeep, hmono⟩ := h1
  have eb : (t1.reach b) = t.reach b := (hkeep b (Nat.le_refl _)).1
  rw [set_same, set_other _ _ hcb]
  have key : ∀ k, (set (set t1.reach b (ins (t1.reach b) (e.id c))) b (ins (t1.reach b) (e.id c) ||| t1.reach c) b).testBit k = true ↔
      (t.reach b).testBit k = true ∨ k = e.id c ∨ (t1.reach c).testBit k = true := by
    intro k
    rw [set_same, testBit_union, testBit_ins, eb, or_assoc]
  have other : ∀ x, x ≠ b → set (set t1.reach b (ins (t1.reach b) (e.id c))) b (ins (t1.reach b) (e.id c) ||| t1.reach c) x = t1.reach x :=
    fun x hx => by rw [set_other _ _ hx, set_other _ _ hx]
  refine ⟨fun x hx k hk => ?_, fun x hx hxb hk y hy => ?_, hmono b hm.known, fun x hx hxb => ?_, fun x hx => hmono x (hm.mono x hx), fun x hx => ?_⟩
  · by_cases hxb : x = b
    · subst hxb
      rcases (key k).1 hk with h' | h' | h'
      · exact hm.snd x hx k h'
      · exact ⟨c, .base hs hc hn, h'.symm⟩
      · obtain ⟨y, hy, hk⟩ := hsnd c hcm k h'
        exact ⟨y, .step hs hc hn hy, hk⟩
    · rw [show ({ reach := set (set t1.reach b (ins (t1.reach b) (e.id c))) b (ins (t1.reach b) (e.id c) ||| t1.reach c), known := t1.known } : Chains).reach x = _ from other x hxb] at hk
      exact hsnd x hx k hk
  · show (set (set t1.reach b (ins (t1.reach b) (e.id c))) b (ins (t1.reach b) (e.id c) ||| t1.reach c) x).testBit (e.id y) = true
    rw [other x (by rintro rfl; omega)]
    exact hex x hx hxb hk y hy
  · show set (set t1.reach b (ins (t1.reach b) (e.id c))) b (ins (t1.reach b) (e.id c) ||| t1.reach c) x = t0.reach x ∧ t1.known x = t0.known x
    rw [other x hx, (hkeep x hxb).1, (hkeep x hxb).2]
    exact hm.keep x hx hxb
  · show x ∈ e.blocks ∧ num x < num b ∧ t1.known x = true ∧
      (set (set t1.reach b (ins (t1.reach b) (e.id c))) b (ins (t1.reach b) (e.id c) ||| t1.reach c) b).testBit (e.id x) = true ∧
      ∀ y, TS e.Rd e.Bk x y → (set (set t1.reach b (ins (t1.reach b) (e.id c))) b (ins (t1.reach b) (e.id c) ||| t1.reach c) b).testBit (e.id y) = true
    rcases hx with hx | rfl
    · obtain ⟨g1, g2, g3, g4, g5⟩ := hm.acc x hx
      exact ⟨g1, g2, hmono x g3, (key _).2 (Or.inl g4), fun y hy => (key _).2 (Or.inl (g5 y hy))⟩
    · exact ⟨hcm, hlt, hkc, (key _).2 (Or.inr (Or.inl rfl)), fun y hy => (key _).2 (Or.inr (Or.inr (hex x hcm hlt hkc y hy)))⟩

/-- the block itself is not in the set anyway -/
theorem mid_del (h : e.Ok num) {b : Nat} {P : Nat → Prop} {t0 t : Chains} (hb : b ∈ e.blocks) (hm : Mid e num b P t0 t) :
    Mid e num b P t0 { t with reach := set t.reach b (del (t.reach b) (e.id b)) } := by
  have key : ∀ y, y ∈ e.blocks → num y < num b → (t.reach b).testBit (e.id y) = true → (set t.reach b (del (t.reach b) (e.id b)) b).testBit (e.id y) = true := by
    intro y hy hlt hk
    rw [set_same, testBit_del]
    refine ⟨hk, fun hh => ?_⟩
    rw [h.idInj y b hy hb hh] at hlt
    omega
  refine ⟨fun x hx k hk => ?_, fun x hx hxb hk y hy => ?_, hm.known, fun x hx hxb => ?_, hm.mono, fun x hx => ?_⟩
  · have hk : (set t.reach b (del (t.reach b) (e.id b)) x).testBit k = true := hk
    by_cases hxb : x = b
    · subst hxb; rw [set_same, testBit_del] at hk; exact hm.snd x hx k hk.1
    · rw [set_other _ _ hxb] at hk; exact hm.snd x hx k hk
  · show (set t.reach b (del (t.reach b) (e.id b)) x).testBit (e.id y) = true
    rw [set_other _ _ (by rintro rfl; omega)]
    exact hm.ex x hx hxb hk y hy
  · show set t.reach b (del (t.reach b) (e.id b)) x = t0.reach x ∧ t.known x = t0.known x
    rw [set_other _ _ hx]
    exact hm.keep x hx hxb
  · obtain ⟨g1, g2, g3, g4, g5⟩ := hm.acc x hx
    refine ⟨g1, g2, g3, key x g1 g2 g4, fun y hy => key y (TS_mem h hy g1) ?_ (g5 y hy)⟩
    have := TS_lt h hy g1
    omega

theorem Mid.imp {b : Nat} {P Q : Nat → Prop} {t0 t : Chains} (hm : Mid e num b P t0 t) (h : ∀ x, Q x → P x) : Mid e num b Q t0 t :=
  ⟨hm.snd, hm.ex, hm.known, hm.keep, hm.mono, fun c hc => hm.acc c (h c hc)⟩

/-- the body of the loop over the successors of a source -/
def Env.chainStep (e : Env) (r : Red) (fuel b s : Nat) (t : Chains) (c : Nat) : Chains :=
  if e.back s c && !(r.reach b).testBit (e.id c) then
    let t := if t.known c then t else e.chain r fuel c t
    let t := { t with reach := set t.reach b (ins (t.reach b) (e.id c)) }
    { t with reach := set t.reach b (t.reach b ||| t.reach c) }
  else t

/-- the body of the loop over the sources -/
def Env.chainSrc (e : Env) (r : Red) (fuel b : Nat) (t : Chains) (i : Nat) : Chains :=
  match e.map i with
  | none => t
  | some s =>
    let t := (e.succ s).foldl (e.chainStep r fuel b s) t
    { t with reach := set t.reach b (del (t.reach b) (e.id b)) }

theorem chain_succ (fuel b : Nat) (t : Chains) : e.chain r (fuel + 1) b t =
    ((List.range e.n).filter (ins (r.reach b) (e.id b) &&& r.src).testBit).foldl (e.chainSrc r fuel b) { t with known := set t.known b true } := rfl

theorem mid_succs (h : e.Ok num) (hr : RedOk e r) {fuel b s : Nat} {t0 : Chains} (hb : b ∈ e.blocks) (hs : R e.Rd b s)
    (ih : ∀ c t, c ∈ e.blocks → num c < num b → Snd e t → Ex e num (num c) t → Chained e num c t (e.chain r fuel c t)) (L : List Nat) :
    ∀ (P : Nat → Prop) (t : Chains), (∀ c ∈ L, c ∈ e.succ s) → Mid e num b P t0 t →
      Mid e num b (fun x => P x ∨ x ∈ L ∧ e.back s x = true ∧ ¬ R e.Rd b x) t0 (L.foldl (e.chainStep r fuel b s) t) := by
  induction L with
  | nil => intro P t _ hm; exact hm.imp fun x hx => by simpa using hx
  | cons c L ihL =>
    intro P t hL hm
    rw [List.foldl_cons]
    have hcs := hL c (by simp)
    have hcm : c ∈ e.blocks := h.closed _ _ (R_mem h hs hb) hcs
    by_cases hcond : e.back s c = true ∧ ¬ R e.Rd b c
    · have hbit : (r.reach b).testBit (e.id c) = false := by
        cases hx : (r.reach b).testBit (e.id c) with
        | false => rfl
        | true => exact absurd ((hr.reach b hb c hcm).1 hx) hcond.2
      have hstep : Mid e num b (fun x => P x ∨ x = c) t0 (e.chainStep r fuel b s t c) := by
        unfold Env.chainStep
        rw [hcond.1, hbit]
        simp only [Bool.not_false, Bool.and_self, if_true]
        have hlt := h.dec b s c hb hs ⟨hcs, hcond.1⟩ hcond.2
        refine mid_add h (s := s) hb hm hs ⟨hcs, hcond.1⟩ hcond.2 ?_
        cases hk : t.known c with
        | true => exact Or.inl ⟨by simp, rfl⟩
        | false =>
          refine Or.inr ?_
          simp only [Bool.false_eq_true, if_false]
          exact ih c t hcm hlt hm.snd fun x hx hxc => hm.ex x hx (by omega)
      refine (ihL _ _ (fun x hx => hL x (by simp [hx])) hstep).imp ?_
      rintro x (hx | ⟨hx, h1, h2⟩)
      · exact Or.inl (Or.inl hx)
      · rcases List.mem_cons.1 hx with rfl | hx
        · exact Or.inl (Or.inr rfl)
        · exact Or.inr ⟨hx, h1, h2⟩
    · have hstep : e.chainStep r fuel b s t c = t := by
        unfold Env.chainStep
        rw [if_neg]
        intro hh
        rw [Bool.and_eq_true, Bool.not_eq_true'] at hh
        refine hcond ⟨hh.1, fun hR => ?_⟩
        rw [(hr.reach b hb c hcm).2 hR] at hh
        cases hh.2
      rw [hstep]
      refine (ihL _ _ (fun x hx => hL x (by simp [hx])) hm).imp ?_
      rintro x (hx | ⟨hx, h1, h2⟩)
      · exact Or.inl hx
      · rcases List.mem_cons.1 hx with rfl | hx
        · exact absurd ⟨h1, h2⟩ hcond
        · exact Or.inr ⟨hx, h1, h2⟩

theorem mid_srcs (h : e.Ok num) (hr : RedOk e r) {fuel b : Nat} {t0 : Chains} (hb : b ∈ e.blocks)
    (ih : ∀ c t, c ∈ e.blocks → num c < num b → Snd e t → Ex e num (num c) t → Chained e num c t (e.chain r fuel c t)) (I : List Nat) :
    ∀ (P : Nat → Prop) (t : Chains), (∀ i ∈ I, ∃ s, e.map i = some s ∧ R e.Rd b s) → Mid e num b P t0 t →
      Mid e num b (fun x => P x ∨ ∃ i ∈ I, ∃ s, e.map i = some s ∧ e.Bk s x ∧ ¬ R e.Rd b x) t0 (I.foldl (e.chainSrc r fuel b) t) := by
  induction I with
  | nil => intro P t _ hm; exact hm.imp fun x hx => by simpa using hx
  | cons i I ihI =>
    intro P t hI hm
    rw [List.foldl_cons]
    obtain ⟨s, hs1, hs2⟩ := hI i (by simp)
    have hstep : Mid e num b (fun x => P x ∨ x ∈ e.succ s ∧ e.back s x = true ∧ ¬ R e.Rd b x) t0 (e.chainSrc r fuel b t i) := by
      unfold Env.chainSrc
      rw [hs1]
      exact mid_del h hb (mid_succs h hr hb hs2 ih (e.succ s) P t (fun _ h => h) hm)
    refine (ihI _ _ (fun x hx => hI x (by simp [hx])) hstep).imp ?_
    rintro x (hx | ⟨j, hj, s', h1, h2, h3⟩)
    · exact Or.inl (Or.inl hx)
    · rcases List.mem_cons.1 hj with rfl | hj
      · rw [hs1] at h1; cases h1
        exact Or.inl (Or.inr ⟨h2.1, h2.2, h3⟩)
      · exact Or.inr ⟨j, hj, s', h1, h2, h3⟩

theorem chain_spec (h : e.Ok num) (hr : RedOk e r) : ∀ fuel b t, b ∈ e.blocks → num b < fuel → Snd e t → Ex e num (num b) t →
    Chained e num b t (e.chain r fuel b t) := by
  intro fuel
  induction fuel with
  | zero => intro b t _ hf; omega
  | succ fuel ih =>
    intro b t hb hf hsnd hex
    rw [chain_succ]
    have hmem : ∀ i, i ∈ (List.range e.n).filter (ins (r.reach b) (e.id b) &&& r.src).testBit ↔
        i < e.n ∧ ((r.reach b).testBit i = true ∨ i = e.id b) ∧ r.src.testBit i = true := by
      intro i
      rw [List.mem_filter, List.mem_range, Nat.testBit_and, Bool.and_eq_true, testBit_ins]
    have h0 : Mid e num b (fun _ => False) t { t with known := set t.known b true } := by
      refine ⟨hsnd, fun x hx hxb hk => hex x hx hxb ?_, set_same _ _ _, fun x hx _ => ⟨rfl, set_other _ _ hx⟩, fun x hx => ?_, fun c hc => hc.elim⟩
      · have hk : set t.known b true x = true := hk
        rwa [set_other _ _ (by rintro rfl; omega)] at hk
      · show set t.known b true x = true
        by_cases hxb : x = b
        · subst hxb; exact set_same _ _ _
        · rw [set_other _ _ hxb]; exact hx
    have hm := mid_srcs h hr hb (fun c t hc hlt hs hx => ih c t hc (by omega) hs hx)
      ((List.range e.n).filter (ins (r.reach b) (e.id b) &&& r.src).testBit) _ _ (fun i hi => by
        obtain ⟨h1, h2, h3⟩ := (hmem i).1 hi
        rcases h2 with h2 | rfl
        · obtain ⟨x, hx, rfl⟩ := hr.reachMem b hb i h2
          exact ⟨x, map_id h hx, (hr.reach b hb x hx).1 h2⟩
        · exact ⟨b, map_id h hb, .refl b⟩) h0
    generalize ((List.range e.n).filter (ins (r.reach b) (e.id b) &&& r.src).testBit).foldl (e.chainSrc r fuel b) { t with known := set t.known b true } = t' at hm ⊢
    have hP : ∀ s c, R e.Rd b s → e.Bk s c → ¬ R e.Rd b c → _ := fun s c h1 h2 h3 => hm.acc c (Or.inr ⟨e.id s, by
        have hsm := R_mem h h1 hb
        exact (hmem _).2 ⟨h.idLt s hsm, Or.inl ((hr.reach b hb s hsm).2 h1), (hr.src s hsm).2 ⟨c, h2⟩⟩, s, map_id h (R_mem h h1 hb), h2, h3⟩)
    refine ⟨hm.snd, fun x hx hxb hk y hy => ?_, hm.known, hm.keep, hm.mono, fun s c h1 h2 h3 => (hP s c h1 h2 h3).2.2.1⟩
    by_cases hxb' : x = b
    · subst hxb'
      cases hy with
      | base h1 h2 h3 => exact (hP _ _ h1 h2 h3).2.2.2.1
      | step h1 h2 h3 h4 => exact (hP _ _ h1 h2 h3).2.2.2.2 y h4
    · by_cases hlt : num x < num b
      · exact hm.ex x hx hlt hk y hy
      · exact absurd (h.numInj x b hx hb (by omega)) hxb'

/-- all finished sets are complete -/
def AllEx (e : Env) (t : Chains) : Prop :=
  ∀ x, x ∈ e.blocks → t.known x = true → ∀ y, TS e.Rd e.Bk x y → (t.reach x).testBit (e.id y) = true

theorem sources_spec (h : e.Ok num) (hr : RedOk e r) : Snd e (e.sources r) ∧ AllEx e (e.sources r) ∧
    ∀ b, b ∈ e.blocks → ((∃ c, e.Bk b c) ∨ ∃ s, s ∈ e.blocks ∧ e.Bk s b) → (e.sources r).known b = true := by
  have fold : ∀ (I : List Nat) (t : Chains), (∀ i ∈ I, ∃ s, e.map i = some s) → Snd e t → AllEx e t →
      let t' := I.foldl (fun t i => match e.map i with
        | none => t
        | some s => e.chain r (e.n + 1) s t) t
      Snd e t' ∧ AllEx e t' ∧ (∀ x, t.known x = true → t'.known x = true) ∧
        ∀ i ∈ I, ∀ s, e.map i = some s → t'.known s = true ∧ ∀ s' c, R e.Rd s s' → e.Bk s' c → ¬ R e.Rd s c → t'.known c = true := by
    intro I
    induction I with
    | nil => intro t _ h1 h2; exact ⟨h1, h2, fun _ h => h, by simp⟩
    | cons i I ih =>
      intro t hI h1 h2
      rw [List.foldl_cons]
      obtain ⟨s, hs⟩ := hI i (by simp)
      obtain ⟨hsm, -⟩ := map_some h hs
      have hC := chain_spec h hr (e.n + 1) s t hsm (by have := h.numLt s hsm; omega) h1 fun x hx _ => h2 x hx
      simp only [hs]
      generalize e.chain r (e.n + 1) s t = t1 at hC ⊢
      obtain ⟨g1, g2, g3, g4⟩ := ih t1 (fun x hx => hI x (by simp [hx])) hC.snd (fun x hx hk y hy => by
        by_cases hxs : num x < num s + 1
        · exact hC.ex x hx hxs hk y hy
        · obtain ⟨e1, e2⟩ := hC.keep x (by rintro rfl; omega) (by omega)
          rw [e1]; rw [e2] at hk
          exact h2 x hx hk y hy)
      refine ⟨g1, g2, fun x hx => g3 x (hC.mono x hx), fun j hj s' hs' => ?_⟩
      rcases List.mem_cons.1 hj with rfl | hj
      · rw [hs] at hs'; cases hs'
        exact ⟨g3 _ hC.known, fun s' c a1 a2 a3 => g3 _ (hC.tg s' c a1 a2 a3)⟩
      · exact g4 j hj s' hs'
  have hsrc : ∀ b, b ∈ e.blocks → (∃ c, e.Bk b c) → e.id b ∈ (List.range e.n).filter r.src.testBit := fun b hb hc =>
    List.mem_filter.2 ⟨List.mem_range.2 (h.idLt b hb), (hr.src b hb).2 hc⟩
  obtain ⟨g1, g2, -, g4⟩ := fold ((List.range e.n).filter r.src.testBit) ⟨fun _ => 0, fun _ => false⟩ (fun i hi => by
    obtain ⟨b, hb, rfl⟩ := hr.srcMem i (List.mem_filter.1 hi).2
    exact ⟨b, map_id h hb⟩) (fun x _ k hk => by simp at hk) (fun x _ hk => by cases hk)
  refine ⟨g1, g2, fun b hb hh => ?_⟩
  have hsk : ∀ b, b ∈ e.blocks → (∃ c, e.Bk b c) → _ := fun b hb hc => g4 (e.id b) (hsrc b hb hc) b (map_id h hb)
  rcases hh with hc | ⟨s, hs, hb'⟩
  · exact (hsk b hb hc).1
  · by_cases hR : R e.Rd s b
    · rw [← R_antisymm h hs hR (h.backR s b hs hb')]
      exact (hsk s hs ⟨b, hb'⟩).1
    · exact (hsk s hs ⟨b, hb'⟩).2 s b (.refl s) hb' hR

/-! ## The second loop -/

theorem pass_fold (b : Nat) (L : List Nat) (hL : ∀ c ∈ L, e.back b c = false → c ≠ b) : ∀ t : Nat → Nat,
    let t' := L.foldl (fun t c => if e.back b c = false then set t b (t b ||| t c) else t) t
    (∀ x, x ≠ b → t' x = t x) ∧
    (∀ k, (t' b).testBit k = true ↔ (t b).testBit k = true ∨ ∃ c ∈ L, e.back b c = false ∧ (t c).testBit k = true) := by
  induction L with
  | nil => intro t; simp
  | cons c L ih =>
    intro t
    rw [List.foldl_cons]
    have ih := ih (fun x hx => hL x (by simp [hx]))
    cases hc : e.back b c with
    | false =>
      simp only [if_true]
      obtain ⟨h1, h2⟩ := ih (set t b (t b ||| t c))
      refine ⟨fun x hx => (h1 x hx).trans (set_other _ _ hx), fun k => ?_⟩
      rw [h2 k, set_same, testBit_union]
      have hx : ∀ x ∈ L, e.back b x = false → set t b (t b ||| t c) x = t x := fun x hx hb => set_other _ _ (hL x (by simp [hx]) hb)
      constructor
      · rintro ((h | h) | ⟨x, a1, a2, a3⟩)
        · exact Or.inl h
        · exact Or.inr ⟨c, by simp, hc, h⟩
        · rw [hx x a1 a2] at a3; exact Or.inr ⟨x, by simp [a1], a2, a3⟩
      · rintro (h | ⟨x, a1, a2, a3⟩)
        · exact Or.inl (Or.inl h)
        · rcases List.mem_cons.1 a1 with rfl | a1
          · exact Or.inl (Or.inr a3)
          · exact Or.inr ⟨x, a1, a2, by rw [hx x a1 a2]; exact a3⟩
    | true =>
      rw [if_neg (by simp)]
      obtain ⟨h1, h2⟩ := ih t
      refine ⟨h1, fun k => (h2 k).trans ?_⟩
      simp [hc]

/-- the sets after the first `m` blocks -/
structure PassAt (e : Env) (t0 : Nat → Nat) (m : Nat) (t : Nat → Nat) : Prop where
  snd : ∀ i, i < m → ∀ k, (t (e.order i)).testBit k = true → ∃ x y, R e.Rd (e.order i) x ∧ TS e.Rd e.Bk x y ∧ e.id y = k
  ex : ∀ i, i < m → ∀ y, TS e.Rd e.Bk (e.order i) y → (t (e.order i)).testBit (e.id y) = true
  rest : ∀ b, (∀ i, i < m → e.order i ≠ b) → t b = t0 b

theorem pass_at (h : e.Ok num) (hr : RedOk e r) : ∀ m, m ≤ e.n →
    PassAt e (e.sources r).reach m (((List.range m).map e.order).foldl (e.pass r) (e.sources r).reach) := by
  obtain ⟨hsnd, hex, hknown⟩ := sources_spec h hr
  intro m
  induction m with
  | zero => intro _; exact ⟨fun i hi => by omega, fun i hi => by omega, fun _ _ => rfl⟩
  | succ m ih =>
    intro hm
    have ih := ih (by omega)
    rw [List.range_succ, List.map_append, List.foldl_append]
    generalize ((List.range m).map e.order).foldl (e.pass r) (e.sources r).reach = t at ih ⊢
    simp only [List.map_cons, List.map_nil, List.foldl_cons, List.foldl_nil]
    generalize hb : e.order m = b
    have hbm : b ∈ e.blocks := mem_blocks.2 ⟨m, by omega, hb⟩
    have hnb : ∀ c ∈ e.succ b, e.back b c = false → ∃ k, k < m ∧ e.order k = c := fun c hc hcb => by
      subst hb; exact h.topo m c (by omega) hc hcb
    have hne : ∀ k, k < m → e.order k ≠ b := fun k hk hkb => by
      have := h.inj k m (by omega) (by omega) (hkb.trans hb.symm); omega
    have htb : t b = (e.sources r).reach b := ih.rest b hne
    suffices hh : (∀ x, x ≠ b → e.pass r t b x = t x) ∧
        (∀ k, (e.pass r t b b).testBit k = true → ∃ x y, R e.Rd b x ∧ TS e.Rd e.Bk x y ∧ e.id y = k) ∧
        (∀ y, TS e.Rd e.Bk b y → (e.pass r t b b).testBit (e.id y) = true) by
      obtain ⟨h1, h2, h3⟩ := hh
      refine ⟨fun i hi k hk => ?_, fun i hi y hy => ?_, fun x hx => ?_⟩
      · by_cases him : i = m
        · subst him; rw [hb] at hk ⊢; exact h2 k hk
        · rw [h1 _ (hne i (by omega))] at hk; exact ih.snd i (by omega) k hk
      · by_cases him : i = m
        · subst him; rw [hb] at hy ⊢; exact h3 y hy
        · rw [h1 _ (hne i (by omega))]; exact ih.ex i (by omega) y hy
      · rw [h1 x (fun hh => hx m (by omega) (by rw [hb, hh]))]
        exact ih.rest x fun i hi => hx i (by omega)
    unfold Env.pass
    cases htg : r.tgt.testBit (e.id b) with
    | true =>
      simp only [if_true]
      rw [htb]
      refine ⟨fun _ _ => trivial, fun k hk => ?_, fun y hy => ?_⟩
      · obtain ⟨y, hy, hk⟩ := hsnd b hbm k hk
        exact ⟨b, y, .refl b, hy, hk⟩
      · exact hex b hbm (hknown b hbm (Or.inr ((hr.tgt b hbm).1 htg))) y hy
    | false =>
      simp only [Bool.false_eq_true, if_false]
      obtain ⟨h1, h2⟩ := pass_fold (e := e) b (e.succ b) (fun c hc hcb => by
        obtain ⟨k, hk, rfl⟩ := hnb c hc hcb
        exact hne k hk) t
      refine ⟨h1, fun k hk => ?_, fun y hy => ?_⟩
      · rcases (h2 k).1 hk with hk | ⟨c, a1, a2, a3⟩
        · rw [htb] at hk
          obtain ⟨y, hy, hk⟩ := hsnd b hbm k hk
          exact ⟨b, y, .refl b, hy, hk⟩
        · obtain ⟨j, hj, rfl⟩ := hnb c a1 a2
          obtain ⟨x, y, g1, g2, g3⟩ := ih.snd j hj k a3
          exact ⟨x, y, .step ⟨a1, a2⟩ g1, g2, g3⟩
      · rw [h2]
        have hcase : ∀ s t', R e.Rd b s → e.Bk s t' → ¬ R e.Rd b t' → (y = t' ∨ TS e.Rd e.Bk t' y) →
            (t b).testBit (e.id y) = true ∨ ∃ c ∈ e.succ b, e.back b c = false ∧ (t c).testBit (e.id y) = true := by
          intro s t' g1 g2 g3 g4
          cases g1 with
          | refl =>
            left
            rw [htb]
            exact hex b hbm (hknown b hbm (Or.inl ⟨t', g2⟩)) y hy
          | @step _ c _ k1 k2 =>
            right
            refine ⟨c, k1.1, k1.2, ?_⟩
            obtain ⟨j, hj, rfl⟩ := hnb c k1.1 k1.2
            refine ih.ex j hj y ?_
            have hnr : ¬ R e.Rd (e.order j) t' := fun hR => g3 (.step k1 hR)
            rcases g4 with rfl | g4
            · exact .base k2 g2 hnr
            · exact .step k2 g2 hnr g4
        cases hy with
        | base g1 g2 g3 => exact hcase _ _ g1 g2 g3 (Or.inl rfl)
        | step g1 g2 g3 g4 => exact hcase _ _ g1 g2 g3 (Or.inr g4)

/-- `compute_back_edge_chains` -/
structure TgtOk (e : Env) (t : Nat → Nat) : Prop where
  snd : ∀ b, b ∈ e.blocks → ∀ k, (t b).testBit k = true → ∃ y, y ∈ e.blocks ∧ e.id y = k ∧ (y = b ∨ ∃ x, R e.Rd b x ∧ TS e.Rd e.Bk x y)
  ex : ∀ b, b ∈ e.blocks → ∀ y, y = b ∨ TS e.Rd e.Bk b y → (t b).testBit (e.id y) = true

theorem targets_ok (h : e.Ok num) (hr : RedOk e r) : TgtOk e (e.targets r) := by
  have hp := pass_at h hr e.n (Nat.le_refl _)
  change PassAt e (e.sources r).reach e.n (e.blocks.foldl (e.pass r) (e.sources r).reach) at hp
  unfold Env.targets
  generalize e.blocks.foldl (e.pass r) (e.sources r).reach = t at hp
  have fold : ∀ (L : List Nat) (t : Nat → Nat) (b k : Nat), ((L.foldl (fun t b => set t b (ins (t b) (e.id b))) t) b).testBit k = true ↔
      (t b).testBit k = true ∨ (b ∈ L ∧ k = e.id b) := by
    intro L
    induction L with
    | nil => intro t b k; simp
    | cons c L ih =>
      intro t b k
      rw [List.foldl_cons, ih]
      by_cases hbc : b = c
      · subst hbc
        rw [set_same, testBit_ins]
        constructor
        · rintro ((h | h) | h)
          · exact Or.inl h
          · exact Or.inr ⟨by simp, h⟩
          · exact Or.inr ⟨by simp, h.2⟩
        · rintro (h | h)
          · exact Or.inl (Or.inl h)
          · exact Or.inl (Or.inr h.2)
      · rw [set_other _ _ hbc]
        simp [hbc]
  refine ⟨fun b hb k hk => ?_, fun b hb y hy => (fold _ _ _ _).2 ?_⟩
  · rcases (fold _ _ _ _).1 hk with hk | ⟨-, hk⟩
    · obtain ⟨i, hi, rfl⟩ := mem_blocks.1 hb
      obtain ⟨x, y, h1, h2, h3⟩ := hp.snd i hi k hk
      exact ⟨y, TS_mem h h2 (R_mem h h1 hb), h3, Or.inr ⟨x, h1, h2⟩⟩
    · exact ⟨b, hb, hk.symm, Or.inl rfl⟩
  · rcases hy with rfl | hy
    · exact Or.inr ⟨hb, rfl⟩
    · obtain ⟨i, hi, rfl⟩ := mem_blocks.1 hb
      exact Or.inl (hp.ex i hi y hy)

end Verif.Model.LiveChk
