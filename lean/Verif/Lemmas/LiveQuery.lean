import Verif.Lemmas.LiveEnv
import Verif.Spec.Liveness
/-!
# The answers of the check
-/
namespace Verif.Model.LiveChk
open Verif.Model.Dom Verif.Spec Verif.Spec.DomTheory Verif.Spec.LiveTheory

variable {succ : Nat → List Nat} {g : Cfg}

theorem LiveOk.av_path (h : LiveOk succ g) {d dn : Nat} (hd : Num succ g d dn) {i j : Nat} (ha : Av (EE succ g) dn i j) : ∀ {b c}, Num succ g b i → Num succ g c j →
    ∃ l, Path g.Flow b l c ∧ d ∉ l := by
  induction ha with
  | refl hne =>
    intro b c hb hc
    rw [h.inj hb hc]
    refine ⟨[c], .nil c, fun hm => ?_⟩
    rw [List.mem_singleton] at hm
    subst hm
    exact hne (Option.some.inj (hc.symm.trans hd))
  | @step i k j hne he _ ih =>
    intro b c hb hc
    obtain ⟨x, hx⟩ := h.of he.2.1
    obtain ⟨l, h1, h2⟩ := ih hx hc
    refine ⟨b :: l, .cons ((h.succ b x).1 ((h.edge hb hx).2 he)) h1, fun hm => ?_⟩
    rcases List.mem_cons.1 hm with rfl | hm
    · exact hne (Option.some.inj (hb.symm.trans hd))
    · exact h2 hm

theorem LiveOk.path_av (h : LiveOk succ g) {d dn : Nat} (hd : Num succ g d dn) {b c : Nat} {l : List Nat} (hp : Path g.Flow b l c) : d ∉ l → ∀ {i}, Num succ g b i →
    ∃ j, Num succ g c j ∧ Av (EE succ g) dn i j := by
  induction hp with
  | nil v =>
    intro hn i hi
    refine ⟨i, hi, .refl ?_⟩
    rintro rfl
    exact hn (by rw [h.inj hd hi]; simp)
  | @cons u w v l he _ ih =>
    intro hn i hi
    obtain ⟨k, hk⟩ := h.closed hi ((h.succ _ _).2 he)
    obtain ⟨j, hj, ha⟩ := ih (fun hm => hn (List.mem_cons_of_mem _ hm)) hk
    refine ⟨j, hj, .step ?_ ((h.edge hi hk).1 ((h.succ _ _).2 he)) ha⟩
    rintro rfl
    exact hn (by rw [h.inj hd hi]; simp)

theorem LiveOk.stop_path (h : LiveOk succ g) {u v : Nat} {l : List Nat} (hp : Path g.Flow u l v) (hm : g.stop ∈ l) : v = g.stop := by
  induction hp with
  | nil v => rw [List.mem_singleton] at hm; exact hm.symm
  | cons he _ ih =>
    rcases List.mem_cons.1 hm with rfl | hm
    · exact absurd he (h.stopOut _)
    · exact ih hm

theorem LiveOk.stop_R (h : LiveOk succ g) {c : Nat} (hr : R (env succ g).Rd g.stop c) : c = g.stop := by
  cases hr with
  | refl => rfl
  | step h1 _ => exact absurd h1.1 h.noSucc

theorem LiveOk.stop_TS (h : LiveOk succ g) {c : Nat} (hr : TS (env succ g).Rd (env succ g).Bk g.stop c) : False := by
  cases hr with
  | base h1 h2 _ => rw [h.stop_R h1] at h2; exact h.noSucc h2.1
  | step h1 h2 _ _ => rw [h.stop_R h1] at h2; exact h.noSucc h2.1

/-- the end block is no target -/
theorem LiveOk.stop_bk (h : LiveOk succ g) {s : Nat} (hs : s ∈ (env succ g).blocks) (hb : (env succ g).Bk s g.stop) : False := by
  have := h.stop_R (h.env_ok.backR s _ hs hb)
  subst this
  exact h.noSucc hb.1

/-- the targets for a block that is not the end block -/
theorem LiveOk.tgt_num (h : LiveOk succ g) {b i : Nat} (hb : Num succ g b i) {t : Nat} (htm : t ∈ (env succ g).blocks)
    (ht : ((env succ g).targets (env succ g).red b).testBit ((env succ g).id t) = true) :
    ∃ j, Num succ g t j ∧ (t = b ∨ R (LiveTheory.Red (EE succ g) (PP succ g)) i j ∨ TS (LiveTheory.Red (EE succ g) (PP succ g)) (LiveTheory.Back (EE succ g) (PP succ g)) i j) := by
  have hT := targets_ok h.env_ok (red_ok h.env_ok)
  obtain ⟨y, hy, hid, hcase⟩ := hT.snd b (h.of_num hb) _ ht
  have := h.env_ok.idInj y t hy htm hid
  subst this
  rcases hcase with rfl | ⟨x, hx, hts⟩
  · exact ⟨i, hb, Or.inl rfl⟩
  · obtain ⟨k, hk, hr⟩ := h.toR hx hb
    obtain ⟨j, hj, hts'⟩ := h.toTS hts hk
    exact ⟨j, hj, Or.inr (TS.ofR hr hts')⟩

theorem LiveOk.skip (h : LiveOk succ g) {b : Nat} (hb : b ∈ (env succ g).blocks) (t u : Nat) (ht : t ∈ (env succ g).blocks) (hu : u ∈ (env succ g).blocks)
    (h1 : ((env succ g).targets (env succ g).red b).testBit ((env succ g).id t) = true)
    (h2 : ((env succ g).targets (env succ g).red b).testBit ((env succ g).id u) = true)
    (h3 : (env succ g).id t ≤ (env succ g).id u) (h4 : (env succ g).id u ≤ (env succ g).treeMax t) : R (env succ g).Rd t u := by
  have hdom := (h.ids (h.mem.1 ht) (h.mem.1 hu)).1.1 ⟨h3, h4⟩
  by_cases hst : b = g.stop
  · subst hst
    have hT := targets_ok h.env_ok (red_ok h.env_ok)
    have key : ∀ y, y ∈ (env succ g).blocks → ((env succ g).targets (env succ g).red g.stop).testBit ((env succ g).id y) = true → y = g.stop := by
      intro y hy hbit
      obtain ⟨z, hz, hid, hcase⟩ := hT.snd _ hb _ hbit
      have := h.env_ok.idInj z y hz hy hid
      subst this
      rcases hcase with rfl | ⟨x, hx, hts⟩
      · rfl
      · rw [h.stop_R hx] at hts; exact absurd hts (fun hh => h.stop_TS hh)
    rw [key t ht h1, key u hu h2]
    exact .refl _
  · obtain ⟨i, hi⟩ := h.num_of hb hst
    obtain ⟨j, hj, -⟩ := h.tgt_num hi ht h1
    obtain ⟨k, hk, -⟩ := h.tgt_num hi hu h2
    have hra := (h.dom hj hk).1 (dom_flow_of hdom)
    have hanc : Anc (PP succ g) j k := Classical.byContradiction fun hh => hra (ra_of_not_anc h.tree (h.numLt hk) hh)
    exact h.ofR (tree_R h.tree hanc (h.numLt hk)) hj hk

/-- the first edge of a path -/
theorem av_first {E : Nat → Nat → Prop} {d i j : Nat} (h : Av E d i j) (hne : i ≠ j) : ∃ c, E i c ∧ Av E d c j := by
  cases h with
  | refl => exact absurd rfl hne
  | step _ he h => exact ⟨_, he, h⟩

theorem LiveOk.look (h : LiveOk succ g) {d b : Nat} (hb : b ∈ (env succ g).blocks) (hdm : d ∈ (env succ g).blocks) (hdb : Dominates g.Edge g.start d b) (hne : d ≠ b)
    {U : Nat → Prop} {uses : Nat} (hU : ∀ k, uses.testBit k = true ↔ ∃ c, U c ∧ k = (env succ g).id c)
    (hUd : ∀ c, U c → Reachable g.Flow g.start c ∧ Dominates g.Edge g.start d c) :
    (env succ g).look (env succ g).new b ((env succ g).treeMax d) ((env succ g).n + 1)
      (next (env succ g).n ((env succ g).new.tgt b) ((env succ g).treePre d + 1)) uses = true ↔ LiveOut g.Flow d U b := by
  have hE := h.env_ok
  have hR := red_ok hE
  have hT := targets_ok hE hR
  have hUm : ∀ c, U c → c ∈ (env succ g).blocks := fun c hc => by
    obtain ⟨l, hl⟩ := (hUd c hc).1
    exact h.mem.2 ⟨l, path_mono (fun _ _ => flow_edge) hl⟩
  rw [look_spec (lv := (env succ g).new) hE hR hT hb (fun t ht => (h.ids (h.mem.1 ht) (h.mem.1 ht)).2.1) (h.skip hb) uses _ _ (by omega) (by omega)]
  -- the range of numbers is the subtree of the definition
  have hrange : ∀ t, t ∈ (env succ g).blocks → ((env succ g).treePre d + 1 ≤ (env succ g).id t ∧ (env succ g).id t ≤ (env succ g).treeMax d ↔
      Dominates g.Edge g.start d t ∧ d ≠ t) := by
    intro t ht
    obtain ⟨e1, e2, e3, e4⟩ := h.ids (h.mem.1 hdm) (h.mem.1 ht)
    rw [← e1, ← e4]
    constructor
    · rintro ⟨a1, a2⟩
      exact ⟨⟨by omega, a2⟩, by rintro rfl; omega⟩
    · rintro ⟨⟨a1, a2⟩, a3⟩
      refine ⟨?_, a2⟩
      rcases Nat.lt_or_eq_of_le a1 with h1 | h1
      · exact h1
      · exact absurd (hE.idInj d t hdm ht h1) a3
  by_cases hst : b = g.stop
  · -- the end block
    subst hst
    constructor
    · rintro ⟨t, ht, -, -, hbit, u, hu, -, hr, hex⟩
      obtain ⟨z, hz, hid, hcase⟩ := hT.snd _ hb _ hbit
      have := hE.idInj z t hz ht hid
      subst this
      rcases hcase with rfl | ⟨x, hx, hts⟩
      · have hub := h.stop_R hr
        refine absurd hub (hex rfl ?_)
        rw [← Bool.not_eq_true]
        intro htgt
        obtain ⟨s, hs, hbk⟩ := (hR.tgt _ hb).1 htgt
        exact h.stop_bk hs hbk
      · rw [h.stop_R hx] at hts; exact absurd hts (fun hh => h.stop_TS hh)
    · rintro ⟨c, hc, -⟩
      exact absurd hc (h.stopOut c)
  obtain ⟨i, hi⟩ := h.num_of hb hst
  have hdst : d ≠ g.stop := by
    rintro rfl
    obtain ⟨l, hl⟩ := h.num_iff.1 ⟨i, hi⟩
    exact hst (h.stop_path hl (hdb l (path_mono (fun _ _ => flow_edge) hl)))
  obtain ⟨dn, hd⟩ := h.num_of hdm hdst
  have hp : ∀ u v, LiveTheory.Red (EE succ g) (PP succ g) u v →
      (fun x => (LiveChk.base succ g.n g.start).post ((LiveChk.base succ g.n g.start).block x)) v <
      (fun x => (LiveChk.base succ g.n g.start).post ((LiveChk.base succ g.n g.start).block x)) u := fun u v hr => h.base.post_lt hr
  have hanc : ∀ t j, Num succ g t j → Dominates g.Edge g.start d t → Anc (PP succ g) dn j := fun t j hj hdt =>
    Classical.byContradiction fun hh => (h.dom hd hj).1 (dom_flow_of hdt) (ra_of_not_anc h.tree (h.numLt hj) hh)
  have hnn : ∀ t j, Num succ g t j → d ≠ t → dn ≠ j := by
    rintro t j hj hh rfl
    exact hh (h.inj hd hj)
  have hi1 := hanc b i hi hdb
  have hi2 := hnn b i hi hne
  constructor
  · rintro ⟨t, ht, a1, a2, hbit, u, hu, hub, hr, hex⟩
    obtain ⟨hdt, hdne⟩ := (hrange t ht).1 ⟨a1, a2⟩
    have hUu : U u := by
      obtain ⟨c, hc, hid⟩ := (hU _).1 hub
      rw [hE.idInj u c hu (hUm c hc) hid]; exact hc
    obtain ⟨j, hj, hcase⟩ := h.tgt_num hi ht hbit
    obtain ⟨k, hk, hr'⟩ := h.toR hr hj
    have hav2 := hr'.av h.tree hp (h.numLt hj) (hanc t j hj hdt) (hnn t j hj hdne)
    -- a path with at least one edge
    suffices hh : ∃ c, EE succ g i c ∧ Av (EE succ g) dn c k by
      obtain ⟨c, hc, hav⟩ := hh
      obtain ⟨x, hx⟩ := h.of hc.2.1
      obtain ⟨l, h1, h2⟩ := h.av_path hd hav hx hk
      exact ⟨x, (h.succ _ _).1 ((h.edge hi hx).2 hc), l, u, h1, hUu, h2⟩
    by_cases htb : t = b
    · subst htb
      cases Option.some.inj (hi.symm.trans hj)
      by_cases hub' : u = t
      · subst hub'
        cases Option.some.inj (hi.symm.trans hk)
        have htgt : (env succ g).red.tgt.testBit ((env succ g).id u) = true := by
          rw [← Bool.not_eq_false]
          exact fun hf => hex rfl hf rfl
        obtain ⟨s, hs, hbk⟩ := (hR.tgt u hb).1 htgt
        have hsn : s ≠ g.stop := by rintro rfl; exact h.noSucc hbk.1
        obtain ⟨m, hm⟩ := h.num_of hs hsn
        obtain ⟨i', hi', hb1, hb2⟩ := (h.bk hm).1 hbk
        cases Option.some.inj (hi.symm.trans hi')
        by_cases him : i = m
        · subst him; exact ⟨i, hb1, .refl fun hh => hi2 hh.symm⟩
        · have hav := (tree_R h.tree hb2 (h.numLt hm)).av h.tree hp (h.numLt hi) hi1 hi2
          obtain ⟨c, c1, c2⟩ := av_first hav him
          exact ⟨c, c1, c2.trans (.step hav.ne.2 hb1 (.refl fun hh => hi2 hh.symm))⟩
      · exact av_first hav2 fun hh => hub' (by subst hh; exact h.inj hk hi)
    · have hav1 : Av (EE succ g) dn i j := by
        rcases hcase with hh | hh | hh
        · exact absurd hh htb
        · exact hh.av h.tree hp (h.numLt hi) hi1 hi2
        · exact hh.av h.tree hp (h.numLt hi) hi1 hi2 (hanc t j hj hdt) (hnn t j hj hdne)
      obtain ⟨c, c1, c2⟩ := av_first hav1 fun hh => htb (by subst hh; exact h.inj hj hi)
      exact ⟨c, c1, c2.trans hav2⟩
  · rintro ⟨c, hc, l, u, hl, hUu, hdl⟩
    obtain ⟨m, hm⟩ := h.closed hi ((h.succ _ _).2 hc)
    obtain ⟨k, hk, hav⟩ := h.path_av hd hl hdl hm
    have hem := (h.edge hi hm).1 ((h.succ _ _).2 hc)
    have hrk : ¬ RA (EE succ g) dn k := (h.dom hd hk).1 (dom_flow_of (hUd u hUu).2)
    -- it is enough to have a target
    suffices hh : ∃ t, (t = i ∨ TS (LiveTheory.Red (EE succ g) (PP succ g)) (LiveTheory.Back (EE succ g) (PP succ g)) i t) ∧ ¬ RA (EE succ g) dn t ∧ t ≠ dn ∧
        R (LiveTheory.Red (EE succ g) (PP succ g)) t k ∧ (t = i → (∃ s, LiveTheory.Back (EE succ g) (PP succ g) s i) ∨ k ≠ i) by
      obtain ⟨t, ht1, ht2, ht3, ht4, ht5⟩ := hh
      have htlt : t < (LiveChk.base succ g.n g.start).used := by
        rcases ht1 with rfl | hh
        · exact h.numLt hi
        · exact Nat.lt_trans (hh.lt h.tree (h.numLt hi)) (h.numLt hi)
      obtain ⟨x, hx⟩ := h.of htlt
      have hxm := h.of_num hx
      have hxs : x ≠ g.stop := by
        rcases ht1 with rfl | hh
        · rw [h.inj hx hi]; exact hst
        · rintro rfl
          obtain ⟨s, hs⟩ := hh.target
          obtain ⟨y, hy⟩ := h.of hs.1.1
          exact h.stop_bk (h.of_num hy) ((h.bk hy).2 ⟨t, hx, hs⟩)
      have hdx : Dominates g.Edge g.start d x := (h.dom_flow hxs).2 ((h.dom hd hx).2 ht2)
      have hdx' : d ≠ x := by
        rintro rfl
        exact ht3 (Option.some.inj (hx.symm.trans hd))
      obtain ⟨r1, r2⟩ := (hrange x hxm).2 ⟨hdx, hdx'⟩
      refine ⟨x, hxm, r1, r2, ?_, u, hUm u hUu, (hU _).2 ⟨u, hUu, rfl⟩, h.ofR ht4 hx hk, fun hxb hnt => ?_⟩
      · refine hT.ex b hb x ?_
        rcases ht1 with rfl | hh
        · exact Or.inl (h.inj hx hi)
        · exact Or.inr (h.ofTS hh hi hx)
      · subst hxb
        have hti := Option.some.inj (hx.symm.trans hi)
        rcases ht5 hti with ⟨s, hs⟩ | hne'
        · exfalso
          obtain ⟨y, hy⟩ := h.of hs.1.1
          have := (hR.tgt x hb).2 ⟨y, h.of_num hy, (h.bk hy).2 ⟨i, hi, hs⟩⟩
          have hnt' : (env succ g).red.tgt.testBit ((env succ g).id x) = false := hnt
          rw [this] at hnt'; cases hnt'
        · rintro rfl
          exact hne' (Option.some.inj (hk.symm.trans hi))
    by_cases hcase : (∃ s, LiveTheory.Back (EE succ g) (PP succ g) s i) ∨ k ≠ i
    · obtain ⟨t, t1, t2, t3, t4⟩ := (Av.step (fun hh => hi2 hh.symm) hem hav).target (p := PP succ g) hrk
      exact ⟨t, t1, t2, t3, t4, fun _ => hcase⟩
    · have hki : k = i := Classical.byContradiction fun hh => hcase (Or.inr hh)
      subst hki
      obtain ⟨t, t1, t2, t3, t4⟩ := Av.cycle hp hem hav hrk fun s hs => hcase (Or.inl ⟨s, hs⟩)
      have := t1.lt h.tree (h.numLt hi)
      exact ⟨t, Or.inr t1, t2, t3, t4, fun hh => by omega⟩

/-! ## The block of the definition -/

/-- the part of a path after the last time `d` is on it -/
theorem path_after {E : Nat → Nat → Prop} {u v d : Nat} {l : List Nat} (hp : Path E u l v) (hd : d ∈ l) (hne : v ≠ d) :
    ∃ c l', E d c ∧ Path E c l' v ∧ d ∉ l' := by
  induction hp with
  | nil v => rw [List.mem_singleton] at hd; exact absurd hd.symm hne
  | @cons u w v l he hp ih =>
    by_cases hl : d ∈ l
    · exact ih hl hne
    · rcases List.mem_cons.1 hd with rfl | hd
      · exact ⟨w, l, he, hp, hl⟩
      · exact absurd hd hl

theorem path_append {E : Nat → Nat → Prop} {u v w : Nat} {l l' : List Nat} (h1 : Path E u l v) (h2 : Path E v l' w) :
    ∃ l'', Path E u l'' w ∧ ∀ x ∈ l'', x ∈ l ∨ x ∈ l' := by
  induction h1 with
  | nil => exact ⟨l', h2, fun x hx => Or.inr hx⟩
  | @cons u a v l he _ ih =>
    obtain ⟨l'', h3, h4⟩ := ih h2
    refine ⟨u :: l'', .cons he h3, fun x hx => ?_⟩
    rcases List.mem_cons.1 hx with rfl | hx
    · exact Or.inl (by simp)
    · rcases h4 x hx with h | h
      · exact Or.inl (List.mem_cons_of_mem _ h)
      · exact Or.inr h

/-- where a value is live, its definition dominates -/
theorem live_dom {d b : Nat} {U : Nat → Prop} (hUd : ∀ c, U c → Dominates g.Edge g.start d c) (h : LiveIn g.Flow d U b) : Dominates g.Edge g.start d b := by
  obtain ⟨l, u, hl, hu, hd⟩ := h
  intro l0 hl0
  obtain ⟨l1, h1, h2⟩ := path_append hl0 (path_mono (fun _ _ => flow_edge) hl)
  rcases h2 d (hUd u hu l1 h1) with h | h
  · exact h
  · exact absurd h hd

theorem liveIn_iff {E : Nat → Nat → Prop} {d b : Nat} {U : Nat → Prop} (hne : d ≠ b) : LiveIn E d U b ↔ U b ∨ LiveOut E d U b := by
  constructor
  · rintro ⟨l, u, hl, hu, hd⟩
    cases hl with
    | nil => exact Or.inl hu
    | cons he hp => exact Or.inr ⟨_, he, _, u, hp, hu, fun hh => hd (List.mem_cons_of_mem _ hh)⟩
  · rintro (hu | ⟨c, hc, l, u, hl, hu, hd⟩)
    · exact ⟨[b], b, .nil b, hu, by simp [hne]⟩
    · refine ⟨b :: l, u, .cons hc hl, hu, fun hh => ?_⟩
      rcases List.mem_cons.1 hh with h | h
      · exact hne h
      · exact hd h

theorem liveIn_self {E : Nat → Nat → Prop} {d : Nat} {U : Nat → Prop} : ¬ LiveIn E d U d := by
  rintro ⟨l, u, hl, -, hd⟩
  exact hd (path_first hl)

end Verif.Model.LiveChk
