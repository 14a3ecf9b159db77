import Verif.Lemmas.LiveLook
import Verif.Lemmas.LiveDfs
import Verif.Lemmas.DomFront
import Verif.Spec.LiveCfg
/-!
# The search of a graph meets what the check relies on
-/
namespace Verif.Model.LiveChk
open Verif.Model.Dom Verif.Spec Verif.Spec.DomTheory Verif.Spec.LiveTheory

variable {n : Nat} {succ : Nat → List Nat} {start stop : Nat}

/-- the search from the start block -/
def base (succ : Nat → List Nat) (n start : Nat) : Search := perform succ (n + 1) start none 0 Search.init

/-- what a finished search is -/
structure BaseOk (n : Nat) (succ : Nat → List Nat) (start : Nat) (s : Search) : Prop where
  fin : Finished n (rev succ) s.toDfs
  root : s.num start = some 0
  late : Late 0 0 s
  maxLt : MaxLt s
  done : s.done = s.used
  ancRoot : s.anc start = none
  anc : ∀ j, 0 < j → j < s.used → s.anc (s.block j) = some (s.block (s.parent j))

theorem base_ok (hsucc : ∀ b c, b < n → c ∈ succ b → c < n) (hs : start < n) : BaseOk n succ start (base succ n start) := by
  have hrev : ∀ b c, b < n → c ∈ rev succ b → c < n := fun b c hb hc => hsucc b c hb (List.mem_reverse.1 hc)
  have hm : MaxLt Search.init := by intro c j h; simp [Search.init, Dfs.init] at h
  obtain ⟨-, hP⟩ := perform_spec hsucc (n + 1) start none 0 Search.init hs (init_wf n) rfl (by simp [Search.init, Dfs.init]) hm
  have hf := dfs_finished hrev hs (Nat.lt_succ_self n)
  have hb : (base succ n start).toDfs = visit (rev succ) (n + 1) start 0 Dfs.init := perform_base (n + 1) start none 0 Search.init rfl
  rw [← hb] at hf
  refine ⟨hf.1, hf.2, hP.late, hP.maxLt, ?_, hP.ancb, hP.anc⟩
  have := hP.done
  show (perform succ (n + 1) start none 0 Search.init).done = (perform succ (n + 1) start none 0 Search.init).used
  have h1 : Search.init.done = 0 := rfl
  have h2 : Search.init.used = 0 := rfl
  omega

section
variable {s : Search}

theorem BaseOk.num_block (h : BaseOk n succ start s) {j : Nat} (hj : j < s.used) : s.num (s.block j) = some j := (h.fin.wf.iff _ _).2 ⟨hj, rfl⟩

theorem BaseOk.parLt (h : BaseOk n succ start s) {j : Nat} (h0 : 0 < j) (hj : j < s.used) : s.parent j < j := (h.fin.inner j h0 hj).1

/-- the numbers of a subtree -/
theorem BaseOk.anc_iff (h : BaseOk n succ start s) {j x : Nat} (hj : j < s.used) (hx : x < s.used) :
    Anc s.parent j x ↔ j ≤ x ∧ x ≤ s.maxPre (s.block j) := by
  obtain ⟨h1, h2, h3⟩ := h.late.last j (Nat.zero_le _) hj
  have hml := h.maxLt _ _ (h.num_block hj)
  constructor
  · intro ha
    induction ha with
    | refl => exact ⟨Nat.le_refl _, h1⟩
    | @step b h0 ha ih =>
      have hb := h.parLt h0 hx
      obtain ⟨i1, i2⟩ := ih (by omega)
      refine ⟨by omega, Nat.le_of_not_lt fun hc => ?_⟩
      rcases h3 b hc hx with h | h <;> omega
  · rintro ⟨a1, a2⟩
    exact anc_of_range h2 (fun x h0 hx => h.parLt h0 (by omega)) x a1 a2

/-- the postorder is a topological order without the back edges -/
theorem BaseOk.post_lt (h : BaseOk n succ start s) {u v : Nat} (hr : LiveTheory.Red (s.toDfs.Edge (rev succ)) s.parent u v) : s.post (s.block v) < s.post (s.block u) := by
  obtain ⟨⟨hu, hv, he⟩, hna⟩ := hr
  rcases Nat.lt_trichotomy u v with hlt | rfl | hlt
  · have := (h.anc_iff hu hv).1 (h.fin.tree.fwd ⟨hu, hv, he⟩ hlt)
    exact (h.late.cmp u v (Nat.zero_le _) hlt hv).1 this.2
  · exact absurd .refl hna
  · refine (h.late.cmp v u (Nat.zero_le _) hlt hu).2 (Nat.lt_of_not_le fun hle => ?_)
    exact hna ((h.anc_iff hv hu).2 ⟨by omega, hle⟩)

/-- the kinds of edges -/
theorem BaseOk.kind_back (h : BaseOk n succ start s) {b c i j : Nat} (hb : s.num b = some i) (hc : s.num c = some j) :
    s.kind b c = .back ↔ Anc s.parent j i := by
  obtain ⟨hi, hbi⟩ := (h.fin.wf.iff _ _).1 hb
  obtain ⟨hj, hcj⟩ := (h.fin.wf.iff _ _).1 hc
  have hA : s.isAncestor c b = true ↔ Anc s.parent j i := by
    unfold Search.isAncestor
    rw [hb, hc, Bool.and_eq_true, decide_eq_true_iff, decide_eq_true_iff, h.anc_iff hj hi, hcj]
    exact Iff.rfl
  have hna : s.anc c = some b → ¬ Anc s.parent j i := by
    intro ha hanc
    by_cases h0 : j = 0
    · subst h0
      have : c = start := by rw [← hcj]; exact ((h.fin.wf.iff _ _).1 h.root).2
      rw [this, h.ancRoot] at ha; cases ha
    · have h1 := h.anc j (by omega) hj
      rw [hcj, ha] at h1
      have hp := h.parLt (by omega) hj
      have : i = s.parent j := by
        have := h.num_block (j := s.parent j) (by omega)
        rw [← Option.some.inj h1, hb] at this
        exact Option.some.inj this
      have := hanc.le h.fin.tree hi
      omega
  unfold Search.kind
  by_cases h1 : s.anc c = some b
  · rw [if_pos h1]
    exact ⟨fun hh => (nomatch hh), fun hh => absurd hh (hna h1)⟩
  · rw [if_neg h1]
    by_cases h2 : s.isAncestor c b = true
    · rw [if_pos h2]; exact ⟨fun _ => hA.1 h2, fun _ => rfl⟩
    · rw [if_neg h2]
      refine ⟨fun hh => ?_, fun hh => absurd (hA.2 hh) h2⟩
      split at hh <;> cases hh

end

/-! ## The end block -/

/-- how the result follows from the search -/
structure SearchOk (n : Nat) (stop : Nat) (s0 s : Search) : Prop where
  wf : Wf n s.toDfs
  used : s0.used ≤ s.used
  done : s.done = s.used
  old : ∀ b i, s0.num b = some i → s.num b = some i ∧ s.post b = s0.post b ∧ s.maxPre b = s0.maxPre b ∧ s.anc b = s0.anc b
  new : ∀ b i, s.num b = some i → s0.num b = some i ∨ b = stop
  order : ∀ k, k < s.used → ∃ b i, s.num b = some i ∧ s.post b = k ∧ s.order k = b
  post : ∀ b i, s.num b = some i → s.post b < s.used ∧ s.order (s.post b) = b
  stopNum : ∃ i, s.num stop = some i

theorem search_ok (hsucc : ∀ b c, b < n → c ∈ succ b → c < n) (hs : start < n) (he : stop < n) :
    SearchOk n stop (base succ n start) (search succ n start stop) := by
  have h := base_ok hsucc hs
  unfold search
  show SearchOk n stop (base succ n start) (if ((base succ n start).num stop).isSome = true then base succ n start else ((base succ n start).enter stop none 0).leave stop)
  generalize base succ n start = s at h
  have hpost : ∀ b i, s.num b = some i → s.post b < s.used ∧ s.order (s.post b) = b := by
    intro b i hb
    obtain ⟨hi, rfl⟩ := (h.fin.wf.iff _ _).1 hb
    have := h.late.post i (Nat.zero_le _) hi
    rw [h.done] at this
    exact this.2
  have horder : ∀ k, k < s.used → ∃ b i, s.num b = some i ∧ s.post b = k ∧ s.order k = b := by
    intro k hk
    obtain ⟨j, -, j1, j2⟩ := h.late.surj k (Nat.zero_le _) (by rw [h.done]; exact hk)
    refine ⟨s.block j, j, h.num_block j1, j2, ?_⟩
    have := (h.late.post j (Nat.zero_le _) j1).2.2
    rw [j2] at this; exact this
  cases hst : s.num stop with
  | some m =>
    simp only [Option.isSome_some, if_true]
    exact ⟨h.fin.wf, Nat.le_refl _, h.done, fun b i hb => ⟨hb, rfl, rfl, rfl⟩, fun b i hb => Or.inl hb, horder, hpost, m, hst⟩
  | none =>
    simp only [Option.isSome_none, Bool.false_eq_true, if_false]
    have hne : ∀ b i, s.num b = some i → b ≠ stop := by rintro b i hb rfl; rw [hst] at hb; cases hb
    have hstop : ((s.enter stop none 0).leave stop).num stop = some s.used := set_same _ _ _
    have hnum : ∀ b, b ≠ stop → ((s.enter stop none 0).leave stop).num b = s.num b := fun b hb => set_other _ _ hb
    have hp : ∀ b, b ≠ stop → ((s.enter stop none 0).leave stop).post b = s.post b := fun b hb => set_other _ _ hb
    have hps : ((s.enter stop none 0).leave stop).post stop = s.used := by
      show set s.post stop s.done stop = s.used
      rw [set_same, h.done]
    have ho : ∀ k, k ≠ s.used → ((s.enter stop none 0).leave stop).order k = s.order k := fun k hk => by
      show set s.order s.done stop k = _
      rw [set_other _ _ (by rw [h.done]; exact hk)]
    have hos : ((s.enter stop none 0).leave stop).order s.used = stop := by
      show set s.order s.done stop s.used = stop
      rw [h.done, set_same]
    have hu : ((s.enter stop none 0).leave stop).used = s.used + 1 := rfl
    have hwf : Wf n ((s.enter stop none 0).leave stop).toDfs := by
      have hul := h.fin.wf.used_le
      have := (visit_spec (succ := fun _ => []) (by simp) (n + 1) stop 0 s.toDfs he h.fin.wf (by omega)).wf
      simp only [visit, hst, Option.isSome_none, Bool.false_eq_true, if_false, List.reverse_nil, List.foldl_nil] at this
      exact this
    refine ⟨hwf, by omega, by show s.done + 1 = s.used + 1; rw [h.done], fun b i hb => ?_, fun b i hb => ?_, fun k hk => ?_, fun b i hb => ?_, _, hstop⟩
    · have hb' := hne b i hb
      refine ⟨(hnum b hb').trans hb, hp b hb', set_other _ _ hb', set_other _ _ hb'⟩
    · by_cases hb' : b = stop
      · exact Or.inr hb'
      · rw [hnum b hb'] at hb; exact Or.inl hb
    · by_cases hk' : k = s.used
      · subst hk'; exact ⟨stop, _, hstop, hps, hos⟩
      · obtain ⟨b, i, h1, h2, h3⟩ := horder k (by omega)
        have hb' := hne b i h1
        exact ⟨b, i, (hnum b hb').trans h1, (hp b hb').trans h2, (ho k hk').trans h3⟩
    · by_cases hb' : b = stop
      · subst hb'; rw [hps, hu]; exact ⟨by omega, hos⟩
      · rw [hnum b hb'] at hb
        have := hpost b i hb
        rw [hp b hb', hu, ho _ (by omega)]
        exact ⟨by omega, this.2⟩

/-! ## Entries and blocks -/

section
variable {g : Cfg}

theorem LiveOk.lt (h : LiveOk succ g) : ∀ b c, b < g.n → c ∈ succ b → c < g.n := fun b c hb hc => h.ok.outsLt b c hb ((h.succ b c).1 hc)

theorem LiveOk.flow (h : LiveOk succ g) : (fun b c => c ∈ rev succ b) = g.Flow := by
  funext b c
  exact propext ((List.mem_reverse).trans (h.succ b c))

theorem LiveOk.base (h : LiveOk succ g) : BaseOk g.n succ g.start (base succ g.n g.start) := base_ok h.lt h.ok.start

theorem LiveOk.search (h : LiveOk succ g) : SearchOk g.n g.stop (LiveChk.base succ g.n g.start) (search succ g.n g.start g.stop) :=
  search_ok h.lt h.ok.start h.ok.stop

/-- the number of a block that control flow reaches -/
abbrev Num (succ : Nat → List Nat) (g : Cfg) (b i : Nat) : Prop := (base succ g.n g.start).num b = some i

/-- the edges between numbers -/
abbrev EE (succ : Nat → List Nat) (g : Cfg) : Nat → Nat → Prop := (base succ g.n g.start).toDfs.Edge (rev succ)

abbrev PP (succ : Nat → List Nat) (g : Cfg) : Nat → Nat := (base succ g.n g.start).parent

theorem LiveOk.num_iff (h : LiveOk succ g) {b : Nat} : (∃ i, Num succ g b i) ↔ Reachable g.Flow g.start b := by
  have := num_iff_reachable h.base.fin h.base.root (b := b)
  rwa [h.flow] at this

theorem LiveOk.closed (h : LiveOk succ g) {b c i : Nat} (hb : Num succ g b i) (hc : c ∈ succ b) : ∃ j, Num succ g c j :=
  h.base.fin.closed hb (List.mem_reverse.2 hc)

theorem LiveOk.edge (h : LiveOk succ g) {b c i j : Nat} (hb : Num succ g b i) (hc : Num succ g c j) : c ∈ succ b ↔ EE succ g i j := by
  obtain ⟨h1, h2⟩ := (h.base.fin.wf.iff _ _).1 hb
  obtain ⟨h3, h4⟩ := (h.base.fin.wf.iff _ _).1 hc
  unfold EE Dfs.Edge
  rw [h2, h4]
  unfold rev
  rw [List.mem_reverse]
  exact ⟨fun h => ⟨h1, h3, h⟩, fun h => h.2.2⟩

theorem LiveOk.inj (h : LiveOk succ g) {b c i : Nat} (hb : Num succ g b i) (hc : Num succ g c i) : b = c := by
  rw [← ((h.base.fin.wf.iff _ _).1 hb).2, ← ((h.base.fin.wf.iff _ _).1 hc).2]

theorem LiveOk.numLt (h : LiveOk succ g) {b i : Nat} (hb : Num succ g b i) : i < (LiveChk.base succ g.n g.start).used := ((h.base.fin.wf.iff _ _).1 hb).1

theorem LiveOk.of (h : LiveOk succ g) {i : Nat} (hi : i < (LiveChk.base succ g.n g.start).used) : ∃ b, Num succ g b i := ⟨_, h.base.num_block hi⟩

theorem LiveOk.dom (h : LiveOk succ g) {a b i j : Nat} (ha : Num succ g a i) (hb : Num succ g b j) :
    Dominates g.Flow g.start a b ↔ ¬ RA (EE succ g) i j := by
  have := dominates_iff h.base.fin h.base.root hb a
  rw [h.flow] at this
  rw [this]
  exact ⟨fun ⟨k, hk, hr⟩ => by rw [ha] at hk; cases hk; exact hr, fun hr => ⟨i, ha, hr⟩⟩

theorem LiveOk.tree (h : LiveOk succ g) : DfsTree (LiveChk.base succ g.n g.start).used (EE succ g) (PP succ g) := h.base.fin.tree

theorem LiveOk.noSucc (h : LiveOk succ g) {c : Nat} : c ∉ succ g.stop := fun hc => h.stopOut c ((h.succ _ c).1 hc)

theorem LiveOk.back (h : LiveOk succ g) {b c i j : Nat} (hb : Num succ g b i) (hc : Num succ g c j) :
    (env succ g).back b c = true ↔ Anc (PP succ g) j i := by
  rw [← h.base.kind_back hb hc]
  show decide ((LiveChk.search succ g.n g.start g.stop).kind b c = .back) = true ↔ _
  rw [decide_eq_true_iff]
  obtain ⟨b1, b2, b3, b4⟩ := h.search.old b i hb
  obtain ⟨c1, c2, c3, c4⟩ := h.search.old c j hc
  unfold Search.kind Search.isAncestor
  rw [b1, c1, b3, c3, c4, hb, hc]

theorem LiveOk.rd (h : LiveOk succ g) {b c i : Nat} (hb : Num succ g b i) :
    (env succ g).Rd b c ↔ ∃ j, Num succ g c j ∧ LiveTheory.Red (EE succ g) (PP succ g) i j := by
  constructor
  · rintro ⟨h1, h2⟩
    obtain ⟨j, hj⟩ := h.closed hb h1
    refine ⟨j, hj, (h.edge hb hj).1 h1, fun ha => ?_⟩
    rw [(h.back hb hj).2 ha] at h2; cases h2
  · rintro ⟨j, hj, h1, h2⟩
    refine ⟨(h.edge hb hj).2 h1, ?_⟩
    rw [← Bool.not_eq_true]
    exact fun ha => h2 ((h.back hb hj).1 ha)

theorem LiveOk.bk (h : LiveOk succ g) {b c i : Nat} (hb : Num succ g b i) :
    (env succ g).Bk b c ↔ ∃ j, Num succ g c j ∧ LiveTheory.Back (EE succ g) (PP succ g) i j := by
  constructor
  · rintro ⟨h1, h2⟩
    obtain ⟨j, hj⟩ := h.closed hb h1
    exact ⟨j, hj, (h.edge hb hj).1 h1, (h.back hb hj).1 h2⟩
  · rintro ⟨j, hj, h1, h2⟩
    exact ⟨(h.edge hb hj).2 h1, (h.back hb hj).2 h2⟩

theorem LiveOk.toR (h : LiveOk succ g) {b c : Nat} (hr : R (env succ g).Rd b c) : ∀ {i}, Num succ g b i →
    ∃ j, Num succ g c j ∧ R (LiveTheory.Red (EE succ g) (PP succ g)) i j := by
  induction hr with
  | refl => intro i hi; exact ⟨i, hi, .refl i⟩
  | step h1 _ ih =>
    intro i hi
    obtain ⟨k, hk, h3⟩ := (h.rd hi).1 h1
    obtain ⟨j, hj, h4⟩ := ih hk
    exact ⟨j, hj, .step h3 h4⟩

theorem LiveOk.ofR (h : LiveOk succ g) {i j : Nat} (hr : R (LiveTheory.Red (EE succ g) (PP succ g)) i j) : ∀ {b c}, Num succ g b i → Num succ g c j →
    R (env succ g).Rd b c := by
  induction hr with
  | refl => intro b c hb hc; rw [h.inj hb hc]; exact .refl c
  | @step i k j h1 _ ih =>
    intro b c hb hc
    obtain ⟨x, hx⟩ := h.of h1.1.2.1
    exact .step ((h.rd hb).2 ⟨k, hx, h1⟩) (ih hx hc)

theorem LiveOk.toTS (h : LiveOk succ g) {b c : Nat} (hr : TS (env succ g).Rd (env succ g).Bk b c) : ∀ {i}, Num succ g b i →
    ∃ j, Num succ g c j ∧ TS (LiveTheory.Red (EE succ g) (PP succ g)) (LiveTheory.Back (EE succ g) (PP succ g)) i j := by
  induction hr with
  | base h1 h2 h3 =>
    intro i hi
    obtain ⟨k, hk, h4⟩ := h.toR h1 hi
    obtain ⟨j, hj, h5⟩ := (h.bk hk).1 h2
    exact ⟨j, hj, .base h4 h5 fun hh => h3 (h.ofR hh hi hj)⟩
  | step h1 h2 h3 _ ih =>
    intro i hi
    obtain ⟨k, hk, h4⟩ := h.toR h1 hi
    obtain ⟨j, hj, h5⟩ := (h.bk hk).1 h2
    obtain ⟨m, hm, h6⟩ := ih hj
    exact ⟨m, hm, .step h4 h5 (fun hh => h3 (h.ofR hh hi hj)) h6⟩

theorem LiveOk.ofTS (h : LiveOk succ g) {i j : Nat} (hr : TS (LiveTheory.Red (EE succ g) (PP succ g)) (LiveTheory.Back (EE succ g) (PP succ g)) i j) :
    ∀ {b c}, Num succ g b i → Num succ g c j → TS (env succ g).Rd (env succ g).Bk b c := by
  induction hr with
  | @base i k j h1 h2 h3 =>
    intro b c hb hc
    obtain ⟨x, hx⟩ := h.of h2.1.1
    refine .base (h.ofR h1 hb hx) ((h.bk hx).2 ⟨j, hc, h2⟩) fun hh => ?_
    obtain ⟨m, hm, h4⟩ := h.toR hh hb
    cases Option.some.inj (hc.symm.trans hm)
    exact h3 h4
  | @step i k m j h1 h2 h3 _ ih =>
    intro b c hb hc
    obtain ⟨x, hx⟩ := h.of h2.1.1
    obtain ⟨y, hy⟩ := h.of h2.1.2.1
    refine .step (h.ofR h1 hb hx) ((h.bk hx).2 ⟨m, hy, h2⟩) (fun hh => ?_) (ih hy hc)
    obtain ⟨m', hm, h4⟩ := h.toR hh hb
    cases Option.some.inj (hy.symm.trans hm)
    exact h3 h4

/-! ## Reachable blocks -/

theorem path_mono {E E' : Nat → Nat → Prop} (h : ∀ b c, E b c → E' b c) {u v : Nat} {l : List Nat} (hp : Path E u l v) : Path E' u l v := by
  induction hp with
  | nil v => exact .nil v
  | cons h1 _ ih => exact .cons (h _ _ h1) ih

theorem flow_edge {b c : Nat} (h : g.Flow b c) : g.Edge b c := Or.inl h

/-- a path that does not end in the end block consists of control flow -/
theorem LiveOk.path_flow (h : LiveOk succ g) {u v : Nat} {l : List Nat} (hp : Path g.Edge u l v) (hv : v ≠ g.stop) : Path g.Flow u l v := by
  induction hp with
  | nil v => exact .nil v
  | @cons u w v l he hp ih =>
    refine .cons ?_ (ih hv)
    rcases he with he | ⟨rfl, -, -⟩
    · exact he
    · exfalso
      cases hp with
      | nil => exact hv rfl
      | cons h1 _ =>
        rcases h1 with h1 | ⟨-, h1, -⟩
        · exact h.stopOut _ h1
        · exact h1 rfl

theorem LiveOk.dom_flow (h : LiveOk succ g) {a b : Nat} (hb : b ≠ g.stop) : Dominates g.Edge g.start a b ↔ Dominates g.Flow g.start a b :=
  ⟨fun hd l hl => hd l (path_mono (fun _ _ => flow_edge) hl), fun hd l hl => hd l (h.path_flow hl hb)⟩

theorem dom_flow_of {a b : Nat} (hd : Dominates g.Edge g.start a b) : Dominates g.Flow g.start a b :=
  fun l hl => hd l (path_mono (fun _ _ => flow_edge) hl)

theorem LiveOk.mem_search (h : LiveOk succ g) {b : Nat} : (∃ i, (LiveChk.search succ g.n g.start g.stop).num b = some i) ↔ Reachable g.Edge g.start b := by
  constructor
  · rintro ⟨i, hi⟩
    rcases h.search.new b i hi with h1 | rfl
    · obtain ⟨l, hl⟩ := h.num_iff.1 ⟨i, h1⟩
      exact ⟨l, path_mono (fun _ _ => flow_edge) hl⟩
    · exact h.stopReach
  · rintro ⟨l, hl⟩
    by_cases hb : b = g.stop
    · subst hb; exact h.search.stopNum
    · obtain ⟨i, hi⟩ := h.num_iff.2 ⟨l, h.path_flow hl hb⟩
      exact ⟨i, (h.search.old b i hi).1⟩

theorem LiveOk.mem (h : LiveOk succ g) {b : Nat} : b ∈ (env succ g).blocks ↔ Reachable g.Edge g.start b := by
  rw [mem_blocks, ← h.mem_search]
  constructor
  · rintro ⟨k, hk, rfl⟩
    obtain ⟨b, i, h1, h2, h3⟩ := h.search.order k hk
    refine ⟨i, ?_⟩
    show (LiveChk.search succ g.n g.start g.stop).num ((LiveChk.search succ g.n g.start g.stop).order k) = some i
    rw [h3]; exact h1
  · rintro ⟨i, hi⟩
    have := h.search.post b i hi
    exact ⟨_, this.1, this.2⟩

/-- a block of the graph that is not the end block has a number -/
theorem LiveOk.num_of (h : LiveOk succ g) {b : Nat} (hb : b ∈ (env succ g).blocks) (hne : b ≠ g.stop) : ∃ i, Num succ g b i := by
  obtain ⟨l, hl⟩ := h.mem.1 hb
  exact h.num_iff.2 ⟨l, h.path_flow hl hne⟩

theorem LiveOk.of_num (h : LiveOk succ g) {b i : Nat} (hb : Num succ g b i) : b ∈ (env succ g).blocks :=
  h.mem.2 (h.mem_search.1 ⟨i, (h.search.old b i hb).1⟩)

/-! ## The numbers of the dominator tree -/

theorem LiveOk.ids (h : LiveOk succ g) {a b : Nat} (ha : Reachable g.Edge g.start a) (hb : Reachable g.Edge g.start b) :
    ((env succ g).id a ≤ (env succ g).id b ∧ (env succ g).id b ≤ (env succ g).treeMax a ↔ Dominates g.Edge g.start a b) ∧
    (env succ g).id a ≤ (env succ g).treeMax a ∧ (env succ g).treeMax a < g.dfs.used ∧ (env succ g).id a = (env succ g).treePre a := by
  obtain ⟨i, hi⟩ := (num_reachable h.ok).2 ha
  obtain ⟨j, hj⟩ := (num_reachable h.ok).2 hb
  obtain ⟨hf, h0⟩ := dfs_done h.ok
  have hd := doms_ok h.ok
  obtain ⟨h1, -⟩ := (hf.wf.iff _ _).1 hi
  obtain ⟨h2, -⟩ := (hf.wf.iff _ _).1 hj
  obtain ⟨e1, e2, e3⟩ := treeNums_spec hd hf.pos h1 h2
  obtain ⟨-, e4, e5⟩ := treeNums_spec hd hf.pos h2 h2
  have hu := hf.wf.used_le
  have hn := h.small
  have hdom := dominates_iff hf h0 hj a
  rw [edge_eq] at hdom
  have p1 : (env succ g).treePre a = (treeNums g.dfs.used g.doms).pre i := by
    show (g.treeNum a).1.toNat = _
    unfold Cfg.treeNum; rw [hi]
    show (BitVec.ofNat 32 _).toNat = _
    rw [BitVec.toNat_ofNat]; exact Nat.mod_eq_of_lt (by omega)
  have p2 : (env succ g).treePre b = (treeNums g.dfs.used g.doms).pre j := by
    show (g.treeNum b).1.toNat = _
    unfold Cfg.treeNum; rw [hj]
    show (BitVec.ofNat 32 _).toNat = _
    rw [BitVec.toNat_ofNat]; exact Nat.mod_eq_of_lt (by omega)
  have p3 : (env succ g).treeMax a = (treeNums g.dfs.used g.doms).max i := by
    show (g.treeNum a).2.toNat = _
    unfold Cfg.treeNum; rw [hi]
    show (BitVec.ofNat 32 _).toNat = _
    rw [BitVec.toNat_ofNat]; exact Nat.mod_eq_of_lt (by omega)
  have q1 : (env succ g).id a = (treeNums g.dfs.used g.doms).pre i := by unfold Env.id; rw [p1]; exact Nat.mod_eq_of_lt (by omega)
  have q2 : (env succ g).id b = (treeNums g.dfs.used g.doms).pre j := by unfold Env.id; rw [p2]; exact Nat.mod_eq_of_lt (by omega)
  rw [q1, q2, p3, p1, e1, hdom]
  refine ⟨⟨fun hr => ⟨i, hi, hr⟩, fun ⟨k, hk, hr⟩ => by rw [hi] at hk; cases hk; exact hr⟩, e2, e3, rfl⟩

theorem LiveOk.used_le (h : LiveOk succ g) : g.dfs.used ≤ (env succ g).n := by
  obtain ⟨hf, h0⟩ := dfs_done h.ok
  have hnum : ∀ i, i < g.dfs.used → ∃ k, (LiveChk.search succ g.n g.start g.stop).num (g.dfs.block i) = some k := fun i hi =>
    h.mem_search.2 ((num_reachable h.ok).1 ⟨i, (hf.wf.iff _ _).2 ⟨hi, rfl⟩⟩)
  have h1 : ((List.range g.dfs.used).map fun i => ((LiveChk.search succ g.n g.start g.stop).num (g.dfs.block i)).getD 0).Nodup := by
    rw [List.nodup_iff_pairwise_ne, List.pairwise_map]
    refine List.Pairwise.imp_of_mem ?_ (List.nodup_iff_pairwise_ne.1 (List.nodup_range (n := g.dfs.used)))
    intro a b ha hb hab hh
    obtain ⟨x, hx⟩ := hnum a (List.mem_range.1 ha)
    obtain ⟨y, hy⟩ := hnum b (List.mem_range.1 hb)
    rw [hx, hy] at hh
    have hxy : x = y := hh
    subst hxy
    have e1 := ((h.search.wf.iff _ _).1 hx).2
    have e2 := ((h.search.wf.iff _ _).1 hy).2
    have h1 := (hf.wf.iff (g.dfs.block a) a).2 ⟨List.mem_range.1 ha, rfl⟩
    have h2 := (hf.wf.iff (g.dfs.block a) b).2 ⟨List.mem_range.1 hb, by rw [← e1, ← e2]⟩
    rw [h1] at h2
    exact hab (Option.some.inj h2)
  have := length_le_of_nodup h1 (n := (env succ g).n) fun x hx => by
    obtain ⟨i, hi, rfl⟩ := List.mem_map.1 hx
    obtain ⟨k, hk⟩ := hnum i (List.mem_range.1 hi)
    show ((LiveChk.search succ g.n g.start g.stop).num (g.dfs.block i)).getD 0 < _
    rw [hk]
    exact ((h.search.wf.iff _ _).1 hk).1
  simpa using this

theorem LiveOk.env_ok (h : LiveOk succ g) : (env succ g).Ok fun b => ((LiveChk.search succ g.n g.start g.stop).num b).getD 0 := by
  have hs := h.search
  have hmem : ∀ b, b ∈ (env succ g).blocks → ∃ i, (LiveChk.search succ g.n g.start g.stop).num b = some i := fun b hb => h.mem_search.2 (h.mem.1 hb)
  have hpost : ∀ k, k < (env succ g).n → (LiveChk.search succ g.n g.start g.stop).post ((env succ g).order k) = k := by
    intro k hk
    obtain ⟨b, i, h1, h2, h3⟩ := hs.order k hk
    show (LiveChk.search succ g.n g.start g.stop).post ((LiveChk.search succ g.n g.start g.stop).order k) = k
    rw [h3]; exact h2
  have hord : ∀ k, k < (env succ g).n → (env succ g).order k ∈ (env succ g).blocks := fun k hk => mem_blocks.2 ⟨k, hk, rfl⟩
  have hstopR : ∀ c, R (env succ g).Rd g.stop c → c = g.stop := by
    intro c hr
    cases hr with
    | refl => rfl
    | step h1 _ => exact absurd h1.1 h.noSucc
  have htopo : ∀ b c i, Num succ g b i → (env succ g).Rd b c → ∃ j, Num succ g c j ∧
      (LiveChk.search succ g.n g.start g.stop).post c < (LiveChk.search succ g.n g.start g.stop).post b := by
    intro b c i hb hr
    obtain ⟨j, hj, hred⟩ := (h.rd hb).1 hr
    refine ⟨j, hj, ?_⟩
    have := h.base.post_lt hred
    rw [((h.base.fin.wf.iff _ _).1 hb).2, ((h.base.fin.wf.iff _ _).1 hj).2] at this
    rw [(hs.old b i hb).2.1, (hs.old c j hj).2.1]
    exact this
  refine ⟨fun i j hi hj hh => ?_, fun b c hb hc => ?_, fun i c hi hc hback => ?_, fun i j hi hj hh => ?_, fun i hi => ?_, fun b hb => ?_, fun b hb => ?_,
    fun b c hb hc hh => ?_, fun b c hb hc hh => ?_, fun b hb => ?_, fun b s t hb hr hbk hnr => ?_, fun s t hs' hbk => ?_⟩
  · rw [← hpost i hi, ← hpost j hj, hh]
  · by_cases hst : b = g.stop
    · subst hst; exact absurd hc h.noSucc
    · obtain ⟨i, hi⟩ := h.num_of hb hst
      obtain ⟨j, hj⟩ := h.closed hi hc
      exact h.of_num hj
  · by_cases hst : (env succ g).order i = g.stop
    · rw [hst] at hc; exact absurd hc h.noSucc
    · obtain ⟨k, hk⟩ := h.num_of (hord i hi) hst
      obtain ⟨j, hj, hlt⟩ := htopo _ c k hk ⟨hc, hback⟩
      rw [hpost i hi] at hlt
      exact ⟨_, hlt, (hs.post c j (hs.old c j hj).1).2⟩
  · have h1 := (hs.wf.iff _ i).2 ⟨hi, rfl⟩
    have h2 := (hs.wf.iff _ j).2 ⟨hj, hh.symm⟩
    exact Option.some.inj (h1.symm.trans h2)
  · exact h.mem.2 (h.mem_search.1 ⟨i, (hs.wf.iff _ i).2 ⟨hi, rfl⟩⟩)
  · obtain ⟨i, hi⟩ := hmem b hb
    exact ⟨i, (hs.wf.iff _ _).1 hi⟩
  · obtain ⟨-, h2, h3, -⟩ := h.ids (h.mem.1 hb) (h.mem.1 hb)
    have := h.used_le
    omega
  · obtain ⟨h1, h2, -, -⟩ := h.ids (h.mem.1 hb) (h.mem.1 hc)
    obtain ⟨h3, h4, -, -⟩ := h.ids (h.mem.1 hc) (h.mem.1 hb)
    exact dominates_antisymm (h1.1 ⟨by omega, by omega⟩) (h3.1 ⟨by omega, by omega⟩) (h.mem.1 hc)
  · obtain ⟨i, hi⟩ := hmem b hb
    obtain ⟨j, hj⟩ := hmem c hc
    simp only [hi, hj, Option.getD_some] at hh
    subst hh
    rw [← ((hs.wf.iff _ _).1 hi).2, ((hs.wf.iff _ _).1 hj).2]
  · obtain ⟨i, hi⟩ := hmem b hb
    simp only [hi, Option.getD_some]
    exact ((hs.wf.iff _ _).1 hi).1
  · by_cases hst : b = g.stop
    · subst hst
      rw [hstopR s hr] at hbk
      exact absurd hbk.1 h.noSucc
    · obtain ⟨i, hi⟩ := h.num_of hb hst
      obtain ⟨k, hk, hr'⟩ := h.toR hr hi
      obtain ⟨j, hj, hb'⟩ := (h.bk hk).1 hbk
      have := back_lt h.tree (h.numLt hi) hr' hb' fun hh => hnr (h.ofR hh hi hj)
      simp only [(hs.old b i hi).1, (hs.old t j hj).1, Option.getD_some]
      exact this
  · by_cases hst : s = g.stop
    · subst hst; exact absurd hbk.1 h.noSucc
    · obtain ⟨k, hk⟩ := h.num_of hs' hst
      obtain ⟨j, hj, hb'⟩ := (h.bk hk).1 hbk
      exact h.ofR (tree_R h.tree hb'.2 (h.numLt hk)) hj hk

end

end Verif.Model.LiveChk
