import Verif.Model.ConstBitsIter
import Verif.Lemmas.ConstBitsMono
/-!
# Runs of the known-bits analysis are ascending
-/
namespace Verif.Model
open Verif.Spec Verif.Model.IrOpt

variable {w : Nat}

theorem join_good {a b : BitInfo w} (ha : a.Good) (hb : b.Good) : (a.join b).Good := by
  rcases ha with rfl | ha
  · rcases hb with rfl | hb
    · left; simp [BitInfo.join, BitInfo.undefined]
    · exact Or.inr (cons_mono (le_join_right _ _) hb)
  · exact Or.inr (cons_mono (le_join_left _ _) ha)

theorem phi_foldl_good : ∀ (l : List (Bool × BitInfo w)) (acc : BitInfo w), acc.Good → (∀ p ∈ l, p.2.Good) →
    (l.foldl (fun acc p => if p.1 then acc.join p.2 else acc) acc).Good
  | [], _, h, _ => h
  | p :: l, acc, h, hl => by
    refine phi_foldl_good l _ ?_ fun q hq => hl q (List.mem_cons_of_mem _ hq)
    simp only
    split
    · exact join_good h (hl p List.mem_cons_self)
    · exact h

theorem phi_foldl_le {α : Type} {r r' : α → Bool} {f f' : α → BitInfo w} (hr : ∀ a, r a = true → r' a = true) (hf : ∀ a, (f a).Le (f' a)) :
    ∀ (l : List α) (acc acc' : BitInfo w), acc.Le acc' →
      ((l.map fun a => (r a, f a)).foldl (fun acc p => if p.1 then acc.join p.2 else acc) acc).Le
        ((l.map fun a => (r' a, f' a)).foldl (fun acc p => if p.1 then acc.join p.2 else acc) acc')
  | [], _, _, h => h
  | a :: l, acc, acc', h => by
    refine phi_foldl_le hr hf l _ _ ?_
    by_cases h1 : r a = true
    · simp only [h1, hr a h1, if_true]
      exact join_le h (hf a)
    · simp only [h1]
      by_cases h2 : r' a = true
      · simp only [h2, if_true]
        exact le_trans h (le_join_left _ _)
      · simp only [h2]
        exact h

theorem le_bool {a b : BitInfo 1} (h : a.Le b) : (b.z = 0#1 → a.z = 0#1) ∧ (a.z = 1#1 → b.z = 1#1) := by
  have hx := (h 0 (by decide)).1
  obtain ⟨az, ao⟩ := a
  obtain ⟨bz, bo⟩ := b
  simp only at hx ⊢
  clear h
  revert az bz
  decide

end Verif.Model

namespace Verif.Model.ConstBits
open Verif.Spec Verif.Model.IrOpt

variable {G : SsaGraph} {last : Nat}

theorem at_set_self (s : State) (k : Key) (v : BitInfo k.w) : (s.set k v).at k = v := by
  cases k <;> simp [State.set, State.at]

theorem at_set_ne (s : State) (k : Key) (v : BitInfo k.w) {j : Key} (h : j ≠ k) : (s.set k v).at j = s.at j := by
  cases k with
  | data m n =>
    cases j with
    | data m' n' =>
      simp only [State.set, State.at]
      rw [dif_neg]
      rintro ⟨rfl, rfl⟩
      exact h rfl
    | _ => rfl
  | block b =>
    cases j with
    | block b' => exact if_neg (fun hb => h (by rw [hb]))
    | _ => rfl
  | x b =>
    cases j with
    | x b' => exact if_neg (fun hb => h (by rw [hb]))
    | _ => rfl

/-- a call of `transfer` without other calls in between -/
theorem Run.sync {K : List Key} {c : Nat} {s : State} {hist : List State} (h : Run G last K c (s :: hist)) {k : Key} (hk : k ∈ K) :
    ∃ c', Run G last K c' (s.set k (transfer G last s k) :: s :: hist) :=
  ⟨_, Run.step (win := [s]) h hk (List.prefix_iff_eq_take.2 rfl) (fun t ht => by rw [List.mem_singleton.1 ht]) (fun _ => ⟨s, List.mem_singleton.2 rfl, rfl⟩)
    (at_set_self _ _ _) fun _ hj => at_set_ne _ _ _ hj⟩

/-- every node of `t` has a state that says at most as much as its state in `s` -/
def State.Le (s t : State) : Prop := ∀ k, (s.at k).Le (t.at k)

def State.Good (s : State) : Prop := ∀ k, (s.at k).Good

theorem State.le_refl (s : State) : s.Le s := fun _ => Model.le_refl _
theorem State.le_trans {s t u : State} (h1 : s.Le t) (h2 : t.Le u) : s.Le u := fun k => Model.le_trans (h1 k) (h2 k)

theorem cond_le {a b : BitInfo 1} (h : a.Le b) (ha : a.Good) (num : Bool) :
    (if a.isUndefined then unreachable else if a.z = a.o then if decide (a.z = 1#1) = num then ⟨1#1, 1#1⟩ else ⟨0#1, 0#1⟩ else maybe : BitInfo 1).Le
      (if b.isUndefined then unreachable else if b.z = b.o then if decide (b.z = 1#1) = num then ⟨1#1, 1#1⟩ else ⟨0#1, 0#1⟩ else maybe) := by
  rcases ha with rfl | ha
  · exact undefined_le _
  · have ua : ¬ a.isUndefined = true := by rw [not_undefined (by decide) ha]; decide
    have ub : ¬ b.isUndefined = true := by rw [not_undefined (by decide) (cons_mono h ha)]; decide
    rw [if_neg ua, if_neg ub]
    by_cases hb : b.z = b.o
    · obtain ⟨h1, h2⟩ := const_of_le h ha hb
      rw [if_pos hb, if_pos (h1.trans h2.symm), h1]
      exact Model.le_refl _
    · rw [if_neg hb]
      exact le_unknown _

/-- transfer functions are monotone -/
theorem transfer_le (hG : ∀ m n e, G.node m n = .op e → e.WellFormed ∧ regular e = true ∧ noConfirmEq e = true) {s t : State} (h : s.Le t) (hs : s.Good) (k : Key) :
    (transfer G last s k).Le (transfer G last t k) := by
  cases k with
  | data m n =>
    simp only [transfer, transferData]
    split
    · unfold BitInfo.phi
      refine phi_foldl_le (r := fun p : Nat × Nat => decide ((s.x p.1).z ≠ 0#1)) (r' := fun p => decide ((t.x p.1).z ≠ 0#1)) ?_ ?_ _ _ _ (Model.le_refl _)
      · intro a ha
        simp only [decide_eq_true_eq] at ha ⊢
        exact fun h' => ha ((le_bool (h (.x a.1))).1 h')
      · exact fun a => h (.data m a.2)
    · next e he => exact bitsWith_le (fun m i => h (.data m i)) (fun m i => hs (.data m i)) e (hG m n e he).1 (hG m n e he).2.1 (hG m n e he).2.2
    · exact Model.le_refl _
  | block b =>
    simp only [transfer, transferBlock]
    by_cases hb : ((G.preds b).any (fun x => (s.x x).z = 1#1) || b = G.start || b = last) = true
    · rw [if_pos hb, if_pos]
      · exact Model.le_refl _
      · simp only [Bool.or_eq_true, List.any_eq_true, decide_eq_true_eq] at hb ⊢
        refine hb.imp (Or.imp ?_ id) id
        rintro ⟨x, hx, hz⟩
        exact ⟨x, hx, (le_bool (h (.x x))).2 hz⟩
    · rw [if_neg hb]
      exact undefined_le _
  | x x =>
    simp only [transfer, transferX]
    by_cases h1 : (s.block (G.xblock x)).z = 0#1
    · rw [if_pos h1]; exact undefined_le _
    · have h2 : ¬ (t.block (G.xblock x)).z = 0#1 := fun h' => h1 ((le_bool (h (.block _))).1 h')
      rw [if_neg h1, if_neg h2]
      cases G.xdef x with
      | bad => exact undefined_le _
      | cond sel num => exact cond_le (h (.data bmode sel)) (hs (.data bmode sel)) num
      | switch k sel =>
        simp only
        by_cases hu : (s.data k sel).isUndefined = true
        · rw [if_pos hu]; exact undefined_le _
        · rw [if_neg hu]
          split
          · next h' =>
            have h2 : (s.data k sel).Le (t.data k sel) := h (.data k sel)
            rw [isUndefined_iff.1 h'] at h2
            exact absurd (isUndefined_iff.2 (le_antisymm h2 (undefined_le _))) hu
          · exact Model.le_refl _
      | jmp => exact Model.le_refl _
      | other => exact Model.le_refl _

theorem maybe_cons : BitInfo.Cons maybe := cons_unknown (w := 1)

theorem transfer_good (hG : ∀ m n e, G.node m n = .op e → e.WellFormed ∧ regular e = true ∧ noConfirmEq e = true) {s : State} (hs : s.Good) (k : Key) :
    (transfer G last s k).Good := by
  cases k with
  | data m n =>
    simp only [transfer, transferData]
    split
    · refine phi_foldl_good _ _ (Or.inl rfl) fun p hp => ?_
      obtain ⟨q, -, rfl⟩ := List.mem_map.1 hp
      exact hs (.data m q.2)
    · next e he => exact bitsWith_good (fun m i => hs (.data m i)) e (hG m n e he).1 (hG m n e he).2.1 (hG m n e he).2.2
    · exact Or.inr cons_unknown
  | block b =>
    simp only [transfer, transferBlock]
    split
    · exact Or.inr maybe_cons
    · exact Or.inl rfl
  | x x =>
    simp only [transfer, transferX]
    split
    · exact Or.inl rfl
    · split
      · exact Or.inl rfl
      · split
        · exact Or.inl rfl
        · split
          · split <;> exact Or.inr fun _ _ => id
          · exact Or.inr maybe_cons
      · split
        · exact Or.inl rfl
        · exact Or.inr maybe_cons
      · exact Or.inr maybe_cons
      · exact Or.inr maybe_cons

/-- the state of a run: every state in the past is below the present one, no state is contradictory, and another call of `transfer` does
not take anything back -/
structure RunInv (G : SsaGraph) (last : Nat) (hist : List State) : Prop where
  good : ∀ s ∈ hist, s.Good
  post : ∀ s ∈ hist, ∀ k, (s.at k).Le (transfer G last s k)
  sorted : hist.Pairwise fun s t => t.Le s

theorem mix_le {win : List State} {σ u : State} (h : ∀ j, ∃ h ∈ win, σ.at j = h.at j) (hu : ∀ h ∈ win, h.Le u) : σ.Le u := by
  intro k
  obtain ⟨t, ht, he⟩ := h k
  rw [he]
  exact hu t ht k

theorem le_mix {win : List State} {σ u : State} (h : ∀ j, ∃ h ∈ win, σ.at j = h.at j) (hu : ∀ h ∈ win, u.Le h) : u.Le σ := by
  intro k
  obtain ⟨t, ht, he⟩ := h k
  rw [he]
  exact hu t ht k

theorem mix_good {win : List State} {σ : State} (h : ∀ j, ∃ h ∈ win, σ.at j = h.at j) (hu : ∀ h ∈ win, h.Good) : σ.Good := by
  intro k
  obtain ⟨t, ht, he⟩ := h k
  rw [he]
  exact hu t ht k

theorem sorted_head {s : State} {hist : List State} (h : (s :: hist).Pairwise fun s t => t.Le s) : ∀ t ∈ s :: hist, t.Le s := by
  intro t ht
  rcases List.mem_cons.1 ht with rfl | ht
  · exact State.le_refl _
  · exact (List.pairwise_cons.1 h).1 t ht

theorem sorted_last : ∀ {win : List State}, win.Pairwise (fun s t => t.Le s) → win ≠ [] → ∃ u ∈ win, ∀ t ∈ win, u.Le t
  | [], _, h => absurd rfl h
  | [s], _, _ => ⟨s, List.mem_cons_self, fun t ht => by rw [List.mem_singleton.1 ht]; exact State.le_refl _⟩
  | s :: r :: win, h, _ => by
    obtain ⟨h1, h2⟩ := List.pairwise_cons.1 h
    obtain ⟨u, hu, hl⟩ := sorted_last h2 (by simp)
    refine ⟨u, List.mem_cons_of_mem _ hu, fun t ht => ?_⟩
    rcases List.mem_cons.1 ht with rfl | ht
    · exact h1 u hu
    · exact hl t ht

/-- what one call of `transfer` does in a run -/
theorem step_facts (hG : ∀ m n e, G.node m n = .op e → e.WellFormed ∧ regular e = true ∧ noConfirmEq e = true) {s σ : State} {hist win : List State}
    {k : Key} (hi : RunInv G last (s :: hist)) (hw : win <+: s :: hist) (hk : ∀ h ∈ win, h.at k = s.at k) (hσ : ∀ j, ∃ h ∈ win, σ.at j = h.at j) :
    σ.Good ∧ σ.Le s ∧ (s.at k).Le (transfer G last σ k) := by
  have hm : ∀ h ∈ win, h ∈ s :: hist := fun h hh => hw.subset hh
  have hg : σ.Good := mix_good hσ fun h hh => hi.good h (hm h hh)
  refine ⟨hg, mix_le hσ fun h hh => sorted_head hi.sorted h (hm h hh), ?_⟩
  have hne : win ≠ [] := by
    obtain ⟨t, ht, -⟩ := hσ k
    exact List.ne_nil_of_mem ht
  obtain ⟨u, hu, hl⟩ := sorted_last (hi.sorted.sublist hw.sublist) hne
  have h1 : (u.at k).Le (transfer G last u k) := hi.post u (hm u hu) k
  rw [hk u hu] at h1
  exact Model.le_trans h1 (transfer_le hG (le_mix hσ hl) (hi.good u (hm u hu)) k)

theorem run_inv (hG : ∀ m n e, G.node m n = .op e → e.WellFormed ∧ regular e = true ∧ noConfirmEq e = true) {K : List Key} {c : Nat} {hist : List State}
    (h : Run G last K c hist) : RunInv G last hist := by
  induction h with
  | start =>
    have hb : ∀ k : Key, State.bottom.at k = BitInfo.undefined k.w := by intro k; cases k <;> rfl
    refine ⟨fun s hs k => ?_, fun s hs k => ?_, List.pairwise_singleton _ _⟩
    · rw [List.mem_singleton.1 hs, hb]; exact Or.inl rfl
    · rw [List.mem_singleton.1 hs, hb]; exact undefined_le _
  | @step c s s' σ hist win k _ _ hw hk hσ hn ho ih =>
    obtain ⟨hg, hle, hup⟩ := step_facts hG ih hw hk hσ
    have hss : s.Le s' := by
      intro j
      by_cases hj : j = k
      · subst hj; rw [hn]; exact hup
      · rw [ho j hj]; exact Model.le_refl _
    have hgs : s.Good := ih.good s List.mem_cons_self
    have hgs' : s'.Good := by
      intro j
      by_cases hj : j = k
      · subst hj; rw [hn]; exact transfer_good hG hg _
      · rw [ho j hj]; exact hgs j
    refine ⟨?_, ?_, ?_⟩
    · intro t ht
      rcases List.mem_cons.1 ht with rfl | ht
      · exact hgs'
      · exact ih.good t ht
    · intro t ht
      rcases List.mem_cons.1 ht with rfl | ht
      · intro j
        by_cases hj : j = k
        · subst hj; rw [hn]; exact transfer_le hG (State.le_trans hle hss) hg _
        · rw [ho j hj]; exact Model.le_trans (ih.post s List.mem_cons_self j) (transfer_le hG hss hgs j)
      · exact ih.post t ht
    · refine List.pairwise_cons.2 ⟨fun t ht => State.le_trans (sorted_head ih.sorted t ht) hss, ih.sorted⟩

/-! ## How often the state of a node changes -/

/-- how far a state is from bottom -/
def rank {w : Nat} (b : BitInfo w) : Nat := ((List.range w).countP fun i => b.z.getLsbD i) + ((List.range w).countP fun i => !b.o.getLsbD i)

theorem rank_le {w : Nat} (b : BitInfo w) : rank b ≤ 2 * w := by
  have h1 := List.countP_le_length (p := fun i => b.z.getLsbD i) (l := List.range w)
  have h2 := List.countP_le_length (p := fun i => !b.o.getLsbD i) (l := List.range w)
  rw [List.length_range] at h1 h2
  unfold rank
  omega

theorem countP_eq_of_imp {α : Type} {p q : α → Bool} : ∀ (l : List α), (∀ a ∈ l, p a = true → q a = true) → l.countP q ≤ l.countP p → ∀ a ∈ l, p a = q a
  | [], _, _ => by simp
  | a :: l, h, hc => by
    have h1 : l.countP p ≤ l.countP q := List.countP_mono_left fun a ha => h a (List.mem_cons_of_mem _ ha)
    have h2 := h a List.mem_cons_self
    rw [List.countP_cons, List.countP_cons] at hc
    have h3 : p a = q a := by
      cases hp : p a <;> cases hq : q a <;> simp_all <;> omega
    rw [h3] at hc
    have h4 := countP_eq_of_imp l (fun a ha => h a (List.mem_cons_of_mem _ ha)) (by omega)
    intro b hb
    rcases List.mem_cons.1 hb with rfl | hb
    · exact h3
    · exact h4 b hb

theorem rank_mono {w : Nat} {a b : BitInfo w} (h : a.Le b) : rank a ≤ rank b := by
  unfold rank
  have h1 := List.countP_mono_left (l := List.range w) (p := fun i => a.z.getLsbD i) (q := fun i => b.z.getLsbD i) fun i hi => (h i (List.mem_range.1 hi)).1
  have h2 := List.countP_mono_left (l := List.range w) (p := fun i => !a.o.getLsbD i) (q := fun i => !b.o.getLsbD i) fun i hi hx => by
    have := (h i (List.mem_range.1 hi)).2
    cases hb : b.o.getLsbD i <;> simp_all
  omega

theorem rank_lt {w : Nat} {a b : BitInfo w} (h : a.Le b) (hne : b ≠ a) : rank a < rank b := by
  rcases Nat.lt_or_ge (rank a) (rank b) with h' | h'
  · exact h'
  · exfalso
    apply hne
    have i1 : ∀ i ∈ List.range w, a.z.getLsbD i = true → b.z.getLsbD i = true := fun i hi => (h i (List.mem_range.1 hi)).1
    have i2 : ∀ i ∈ List.range w, (!a.o.getLsbD i) = true → (!b.o.getLsbD i) = true := fun i hi hx => by
      have := (h i (List.mem_range.1 hi)).2
      cases hb : b.o.getLsbD i <;> simp_all
    have h1 : (List.range w).countP (fun i => a.z.getLsbD i) ≤ (List.range w).countP (fun i => b.z.getLsbD i) := List.countP_mono_left i1
    have h2 : (List.range w).countP (fun i => !a.o.getLsbD i) ≤ (List.range w).countP (fun i => !b.o.getLsbD i) := List.countP_mono_left i2
    unfold rank at h'
    have e1 := countP_eq_of_imp (p := fun i => a.z.getLsbD i) (q := fun i => b.z.getLsbD i) _ i1 (by omega)
    have e2 := countP_eq_of_imp (p := fun i => !a.o.getLsbD i) (q := fun i => !b.o.getLsbD i) _ i2 (by omega)
    obtain ⟨az, ao⟩ := a
    obtain ⟨bz, bo⟩ := b
    congr 1
    · apply getLsbD_ext; intro i hi; exact (e1 i (List.mem_range.2 hi)).symm
    · apply getLsbD_ext; intro i hi
      have := e2 i (List.mem_range.2 hi)
      simp only [Bool.not_eq_eq_eq_not, Bool.not_not] at this
      exact this.symm

def total (K : List Key) (s : State) : Nat := (K.map fun k => rank (s.at k)).sum

theorem total_le (K : List Key) (s : State) : total K s ≤ (K.map fun k => 2 * k.w).sum := by
  unfold total
  induction K with
  | nil => simp
  | cons k K ih => simp only [List.map_cons, List.sum_cons]; have := rank_le (s.at k); omega

theorem total_mono (K : List Key) {s t : State} (h : s.Le t) : total K s ≤ total K t := by
  unfold total
  induction K with
  | nil => simp
  | cons k K ih => simp only [List.map_cons, List.sum_cons]; have := rank_mono (h k); omega

theorem total_lt {K : List Key} {s t : State} (h : s.Le t) {k : Key} (hk : k ∈ K) (hne : t.at k ≠ s.at k) : total K s < total K t := by
  induction K with
  | nil => cases hk
  | cons j K ih =>
    have h1 := total_mono K h
    unfold total at h1 ih ⊢
    simp only [List.map_cons, List.sum_cons]
    rcases List.mem_cons.1 hk with rfl | hk
    · have := rank_lt (h k) hne; omega
    · have := rank_mono (h j); have := ih hk; omega

theorem run_count (hG : ∀ m n e, G.node m n = .op e → e.WellFormed ∧ regular e = true ∧ noConfirmEq e = true) {K : List Key} {c : Nat} {hist : List State}
    (h : Run G last K c hist) : ∃ s tl, hist = s :: tl ∧ c ≤ total K s := by
  induction h with
  | start => exact ⟨_, _, rfl, Nat.zero_le _⟩
  | @step c s s' σ hist win k hr hkK hw hk hσ hn ho ih =>
    obtain ⟨_, _, he, hc⟩ := ih
    obtain ⟨rfl, rfl⟩ := List.cons.inj he
    refine ⟨_, _, rfl, ?_⟩
    have hs := (run_inv hG (.step hr hkK hw hk hσ hn ho)).sorted
    have hss : s.Le s' := (List.pairwise_cons.1 hs).1 s List.mem_cons_self
    split
    · have := total_mono K hss; omega
    · next hne =>
      have := total_lt hss hkK (by rw [hn]; exact hne)
      omega

/-- a run stays below every fixpoint -/
theorem run_le_fixpoint (hG : ∀ m n e, G.node m n = .op e → e.WellFormed ∧ regular e = true ∧ noConfirmEq e = true) {K : List Key} {c : Nat} {hist : List State}
    (h : Run G last K c hist) {f : State} (hf : Fixpoint G last f) : ∀ s ∈ hist, s.Le f := by
  have hfix : ∀ k, f.at k = transfer G last f k := by
    intro k
    cases k with
    | data m n => exact hf.data m n
    | block b => exact hf.block b
    | x x => exact hf.x x
  induction h with
  | start =>
    intro s hs k
    rw [List.mem_singleton.1 hs]
    cases k <;> exact undefined_le _
  | @step c s s' σ hist win k hr _ hw hk hσ hn ho ih =>
    intro t ht
    rcases List.mem_cons.1 ht with rfl | ht
    · intro j
      by_cases hj : j = k
      · subst hj
        rw [hn, hfix]
        have hg : σ.Good := (step_facts hG (run_inv hG hr) hw hk hσ).1
        exact transfer_le hG (mix_le hσ fun h hh => ih h (hw.subset hh)) hg _
      · rw [ho j hj]; exact ih s List.mem_cons_self j
    · exact ih t ht

end Verif.Model.ConstBits
