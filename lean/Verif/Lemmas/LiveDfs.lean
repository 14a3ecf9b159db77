import Verif.Lemmas.LiveTheory
import Verif.Model.LiveChk
/-!
# The depth first search of ir/ana/dfs.c
-/
namespace Verif.Model.LiveChk
open Verif.Model.Dom Verif.Spec.DomTheory Verif.Spec

variable {n : Nat} {succ : Nat → List Nat}

/-- `visit` goes from the last successor to the first -/
def rev (succ : Nat → List Nat) (b : Nat) : List Nat := (succ b).reverse

/-- the visit of a successor -/
def child (succ : Nat → List Nat) (fuel b i : Nat) (s : Search) (c : Nat) : Search :=
  (if (s.num c).isSome then s else perform succ fuel c (some b) i s).raise b c

theorem perform_succ (fuel b : Nat) (anc : Option Nat) (par : Nat) (s : Search) :
    perform succ (fuel + 1) b anc par s = ((succ b).foldl (child succ fuel b s.used) (s.enter b anc par)).leave b := rfl

theorem visit_visited {fuel b par : Nat} {s : Dfs} (h : (s.num b).isSome = true) : visit succ fuel b par s = s := by
  cases fuel with
  | zero => rfl
  | succ fuel => simp [visit, h]

/-- it is the search that was used for dominators -/
theorem perform_base : ∀ fuel b anc par s, s.num b = none →
    (perform succ fuel b anc par s).toDfs = visit (rev succ) fuel b par s.toDfs := by
  intro fuel
  induction fuel with
  | zero => intro b anc par s _; rfl
  | succ fuel ih =>
    intro b anc par s hs
    rw [perform_succ]
    simp only [visit, hs, Option.isSome_none, Bool.false_eq_true, if_false, rev, List.reverse_reverse]
    show ((succ b).foldl (child succ fuel b s.used) (s.enter b anc par)).toDfs = _
    have : ∀ (L : List Nat) (s1 : Search) (s2 : Dfs) (i : Nat), s1.toDfs = s2 →
        (L.foldl (child succ fuel b i) s1).toDfs = L.foldl (fun s c => visit (rev succ) fuel c i s) s2 := by
      intro L
      induction L with
      | nil => intro s1 s2 i h; exact h
      | cons c L ihL =>
        intro s1 s2 i h
        rw [List.foldl_cons, List.foldl_cons]
        refine ihL _ _ _ ?_
        subst h
        unfold child
        show (if (s1.num c).isSome = true then s1 else perform succ fuel c (some b) i s1).toDfs = _
        cases hc : s1.num c with
        | none =>
          simp only [Option.isSome_none, Bool.false_eq_true, if_false]
          exact ih c (some b) i s1 hc
        | some m =>
          simp only [Option.isSome_some, if_true]
          exact (visit_visited (by simp [hc])).symm
    exact this _ _ _ _ rfl

/-- the maximum of a node is a number -/
def MaxLt (s : Search) : Prop := ∀ c j, s.num c = some j → s.maxPre c < s.used

/-- the entries from `lo` on are finished -/
structure Late (lo dn : Nat) (s : Search) : Prop where
  post : ∀ j, lo ≤ j → j < s.used → dn ≤ s.post (s.block j) ∧ s.post (s.block j) < s.done ∧ s.order (s.post (s.block j)) = s.block j
  last : ∀ j, lo ≤ j → j < s.used → j ≤ s.maxPre (s.block j) ∧ (∀ x, j < x → x ≤ s.maxPre (s.block j) → j ≤ s.parent x) ∧
    ∀ x, s.maxPre (s.block j) < x → x < s.used → s.parent x < j ∨ s.maxPre (s.block j) < s.parent x
  cmp : ∀ j k, lo ≤ j → j < k → k < s.used → (k ≤ s.maxPre (s.block j) → s.post (s.block k) < s.post (s.block j)) ∧
    (s.maxPre (s.block j) < k → s.post (s.block j) < s.post (s.block k))
  surj : ∀ k, dn ≤ k → k < s.done → ∃ j, lo ≤ j ∧ j < s.used ∧ s.post (s.block j) = k

/-- what is older remains -/
structure Same (s s' : Search) : Prop where
  anc : ∀ c j, s.num c = some j → s'.anc c = s.anc c
  max : ∀ c j, s.num c = some j → s'.maxPre c = s.maxPre c
  post : ∀ c j, s.num c = some j → s'.post c = s.post c
  order : ∀ k, k < s.done → s'.order k = s.order k

/-- what `dfs_perform` did -/
structure Perf (b : Nat) (anc : Option Nat) (s s' : Search) : Prop where
  done : s'.done + s.used = s.done + s'.used
  same : Same s s'
  maxLt : MaxLt s'
  late : Late s.used s.done s'
  maxb : s'.maxPre b = s'.used - 1
  ancb : s'.anc b = anc
  anc : ∀ j, s.used < j → j < s'.used → s'.anc (s'.block j) = some (s'.block (s'.parent j))

/-- in between, for the entry `i` of `b` -/
structure Prog (n : Nat) (b i dn : Nat) (s1 s' : Search) : Prop where
  wf : Wf n s'.toDfs
  ext : Ext s1.toDfs s'.toDfs
  par : ∀ x, i < x → x < s'.used → i ≤ s'.parent x ∧ s'.parent x < x
  done : s'.done + i + 1 = dn + s'.used
  anc : ∀ c j, s1.num c = some j → s'.anc c = s1.anc c
  max : ∀ c j, s1.num c = some j → c ≠ b → s'.maxPre c = s1.maxPre c
  post : ∀ c j, s1.num c = some j → s'.post c = s1.post c
  order : ∀ k, k < dn → s'.order k = s1.order k
  maxLt : MaxLt s'
  late : Late (i + 1) dn s'
  maxb : s'.maxPre b = s'.used - 1
  ancs : ∀ j, i < j → j < s'.used → s'.anc (s'.block j) = some (s'.block (s'.parent j))

/-- more finished entries -/
theorem Late.append {i dn : Nat} {s s' : Search} (h : Late (i + 1) dn s) (h' : Late s.used s.done s') (hs : Same s s') (hw : Wf n s.toDfs)
    (he : Ext s.toDfs s'.toDfs) (hm : MaxLt s) (hi : i < s.used) (hdn : dn ≤ s.done) (hd' : s.done ≤ s'.done)
    (hp : ∀ x, s.used ≤ x → x < s'.used → s'.parent x = i ∨ s.used ≤ s'.parent x) : Late (i + 1) dn s' := by
  have hb : ∀ j, j < s.used → s'.block j = s.block j := he.block
  have hnum : ∀ j, j < s.used → s.num (s.block j) = some j := fun j hj => (hw.iff _ _).2 ⟨hj, rfl⟩
  have e1 : ∀ j, j < s.used → s'.post (s'.block j) = s.post (s.block j) := fun j hj => by rw [hb j hj]; exact hs.post _ _ (hnum j hj)
  have e2 : ∀ j, j < s.used → s'.maxPre (s'.block j) = s.maxPre (s.block j) := fun j hj => by rw [hb j hj]; exact hs.max _ _ (hnum j hj)
  refine ⟨fun j a b => ?_, fun j a b => ?_, fun j k a b c => ?_, fun k a b => ?_⟩
  · by_cases hj : j < s.used
    · have := h.post j a hj
      rw [e1 j hj, hb j hj]
      exact ⟨this.1, by omega, by rw [hs.order _ this.2.1]; exact this.2.2⟩
    · have := h'.post j (by omega) b
      exact ⟨by omega, this.2⟩
  · by_cases hj : j < s.used
    · obtain ⟨g1, g2, g3⟩ := h.last j a hj
      have hml := hm _ _ (hnum j hj)
      rw [e2 j hj]
      refine ⟨g1, fun x h1 h2 => ?_, fun x h1 h2 => ?_⟩
      · rw [he.parent x (by omega)]; exact g2 x h1 h2
      · by_cases hx : x < s.used
        · rw [he.parent x hx]; exact g3 x h1 hx
        · rcases hp x (by omega) h2 with h | h
          · exact Or.inl (by omega)
          · exact Or.inr (by omega)
    · exact h'.last j (by omega) b
  · by_cases hj : j < s.used
    · by_cases hk : k < s.used
      · rw [e1 j hj, e1 k hk, e2 j hj]; exact h.cmp j k a b hk
      · have hml := hm _ _ (hnum j hj)
        have h1 := h.post j a hj
        have h2 := h'.post k (by omega) c
        rw [e1 j hj, e2 j hj]
        exact ⟨fun h => by omega, fun _ => by omega⟩
    · exact h'.cmp j k (by omega) b c
  · by_cases hk : k < s.done
    · obtain ⟨j, h1, h2, h3⟩ := h.surj k a hk
      exact ⟨j, h1, by have := he.used; omega, by rw [e1 j h2]; exact h3⟩
    · obtain ⟨j, h1, h2, h3⟩ := h'.surj k (by omega) b
      exact ⟨j, by omega, h2, h3⟩

theorem child_prog {fuel b i dn c : Nat} {s1 s' : Search} (h : Prog n b i dn s1 s') (hi : s1.used = i + 1) (hbi : s1.block i = b)
    (hwf1 : Wf n s1.toDfs)
    (ih : s'.num c = none → Visited n (rev succ) c i s'.toDfs (perform succ fuel c (some b) i s').toDfs ∧
      Perf c (some b) s' (perform succ fuel c (some b) i s')) : Prog n b i dn s1 (child succ fuel b i s' c) := by
  have hu := h.ext.used
  unfold child
  have hbnum1 : s1.num b = some i := (hwf1.iff _ _).2 ⟨by omega, hbi⟩
  have hbnum : s'.num b = some i := h.ext.num _ _ hbnum1
  -- raising the maximum
  suffices hh : ∀ s2 : Search, s2.maxPre c < s2.used → Prog n b i dn s1 { s2 with maxPre := set s2.maxPre b (s2.used - 1) } →
      s2.maxPre b ≤ s2.used - 1 → (s2.maxPre c = s2.used - 1 ∨ s2.maxPre b = s2.used - 1) → Prog n b i dn s1 (s2.raise b c) by
    cases hc : s'.num c with
    | some m =>
      simp only [Option.isSome_some, if_true]
      refine hh s' (h.maxLt c m hc) ?_ (by rw [h.maxb]; exact Nat.le_refl _) (Or.inr h.maxb)
      have : set s'.maxPre b (s'.used - 1) = s'.maxPre := by
        funext x
        by_cases hx : x = b
        · subst hx; rw [set_same, h.maxb]
        · rw [set_other _ _ hx]
      rw [this]
      exact h
    | none =>
      simp only [Option.isSome_none, Bool.false_eq_true, if_false]
      obtain ⟨hv, hp⟩ := ih hc
      generalize perform succ fuel c (some b) i s' = s2 at hv hp ⊢
      obtain ⟨hn1, hn2, hn3⟩ := hv.new hc
      have hbm : s2.maxPre b = s'.used - 1 := by rw [hp.same.max b i hbnum, h.maxb]
      have hcu := hp.done
      have hd := h.done
      refine hh s2 (by rw [hp.maxb]; have := hn1; omega) ?_ (by rw [hbm]; omega) (Or.inl hp.maxb)
      have hpar : ∀ x, s'.used ≤ x → x < s2.used → s2.parent x = i ∨ s'.used ≤ s2.parent x := by
        intro x h1 h2
        by_cases hx : x = s'.used
        · subst hx; exact Or.inl hn3
        · exact Or.inr (hv.inner x (by omega) h2).1
      have hne : ∀ j, j < s2.used → j ≠ i → s2.block j ≠ b := by
        intro j hj hji hjb
        have h1 := (hv.wf.iff _ _).2 ⟨hj, hjb⟩
        rw [hv.ext.num _ _ hbnum] at h1
        exact hji (Option.some.inj h1).symm
      have hlate : Late (i + 1) dn s2 := h.late.append hp.late hp.same h.wf hv.ext h.maxLt (by omega) (by omega) (by omega) hpar
      refine ⟨hv.wf, h.ext.trans hv.ext, fun x h1 h2 => ?_, ?_, fun c' j hc' => ?_, fun c' j hc' hne => ?_, fun c' j hc' => ?_, fun k hk => ?_,
        fun c' j hc' => ?_, ?_, ?_, fun j h1 h2 => ?_⟩
      · show i ≤ s2.parent x ∧ s2.parent x < x
        by_cases hx : x < s'.used
        · rw [hv.ext.parent x hx]; exact h.par x h1 hx
        · by_cases hx' : x = s'.used
          · subst hx'; rw [hn3]; omega
          · have := hv.inner x (by omega) h2
            exact ⟨by omega, this.2.1⟩
      · show s2.done + i + 1 = dn + s2.used; omega
      · show s2.anc c' = s1.anc c'
        rw [hp.same.anc c' j (h.ext.num _ _ hc')]; exact h.anc c' j hc'
      · show set s2.maxPre b (s2.used - 1) c' = s1.maxPre c'
        rw [set_other _ _ hne, hp.same.max c' j (h.ext.num _ _ hc')]; exact h.max c' j hc' hne
      · show s2.post c' = s1.post c'
        rw [hp.same.post c' j (h.ext.num _ _ hc')]; exact h.post c' j hc'
      · show s2.order k = s1.order k
        rw [hp.same.order k (by omega)]; exact h.order k hk
      · show set s2.maxPre b (s2.used - 1) c' < s2.used
        by_cases hx : c' = b
        · subst hx; rw [set_same]; omega
        · rw [set_other _ _ hx]; exact hp.maxLt c' j hc'
      · refine ⟨hlate.post, fun j a b' => ?_, fun j k a b' c' => ?_, hlate.surj⟩
        · have e : ({ s2 with maxPre := set s2.maxPre b (s2.used - 1) } : Search).maxPre (s2.block j) = s2.maxPre (s2.block j) :=
            set_other _ _ (hne j b' (by omega))
          show j ≤ ({ s2 with maxPre := set s2.maxPre b (s2.used - 1) } : Search).maxPre (s2.block j) ∧ _
          rw [e]
          exact hlate.last j a b'
        · have hk : k < s2.used := c'
          have e : ({ s2 with maxPre := set s2.maxPre b (s2.used - 1) } : Search).maxPre (s2.block j) = s2.maxPre (s2.block j) :=
            set_other _ _ (hne j (by omega) (by omega))
          show (k ≤ ({ s2 with maxPre := set s2.maxPre b (s2.used - 1) } : Search).maxPre (s2.block j) → _) ∧ _
          rw [e]
          exact hlate.cmp j k a b' hk
      · show set s2.maxPre b (s2.used - 1) b = s2.used - 1
        exact set_same _ _ _
      · show s2.anc (s2.block j) = some (s2.block (s2.parent j))
        by_cases hj : j < s'.used
        · rw [hv.ext.block j hj, hv.ext.parent j hj]
          have hpj : s'.parent j < s'.used := by have := (h.par j h1 hj).2; omega
          rw [hv.ext.block _ hpj, hp.same.anc _ j ((h.wf.iff _ _).2 ⟨hj, rfl⟩)]
          exact h.ancs j h1 hj
        · by_cases hx : j = s'.used
          · subst hx
            rw [hn3, ((hv.wf.iff _ _).1 hn2).2, hp.ancb, hv.ext.block i (by omega), h.ext.block i (by omega), hbi]
          · exact hp.anc j (by omega) h2
  intro s2 hc h2 h3 h4
  have : s2.raise b c = { s2 with maxPre := set s2.maxPre b (s2.used - 1) } := by
    unfold Search.raise
    congr 2
    show Nat.max (s2.maxPre b) (s2.maxPre c) = _
    show max (s2.maxPre b) (s2.maxPre c) = _
    omega
  rw [this]
  exact h2

theorem perform_spec (hsucc : ∀ b c, b < n → c ∈ succ b → c < n) : ∀ fuel b anc par s, b < n → Wf n s.toDfs → s.num b = none → n < fuel + s.used →
    MaxLt s → Visited n (rev succ) b par s.toDfs (perform succ fuel b anc par s).toDfs ∧ Perf b anc s (perform succ fuel b anc par s) := by
  have hrev : ∀ b c, b < n → c ∈ rev succ b → c < n := fun b c hb hc => hsucc b c hb (List.mem_reverse.1 hc)
  intro fuel
  induction fuel with
  | zero => intro b anc par s _ hw _ hf; have := hw.used_le; omega
  | succ fuel ih =>
    intro b anc par s hb hw hs hf hm
    have hv := visit_spec hrev (fuel + 1) b par s.toDfs hb hw hf
    rw [← perform_base (fuel + 1) b anc par s hs] at hv
    refine ⟨hv, ?_⟩
    rw [perform_succ] at hv ⊢
    -- the new node
    have hwf1 : Wf n (s.enter b anc par).toDfs := by
      have := (visit_spec (succ := fun _ => []) (by simp) (n + 1) b par s.toDfs hb hw (by omega)).wf
      simp only [visit, hs, Option.isSome_none, Bool.false_eq_true, if_false, List.reverse_nil, List.foldl_nil] at this
      exact this
    have hblk : (s.enter b anc par).block s.used = b := set_same _ _ _
    have hnb : ∀ c j, s.num c = some j → c ≠ b := by rintro c j hc rfl; rw [hs] at hc; cases hc
    have hold : ∀ c j, s.num c = some j → (s.enter b anc par).num c = some j := fun c j hc => by
      show set s.num b (some s.used) c = some j
      rw [set_other _ _ (hnb c j hc)]; exact hc
    have h0 : Prog n b s.used s.done (s.enter b anc par) (s.enter b anc par) := by
      have hu : (s.enter b anc par).used = s.used + 1 := rfl
      refine ⟨hwf1, Ext.refl _, fun x h1 h2 => by omega, ?_, fun _ _ _ => rfl, fun _ _ _ _ => rfl, fun _ _ _ => rfl, fun _ _ => rfl, ?_, ?_, ?_,
        fun x h1 h2 => by omega⟩
      · show s.done + s.used + 1 = s.done + (s.used + 1); omega
      · intro c j hc
        show set s.maxPre b s.used c < s.used + 1
        by_cases hcb : c = b
        · subst hcb; rw [set_same]; omega
        · rw [set_other _ _ hcb]
          have hc' : set s.num b (some s.used) c = some j := hc
          rw [set_other _ _ hcb] at hc'
          have := hm c j hc'
          omega
      · exact ⟨fun j h1 h2 => by omega, fun j h1 h2 => by omega, fun j k h1 h2 h3 => by omega, fun k h1 h2 => absurd h2 (Nat.not_lt.2 h1)⟩
      · show set s.maxPre b s.used b = s.used + 1 - 1
        rw [set_same]; omega
    have hfold : ∀ (L : List Nat) (s' : Search), (∀ c ∈ L, c < n) → Prog n b s.used s.done (s.enter b anc par) s' →
        Prog n b s.used s.done (s.enter b anc par) (L.foldl (child succ fuel b s.used) s') := by
      intro L
      induction L with
      | nil => intro s' _ h; exact h
      | cons c L ihL =>
        intro s' hL h
        rw [List.foldl_cons]
        refine ihL _ (fun x hx => hL x (by simp [hx])) (child_prog h rfl hblk hwf1 fun hc => ?_)
        have hu := h.ext.used
        have hu1 : (s.enter b anc par).used = s.used + 1 := rfl
        exact ih c (some b) s.used s' (hL c (by simp)) h.wf hc (by omega) h.maxLt
    have hP := hfold (succ b) _ (fun c hc => hsucc b c hb hc) h0
    generalize (succ b).foldl (child succ fuel b s.used) (s.enter b anc par) = s2 at hP hv ⊢
    have hu := hP.ext.used
    have hu1 : (s.enter b anc par).used = s.used + 1 := rfl
    have hd := hP.done
    have hbnum : s2.num b = some s.used := hP.ext.num _ _ ((hwf1.iff _ _).2 ⟨by omega, hblk⟩)
    have hbb : s2.block s.used = b := ((hP.wf.iff _ _).1 hbnum).2
    have hne : ∀ j, j < s2.used → j ≠ s.used → s2.block j ≠ b := by
      intro j hj hji hjb
      have h1 := (hP.wf.iff _ _).2 ⟨hj, hjb⟩
      rw [hbnum] at h1
      exact hji (Option.some.inj h1).symm
    have ep : ∀ c, c ≠ b → (s2.leave b).post c = s2.post c := fun c hc => set_other _ _ hc
    have epb : (s2.leave b).post b = s2.done := set_same _ _ _
    refine ⟨?_, ⟨fun c j hc => ?_, fun c j hc => ?_, fun c j hc => ?_, fun k hk => ?_⟩, hP.maxLt, ⟨fun j h1 h2 => ?_, fun j h1 h2 => ?_, fun j k h1 h2 h3 => ?_, fun k h1 h2 => ?_⟩,
      hP.maxb, ?_, hP.ancs⟩
    · show s2.done + 1 + s.used = s.done + s2.used; omega
    · show s2.anc c = s.anc c
      rw [hP.anc c j (hold c j hc)]
      exact set_other _ _ (hnb c j hc)
    · show s2.maxPre c = s.maxPre c
      rw [hP.max c j (hold c j hc) (hnb c j hc)]
      exact set_other _ _ (hnb c j hc)
    · rw [ep c (hnb c j hc), hP.post c j (hold c j hc)]; rfl
    · show set s2.order s2.done b k = s.order k
      rw [set_other _ _ (by omega), hP.order k hk]; rfl
    · show s.done ≤ (s2.leave b).post (s2.block j) ∧ (s2.leave b).post (s2.block j) < s2.done + 1 ∧ set s2.order s2.done b ((s2.leave b).post (s2.block j)) = s2.block j
      have hj : j < s2.used := h2
      by_cases hji : j = s.used
      · subst hji
        rw [hbb, epb, set_same]; omega
      · have := hP.late.post j (by omega) hj
        rw [ep _ (hne j hj hji), set_other _ _ (by omega)]
        exact ⟨this.1, by omega, this.2.2⟩
    · show j ≤ s2.maxPre (s2.block j) ∧ (∀ x, j < x → x ≤ s2.maxPre (s2.block j) → j ≤ s2.parent x) ∧
        ∀ x, s2.maxPre (s2.block j) < x → x < s2.used → s2.parent x < j ∨ s2.maxPre (s2.block j) < s2.parent x
      have hj : j < s2.used := h2
      by_cases hji : j = s.used
      · subst hji
        rw [hbb, hP.maxb]
        exact ⟨by omega, fun x a c => (hP.par x a (by omega)).1, fun x a c => by omega⟩
      · exact hP.late.last j (by omega) hj
    · show (k ≤ s2.maxPre (s2.block j) → (s2.leave b).post (s2.block k) < (s2.leave b).post (s2.block j)) ∧
        (s2.maxPre (s2.block j) < k → (s2.leave b).post (s2.block j) < (s2.leave b).post (s2.block k))
      have hk : k < s2.used := h3
      rw [ep _ (hne k hk (by omega))]
      by_cases hji : j = s.used
      · subst hji
        rw [hbb, epb, hP.maxb]
        have := hP.late.post k (by omega) hk
        exact ⟨fun _ => by omega, fun _ => by omega⟩
      · rw [ep _ (hne j (by omega) hji)]
        exact hP.late.cmp j k (by omega) h2 hk
    · have hk : k < s2.done + 1 := h2
      by_cases hkd : k = s2.done
      · exact ⟨s.used, Nat.le_refl _, by show s.used < s2.used; omega, by show (s2.leave b).post (s2.block s.used) = k; rw [hbb, epb, hkd]⟩
      · obtain ⟨j, g1, g2, g3⟩ := hP.late.surj k h1 (by omega)
        exact ⟨j, by omega, g2, by show (s2.leave b).post (s2.block j) = k; rw [ep _ (hne j g2 (by omega))]; exact g3⟩
    · show s2.anc b = anc
      rw [hP.anc b s.used ((hwf1.iff _ _).2 ⟨by omega, hblk⟩)]
      exact set_same _ _ _

end Verif.Model.LiveChk
