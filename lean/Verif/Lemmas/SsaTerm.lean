import Verif.Lemmas.SsaBuild
/-!
# Termination of the construction, and the Phi nodes of memory
-/
namespace Verif.Model.SsaCons
open Verif.Spec.Ssa

/-! ## The bound on the depth of the recursion does not matter -/

theorem readAll_mono {read read' : Nat → St → Option (Nat × St)} (h : ∀ p s r, read p s = some r → read' p s = some r)
    {ps : List (Option Nat)} {s : St} {r : List Nat × St} (e : readAll read ps s = some r) : readAll read' ps s = some r := by
  induction ps generalizing s r with
  | nil => exact e
  | cons p ps ih =>
    cases p with
    | none =>
      simp only [readAll] at e ⊢
      cases hq : readAll read ps (s.add .bad) with
      | none => rw [hq] at e; cases e
      | some q => rw [ih hq]; rw [hq] at e; exact e
    | some p =>
      simp only [readAll] at e ⊢
      cases hq : read p s with
      | none => rw [hq] at e; cases e
      | some q =>
        rw [h p s q hq]
        rw [hq] at e
        obtain ⟨x, t⟩ := q
        simp only [] at e ⊢
        cases hq2 : readAll read ps t with
        | none => rw [hq2] at e; cases e
        | some q2 => rw [ih hq2]; rw [hq2] at e; exact e

theorem setPhiArgs_mono {read read' : Nat → St → Option (Nat × St)} (h : ∀ p s r, read p s = some r → read' p s = some r)
    {phi b v : Nat} {s s' : St} (e : setPhiArgs read phi b v s = some s') : setPhiArgs read' phi b v s = some s' := by
  unfold setPhiArgs at e ⊢
  cases hq : readAll read (s.preds b) s with
  | none => rw [hq] at e; cases e
  | some q => rw [readAll_mono h hq]; rw [hq] at e; exact e

theorem getValue_step {f b v : Nat} {s : St} {r : Nat × St} (e : getValue f b v s = some r) : getValue (f + 1) b v s = some r := by
  induction f generalizing b s r with
  | zero => cases e
  | succ f ih =>
    rw [getValue] at e ⊢
    cases ha : s.arr b v with
    | some x => rw [ha] at e; exact e
    | none =>
      rw [ha] at e
      simp only [] at e ⊢
      cases hm : s.matured b with
      | false => rw [hm] at e; exact e
      | true =>
        rw [hm] at e
        simp only [if_true] at e ⊢
        cases hp : s.preds b with
        | nil => rw [hp] at e; exact e
        | cons q qs =>
          rw [hp] at e
          cases qs with
          | nil =>
            cases q with
            | none => exact e
            | some p =>
              simp only [] at e ⊢
              cases hq : getValue f p v s with
              | none => rw [hq] at e; cases e
              | some q => rw [ih hq]; rw [hq] at e; exact e
          | cons q2 qs =>
            have key : ∀ q : Option Nat, (match setPhiArgs (fun p s => getValue f p v s) s.used b v ((s.add (.phi b v [])).setArr b v s.used) with
                | none => none
                | some t => some (s.used, t.setArr b v s.used)) = some r →
                (match setPhiArgs (fun p s => getValue (f + 1) p v s) s.used b v ((s.add (.phi b v [])).setArr b v s.used) with
                | none => none
                | some t => some (s.used, t.setArr b v s.used)) = some r := by
              intro _ e
              cases hq : setPhiArgs (fun p s => getValue f p v s) s.used b v ((s.add (.phi b v [])).setArr b v s.used) with
              | none => rw [hq] at e; cases e
              | some t => rw [setPhiArgs_mono (fun p s r hr => ih hr) hq]; rw [hq] at e; exact e
            cases q <;> exact key none e

theorem getValue_mono {f g b v : Nat} {s : St} {r : Nat × St} (hfg : f ≤ g) (e : getValue f b v s = some r) : getValue g b v s = some r := by
  induction hfg with
  | refl => exact e
  | step _ ih => exact getValue_step ih

/-! ## Reading terminates -/

/-- the blocks with several predecessors that have no value for the variable yet -/
def open_ (N v : Nat) (s : St) : Nat :=
  (List.range N).countP fun b => s.matured b && decide (2 ≤ (s.preds b).length) && (s.arr b v).isNone

theorem countP_le {p q : Nat → Bool} (l : List Nat) (h : ∀ x, p x = true → q x = true) : l.countP p ≤ l.countP q :=
  List.countP_mono_left fun x _ hx => h x hx

theorem countP_lt {p q : Nat → Bool} {l : List Nat} (h : ∀ x, p x = true → q x = true) {y : Nat} (hy : y ∈ l) (hq : q y = true) (hp : p y = false) :
    l.countP p < l.countP q := by
  induction l with
  | nil => cases hy
  | cons x l ih =>
    rw [List.countP_cons, List.countP_cons]
    rcases List.mem_cons.1 hy with rfl | hy
    · rw [hq, hp]
      have := countP_le l h
      simp
      omega
    · have := ih hy
      by_cases hx : p x = true
      · rw [hx, h x hx]; omega
      · simp only [hx]
        split <;> simp_all <;> omega

theorem open_evolve {N v : Nat} {s s' : St} (h : Evolve s s') : open_ N v s' ≤ open_ N v s := by
  refine countP_le _ fun b hb => ?_
  rw [h.matured, h.preds] at hb
  simp only [Bool.and_eq_true, decide_eq_true_eq] at hb ⊢
  refine ⟨hb.1, ?_⟩
  cases ha : s.arr b v with
  | none => rfl
  | some r =>
    obtain ⟨r', h1, _⟩ := h.arr b v r ha
    rw [h1] at hb
    cases hb.2

/-- the chains of blocks with one predecessor are finite, and so is the graph -/
structure Ranked (N : Nat) (rank : Nat → Nat) (s : St) : Prop where
  fin : ∀ b, N ≤ b → s.preds b = []
  rank : ∀ b p, s.matured b = true → s.preds b = [some p] → rank p < rank b

theorem Ranked.evolve {N : Nat} {rank : Nat → Nat} {s s' : St} (h : Ranked N rank s) (e : Evolve s s') : Ranked N rank s' where
  fin b hb := by rw [e.preds]; exact h.fin b hb
  rank b p hm hp := h.rank b p (by rw [← e.matured]; exact hm) (by rw [← e.preds]; exact hp)

variable {S : Nat → Nat → Prop} {E : Nat → Nat → Nat → Prop}

theorem readAll_terminates {N v m : Nat} {rank : Nat → Nat} {P : List Nat}
    (ih : ∀ b s, Inv S E s P → Ranked N rank s → open_ N v s ≤ m → ∃ f r, getValue f b v s = some r)
    (ps : List (Option Nat)) {s : St} (hi : Inv S E s P) (hr : Ranked N rank s) (hm : open_ N v s ≤ m) :
    ∃ f r, readAll (fun p s => getValue f p v s) ps s = some r := by
  induction ps generalizing s with
  | nil => exact ⟨0, _, rfl⟩
  | cons p ps ih2 =>
    cases p with
    | none =>
      obtain ⟨f, ⟨xs, t⟩, e⟩ := ih2 (inv_add hi (n := .bad) (by intro _ _ _ hc; cases hc)) (hr.evolve (evolve_add hi _)) hm
      exact ⟨f, (s.used :: xs, t), by simp only [readAll, e]⟩
    | some p =>
      obtain ⟨f, ⟨x, t⟩, e⟩ := ih p s hi hr hm
      obtain ⟨i1, e1, _⟩ := inv_getValue f v P p s x t hi e
      obtain ⟨g, ⟨xs, u⟩, e2⟩ := ih2 i1 (hr.evolve e1) (Nat.le_trans (open_evolve e1) hm)
      refine ⟨max f g, (x :: xs, u), ?_⟩
      simp only [readAll]
      rw [getValue_mono (Nat.le_max_left f g) e]
      simp only []
      rw [readAll_mono (fun p s r hr => getValue_mono (Nat.le_max_right f g) hr) e2]

theorem setPhiArgs_terminates {N v m : Nat} {rank : Nat → Nat} {P : List Nat}
    (ih : ∀ b s, Inv S E s P → Ranked N rank s → open_ N v s ≤ m → ∃ f r, getValue f b v s = some r)
    {phi b : Nat} {s : St} (hi : Inv S E s P) (hr : Ranked N rank s) (hm : open_ N v s ≤ m) :
    ∃ f s', setPhiArgs (fun p s => getValue f p v s) phi b v s = some s' := by
  obtain ⟨f, ⟨xs, t⟩, e⟩ := readAll_terminates ih (s.preds b) hi hr hm
  refine ⟨f, ?_⟩
  unfold setPhiArgs
  rw [e]
  exact ⟨_, rfl⟩

theorem getValue_terminates {N v : Nat} {rank : Nat → Nat} (m : Nat) : ∀ P b s, Inv S E s P → Ranked N rank s → open_ N v s ≤ m →
    ∃ f r, getValue f b v s = some r := by
  induction m using Nat.strongRecOn with
  | _ m ihm =>
    intro P b s hi hr hm
    generalize hk : rank b = k
    induction k using Nat.strongRecOn generalizing b with
    | _ k ihk =>
      cases ha : s.arr b v with
      | some x => exact ⟨1, (x, s), by simp only [getValue, ha]⟩
      | none =>
        cases hmt : s.matured b with
        | false => exact ⟨1, _, by simp only [getValue, ha, hmt]; rfl⟩
        | true =>
          cases hp : s.preds b with
          | nil =>
            by_cases h0 : b = 0
            · exact ⟨1, _, by simp only [getValue, ha, hmt, hp, if_pos h0]; rfl⟩
            · exact ⟨1, _, by simp only [getValue, ha, hmt, hp, if_neg h0]; rfl⟩
          | cons q qs =>
            cases qs with
            | nil =>
              cases q with
              | none => exact ⟨1, _, by simp only [getValue, ha, hmt, hp]; rfl⟩
              | some p =>
                obtain ⟨f, ⟨x, t⟩, e⟩ := ihk (rank p) (hk ▸ hr.rank b p hmt hp) p rfl
                exact ⟨f + 1, (x, t.setArr b v x), by simp only [getValue, ha, hmt, hp, e]; rfl⟩
            | cons q2 qs =>
              have h0 : b ≠ 0 := by rintro rfl; rw [hi.start.2] at hp; cases hp
              have i0 := inv_add_phi hi (v := v) hmt h0
              have hf0 : Fits (s.add (.phi b v [])) b v s.used := Or.inl ha
              have hsu : ((s.add (.phi b v [])).setArr b v s.used).skip s.used = s.used := hi.new _ (Nat.le_refl _)
              have i1 := inv_setArr i0 hf0 (Nat.lt_succ_self _) (fun _ => Or.inl ⟨[], by rw [hsu]; exact node_add_new s _⟩)
              have v1 := (evolve_add hi (.phi b v [])).trans (evolve_setArr i0 hf0 (fun _ p _ hp' => by
                have : s.preds b = [some p] := hp'
                rw [hp] at this; simp at this))
              have hlt : open_ N v ((s.add (.phi b v [])).setArr b v s.used) < open_ N v s := by
                have hbN : b ∈ List.range N := by
                  rw [List.mem_range]
                  rcases Nat.lt_or_ge b N with h | h
                  · exact h
                  · rw [hr.fin b h] at hp; cases hp
                refine countP_lt (fun x hx => ?_) hbN ?_ ?_
                · simp only [Bool.and_eq_true, decide_eq_true_eq] at hx ⊢
                  refine ⟨hx.1, ?_⟩
                  cases hsx : s.arr x v with
                  | none => rfl
                  | some y =>
                    obtain ⟨r', h1, _⟩ := v1.arr x v y hsx
                    rw [h1] at hx; cases hx.2
                · simp only [hmt, hp, ha, Bool.true_and, Option.isNone_none, Bool.and_true, List.length_cons, decide_eq_true_eq]; omega
                · rw [setArr_same]; simp
              have hlt' := Nat.lt_of_lt_of_le hlt hm
              obtain ⟨f, t, e⟩ := setPhiArgs_terminates (phi := s.used) (b := b)
                (fun b' s' hi hr hm => ihm _ hlt' (s.used :: P) b' s' hi hr hm) i1 (hr.evolve v1) (Nat.le_refl _)
              refine ⟨f + 1, (s.used, t.setArr b v s.used), ?_⟩
              simp only [getValue, ha, hmt, hp]
              cases q <;> simp only [if_true, e]

theorem maturePhis_terminates {N : Nat} {rank : Nat → Nat} {b : Nat} {phis : List Nat} {s : St} (h : Inv S E s phis)
    (hn : ∀ x ∈ phis, ∃ v, s.node x = .phi b v []) (hm : s.matured b = true) (hr : Ranked N rank s) :
    ∃ f s', maturePhis f b phis s = some s' := by
  induction phis generalizing s with
  | nil => exact ⟨0, s, rfl⟩
  | cons phi phis ih =>
    obtain ⟨v, hv⟩ := hn phi List.mem_cons_self
    have hpos : s.pos phi = v := by simp only [St.pos, hv]
    obtain ⟨f, t, e⟩ := setPhiArgs_terminates (phi := phi) (b := b) (fun b s hi hr hm => getValue_terminates (v := v) (open_ N v s) _ b s hi hr (Nat.le_refl _)) h hr (Nat.le_refl _)
    obtain ⟨i1, e1⟩ := inv_setPhiArgs (inv_getValue f v) h hv hm e
    obtain ⟨g, u, e2⟩ := ih i1 (fun x hx => by
        obtain ⟨w, hw⟩ := hn x (List.mem_cons_of_mem _ hx)
        have hlt := (h.pend x (List.mem_cons_of_mem _ hx)).1
        obtain ⟨_, _, b', v', h3, _⟩ := i1.pend x hx
        rcases e1.kind x hlt with hk | ⟨b2, v2, a, a', hk, hk'⟩
        · exact ⟨w, hk.trans hw⟩
        · rw [hw] at hk
          cases hk
          rw [h3] at hk'
          cases hk'
          exact ⟨_, h3⟩) (by rw [e1.matured]; exact hm) (hr.evolve e1)
    refine ⟨max f g, u, ?_⟩
    simp only [maturePhis, hpos]
    rw [setPhiArgs_mono (fun p s r hr => getValue_mono (Nat.le_max_left f g) hr) e]
    have mono : ∀ (phis : List Nat) (t u : St), maturePhis g b phis t = some u → maturePhis (max f g) b phis t = some u := by
      intro phis
      induction phis with
      | nil => intro t u h; exact h
      | cons y ys ih =>
        intro t u h
        simp only [maturePhis] at h ⊢
        cases hq : setPhiArgs (fun p t' => getValue g p (t.pos y) t') y b (t.pos y) t with
        | none => rw [hq] at h; cases h
        | some w =>
          rw [hq] at h
          rw [setPhiArgs_mono (fun p s r hr => getValue_mono (Nat.le_max_right f g) hr) hq]
          exact ih w u h
    exact mono phis t u e2

/-! ## The removal of Phi nodes terminates -/

/-- the Phi nodes that are no Id -/
def live (s : St) : Nat := (List.range s.used).countP fun x => s.isPhi x

theorem live_exchange {s : St} {phi w b v : Nat} {args : List Nat} (hlt : phi < s.used)
    (hn : s.node phi = .phi b v args) (hs : s.skip phi = phi) (hw : s.skip w = w) (hne : w ≠ phi) : live (s.exchange phi w) < live s := by
  unfold live
  refine countP_lt (fun x hx => ?_) (List.mem_range.2 hlt) ?_ ?_
  · have hx' : (match s.node x with
      | .phi _ _ _ => (s.exchange phi w).skip x == x
      | _ => false) = true := hx
    unfold St.isPhi
    split at hx'
    · next hnx =>
      simp only [hnx]
      rw [skip_exchange] at hx'
      simp only [beq_iff_eq] at hx' ⊢
      split at hx'
      · next hh => subst hx'; exact absurd (hw.symm.trans hh) hne
      · exact hx'
    · cases hx'
  · simp [St.isPhi, hn, hs]
  · have : (s.exchange phi w).isPhi phi = (match s.node phi with
      | .phi _ _ _ => (s.exchange phi w).skip phi == phi
      | _ => false) := rfl
    rw [this, hn, skip_exchange, hs]
    simp [hne]

theorem tryRemove_fuel {P : List Nat} (f g : Nat) {phi : Nat} {s : St} (h : Inv S E s P) (hlt : phi < s.used) (hs : s.skip phi = phi)
    (hf : live s < f) (hg : live s < g) : tryRemove f phi s = tryRemove g phi s := by
  induction f generalizing g phi s with
  | zero => omega
  | succ f ih =>
    cases g with
    | zero => omega
    | succ g =>
      unfold tryRemove
      cases hn : s.node phi with
      | phi b v args =>
        simp only []
        cases hsc : scan phi (args.map s.skip) false none with
        | none => rfl
        | some r =>
          obtain ⟨self, val⟩ := r
          cases val with
          | none => rfl
          | some w =>
            simp only []
            obtain ⟨h1, -, h3⟩ := scan_spec hsc (by intro w hw; cases hw)
            obtain ⟨h4, h5⟩ := h3 w rfl
            have hwm : w ∈ args.map s.skip := by
              rcases h5 with h5 | h5
              · cases h5
              · exact h5
            obtain ⟨a, haa, rfl⟩ := List.mem_map.1 hwm
            have hwl : s.skip a < s.used := h.old a (h.argLt phi b v args hlt hn a haa)
            obtain ⟨i1, e1⟩ := inv_exchange h hlt hn hs (h.idem a) h4 hwl (List.ne_nil_of_mem haa) (fun y hy => by
              rcases h1 (s.skip y) (List.mem_map_of_mem hy) with h6 | h6
              · exact Or.inl h6
              · exact Or.inr (Option.some.inj h6).symm)
            have hl := live_exchange hlt hn hs (h.idem a) h4
            have hs' : (s.exchange phi (s.skip a)).skip (s.skip a) = s.skip a := by
              rw [skip_exchange, h.idem, if_neg h4]
            split
            · rfl
            · split
              · exact ih g i1 hwl hs' (by omega) (by omega)
              · rfl
      | front _ => rfl
      | unknown _ => rfl
      | bad => rfl

/-! ## The Phi nodes of memory are kept alive -/

/-- all finished Phi nodes of memory, except for one -/
def Kept (s : St) (but : Option Nat) : Prop :=
  ∀ x b args, x < s.used → s.node x = .phi b 0 args → s.skip x = x → args ≠ [] → but = some x ∨ x ∈ s.kept

theorem kept_add {s : St} {n : Node} (h : Kept s none) (hn : ∀ b v a, n = .phi b v a → a = []) : Kept (s.add n) none := by
  intro x b args hx e hs ha
  by_cases hlt : x < s.used
  · rw [node_add_old s n hlt] at e; exact h x b args hlt e hs ha
  · have : x = s.used := by have : x < s.used + 1 := hx; omega
    subst this
    rw [node_add_new] at e
    exact absurd (hn b 0 args e) ha

theorem kept_exchange {s : St} {but : Option Nat} {phi w : Nat} (h : Kept s but) (hw : s.skip w = w) (hne : w ≠ phi) : Kept (s.exchange phi w) but := by
  intro x b args hx e hs ha
  rw [skip_exchange] at hs
  split at hs
  · next hh => subst hs; exact absurd (hw.symm.trans hh) hne
  · exact h x b args hx e hs ha

theorem kept_tryRemove {P : List Nat} (fuel : Nat) {phi : Nat} {s : St} {but : Option Nat} (h : Inv S E s P) (hlt : phi < s.used)
    (hs : s.skip phi = phi) (hk : Kept s but) : Kept (tryRemove fuel phi s) but := by
  induction fuel generalizing phi s with
  | zero => exact hk
  | succ fuel ih =>
    unfold tryRemove
    cases hn : s.node phi with
    | phi b v args =>
      simp only []
      cases hsc : scan phi (args.map s.skip) false none with
      | none => exact hk
      | some r =>
        obtain ⟨self, val⟩ := r
        cases val with
        | none => exact hk
        | some w =>
          simp only []
          obtain ⟨h1, -, h3⟩ := scan_spec hsc (by intro w hw; cases hw)
          obtain ⟨h4, h5⟩ := h3 w rfl
          have hwm : w ∈ args.map s.skip := by
            rcases h5 with h5 | h5
            · cases h5
            · exact h5
          obtain ⟨a, haa, rfl⟩ := List.mem_map.1 hwm
          have hwl : s.skip a < s.used := h.old a (h.argLt phi b v args hlt hn a haa)
          obtain ⟨i1, e1⟩ := inv_exchange h hlt hn hs (h.idem a) h4 hwl (List.ne_nil_of_mem haa) (fun y hy => by
            rcases h1 (s.skip y) (List.mem_map_of_mem hy) with h6 | h6
            · exact Or.inl h6
            · exact Or.inr (Option.some.inj h6).symm)
          have hs' : (s.exchange phi (s.skip a)).skip (s.skip a) = s.skip a := by
            rw [skip_exchange, h.idem, if_neg h4]
          have hk' := kept_exchange hk (h.idem a) h4
          split
          · exact hk
          · split
            · exact ih i1 hwl hs' hk'
            · exact hk'
    | front _ => exact hk
    | unknown _ => exact hk
    | bad => exact hk

def KReads (S : Nat → Nat → Prop) (E : Nat → Nat → Nat → Prop) (read : Nat → St → Option (Nat × St)) : Prop :=
  ∀ P p s x s', Inv S E s P → Kept s none → read p s = some (x, s') → Kept s' none

theorem kept_readAll {v : Nat} {read : Nat → St → Option (Nat × St)} (hr : Reads S E v read) (hkr : KReads S E read) {P : List Nat}
    (ps : List (Option Nat)) {s : St} {xs : List Nat} {s' : St} (h : Inv S E s P) (hk : Kept s none) (e : readAll read ps s = some (xs, s')) :
    Kept s' none := by
  induction ps generalizing s xs s' with
  | nil =>
    simp only [readAll, Option.some.injEq, Prod.mk.injEq] at e
    obtain ⟨rfl, rfl⟩ := e
    exact hk
  | cons p ps ih =>
    cases p with
    | none =>
      simp only [readAll] at e
      cases hq : readAll read ps (s.add .bad) with
      | none => rw [hq] at e; cases e
      | some r =>
        obtain ⟨ys, t⟩ := r
        rw [hq] at e
        simp only [Option.some.injEq, Prod.mk.injEq] at e
        obtain ⟨rfl, rfl⟩ := e
        exact ih (inv_add h (n := .bad) (by intro _ _ _ hc; cases hc)) (kept_add hk (by intro _ _ _ hc; cases hc)) hq
    | some p =>
      simp only [readAll] at e
      cases hq : read p s with
      | none => rw [hq] at e; cases e
      | some r =>
        obtain ⟨x, t⟩ := r
        rw [hq] at e
        simp only [] at e
        obtain ⟨i1, e1, a1⟩ := hr P p s x t h hq
        cases hq2 : readAll read ps t with
        | none => rw [hq2] at e; cases e
        | some r2 =>
          obtain ⟨ys, u⟩ := r2
          rw [hq2] at e
          simp only [Option.some.injEq, Prod.mk.injEq] at e
          obtain ⟨rfl, rfl⟩ := e
          exact ih i1 (hkr P p s x t h hk hq) hq2

theorem kept_setPhiArgs {v : Nat} {read : Nat → St → Option (Nat × St)} (hr : Reads S E v read) (hkr : KReads S E read) {P : List Nat}
    {phi b : Nat} {s s' : St} (h : Inv S E s (phi :: P)) (hn : s.node phi = .phi b v []) (hm : s.matured b = true) (hk : Kept s none)
    (e : setPhiArgs read phi b v s = some s') : Kept s' none := by
  unfold setPhiArgs at e
  cases hq : readAll read (s.preds b) s with
  | none => rw [hq] at e; cases e
  | some r =>
    obtain ⟨args, t⟩ := r
    rw [hq] at e
    simp only [Option.some.injEq] at e
    obtain ⟨i1, e1, hl, hlt, hc⟩ := inv_readAll hr (s.preds b) h hq
    have k1 := kept_readAll hr hkr (s.preds b) h hk hq
    have hpl := (h.pend phi List.mem_cons_self).1
    obtain ⟨q1, q2, b', v', q3, q4⟩ := i1.pend phi List.mem_cons_self
    have hn' : t.node phi = .phi b v [] := by
      rcases e1.kind phi hpl with hk | ⟨b2, v2, a, a', hk, hk'⟩
      · exact hk.trans hn
      · rw [hn] at hk
        cases hk
        rw [q3] at hk'
        cases hk'
        exact q3
    have hcomp : Complete t b v args := ⟨by rw [e1.matured]; exact hm, by rw [e1.preds]; exact hl, fun i p hp => hc i p (by rw [← e1.preds]; exact hp)⟩
    obtain ⟨i2, e2⟩ := inv_setIn i1 hn' hcomp hlt
    have e2' : (t.setIn phi b v args).skip phi = phi := q2
    have k2 : Kept (t.setIn phi b v args) (if v = 0 then some phi else none) := by
      intro x b'' a hx ex hsx ha
      by_cases hxp : x = phi
      · subst hxp
        rw [setIn_node] at ex
        cases ex
        left; rfl
      · rw [setIn_other t b v args hxp] at ex
        rcases k1 x b'' a hx ex hsx ha with h1 | h1
        · cases h1
        · exact Or.inr h1
    have k3 := kept_tryRemove ((t.setIn phi b v args).used + 1) i2 q1 e2' k2
    split at e
    · next hc =>
      subst e
      intro x b'' a hx ex hsx ha
      rcases k3 x b'' a hx ex hsx ha with h1 | h1
      · rw [if_pos hc.1] at h1
        cases h1
        exact Or.inr (List.mem_append_right _ List.mem_cons_self)
      · exact Or.inr (List.mem_append_left _ h1)
    · next hc =>
      subst e
      intro x b'' a hx ex hsx ha
      rcases k3 x b'' a hx ex hsx ha with h1 | h1
      · split at h1
        · next h0 => cases h1; exact absurd ⟨h0, hsx⟩ hc
        · cases h1
      · exact Or.inr h1

theorem kept_getValue (fuel : Nat) (v : Nat) : KReads S E (fun b s => getValue fuel b v s) := by
  induction fuel with
  | zero => intro P b s x s' h hk e; cases e
  | succ fuel ih =>
    intro P b s x s' h hk e
    simp only [getValue] at e
    have leaf : ∀ n : Node, (∀ b v a, n = .phi b v a → a = []) → Kept ((s.add n).setArr b v s.used) none := fun n hn => kept_add hk hn
    cases ha : s.arr b v with
    | some r =>
      rw [ha] at e
      simp only [Option.some.injEq, Prod.mk.injEq] at e
      obtain ⟨rfl, rfl⟩ := e
      exact hk
    | none =>
      rw [ha] at e
      simp only [] at e
      cases hm : s.matured b with
      | true =>
        rw [hm, if_pos rfl] at e
        cases hp : s.preds b with
        | nil =>
          rw [hp] at e
          simp only [] at e
          split at e <;>
          · simp only [Option.some.injEq, Prod.mk.injEq] at e
            obtain ⟨rfl, rfl⟩ := e
            exact leaf _ (by intro _ _ _ hc; cases hc)
        | cons q qs =>
          have h0 : b ≠ 0 := by rintro rfl; rw [h.start.2] at hp; cases hp
          rw [hp] at e
          cases qs with
          | nil =>
            cases q with
            | none =>
              simp only [Option.some.injEq, Prod.mk.injEq] at e
              obtain ⟨rfl, rfl⟩ := e
              exact leaf _ (by intro _ _ _ hc; cases hc)
            | some p =>
              simp only [] at e
              cases hq : getValue fuel p v s with
              | none => rw [hq] at e; cases e
              | some r =>
                obtain ⟨y, t⟩ := r
                rw [hq] at e
                simp only [Option.some.injEq, Prod.mk.injEq] at e
                obtain ⟨rfl, rfl⟩ := e
                exact ih P p s y t h hk hq
          | cons q2 qs =>
            have e2 : (match setPhiArgs (fun p s => getValue fuel p v s) s.used b v ((s.add (.phi b v [])).setArr b v s.used) with
                | none => none
                | some t => some (s.used, t.setArr b v s.used)) = some (x, s') := by
              cases q <;> exact e
            cases hq : setPhiArgs (fun p s => getValue fuel p v s) s.used b v ((s.add (.phi b v [])).setArr b v s.used) with
            | none => rw [hq] at e2; cases e2
            | some t =>
              rw [hq] at e2
              simp only [Option.some.injEq, Prod.mk.injEq] at e2
              obtain ⟨rfl, rfl⟩ := e2
              have i0 := inv_add_phi h (v := v) hm h0
              have hf0 : Fits (s.add (.phi b v [])) b v s.used := Or.inl ha
              have hsu : ((s.add (.phi b v [])).setArr b v s.used).skip s.used = s.used := h.new _ (Nat.le_refl _)
              have i1 := inv_setArr i0 hf0 (Nat.lt_succ_self _) (fun _ => Or.inl ⟨[], by rw [hsu]; exact node_add_new s _⟩)
              have k : Kept t none := kept_setPhiArgs (inv_getValue fuel v) ih i1 (node_add_new s _) hm
                (leaf (.phi b v []) (by intro _ _ _ hc; cases hc; rfl)) hq
              exact k
      | false =>
        rw [hm] at e
        simp only [Bool.false_eq_true, if_false, Option.some.injEq, Prod.mk.injEq] at e
        obtain ⟨rfl, rfl⟩ := e
        exact leaf (.phi b v []) (by intro _ _ _ hc; cases hc; rfl)

theorem kept_maturePhis {fuel b : Nat} {phis : List Nat} {s s' : St} (h : Inv S E s phis)
    (hn : ∀ x ∈ phis, ∃ v, s.node x = .phi b v []) (hm : s.matured b = true) (hk : Kept s none) (e : maturePhis fuel b phis s = some s') :
    Kept s' none := by
  induction phis generalizing s with
  | nil =>
    simp only [maturePhis, Option.some.injEq] at e
    subst e
    exact hk
  | cons phi phis ih =>
    simp only [maturePhis] at e
    obtain ⟨v, hv⟩ := hn phi List.mem_cons_self
    have hpos : s.pos phi = v := by simp only [St.pos, hv]
    rw [hpos] at e
    cases hq : setPhiArgs (fun p t => getValue fuel p v t) phi b v s with
    | none => rw [hq] at e; cases e
    | some t =>
      rw [hq] at e
      simp only [] at e
      obtain ⟨i1, e1⟩ := inv_setPhiArgs (inv_getValue fuel v) h hv hm hq
      refine ih i1 (fun x hx => ?_) (by rw [e1.matured]; exact hm)
        (kept_setPhiArgs (inv_getValue fuel v) (kept_getValue fuel v) h hv hm hk hq) e
      obtain ⟨w, hw⟩ := hn x (List.mem_cons_of_mem _ hx)
      have hlt := (h.pend x (List.mem_cons_of_mem _ hx)).1
      obtain ⟨_, _, b', v', h3, _⟩ := i1.pend x hx
      rcases e1.kind x hlt with hk | ⟨b2, v2, a, a', hk, hk'⟩
      · exact ⟨w, hk.trans hw⟩
      · rw [hw] at hk
        cases hk
        rw [h3] at hk'
        cases hk'
        exact ⟨_, h3⟩

theorem builds_kept {s : St} {L : Nat → List Event} (h : Builds s L) : Kept s none := by
  induction h with
  | init => intro x b args hx; exact nomatch hx
  | define b _ ih => exact kept_add ih (by intro _ _ _ hc; cases hc)
  | set _ _ _ ih => exact ih
  | get hb hg ih => exact kept_getValue _ _ [] _ _ _ _ (builds_inv hb).1 ih hg
  | addPred _ _ ih => exact ih
  | @mature s L fuel b s' hb hg ih =>
    have h := (builds_inv hb).1
    unfold mature at hg
    cases hm : s.matured b with
    | true => rw [hm, if_pos rfl] at hg; cases hg; exact ih
    | false =>
      rw [hm] at hg
      simp only [Bool.false_eq_true, if_false] at hg
      exact kept_maturePhis (inv_opened h hm) (fun x hx => (h.chain b hm x hx).2.2) (by simp [opened]) ih hg

/-- the built graphs are finite -/
theorem builds_finite {s : St} {L : Nat → List Event} (h : Builds s L) : ∃ N, ∀ b, N ≤ b → s.preds b = [] := by
  induction h with
  | init => exact ⟨0, fun _ _ => rfl⟩
  | define b _ ih => exact ih
  | set _ _ _ ih => exact ih
  | get hb hg ih =>
    obtain ⟨_, e, _⟩ := inv_getValue _ _ [] _ _ _ _ (builds_inv hb).1 hg
    rw [e.preds]; exact ih
  | @addPred s L b p _ _ ih =>
    obtain ⟨N, hN⟩ := ih
    refine ⟨max N (b + 1), fun b' hb' => ?_⟩
    simp only [addPred]
    rw [if_neg (by omega)]
    exact hN b' (by omega)
  | @mature s L fuel b s' hb hg ih =>
    have h := (builds_inv hb).1
    obtain ⟨N, hN⟩ := ih
    unfold mature at hg
    cases hm : s.matured b with
    | true => rw [hm, if_pos rfl] at hg; cases hg; exact ⟨N, hN⟩
    | false =>
      rw [hm] at hg
      simp only [Bool.false_eq_true, if_false] at hg
      obtain ⟨_, e⟩ := inv_maturePhis (inv_opened h hm) (fun x hx => (h.chain b hm x hx).2.2) (by simp [opened]) hg
      refine ⟨max N (b + 1), fun b' hb' => ?_⟩
      rw [e.preds]
      simp only [opened]
      rw [if_neg (by omega)]
      exact hN b' (by omega)

end Verif.Model.SsaCons
