import Verif.Lemmas.SsaReconInit
/-!
# The reconstruction of SSA form: no assertion fails, and the loops end
-/
namespace Verif.Lemmas.SsaRecon
open Verif.Spec Verif.Model.SsaRecon Verif.Lemmas.Reaching
open Verif.Model.Dom

theorem trace_replace {E : Nat → Nat → Prop} {r p : Nat} {t t' : List Nat} (h' : Trace E r (p :: t')) :
    ∀ {u : List Nat}, Trace E r (u ++ p :: t) → Trace E r (u ++ p :: t')
  | [], _ => h'
  | [_], h => .step h' (trace_tail h).2
  | _ :: d :: u, h => .step (trace_replace h' (u := d :: u) (trace_tail h).1) (trace_tail h).2

section
variable (P : Prog) (defs : List Nat) (A : Nat)

/-- a definition is executed before the end of the block -/
structure QE (b : Nat) : Prop where
  reach : ∃ r, Trace P.g.Flow P.g.start (b :: r)
  dom : Dominates P.g.Edge P.g.start A b
  strict : ∀ r, Trace P.g.Flow P.g.start (b :: r) → lastDef (definedBy P.skip defs) (executed P.code (b :: r)) ≠ none

/-- a definition is executed before the beginning of the block -/
structure QS (b : Nat) : Prop where
  reach : ∃ r, Trace P.g.Flow P.g.start (b :: r)
  dom : Dominates P.g.Edge P.g.start A b
  ne : A ≠ b
  strict : ∀ r, Trace P.g.Flow P.g.start (b :: r) → lastDef (definedBy P.skip defs) (executed P.code r) ≠ none

/-- the predecessors of blocks that can be executed are such blocks -/
def Preds : Prop := ∀ b r, Trace P.g.Flow P.g.start (b :: r) → ∀ q ∈ P.g.ins b, ∃ q' r', q = some q' ∧ Trace P.g.Flow P.g.start (q' :: r')

end

section
variable {P : Prog} {defs : List Nat} {uses : Nat → Prop} {idf : Nat → Bool} {A : Nat}

theorem QE.start {b : Nat} (F : Front P.g P.code (definedBy P.skip defs) idf A) (h : QE P defs A b)
    (hb : lastDef (definedBy P.skip defs) (P.code b) = none) : QS P defs A b := by
  refine ⟨h.reach, h.dom, ?_, fun r hr => ?_⟩
  · rintro rfl
    rcases F.top with e | e
    · refine h.strict [] (by rw [e]; exact .start) ?_
      rw [executed_cons, lastDef_append, hb]
      rfl
    · exact e hb
  · have := h.strict r hr
    rw [executed_cons, lastDef_append, hb] at this
    simpa using this

theorem QS.idom {b : Nat} (F : Front P.g P.code (definedBy P.skip defs) idf A) (h : QS P defs A b) (hb : idf b = false) :
    ∃ p i j, P.g.idom b = some p ∧ P.g.dfs.num b = some i ∧ P.g.dfs.num p = some j ∧ j < i ∧ QE P defs A p := by
  obtain ⟨r, hr⟩ := h.reach
  have hbs : b ≠ P.g.start := by
    rintro rfl
    exact h.ne (List.mem_singleton.1 (h.dom _ (.nil _)))
  have hreach := trace_reachable hr
  obtain ⟨i, hi⟩ := (num_reachable F.ok).2 hreach
  obtain ⟨p, j, h1, h2, -, h4, hidom⟩ := idom_some F.ok hi hbs
  refine ⟨p, i, j, h1, hi, h2, h4, ?_⟩
  obtain ⟨s, t, e, -, hfree⟩ := segment_free F.closed hidom h.dom h.ne hb hr
  subst e
  refine ⟨⟨t, trace_drop (s := b :: s) hr⟩, hidom.2.2 A h.ne h.dom, fun r' hr' => ?_⟩
  have h5 := h.strict (s ++ p :: r') (trace_replace (u := b :: s) hr' hr)
  rw [lastDef_skip (s := s) (fun c hc => Classical.byContradiction fun hn => (hfree c hc).1 hn)] at h5
  exact h5

theorem QS.pred {b : Nat} (hg : P.g.Ok) (hp : Preds P) (h : QS P defs A b) {q : Option Nat} (hq : q ∈ P.g.ins b) : ∃ q', q = some q' ∧ QE P defs A q' := by
  obtain ⟨r, hr⟩ := h.reach
  obtain ⟨q', r', e, hr'⟩ := hp b r hr q hq
  subst e
  have hf : P.g.Flow q' b := (hg.edge q' b (trace_lt hg hr') (trace_lt hg hr)).2 hq
  exact ⟨q', rfl, ⟨r', hr'⟩, dominates_pred h.dom h.ne (flow_edge _ _ hf), fun r2 hr2 => h.strict _ (.step hr2 hf)⟩

variable (P defs A) in
/-- processed blocks have a last definition, and there is one new Phi in a block at most; `c` is the number of nodes in the worklist without those Phis -/
structure Tot (c : Int) (s : St) : Prop where
  lp : ∀ b, s.blockProc b = true → s.last b ≠ none
  nodup : (s.newPhis.map s.block).Nodup
  qs : ∀ x ∈ s.newPhis, QS P defs A (s.block x)
  bal : (s.work.length : Int) - s.newPhis.length = c

variable {φ : Nat → Option Nat} {u0 : Option Nat} {s : St} {c : Int}

theorem setOperands_tot (h : Tot P defs A c s) (u x : Nat) : Tot P defs A c (setOperands u x s) := ⟨h.lp, h.nodup, h.qs, h.bal⟩

theorem setLast_tot (h : Tot P defs A c s) {b x : Nat} : Tot P defs A c { s with last := set s.last b (some x) } := by
  refine ⟨fun b' hb' => ?_, h.nodup, h.qs, h.bal⟩
  show set s.last b (some x) b' ≠ none
  by_cases e : b' = b
  · rw [e, set_same]; simp
  · rw [set_other _ _ e]; exact h.lp b' hb'

theorem insertPhi_tot (h : Inv P defs uses idf φ u0 s) (ht : Tot P defs A c s) {b : Nat} (hb : φ b = none) (hq : QS P defs A b)
    (hp : s.hasDef b = true → s.blockProc b = false) : ∃ s' x, insertPhi b s = some (s', x) ∧ Tot P defs A c s' := by
  have hold : ∀ x ∈ s.newPhis, set s.block s.next b x = s.block x ∧ s.block x ≠ b := by
    intro x hx
    obtain ⟨b', hb'⟩ := (h.newPhis x).1 hx
    obtain ⟨-, h2, h3, -⟩ := h.phi b' x hb'
    refine ⟨set_other _ _ (by omega), fun e => ?_⟩
    rw [h3] at e
    rw [e, hb] at hb'
    cases hb'
  have hmap : s.newPhis.map (set s.block s.next b) = s.newPhis.map s.block := List.map_congr_left fun x hx => (hold x hx).1
  have hnd : ((s.newPhis ++ [s.next]).map (set s.block s.next b)).Nodup := by
    rw [List.map_append, hmap, List.nodup_append]
    refine ⟨ht.nodup, by simp, ?_⟩
    intro a ha a' ha'
    rw [List.map_singleton, List.mem_singleton, set_same] at ha'
    obtain ⟨x, hx, e⟩ := List.mem_map.1 ha
    rw [ha', ← e]
    exact (hold x hx).2
  have hqs : ∀ x ∈ s.newPhis ++ [s.next], QS P defs A (set s.block s.next b x) := by
    intro x hx
    rcases List.mem_append.1 hx with hx | hx
    · rw [(hold x hx).1]; exact ht.qs x hx
    · rw [List.mem_singleton.1 hx, set_same]; exact hq
  have hbal := ht.bal
  unfold insertPhi introduceDef
  simp only [set_same]
  by_cases hd : s.hasDef b = true
  · rw [if_pos hd, hp hd, if_neg (by simp)]
    refine ⟨_, _, rfl, ⟨fun b' hb' => ?_, hnd, hqs, ?_⟩⟩
    · by_cases e : b' = b
      · rw [e] at hb'
        have : s.blockProc b = true := hb'
        rw [hp hd] at this; cases this
      · show set s.last b none b' ≠ none
        rw [set_other _ _ e]; exact ht.lp b' hb'
    · simp only [List.length_append, List.length_singleton]; omega
  · rw [if_neg hd]
    refine ⟨_, _, rfl, ⟨fun b' hb' => ?_, hnd, hqs, ?_⟩⟩
    · show set s.last b (some s.next) b' ≠ none
      by_cases e : b' = b
      · rw [e, set_same]; simp
      · rw [set_other _ _ e]; exact ht.lp b' hb'
    · simp only [List.length_append, List.length_singleton]; omega

variable (P defs uses idf A) in
/-- the search succeeds for blocks with numbers below `m` -/
def RecTot (m : Nat) (rec : Nat → St → Option (St × Nat)) : Prop :=
  ∀ φ u0 b s c i, Inv P defs uses idf φ u0 s → Tot P defs A c s → QE P defs A b → P.g.dfs.num b = some i → i < m →
    ∃ s' x, rec b s = some (s', x) ∧ Tot P defs A c s'

section
variable (G : Good P defs uses) (F : Front P.g P.code (definedBy P.skip defs) idf A)
  (hstrict : ∀ u, uses u → P.isPhi u = false → ∀ pre post, P.code (P.block u) = pre ++ u :: post →
    lastDef (definedBy P.skip defs) pre = none → QS P defs A (P.block u))
include G F

theorem fromPreds_tot {rec : Nat → St → Option (St × Nat)} {m b i : Nat} (hr : RecTot P defs uses idf A m rec) (h : Inv P defs uses idf φ u0 s)
    (ht : Tot P defs A c s) (hb : φ b = none) (hq : QS P defs A b) (hp : s.hasDef b = true → s.blockProc b = false)
    (hi : P.g.dfs.num b = some i) (hm : i ≤ m) : ∃ s' x, fromPreds P rec b s = some (s', x) ∧ Tot P defs A c s' := by
  unfold fromPreds
  rw [h.front]
  by_cases hf : idf b = true
  · rw [if_pos hf]
    exact insertPhi_tot h ht hb hq hp
  · rw [if_neg hf]
    obtain ⟨p, i', j, h1, h2, h3, h4, h5⟩ := hq.idom F (by simpa using hf)
    rw [h1]
    rw [hi] at h2
    cases h2
    exact hr φ u0 p s c j h ht h5 h3 (by omega)

include hstrict

theorem processLoop_tot {rec : Nat → St → Option (St × Nat)} {m b i : Nat} (hr' : RecOk P defs uses idf rec)
    (hr : RecTot P defs uses idf A m rec) (hi : P.g.dfs.num b = some i) (hm : i ≤ m) :
    ∀ ns pre φ d s, P.code b = pre ++ ns → Inv P defs uses idf φ u0 s → Tot P defs A c s → (∀ x, d = some x → AtPlace P defs idf φ b pre x) →
      (d = none → lastDef (definedBy P.skip defs) pre = none ∧ φ b = none ∧ (s.hasDef b = true → s.blockProc b = false)) →
      ∃ s' d', processLoop P rec b ns d s = some (s', d') ∧ Tot P defs A c s' ∧
        (d' = none → d = none ∧ lastDef (definedBy P.skip defs) (P.code b) = none) := by
  intro ns
  induction ns with
  | nil =>
    intro pre φ d s hc h ht _ hd0
    rw [List.append_nil] at hc
    exact ⟨s, d, rfl, ht, fun e => ⟨e, by rw [hc]; exact (hd0 e).1⟩⟩
  | cons n ns ih =>
    intro pre φ d s hc h ht hd hd0
    have hn : n ∈ P.code b := by rw [hc]; simp
    have hc' : P.code b = (pre ++ [n]) ++ ns := by rw [hc]; simp
    have hlt := (G.node b n hn).2
    have hnext : ∀ {φ : Nat → Option Nat} {s : St} {d : Option Nat}, Inv P defs uses idf φ u0 s →
        (∀ x, d = some x → AtPlace P defs idf φ b pre x) →
        (∀ x, (if s.isDef n then s.defn n else d) = some x → AtPlace P defs idf φ b (pre ++ [n]) x) := by
      intro φ s d h hd x hx
      have hcd := code_isDef G h hn
      unfold AtPlace IsAt
      rw [lastDef_append]
      by_cases hdn : s.isDef n = true
      · rw [if_pos hdn] at hx hcd
        rw [hx] at hcd
        left
        simp [lastDef, ← hcd]
      · rw [if_neg hdn] at hx hcd
        have : lastDef (definedBy P.skip defs) [n] = none := by simp [lastDef, ← hcd]
        rw [this]
        exact hd x hx
    have hnone : ∀ {φ : Nat → Option Nat} {s : St} {d : Option Nat}, Inv P defs uses idf φ u0 s → (if s.isDef n then s.defn n else d) = none →
        d = none ∧ definedBy P.skip defs n = none := by
      intro φ s d h hx
      by_cases hdn : s.isDef n = true
      · have hcd := code_isDef G h hn
        rw [if_pos hdn] at hx hcd
        rw [hx] at hcd
        exact absurd hcd.symm ((isDef_iff G h hn).1 hdn)
      · have hcd := code_isDef G h hn
        rw [if_neg hdn] at hx hcd
        exact ⟨hx, hcd.symm⟩
    have hold := (h.old n hlt).2
    unfold processLoop
    by_cases hu : (s.use n && !s.isPhi n) = true
    · rw [if_pos hu]
      simp only [Bool.and_eq_true, Bool.not_eq_true', hold] at hu
      have hun := (h.use n).1 hu.1
      cases d with
      | some x =>
        obtain ⟨h1, -, -⟩ := setOperands_inv G h hun hu.2 hc (hd x rfl)
        obtain ⟨s', d', g1, g2, g3⟩ := ih (pre ++ [n]) φ _ _ hc' h1 (setOperands_tot ht n x) (hnext h hd)
          (fun e => absurd (hnone h e).1 (by simp))
        exact ⟨s', d', g1, g2, fun e => absurd (hnone h (g3 e).1).1 (by simp)⟩
      | none =>
        dsimp only
        obtain ⟨hl, hb, hbp⟩ := hd0 rfl
        have hnb := (G.node b n hn).1
        have hq : QS P defs A b := by
          have := hstrict n hun hu.2 pre ns (by rw [hnb]; exact hc) hl
          rw [hnb] at this; exact this
        obtain ⟨s1, x, e1, e2⟩ := fromPreds_tot G F hr h ht hb hq hbp hi hm
        obtain ⟨φ1, f1, f2, f3, f4⟩ := fromPreds_inv G hr' h hb e1
        rw [e1]
        dsimp only
        have hat : AtPlace P defs idf φ1 b pre x := Or.inr ⟨hl, f4⟩
        obtain ⟨h1, -, -⟩ := setOperands_inv G f2 hun hu.2 hc hat
        have hsome : ∀ y, some x = some y → AtPlace P defs idf φ1 b pre y := fun y hy => by cases hy; exact hat
        obtain ⟨s', d', g1, g2, g3⟩ := ih (pre ++ [n]) φ1 _ _ hc' h1 (setOperands_tot e2 n x) (hnext f2 hsome)
          (fun e => absurd (hnone f2 e).1 (by simp))
        exact ⟨s', d', g1, g2, fun e => absurd (hnone f2 (g3 e).1).1 (by simp)⟩
    · rw [if_neg hu]
      obtain ⟨s', d', g1, g2, g3⟩ := ih (pre ++ [n]) φ _ _ hc' h ht (hnext h hd) (fun e => by
        obtain ⟨e1, e2⟩ := hnone h e
        refine ⟨?_, (hd0 e1).2⟩
        rw [lastDef_append, (hd0 e1).1]
        simp [lastDef, e2])
      exact ⟨s', d', g1, g2, fun e => ⟨(hnone h (g3 e).1).1, (g3 e).2⟩⟩

theorem processBlock_tot {rec : Nat → St → Option (St × Nat)} {m b i : Nat} (hr' : RecOk P defs uses idf rec)
    (hr : RecTot P defs uses idf A m rec) (hi : P.g.dfs.num b = some i) (hm : i ≤ m) (h : Inv P defs uses idf φ u0 s) (ht : Tot P defs A c s)
    (hd : s.hasDef b = true) (hp : s.blockProc b = false) :
    ∃ s', processBlock P rec b s = some s' ∧ Tot P defs A c s' ∧ s'.last b ≠ none := by
  unfold processBlock
  rw [if_pos (by rw [hd, hp]; rfl), h.sched b]
  have key : ∃ d, processLoop P rec b (P.code b) d s = processLoop P rec b ((φ b).toList ++ P.code b) none s ∧
      (∀ x, d = some x → AtPlace P defs idf φ b [] x) ∧ (d = none → φ b = none) := by
    cases hb : φ b with
    | none => exact ⟨none, rfl, (fun _ e => absurd e (by simp)), fun _ => rfl⟩
    | some x =>
      refine ⟨some x, ?_, fun y e => ?_, fun e => nomatch e⟩
      · have hx := h.phi b x hb
        have h1 : s.use x = false := by
          cases e : s.use x
          · rfl
          · have := G.useLt x ((h.use x).1 e)
            omega
        have h2 : s.isDef x = true := (h.isDef x).2 (Or.inr (Or.inr ⟨b, hb⟩))
        show _ = processLoop P rec b (x :: P.code b) none s
        conv => rhs; unfold processLoop
        rw [h1, h2, h.defnPhi b x hb]
        rfl
      · cases e
        exact Or.inr ⟨rfl, Or.inl ⟨(h.phi b x hb).2.2.2.2, hb⟩⟩
  obtain ⟨d, hd1, hd2, hd3⟩ := key
  rw [← hd1]
  obtain ⟨s1, d', e1, e2, e3⟩ := processLoop_tot G F hstrict hr' hr hi hm (P.code b) [] φ d s rfl h ht hd2 (fun e => ⟨rfl, hd3 e, fun _ => hp⟩)
  rw [e1]
  have hne : d' ≠ none := by
    intro e
    obtain ⟨g1, g2⟩ := e3 e
    rcases (h.hasDef b).1 hd with ⟨d0, h1, h2⟩ | h1
    · have : d0 ∈ (P.code b).filterMap (definedBy P.skip defs) :=
        List.mem_filterMap.2 ⟨_, by rw [← h2]; exact G.defSched d0 h1, definedBy_skip G h1⟩
      unfold lastDef at g2
      rw [List.getLast?_eq_none_iff.1 g2] at this
      cases this
    · exact h1 (hd3 g1)
  refine ⟨_, rfl, ⟨fun b' hb' => ?_, e2.nodup, e2.qs, e2.bal⟩, ?_⟩
  · show set s1.last b d' b' ≠ none
    by_cases e : b' = b
    · rw [e, set_same]; exact hne
    · rw [set_other _ _ e]
      exact e2.lp b' ((set_other _ _ e).symm.trans hb')
  · show set s1.last b d' b ≠ none
    rw [set_same]; exact hne

theorem searchBody_tot {rec : Nat → St → Option (St × Nat)} {m : Nat} (hr' : RecOk P defs uses idf rec) (hr : RecTot P defs uses idf A m rec) :
    RecTot P defs uses idf A (m + 1) (searchBody P rec) := by
  intro φ u0 b s c i h ht hq hi hm
  unfold searchBody
  cases hl : s.last b with
  | some y => exact ⟨s, y, rfl, ht⟩
  | none =>
    dsimp only
    have hbp : s.blockProc b = false := by
      cases e : s.blockProc b
      · rfl
      · exact absurd hl (ht.lp b e)
    by_cases hd : s.hasDef b = true
    · rw [if_pos hd]
      by_cases hu : s.blockUse b = true
      · rw [if_pos hu, if_neg (by rw [hbp]; simp)]
        obtain ⟨s', e1, e2, e3⟩ := processBlock_tot G F hstrict hr' hr hi (by omega) h ht hd hbp
        rw [e1]
        cases e : s'.last b with
        | none => exact absurd e e3
        | some x => exact ⟨s', x, by simp [e], e2⟩
      · rw [if_neg hu]
        have hex : ∃ x, lastIn s (s.sched b) = some x := by
          unfold lastIn
          have hex' : ∃ n ∈ s.sched b, s.isDef n = true := by
            rw [h.sched b]
            rcases (h.hasDef b).1 hd with ⟨d0, h1, h2⟩ | h1
            · exact ⟨P.skip d0, List.mem_append_right _ (by rw [← h2]; exact G.defSched d0 h1), (h.isDef _).2 (Or.inr (Or.inl ⟨d0, h1, rfl⟩))⟩
            · cases e : φ b with
              | none => exact absurd e h1
              | some x => exact ⟨x, by simp, (h.isDef _).2 (Or.inr (Or.inr ⟨b, e⟩))⟩
          cases e : (s.sched b).reverse.find? s.isDef with
          | none =>
            obtain ⟨n, hn, hdn⟩ := hex'
            exact absurd hdn (List.find?_eq_none.1 e n (List.mem_reverse.2 hn))
          | some n =>
            dsimp only
            have hn := List.mem_reverse.1 (List.mem_of_find?_eq_some e)
            have hdn := List.find?_some e
            rw [h.sched b] at hn
            rcases List.mem_append.1 hn with hn | hn
            · cases hb : φ b with
              | none => rw [hb] at hn; cases hn
              | some y =>
                rw [hb] at hn
                simp at hn
                exact ⟨y, by rw [hn]; exact h.defnPhi b y hb⟩
            · have h1 := code_isDef G h hn
              rw [if_pos hdn] at h1
              cases e2 : definedBy P.skip defs n with
              | none => exact absurd e2 ((isDef_iff G h hn).1 hdn)
              | some x => exact ⟨x, by rw [h1, e2]⟩
        obtain ⟨x, hx⟩ := hex
        rw [hx]
        exact ⟨_, x, rfl, setLast_tot ht⟩
    · rw [if_neg hd]
      have hno : φ b = none := by
        cases e : φ b with
        | none => rfl
        | some y => exact absurd ((h.hasDef b).2 (Or.inr (by rw [e]; simp))) hd
      have hcode : lastDef (definedBy P.skip defs) (P.code b) = none := by
        cases e : lastDef (definedBy P.skip defs) (P.code b) with
        | none => rfl
        | some d =>
          obtain ⟨n, hn, hdn⟩ := lastDef_mem e
          obtain ⟨h3, h4⟩ := definedBy_some hdn
          have h5 := (G.node _ _ (G.defSched d h3)).1
          rw [h4, (G.node _ _ hn).1] at h5
          exact absurd ((h.hasDef b).2 (Or.inl ⟨d, h3, h5.symm⟩)) hd
      obtain ⟨s1, x, e1, e2⟩ := fromPreds_tot G F hr h ht hno (hq.start F hcode) (fun e => absurd e hd) hi (by omega)
      rw [e1]
      exact ⟨_, x, rfl, setLast_tot e2⟩

theorem searchEnd_tot : ∀ fuel, RecTot P defs uses idf A fuel (searchEnd P fuel)
  | 0 => fun _ _ _ _ _ _ _ _ _ _ hm => absurd hm (Nat.not_lt_zero _)
  | fuel + 1 => searchBody_tot G F hstrict (searchEnd_inv G fuel) (searchEnd_tot fuel)

theorem num_lt {b i : Nat} (hi : P.g.dfs.num b = some i) : i < P.g.n + 1 := by
  have h1 := (((dfs_done F.ok).1.wf.iff _ _).1 hi).1
  have h2 := (dfs_done F.ok).1.wf.used_le
  omega

theorem search_tot (h : Inv P defs uses idf φ u0 s) (ht : Tot P defs A c s) {b : Nat} (hq : QE P defs A b) :
    ∃ s' x, search P b s = some (s', x) ∧ Tot P defs A c s' := by
  obtain ⟨r, hr⟩ := hq.reach
  obtain ⟨i, hi⟩ := (num_reachable F.ok).2 (trace_reachable hr)
  exact searchEnd_tot G F hstrict _ φ u0 b s c i h ht hq hi (num_lt G F hstrict hi)

theorem searchAt_tot {u : Nat} (h : Inv P defs uses idf φ (some u) s) (ht : Tot P defs A c s) (hu : uses u) (hp : P.isPhi u = false)
    (hreach : ∃ r, Trace P.g.Flow P.g.start (P.block u :: r)) : ∃ s', searchAt P u s = some s' ∧ Tot P defs A c s' := by
  have hlt := G.useLt u hu
  have hs := G.useSched u hu hp
  obtain ⟨r, hr⟩ := hreach
  obtain ⟨i, hi⟩ := (num_reachable F.ok).2 (trace_reachable hr)
  have hm : i ≤ P.g.n + 1 := Nat.le_of_lt (num_lt G F hstrict hi)
  unfold searchAt
  rw [(h.old u hlt).1]
  by_cases hb : s.blockProc (P.block u) = true
  · rw [if_pos hb]; exact ⟨s, rfl, ht⟩
  · rw [if_neg hb]
    by_cases hd : s.hasDef (P.block u) = true
    · rw [if_pos hd]
      obtain ⟨s', e1, e2, -⟩ := processBlock_tot G F hstrict (search_inv G) (searchEnd_tot G F hstrict _) hi hm h ht hd (by simpa using hb)
      exact ⟨s', e1, e2⟩
    · rw [if_neg hd]
      have hno : φ (P.block u) = none := by
        cases e : φ (P.block u) with
        | none => rfl
        | some y => exact absurd ((h.hasDef _).2 (Or.inr (by rw [e]; simp))) hd
      obtain ⟨pre, post, hc⟩ := List.append_of_mem hs
      have hpre : lastDef (definedBy P.skip defs) pre = none := by
        cases e : lastDef (definedBy P.skip defs) pre with
        | none => rfl
        | some d =>
          obtain ⟨n, hn, hdn⟩ := lastDef_mem e
          obtain ⟨h3, h4⟩ := definedBy_some hdn
          have h5 := (G.node _ _ (G.defSched d h3)).1
          rw [h4, (G.node (P.block u) n (by rw [hc]; simp [hn])).1] at h5
          exact absurd ((h.hasDef _).2 (Or.inl ⟨d, h3, h5.symm⟩)) hd
      obtain ⟨s1, x, e1, e2⟩ := fromPreds_tot G F (searchEnd_tot G F hstrict _) h ht hno (hstrict u hu hp pre post hc hpre)
        (fun e => absurd e hd) hi hm
      have e1' : fromPreds P (search P) (P.block u) s = some (s1, x) := e1
      rw [e1']
      exact ⟨_, rfl, setOperands_tot e2 u x⟩

theorem fixOld_tot : ∀ l φ s, (∀ o q, (o, q) ∈ l → (∃ u, o ∈ P.ins u) ∧ (o ∈ defs → ∃ q', q = some q' ∧ QE P defs A q')) →
    Inv P defs uses idf φ u0 s → Tot P defs A c s → ∃ s' r, fixOld P l s = some (s', r) ∧ Tot P defs A c s' := by
  intro l
  induction l with
  | nil => intro φ s _ _ ht; exact ⟨s, [], rfl, ht⟩
  | cons a l ih =>
    intro φ s hl h ht
    obtain ⟨o, q⟩ := a
    obtain ⟨⟨u, ho⟩, hq⟩ := hl o q (by simp)
    have hl' : ∀ o q, (o, q) ∈ l → (∃ u, o ∈ P.ins u) ∧ (o ∈ defs → ∃ q', q = some q' ∧ QE P defs A q') :=
      fun o q hm => hl o q (List.mem_cons_of_mem _ hm)
    unfold fixOld
    by_cases hd : s.isDef o = true
    · rw [if_pos hd]
      obtain ⟨q', e, hqe⟩ := hq ((op_isDef G h ho).1 hd)
      subst e
      obtain ⟨s1, x, e1, e2⟩ := search_tot G F hstrict h ht hqe
      obtain ⟨φ1, -, f2, -⟩ := search_inv G φ u0 q' s s1 x h e1
      obtain ⟨s2, r, g1, g2⟩ := ih φ1 s1 hl' f2 e2
      dsimp only
      rw [e1]
      dsimp only
      rw [g1]
      exact ⟨s2, _, rfl, g2⟩
    · rw [if_neg hd]
      obtain ⟨s2, r, g1, g2⟩ := ih φ s hl' h ht
      rw [g1]
      exact ⟨s2, _, rfl, g2⟩

theorem fixNew_tot : ∀ l φ s, (∀ q ∈ l, ∃ q', q = some q' ∧ QE P defs A q') →
    Inv P defs uses idf φ u0 s → Tot P defs A c s → ∃ s' r, fixNew P l s = some (s', r) ∧ Tot P defs A c s' := by
  intro l
  induction l with
  | nil => intro φ s _ _ ht; exact ⟨s, [], rfl, ht⟩
  | cons q l ih =>
    intro φ s hl h ht
    obtain ⟨q', e, hqe⟩ := hl q (by simp)
    subst e
    obtain ⟨s1, x, e1, e2⟩ := search_tot G F hstrict h ht hqe
    obtain ⟨φ1, -, f2, -⟩ := search_inv G φ u0 q' s s1 x h e1
    obtain ⟨s2, r, g1, g2⟩ := ih φ1 s1 (fun q hq => hl q (List.mem_cons_of_mem _ hq)) f2 e2
    unfold fixNew
    rw [e1]
    dsimp only
    rw [g1]
    exact ⟨s2, _, rfl, g2⟩

theorem fixPhi_tot (hpreds : Preds P) {u : Nat} (h : Inv P defs uses idf φ (some u) s) (ht : Tot P defs A c s)
    (hu : (uses u ∧ P.isPhi u = true) ∨ ∃ b, φ b = some u) (hp : s.proc u = false)
    (hphi : uses u → P.isPhi u = true → ∀ o q, (o, q) ∈ (P.ins u).zip (P.g.ins (P.block u)) → o ∈ defs → ∃ q', q = some q' ∧ QE P defs A q') :
    ∃ s', fixPhi P u s = some s' ∧ Tot P defs A c s' := by
  unfold fixPhi
  rcases hu with ⟨hu, hph⟩ | ⟨b, hb⟩
  · have hlt := G.useLt u hu
    have hargs : s.args u = P.ins u := by
      rcases h.oldPhi u hlt hph with h1 | h1
      · exact h1.2
      · rw [hp] at h1; exact absurd h1.1 (by simp)
    rw [hargs, (h.old u hlt).1, if_pos (G.phiArgs u hu hph).1]
    obtain ⟨s1, r, e1, e2⟩ := fixOld_tot G F hstrict _ φ s
      (fun o q hm => ⟨⟨u, (List.of_mem_zip hm).1⟩, hphi hu hph o q hm⟩) h ht
    rw [e1]
    exact ⟨_, rfl, ⟨e2.lp, e2.nodup, e2.qs, e2.bal⟩⟩
  · have hargs : s.args u = [] := by
      rcases h.newPhi b u hb with h1 | h1
      · exact h1.2
      · rw [hp] at h1; exact absurd h1.1 (by simp)
    obtain ⟨a1, a2, a3, -⟩ := h.phi b u hb
    rw [hargs, a3, if_neg (by simp)]
    have hqs := ht.qs u ((h.newPhis u).2 ⟨b, hb⟩)
    rw [a3] at hqs
    obtain ⟨s1, r, e1, e2⟩ := fixNew_tot G F hstrict (P.g.ins b) φ s (fun q hq => hqs.pred F.ok hpreds hq) h ht
    rw [e1]
    exact ⟨_, rfl, ⟨e2.lp, e2.nodup, e2.qs, e2.bal⟩⟩

theorem newPhis_le (ht : Tot P defs A c s) : s.newPhis.length ≤ P.g.n := by
  have := length_le_of_nodup ht.nodup (n := P.g.n) fun b hb => by
    obtain ⟨x, hx, e⟩ := List.mem_map.1 hb
    obtain ⟨r, hr⟩ := (ht.qs x hx).reach
    rw [← e]; exact trace_lt F.ok hr
  simpa using this

theorem mainLoop_tot (hpreds : Preds P) (hreach : ∀ u, uses u → P.isPhi u = false → ∃ r, Trace P.g.Flow P.g.start (P.block u :: r))
    (hphi : ∀ u, uses u → P.isPhi u = true → ∀ o q, (o, q) ∈ (P.ins u).zip (P.g.ins (P.block u)) → o ∈ defs → ∃ q', q = some q' ∧ QE P defs A q') :
    ∀ (fuel : Nat) φ s c, Inv P defs uses idf φ none s → Tot P defs A c s → c + P.g.n ≤ (fuel : Int) → ∃ s', mainLoop P fuel s = some s' := by
  intro fuel
  induction fuel with
  | zero =>
    intro φ s c h ht hf
    unfold mainLoop
    have h1 := newPhis_le G F hstrict ht
    have h2 := ht.bal
    have : s.work.length = 0 := by omega
    rw [if_pos (List.length_eq_zero_iff.1 this)]
    exact ⟨s, rfl⟩
  | succ fuel ih =>
    intro φ s c h ht hf
    unfold mainLoop
    cases hw : s.work with
    | nil => exact ⟨s, rfl⟩
    | cons u w =>
      dsimp only
      have hu := h.work u (by rw [hw]; simp)
      have h1 : Inv P defs uses idf φ (some u) { s with work := w } := by
        refine { h with cov := fun v hv => ?_, work := fun v hv => h.work v (by rw [hw]; exact List.mem_cons_of_mem _ hv) }
        rcases h.cov v hv with h1 | h1 | h1
        · exact Or.inl h1
        · rw [hw] at h1
          rcases List.mem_cons.1 h1 with h1 | h1
          · exact Or.inr (Or.inr (by rw [h1]))
          · exact Or.inr (Or.inl h1)
        · cases h1
      have ht1 : Tot P defs A (c - 1) { s with work := w } := by
        refine ⟨ht.lp, ht.nodup, ht.qs, ?_⟩
        have := ht.bal
        rw [hw] at this
        simp only [List.length_cons] at this ⊢
        omega
      by_cases hp : s.proc u = true
      · rw [if_pos hp]
        exact ih φ _ (c - 1) (h1.finish hp) ht1 (by omega)
      · rw [if_neg hp]
        have hp' : s.proc u = false := by simpa using hp
        have key : ∃ s1, (if s.isPhi u = true then fixPhi P u { s with work := w } else searchAt P u { s with work := w }) = some s1 ∧
            Tot P defs A (c - 1) s1 ∧ ∃ φ', Inv P defs uses idf φ' none s1 := by
          by_cases hph : s.isPhi u = true
          · rw [if_pos hph]
            have hu' : (uses u ∧ P.isPhi u = true) ∨ ∃ b, φ b = some u := by
              rcases hu with hu | hu
              · exact Or.inl ⟨hu, by rw [← (h.old u (G.useLt u hu)).2]; exact hph⟩
              · exact Or.inr hu
            obtain ⟨s1, e1, e2⟩ := fixPhi_tot G F hstrict hpreds h1 ht1 hu' hp' (hphi u)
            obtain ⟨φ', -, f⟩ := fixPhi_inv G h1 hu' hp' e1
            exact ⟨s1, e1, e2, φ', f⟩
          · rw [if_neg hph]
            rcases hu with hu | ⟨b, hb⟩
            · have hup : P.isPhi u = false := by rw [← (h.old u (G.useLt u hu)).2]; simpa using hph
              obtain ⟨s1, e1, e2⟩ := searchAt_tot G F hstrict h1 ht1 hu hup (hreach u hu hup)
              obtain ⟨φ', -, f⟩ := searchAt_inv G h1 hu hup e1
              exact ⟨s1, e1, e2, φ', f⟩
            · exact absurd (h.phi b u hb).2.2.2.1 hph
        obtain ⟨s1, e1, e2, φ', f⟩ := key
        rw [e1]
        exact ih φ' s1 (c - 1) f e2 (by omega)

end

end

/-! ## The iterated dominance frontier -/

/-- the number of blocks that are not marked -/
def unmarked (n : Nat) (front : Nat → Bool) : Nat := (List.range n).countP fun b => !front b

theorem countP_set {front : Nat → Bool} {y : Nat} (hy : front y = false) : ∀ (l : List Nat), y ∈ l →
    l.countP (fun b => !set front y true b) + 1 ≤ l.countP fun b => !front b := by
  intro l
  have hle : ∀ l : List Nat, l.countP (fun b => !set front y true b) ≤ l.countP fun b => !front b := by
    intro l
    refine List.countP_mono_left fun b _ hb => ?_
    by_cases e : b = y
    · rw [e, hy]; rfl
    · rw [set_other _ _ e] at hb; exact hb
  induction l with
  | nil => intro h; cases h
  | cons b l ih =>
    intro hm
    rw [List.countP_cons, List.countP_cons]
    by_cases e : b = y
    · rw [e, set_same, hy]
      have := hle l
      simp only [Bool.not_true, Bool.not_false, if_true, Bool.false_eq_true, if_false]
      omega
    · rw [set_other _ _ e]
      rcases List.mem_cons.1 hm with h | h
      · exact absurd h.symm e
      · have := ih h
        omega

theorem markFront_measure (s : St) {n : Nat} : ∀ (ys : List Nat) (front : Nat → Bool) (w : List Nat), (∀ y ∈ ys, y < n) →
    (markFront s ys (front, w)).2.length + unmarked n (markFront s ys (front, w)).1 ≤ w.length + unmarked n front := by
  intro ys
  induction ys with
  | nil => intro front w _; exact Nat.le_refl _
  | cons y ys ih =>
    intro front w hlt
    unfold markFront
    by_cases hy : front y = true
    · rw [if_pos hy]
      exact ih front w fun z hz => hlt z (List.mem_cons_of_mem _ hz)
    · rw [if_neg hy]
      have h1 := ih (set front y true) (if s.hasDef y then w else w ++ [y]) fun z hz => hlt z (List.mem_cons_of_mem _ hz)
      have h2 : unmarked n (set front y true) + 1 ≤ unmarked n front :=
        countP_set (by simpa using hy) _ (List.mem_range.2 (hlt y (by simp)))
      have h3 : (if s.hasDef y then w else w ++ [y]).length ≤ w.length + 1 := by split <;> simp
      omega

theorem markIdf_total {P : Prog} (s : St) {R : Nat → Prop} (hR : ∀ z, R z → ∀ y ∈ P.g.frontier z, R y ∧ y < P.g.n) : ∀ fuel (front : Nat → Bool) (w : List Nat),
    (∀ b ∈ w, R b) → w.length + unmarked P.g.n front ≤ fuel → ∃ idf, markIdf P s fuel (front, w) = some idf := by
  intro fuel
  induction fuel with
  | zero =>
    intro front w _ hf
    cases w with
    | nil => exact ⟨front, rfl⟩
    | cons b w => simp at hf
  | succ fuel ih =>
    intro front w hw hf
    cases w with
    | nil => exact ⟨front, rfl⟩
    | cons b w =>
      unfold markIdf
      have hb := hw b (by simp)
      have h1 := markFront_measure s (n := P.g.n) (P.g.frontier b) front w fun y hy => (hR b hb y hy).2
      cases hm : markFront s (P.g.frontier b) (front, w) with
      | mk front' w' =>
        rw [hm] at h1
        obtain ⟨-, -, -, -, -, a6⟩ := markFront_spec s _ _ _ _ _ hm
        refine ih front' w' (fun x hx => ?_) (by simp only [List.length_cons] at hf; dsimp only at h1; omega)
        rcases a6 x hx with h | h
        · exact hw x (List.mem_cons_of_mem _ h)
        · exact (hR b hb x h).1

theorem unmarked_le (n : Nat) (front : Nat → Bool) : unmarked n front ≤ n := by
  have := List.countP_le_length (p := fun b => !front b) (l := List.range n)
  rwa [List.length_range] at this

/-- the main loop starts -/
theorem prepare_total {P : Prog} {copies vals : List Nat} {R Q : Nat → Prop}
    (hR : ∀ z, R z → ∀ y ∈ P.g.frontier z, (R y ∧ Q y) ∧ y < P.g.n)
    (hcR : ∀ d ∈ copies, R (P.block d)) (G : Good P (copies ++ vals) fun u => ∃ v ∈ vals, u ∈ P.users v) :
    ∃ idf s, reconstruct P copies vals = mainLoop P (s.work.length + P.g.n + 1) s ∧
      Inv P (copies ++ vals) (fun u => ∃ v ∈ vals, u ∈ P.users v) idf (fun _ => none) none s ∧
      (∀ b, s.blockProc b = false) ∧ s.newPhis = [] ∧
      (∀ z, ((∃ d ∈ copies, P.block d = z) ∨ idf z = true) → ∀ y ∈ P.g.frontier z, idf y = true) ∧
      (∀ y, idf y = true → Q y) := by
  have hinj := G.inj
  obtain ⟨s1, w1, h1, h2, h3, h4⟩ := addCopies_pre copies [] (init P) []
    (fun d hd d' hd' => hinj d (List.mem_append_left _ (by simpa using hd)) d' (List.mem_append_left _ (by simpa using hd'))) (pre_init P) (by simp)
  rw [List.nil_append] at h2 h4
  have hwR : ∀ b ∈ w1, R b := fun b hb => by obtain ⟨d, hd, e⟩ := (h4 b).1 hb; rw [← e]; exact hcR d hd
  obtain ⟨idf, hm⟩ := markIdf_total (P := P) s1 (R := R) (fun z hz y hy => ⟨(hR z hz y hy).1.1, (hR z hz y hy).2⟩)
    (P.g.n + 1 + w1.length) s1.front w1 hwR (by have := unmarked_le P.g.n s1.front; omega)
  have hf : ∀ y, s1.front y = false := fun y => by rw [h3.1]; rfl
  have hclosed := markIdf_spec s1 (fun z hz y hy => (hR z hz y hy).1) _ _ _ idf
    (fun z hz => by
      rcases hz with hz | hz
      · exact Or.inl ((h4 z).2 ((h2.hasDef z).1 hz))
      · rw [hf z] at hz; cases hz)
    (fun y hy => by rw [hf y] at hy; cases hy) hwR hm
  simp only [h2.hasDef] at hclosed
  have h2' : Pre P copies { s1 with front := idf } :=
    ⟨h2.isDef, h2.defn, h2.hasDef, h2.last, h2.proc, h2.blockProc, h2.sched, h2.block, h2.isPhi, h2.args, h2.next, h2.newPhis⟩
  have hu1 : s1.use = fun _ => false := h3.2.1
  have hw1 : s1.work = [] := h3.2.2.2
  obtain ⟨s2, g1, g2, g3, g4, g5⟩ := introduceUsers_pre vals copies [] { s1 with front := idf } hinj h2'
    (fun n => by show s1.use n = true ↔ _; rw [hu1]; simp) (fun n => by show n ∈ s1.work ↔ s1.use n = true; rw [hu1, hw1]; simp)
  have hinv := inv_of_pre G g2 (by simpa using g4) g5
  rw [g3] at hinv
  refine ⟨idf, s2, ?_, hinv, fun b => by rw [g2.blockProc], g2.newPhis, hclosed⟩
  unfold reconstruct
  rw [h1]
  dsimp only
  rw [hm]
  dsimp only
  rw [g1]

end Verif.Lemmas.SsaRecon
