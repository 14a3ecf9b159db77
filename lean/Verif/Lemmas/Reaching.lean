import Verif.Lemmas.DomFront
import Verif.Spec.Reaching
/-!
# The definition that reaches a block: the immediate dominator and the iterated dominance frontier
-/
namespace Verif.Lemmas.Reaching
open Verif.Spec Verif.Model.Dom

theorem executed_cons (code : Nat → List Nat) (b : Nat) (t : List Nat) : executed code (b :: t) = executed code t ++ code b := by
  simp [executed]

theorem lastDef_append (dv : Nat → Option Nat) (l m : List Nat) : lastDef dv (l ++ m) = (lastDef dv m).or (lastDef dv l) := by
  simp [lastDef, List.getLast?_append]

/-- no definition in the blocks `s`: they do not change the last definition -/
theorem lastDef_skip {dv : Nat → Option Nat} {code : Nat → List Nat} {s : List Nat} (h : ∀ c ∈ s, lastDef dv (code c) = none) (t : List Nat) :
    lastDef dv (executed code (s ++ t)) = lastDef dv (executed code t) := by
  induction s with
  | nil => rfl
  | cons c s ih =>
    rw [List.cons_append, executed_cons, lastDef_append, h c (by simp)]
    exact ih fun c hc => h c (List.mem_cons_of_mem _ hc)

section
variable {E : Nat → Nat → Prop} {r : Nat}

theorem trace_path {t : List Nat} (h : Trace E r t) : ∀ b t', t = b :: t' → Path E r t.reverse b := by
  induction h with
  | start => intro b t' e; cases e; exact .nil _
  | step _ he ih =>
    intro b t' e
    cases e
    have := path_snoc (ih _ _ rfl) he
    simpa using this

theorem trace_mono {E' : Nat → Nat → Prop} (he : ∀ a b, E a b → E' a b) {t : List Nat} (h : Trace E r t) : Trace E' r t := by
  induction h with
  | start => exact .start
  | step _ hb ih => exact .step ih (he _ _ hb)

theorem trace_tail {b c : Nat} {t : List Nat} (h : Trace E r (c :: b :: t)) : Trace E r (b :: t) ∧ E b c := by
  cases h with
  | step h he => exact ⟨h, he⟩

theorem trace_drop : ∀ {s : List Nat} {c : Nat} {t : List Nat}, Trace E r (s ++ c :: t) → Trace E r (c :: t)
  | [], _, _, h => h
  | [_], _, _, h => (trace_tail h).1
  | _ :: d :: s, c, t, h => trace_drop (s := d :: s) (trace_tail h).1

end

theorem flow_edge {g : Cfg} (a b : Nat) (h : g.Flow a b) : g.Edge a b := Or.inl h

theorem trace_edge {g : Cfg} {t : List Nat} (h : Trace g.Flow g.start t) : Trace g.Edge g.start t := trace_mono flow_edge h

theorem trace_reachable {g : Cfg} {b : Nat} {t : List Nat} (h : Trace g.Flow g.start (b :: t)) : Reachable g.Edge g.start b :=
  ⟨_, trace_path (trace_edge h) _ _ rfl⟩

theorem dominates_trace {g : Cfg} {a b : Nat} {t : List Nat} (h : Trace g.Flow g.start (b :: t)) (hd : Dominates g.Edge g.start a b) :
    a ∈ b :: t := by
  have := hd _ (trace_path (trace_edge h) _ _ rfl)
  exact List.mem_reverse.1 this

/-- the blocks after the last time in a strict dominator are dominated by it -/
theorem segment_dominated {g : Cfg} {p : Nat} : ∀ {s : List Nat} {b : Nat} {t : List Nat}, Trace g.Flow g.start (b :: s ++ t) → p ∉ b :: s →
    Dominates g.Edge g.start p b → ∀ z ∈ b :: s, Dominates g.Edge g.start p z
  | [], b, t, _, _, hd, z, hz => by rw [List.mem_singleton.1 hz]; exact hd
  | c :: s, b, t, h, hp, hd, z, hz => by
    have h2 := trace_tail (E := g.Flow) (t := s ++ t) h
    have hc : Dominates g.Edge g.start p c := dominates_pred hd (fun e => hp (by simp [e])) (flow_edge _ _ h2.2)
    rcases List.mem_cons.1 hz with e | hz
    · rw [e]; exact hd
    · exact segment_dominated (s := s) (t := t) h2.1 (fun hm => hp (List.mem_cons_of_mem _ hm)) hc z hz

/-- from a block `z` to one that it does not strictly dominate, the path goes through the dominance frontier -/
theorem through_frontier {g : Cfg} {z : Nat} {w : List Nat} : ∀ {u : List Nat} {b : Nat}, Trace g.Flow g.start (b :: u ++ z :: w) →
    ¬ (Dominates g.Edge g.start z b ∧ z ≠ b) → ∃ y u1 u2, b :: u = u1 ++ y :: u2 ∧ InFrontier g.Edge g.Flow g.start z y
  | [], b, h, hd => by
    have h2 := trace_tail (E := g.Flow) (t := w) h
    exact ⟨b, [], [], rfl, z, trace_reachable h2.1, h2.2, dominates_refl z, hd⟩
  | c :: u, b, h, hd => by
    have h2 := trace_tail (E := g.Flow) (t := u ++ z :: w) h
    by_cases hc : Dominates g.Edge g.start z c
    · exact ⟨b, [], c :: u, rfl, c, trace_reachable h2.1, h2.2, hc, hd⟩
    · obtain ⟨y, u1, u2, e, hy⟩ := through_frontier (u := u) h2.1 fun h => hc h.1
      exact ⟨y, b :: u1, u2, by rw [e]; rfl, hy⟩

section
variable (g : Cfg) (A : Nat) (mark : Nat → Prop) (idf : Nat → Bool)

/-- `idf` contains the dominance frontiers of the blocks in `mark` and of its own blocks, except for `A` -/
def Closed : Prop := ∀ z, (mark z ∨ idf z = true) → z ≠ A → Reachable g.Edge g.start z → ∀ y, InFrontier g.Edge g.Flow g.start z y → idf y = true

variable {g A mark idf}

/-- a block with a mark in the segment after the immediate dominator: then the last block is in the frontiers -/
theorem segment_front (hc : Closed g A mark idf) {p b : Nat} (hi : IsIdom g.Edge g.start p b) (hA : Dominates g.Edge g.start A b) (hAb : A ≠ b) :
    ∀ n (u : List Nat) (z : Nat) (w : List Nat), u.length = n → Trace g.Flow g.start (b :: u ++ z :: w) → p ∉ b :: u ++ [z] →
      (mark z ∨ idf z = true) → idf b = true := by
  intro n
  induction n using Nat.strongRecOn with
  | _ n ih =>
    intro u z w hn ht hp hz
    have hrz : Reachable g.Edge g.start z := trace_reachable (trace_drop (s := b :: u) ht)
    have hpz : Dominates g.Edge g.start p z := by
      refine segment_dominated (s := u ++ [z]) (t := w) ?_ (by simpa using hp) hi.2.1 z (by simp)
      simpa using ht
    have hnp : ¬ z = p := by rintro rfl; exact hp (by simp)
    have hzA : z ≠ A := by
      intro e
      exact hnp (dominates_antisymm (by rw [e]; exact hi.2.2 A hAb hA) hpz (dominates_reachable hpz hrz))
    have hnd : ¬ (Dominates g.Edge g.start z b ∧ z ≠ b) :=
      fun hd => hnp (dominates_antisymm (hi.2.2 z hd.2 hd.1) hpz (dominates_reachable hpz hrz))
    obtain ⟨y, u1, u2, e, hy⟩ := through_frontier ht hnd
    have hfy := hc z hz hzA hrz y hy
    cases u1 with
    | nil => cases e; exact hfy
    | cons b' u1 =>
      cases e
      exact ih u1.length (by simp at hn; omega) u1 y (u2 ++ z :: w) rfl (by simpa using ht)
        (fun hm => hp (by simp at hm ⊢; rcases hm with h | h | h <;> simp [h])) (Or.inr hfy)

/-- between the last time in the immediate dominator and a block that is not in the frontiers, there are no definitions and no frontiers -/
theorem segment_free (hc : Closed g A mark idf) {p b : Nat} (hi : IsIdom g.Edge g.start p b) (hA : Dominates g.Edge g.start A b) (hAb : A ≠ b)
    (hb : idf b = false) {r : List Nat} (ht : Trace g.Flow g.start (b :: r)) :
    ∃ s t, r = s ++ p :: t ∧ p ∉ s ∧ ∀ z ∈ s, ¬ mark z ∧ idf z = false := by
  have hp : p ∈ r := by
    rcases List.mem_cons.1 (dominates_trace ht hi.2.1) with h | h
    · exact absurd h hi.1
    · exact h
  obtain ⟨s, t, e, hs⟩ := List.eq_append_cons_of_mem hp
  refine ⟨s, t, e, hs, ?_⟩
  intro z hz
  refine Classical.byContradiction fun hn => ?_
  have hz' : mark z ∨ idf z = true := by
    by_cases h1 : mark z
    · exact Or.inl h1
    · refine Or.inr ?_
      cases h2 : idf z
      · exact absurd ⟨h1, h2⟩ hn
      · rfl
  obtain ⟨u, w, e2⟩ := List.append_of_mem hz
  subst e2
  have := segment_front hc hi hA hAb u.length u z (w ++ p :: t) rfl (by rw [e] at ht; simpa using ht)
    (fun hmem => by
      simp only [List.cons_append, List.mem_cons, List.mem_append, List.not_mem_nil, or_false] at hmem
      rcases hmem with h | h | h
      · exact hi.1 h
      · exact hs (by simp [h])
      · exact hs (by simp [h])) hz'
  rw [hb] at this; cases this

end

/-! ## The definitions at the ends of blocks -/

section
variable (g : Cfg) (code : Nat → List Nat) (dv : Nat → Option Nat) (idf : Nat → Bool) (φ : Nat → Option Nat)

/-- the node that has the value of the variable at the end of the block: its last definition, its Phi, or the one of the immediate dominator -/
inductive IsEnd : Nat → Nat → Prop
  | own {b d : Nat} : lastDef dv (code b) = some d → IsEnd b d
  | phi {b x : Nat} : lastDef dv (code b) = none → idf b = true → φ b = some x → IsEnd b x
  | up {b p x : Nat} : lastDef dv (code b) = none → idf b = false → g.idom b = some p → IsEnd p x → IsEnd b x

/-- the node at the beginning of the block -/
def IsStart (b x : Nat) : Prop := (idf b = true ∧ φ b = some x) ∨ (idf b = false ∧ ∃ p, g.idom b = some p ∧ IsEnd g code dv idf φ p x)

/-- the node after the nodes `pre` of the block -/
def IsAt (b : Nat) (pre : List Nat) (x : Nat) : Prop :=
  lastDef dv pre = some x ∨ (lastDef dv pre = none ∧ IsStart g code dv idf φ b x)

variable {g code dv idf φ}

theorem IsEnd.det {b x y : Nat} (h : IsEnd g code dv idf φ b x) : IsEnd g code dv idf φ b y → x = y := by
  induction h with
  | own h =>
    intro h'
    cases h' with
    | own h' => rw [h] at h'; exact Option.some.inj h'
    | phi h' => rw [h] at h'; cases h'
    | up h' => rw [h] at h'; cases h'
  | phi h h2 h3 =>
    intro h'
    cases h' with
    | own h' => rw [h] at h'; cases h'
    | phi _ _ h' => rw [h3] at h'; exact Option.some.inj h'
    | up _ h' => rw [h2] at h'; cases h'
  | up h h2 h3 _ ih =>
    intro h'
    cases h' with
    | own h' => rw [h] at h'; cases h'
    | phi _ h' => rw [h2] at h'; cases h'
    | up _ _ h3' h' => rw [h3] at h3'; cases h3'; exact ih h'

theorem IsStart.det {b x y : Nat} (h : IsStart g code dv idf φ b x) (h' : IsStart g code dv idf φ b y) : x = y := by
  rcases h with ⟨h1, h2⟩ | ⟨h1, p, h2, h3⟩ <;> rcases h' with ⟨h1', h2'⟩ | ⟨h1', p', h2', h3'⟩
  · rw [h2] at h2'; exact Option.some.inj h2'
  · rw [h1] at h1'; cases h1'
  · rw [h1] at h1'; cases h1'
  · rw [h2] at h2'; cases h2'; exact h3.det h3'

theorem IsAt.det {b x y : Nat} {pre : List Nat} (h : IsAt g code dv idf φ b pre x) (h' : IsAt g code dv idf φ b pre y) : x = y := by
  rcases h with h | ⟨h1, h2⟩ <;> rcases h' with h' | ⟨h1', h2'⟩
  · rw [h] at h'; exact Option.some.inj h'
  · rw [h] at h1'; cases h1'
  · rw [h1] at h'; cases h'
  · exact h2.det h2'

theorem isEnd_of_isAt {b x : Nat} (h : IsAt g code dv idf φ b (code b) x) : IsEnd g code dv idf φ b x := by
  rcases h with h | ⟨h, ⟨h1, h2⟩ | ⟨h1, p, h2, h3⟩⟩
  · exact .own h
  · exact .phi h h1 h2
  · exact .up h h1 h2 h3

theorem isAt_of_isEnd {b x : Nat} (h : IsEnd g code dv idf φ b x) : IsAt g code dv idf φ b (code b) x := by
  cases h with
  | own h => exact Or.inl h
  | phi h h1 h2 => exact Or.inr ⟨h, Or.inl ⟨h1, h2⟩⟩
  | up h h1 h2 h3 => exact Or.inr ⟨h, Or.inr ⟨h1, _, h2, h3⟩⟩

/-- more Phi nodes -/
def PhiExt (φ φ' : Nat → Option Nat) : Prop := ∀ b x, φ b = some x → φ' b = some x

theorem IsEnd.mono {φ' : Nat → Option Nat} (he : PhiExt φ φ') {b x : Nat} (h : IsEnd g code dv idf φ b x) : IsEnd g code dv idf φ' b x := by
  induction h with
  | own h => exact .own h
  | phi h1 h2 h3 => exact .phi h1 h2 (he _ _ h3)
  | up h1 h2 h3 _ ih => exact .up h1 h2 h3 ih

theorem IsStart.mono {φ' : Nat → Option Nat} (he : PhiExt φ φ') {b x : Nat} (h : IsStart g code dv idf φ b x) : IsStart g code dv idf φ' b x := by
  rcases h with ⟨h1, h2⟩ | ⟨h1, p, h2, h3⟩
  · exact Or.inl ⟨h1, he _ _ h2⟩
  · exact Or.inr ⟨h1, p, h2, h3.mono he⟩

theorem IsAt.mono {φ' : Nat → Option Nat} (he : PhiExt φ φ') {b x : Nat} {pre : List Nat} (h : IsAt g code dv idf φ b pre x) :
    IsAt g code dv idf φ' b pre x := by
  rcases h with h | ⟨h1, h2⟩
  · exact Or.inl h
  · exact Or.inr ⟨h1, h2.mono he⟩

/-! ## The values -/

variable (g code dv idf φ) in
/-- what the search leaves: the Phi nodes `φ` have the definitions at the ends of the predecessors as operands -/
structure Phis (H : Nat → Option Nat) (R : Nat → List Nat) : Prop where
  home : ∀ b x, φ b = some x ↔ H x = some b
  front : ∀ b x, φ b = some x → idf b = true
  defs : ∀ n d, dv n = some d → H d = none
  length : ∀ b x, φ b = some x → (R x).length = (g.ins b).length
  args : ∀ b x, φ b = some x → ∀ (j y q : Nat), (R x)[j]? = some y → (g.ins b)[j]? = some (some q) → IsEnd g code dv idf φ q y

variable {H : Nat → Option Nat} {R : Nat → List Nat} {A : Nat}

theorem lastDef_mem {l : List Nat} {d : Nat} (h : lastDef dv l = some d) : ∃ n ∈ l, dv n = some d := by
  have := List.mem_of_getLast? h
  obtain ⟨n, hn, hd⟩ := List.mem_filterMap.1 this
  exact ⟨n, hn, hd⟩

theorem denotes_defn {t : List Nat} {x d : Nat} (hx : H x = none) : DenotesAlong g.ins H R t x d ↔ d = x := by
  constructor
  · intro h
    cases h with
    | defn => rfl
    | phi h => rw [hx] at h; cases h
  · rintro rfl; exact .defn hx

theorem first_unique {b : Nat} : ∀ {s s' : List Nat} {t t' : List Nat}, s ++ b :: t = s' ++ b :: t' → b ∉ s → b ∉ s' → s = s' ∧ t = t'
  | [], [], _, _, e, _, _ => by cases e; exact ⟨rfl, rfl⟩
  | [], c :: s', _, _, e, _, h => by cases e; exact absurd (List.mem_cons_self ..) h
  | c :: s, [], _, _, e, h, _ => by cases e; exact absurd (List.mem_cons_self ..) h
  | c :: s, c' :: s', t, t', e, h, h' => by
    simp only [List.cons_append, List.cons.injEq] at e
    obtain ⟨e1, e2⟩ := first_unique e.2 (fun hm => h (List.mem_cons_of_mem _ hm)) (fun hm => h' (List.mem_cons_of_mem _ hm))
    exact ⟨by rw [e.1, e1], e2⟩

/-- a Phi keeps its value until its block is entered again -/
theorem denotes_skip {s t : List Nat} {x d : Nat} (hx : ∀ b, H x = some b → b ∉ s) :
    DenotesAlong g.ins H R (s ++ t) x d ↔ DenotesAlong g.ins H R t x d := by
  constructor
  · intro h
    generalize e : s ++ t = l at h
    cases h with
    | defn h => exact .defn h
    | @phi s' t' b q _ j y _ hb hs hp hy hd =>
      have hbs := hx b hb
      rcases List.append_eq_append_iff.1 e with ⟨m, e1, e2⟩ | ⟨m, e1, e2⟩
      · rw [e2]
        exact .phi hb (fun hm => hs (by rw [e1]; exact List.mem_append_right _ hm)) hp hy hd
      · cases m with
        | nil =>
          rw [List.nil_append] at e2
          rw [← e2]
          exact .phi (s := []) hb (by simp) hp hy hd
        | cons c m =>
          simp only [List.cons_append, List.cons.injEq] at e2
          exact absurd (by rw [e1, e2.1]; simp) hbs
  · intro h
    cases h with
    | defn h => exact .defn h
    | @phi s' t' b q _ j y _ hb hs hp hy hd =>
      rw [← List.append_assoc]
      refine .phi hb ?_ hp hy hd
      intro hm
      rcases List.mem_append.1 hm with hm | hm
      · exact hx b hb hm
      · exact hs hm

variable (g code dv idf) in
/-- the frontiers are closed; `A` is the start block or contains a definition -/
structure Front (A : Nat) : Prop where
  ok : g.Ok
  noStart : ∀ b, some g.start ∉ g.outs b
  closed : Closed g A (fun z => lastDef dv (code z) ≠ none) idf
  start : idf g.start = false
  top : A = g.start ∨ lastDef dv (code A) ≠ none

theorem trace_lt {b : Nat} {t : List Nat} (hg : g.Ok) (h : Trace g.Flow g.start (b :: t)) : b < g.n := by
  generalize e : b :: t = l at h
  induction h generalizing b t with
  | start => cases e; exact hg.start
  | step h he ih => cases e; exact hg.outsLt _ _ (ih rfl) he

/-- the node at the beginning of a block has the value of the last definition, if that is so for shorter executions -/
theorem start_value (F : Front g code dv idf A) (hP : Phis g code dv idf φ H R) {b x d : Nat} {r : List Nat}
    (ht : Trace g.Flow g.start (b :: r)) (hA : Dominates g.Edge g.start A b) (hAb : A ≠ b) (hx : IsStart g code dv idf φ b x)
    (ih : ∀ c t y, t.length < r.length → Trace g.Flow g.start (c :: t) → Dominates g.Edge g.start A c → IsEnd g code dv idf φ c y →
      (DenotesAlong g.ins H R (c :: t) y d ↔ lastDef dv (executed code (c :: t)) = some d)) :
    DenotesAlong g.ins H R (b :: r) x d ↔ lastDef dv (executed code r) = some d := by
  have hbs : b ≠ g.start := by
    rintro rfl
    have := hA _ (.nil _)
    exact hAb (List.mem_singleton.1 this)
  rcases hx with ⟨h1, h2⟩ | ⟨h1, p, h2, h3⟩
  · cases ht with
    | start => exact absurd rfl hbs
    | @step q _ r ht he =>
      have hAq : Dominates g.Edge g.start A q := dominates_pred hA hAb (flow_edge _ _ he)
      have hb := (hP.home b x).1 h2
      constructor
      · intro h
        generalize e : b :: q :: r = l at h
        cases h with
        | defn h => rw [hb] at h; cases h
        | @phi s' t' b' q' _ j y _ hb' hs hp hy hd =>
          rw [hb] at hb'
          cases hb'
          obtain ⟨e1, e2⟩ := first_unique (s := []) (s' := s') (t := q :: r) (t' := q' :: t') e (by simp) hs
          cases e2
          exact (ih q r y (by simp) ht hAq (hP.args b x h2 j y q hy hp)).1 hd
      · intro h
        have hq : some q ∈ g.ins b := (F.ok.edge q b (trace_lt F.ok ht) (F.ok.outsLt _ _ (trace_lt F.ok ht) he)).1 he
        obtain ⟨j, hj, hp⟩ := List.mem_iff_getElem.1 hq
        have hp' : (g.ins b)[j]? = some (some q) := by rw [List.getElem?_eq_getElem hj, hp]
        have hj' : j < (R x).length := by rw [hP.length b x h2]; exact hj
        have hy := List.getElem?_eq_getElem hj'
        have := (ih q r _ (by simp) ht hAq (hP.args b x h2 j _ q hy hp')).2 h
        exact .phi (s := []) hb (by simp) hp' hy this
  · have hi := (idom_iff F.ok (trace_reachable ht) hbs).1 h2
    obtain ⟨s, t, e, hs, hfree⟩ := segment_free F.closed hi hA hAb h1 ht
    subst e
    rw [lastDef_skip (s := s) (fun c hc => Classical.byContradiction fun hn => (hfree c hc).1 hn)]
    have hskip : DenotesAlong g.ins H R ((b :: s) ++ p :: t) x d ↔ DenotesAlong g.ins H R (p :: t) x d := by
      refine denotes_skip fun c hc hm => ?_
      have hf := hP.front c x ((hP.home c x).2 hc)
      rcases List.mem_cons.1 hm with rfl | hm
      · rw [h1] at hf; cases hf
      · rw [(hfree c hm).2] at hf; cases hf
    rw [show b :: (s ++ p :: t) = (b :: s) ++ p :: t from rfl, hskip]
    exact ih p t x (by simp; omega) (trace_drop (s := b :: s) ht) (hi.2.2 A hAb hA) h3

theorem end_value (F : Front g code dv idf A) (hP : Phis g code dv idf φ H R) {d : Nat} : ∀ n b r x, r.length = n →
    Trace g.Flow g.start (b :: r) → Dominates g.Edge g.start A b → IsEnd g code dv idf φ b x →
      (DenotesAlong g.ins H R (b :: r) x d ↔ lastDef dv (executed code (b :: r)) = some d) := by
  intro n
  induction n using Nat.strongRecOn with
  | _ n ih =>
    intro b r x hn ht hA hx
    rw [executed_cons, lastDef_append]
    rcases isAt_of_isEnd hx with h | ⟨h, h2⟩
    · rw [h]
      obtain ⟨m, -, hm⟩ := lastDef_mem h
      rw [denotes_defn (hP.defs m x hm)]
      simp [eq_comm]
    · rw [h]
      have hAb : A ≠ b := by
        rintro rfl
        rcases F.top with e | e
        · subst e
          rcases h2 with ⟨h1, -⟩ | ⟨-, p, h1, -⟩
          · rw [F.start] at h1; cases h1
          · rw [idom_start F.ok] at h1; cases h1
        · exact e h
      rw [start_value F hP ht hA hAb h2 fun c t y hl ht' hA' hy => ih t.length (by omega) c t y rfl ht' hA' hy]
      simp

/-- the node at a place of a block has the value of the last definition before it -/
theorem at_value (F : Front g code dv idf A) (hP : Phis g code dv idf φ H R) {b x d : Nat} {r pre : List Nat}
    (ht : Trace g.Flow g.start (b :: r)) (hA : Dominates g.Edge g.start A b) (hAb : A = b → lastDef dv pre ≠ none)
    (hx : IsAt g code dv idf φ b pre x) :
    DenotesAlong g.ins H R (b :: r) x d ↔ lastDef dv (executed code r ++ pre) = some d := by
  rw [lastDef_append]
  rcases hx with h | ⟨h, h2⟩
  · rw [h]
    obtain ⟨m, -, hm⟩ := lastDef_mem h
    rw [denotes_defn (hP.defs m x hm)]
    simp [eq_comm]
  · rw [h, start_value F hP ht hA (fun e => hAb e h) h2 fun c t y _ ht' hA' hy => end_value F hP t.length c t y rfl ht' hA' hy]
    simp

end

end Verif.Lemmas.Reaching
