import Verif.Model.Interfere
import Verif.Spec.LivePoints
import Verif.Props.LiveChk
import Verif.Lemmas.DomFront
/-!
# Lemmas: points at which a value is live
-/
namespace Verif.Model.Interfere
open Verif.Model.Dom Verif.Model.LiveChk Verif.Spec Verif.Spec.LivePoints Verif.Props

/-- the program that the functions look at -/
def Code.prog (c : Code) : Prog := ⟨c.g, c.sched, c.block, c.phi, c.ops, c.owner⟩

/-- the data belong together -/
structure Code.Ok (c : Code) : Prop where
  prog : c.prog.Ok
  ts : ∀ b, b < c.g.n → (c.sched b).Pairwise fun u w => c.ts u < c.ts w
  edges : ∀ v u j, (u, j) ∈ c.edges v ↔ c.block u < c.g.n ∧ u ∈ c.sched (c.block u) ∧ (c.ops u)[j]? = some v
  arity : ∀ b u j, b < c.g.n → u ∈ c.sched b → c.phi u = true → j < (c.ops u).length → ∃ q, (c.g.ins b)[j]? = some (some q)
  values : ∀ v u, v ∈ c.values u ↔ c.owner v = u

section
variable {c : Code} (h : c.Ok)
include h

theorem mem_block {b u : Nat} (hb : b < c.g.n) (hu : u ∈ c.sched b) : c.block u = b := h.prog.block b u hb hu

theorem phiAt_iff {v b : Nat} : PhiAt (c.uses v) b ↔ c.prog.PhiUse v b := by
  constructor
  · rintro ⟨w, hw, hp, hb⟩
    obtain ⟨⟨u, j⟩, he, rfl⟩ := List.mem_map.1 hw
    simp only at hp hb
    rw [if_pos hp] at hb
    obtain ⟨e1, e2, e3⟩ := (h.edges v u j).1 he
    obtain ⟨hj, -⟩ := List.getElem?_eq_some_iff.1 e3
    obtain ⟨q, hq⟩ := h.arity _ u j e1 e2 hp hj
    rw [List.getD_eq_getElem?_getD, hq] at hb
    simp only [Option.getD_some, Option.some.injEq] at hb
    subst hb
    exact ⟨c.block u, j, u, e1, hq, e2, hp, e3⟩
  · rintro ⟨d, j, u, h1, h2, h3, h4, h5⟩
    have hd : c.block u = d := mem_block h h1 h3
    subst hd
    refine ⟨⟨true, some b⟩, ?_, rfl, rfl⟩
    refine List.mem_map.2 ⟨(u, j), (h.edges v u j).2 ⟨h1, h3, h5⟩, ?_⟩
    have h4' : c.phi u = true := h4
    have h2' : (c.g.ins (c.block u))[j]? = some (some b) := h2
    simp only [h4', if_true, List.getD_eq_getElem?_getD, h2', Option.getD_some]

theorem usedIn_iff {v b : Nat} : UsedIn (c.uses v) b ↔ (b < c.g.n ∧ ∃ i, c.prog.UseAt v b i) ∨ c.prog.PhiUse v b := by
  rw [← phiAt_iff h]
  constructor
  · rintro ⟨w, hw, hb⟩
    by_cases hp : w.phi = true
    · exact Or.inr ⟨w, hw, hp, hb⟩
    · refine Or.inl ?_
      obtain ⟨⟨u, j⟩, he, rfl⟩ := List.mem_map.1 hw
      simp only at hp hb
      rw [if_neg hp] at hb
      simp only [Option.some.injEq] at hb
      obtain ⟨e1, e2, e3⟩ := (h.edges v u j).1 he
      subst hb
      obtain ⟨i, hi, hiu⟩ := List.getElem_of_mem e2
      exact ⟨e1, i, u, List.getElem?_eq_some_iff.2 ⟨hi, hiu⟩, (show c.phi u = false by simpa using hp), List.mem_of_getElem? e3⟩
  · rintro (⟨hb, i, u, h1, h2, h3⟩ | ⟨w, hw, -, hb⟩)
    · have hu := List.mem_of_getElem? h1
      have hbu : c.block u = b := mem_block h hb hu
      obtain ⟨j, hj, hjv⟩ := List.getElem_of_mem h3
      refine ⟨⟨false, some b⟩, ?_, rfl⟩
      refine List.mem_map.2 ⟨(u, j), (h.edges v u j).2 ⟨by rw [hbu]; exact hb, by rw [hbu]; exact hu, List.getElem?_eq_some_iff.2 ⟨hj, hjv⟩⟩, ?_⟩
      have h2' : c.phi u = false := h2
      simp [h2', hbu]
    · exact ⟨w, hw, hb⟩

theorem phiUse_lt {v b : Nat} (hp : c.prog.PhiUse v b) : b < c.g.n := by
  obtain ⟨d, j, u, h1, h2, -⟩ := hp
  exact h.prog.graph.insLt d b h1 (List.mem_of_getElem? h2)

theorem usedIn_lt {v b : Nat} (hu : UsedIn (c.uses v) b) : b < c.g.n := by
  rcases (usedIn_iff h).1 hu with ⟨hb, -⟩ | hp
  · exact hb
  · exact phiUse_lt h hp

/-- the block of a value -/
abbrev Code.db (c : Code) (v : Nat) : Nat := c.block (c.owner v)

theorem def_block {v b i : Nat} (hb : b < c.g.n) (hd : c.prog.DefAt v b i) : c.db v = b := mem_block h hb (List.mem_of_getElem? hd)

omit h in
theorem def_exists {v : Nat} (hv : c.prog.Value v) : ∃ i, c.prog.DefAt v (c.db v) i := by
  obtain ⟨i, hi, e⟩ := List.getElem_of_mem hv.sched
  exact ⟨i, List.getElem?_eq_some_iff.2 ⟨hi, e⟩⟩

theorem idx_unique {b i j u : Nat} (h1 : (c.sched b)[i]? = some u) (h2 : (c.sched b)[j]? = some u) : i = j := by
  have hn := h.prog.nodup b
  obtain ⟨hi, e1⟩ := List.getElem?_eq_some_iff.1 h1
  obtain ⟨hj, e2⟩ := List.getElem?_eq_some_iff.1 h2
  have hp := List.pairwise_iff_getElem.1 hn
  rcases Nat.lt_trichotomy i j with hh | hh | hh
  · exact absurd (e1.trans e2.symm) (hp i j hi hj hh)
  · exact hh
  · exact absurd (e2.trans e1.symm) (hp j i hj hi hh)

theorem ts_iff {b i j u w : Nat} (hb : b < c.g.n) (h1 : (c.sched b)[i]? = some u) (h2 : (c.sched b)[j]? = some w) : c.ts u < c.ts w ↔ i < j := by
  have hp := List.pairwise_iff_getElem.1 (h.ts b hb)
  obtain ⟨hi, e1⟩ := List.getElem?_eq_some_iff.1 h1
  obtain ⟨hj, e2⟩ := List.getElem?_eq_some_iff.1 h2
  constructor
  · intro hlt
    rcases Nat.lt_trichotomy i j with hh | hh | hh
    · exact hh
    · subst hh
      rw [← e1, ← e2] at hlt
      omega
    · have := hp j i hj hi hh
      rw [e1, e2] at this
      omega
  · intro hlt
    have := hp i j hi hj hlt
    rwa [e1, e2] at this

/-- liveness at the end of a block -/
abbrev Code.LEnd (c : Code) (v b : Nat) : Prop := LiveEnd c.g.Flow (c.db v) (UsedIn (c.uses v)) (PhiAt (c.uses v)) b

/-- liveness at the begin of a block -/
abbrev Code.LIn (c : Code) (v b : Nat) : Prop := LiveIn c.g.Flow (c.db v) (UsedIn (c.uses v)) b

theorem lin_of_use {v b : Nat} (hne : c.db v ≠ b) (hb : b < c.g.n) {i : Nat} (hu : c.prog.UseAt v b i) : c.LIn v b :=
  (liveIn_iff hne).2 (Or.inl ((usedIn_iff h).2 (Or.inl ⟨hb, i, hu⟩)))

omit h in
theorem lin_of_end {v b : Nat} (hne : c.db v ≠ b) (he : c.LEnd v b) : c.LIn v b := by
  rw [Code.LIn, liveIn_iff hne]
  rcases he with ⟨u, a, _, e⟩ | hl
  · exact Or.inl ⟨u, a, e⟩
  · exact Or.inr hl

/-- what it means that a value is live at a point -/
def Code.LiveHere (c : Code) (v b i : Nat) : Prop :=
  (∃ j, i ≤ j ∧ c.prog.UseAt v b j ∧ ∀ k, i ≤ k → k < j → ¬ c.prog.DefAt v b k) ∨ ((∀ k, i ≤ k → ¬ c.prog.DefAt v b k) ∧ c.LEnd v b)

theorem lin_of_here {v b : Nat} (hv : c.prog.Value v) (hb : b < c.g.n) (hl : c.LiveHere v b 0) : c.LIn v b := by
  rcases hl with ⟨j, -, hu, hn⟩ | ⟨hn, he⟩
  · by_cases hne : c.db v = b
    · obtain ⟨k, hk, hd⟩ := (hv.strict.use b j hb hu).2.2 hne
      exact absurd hd (hn k (Nat.zero_le _) hk)
    · exact lin_of_use h hne hb hu
  · by_cases hne : c.db v = b
    · obtain ⟨i, hi⟩ := def_exists hv
      rw [hne] at hi
      exact absurd hi (hn i (Nat.zero_le _))
    · exact lin_of_end hne he

theorem here_of_live {v : Nat} (hv : c.prog.Value v) {b i : Nat} (hl : c.prog.LiveAt v b i) : b < c.g.n → c.LiveHere v b i := by
  have over : ∀ {b k : Nat}, (c.sched b).length ≤ k → ¬ c.prog.DefAt v b k := by
    intro b k hk hd
    obtain ⟨h1, -⟩ := List.getElem?_eq_some_iff.1 hd
    exact absurd h1 (Nat.not_lt.2 hk)
  induction hl with
  | @use b i hu => intro _; exact Or.inl ⟨i, Nat.le_refl _, hu, fun k a b => by omega⟩
  | @step b i hi hd _ ih =>
    intro hb
    rcases ih hb with ⟨j, hj, hu, hn⟩ | ⟨hn, he⟩
    · refine Or.inl ⟨j, by omega, hu, fun k hk hkj => ?_⟩
      by_cases e : k = i
      · subst e; exact hd
      · exact hn k (by omega) hkj
    · refine Or.inr ⟨fun k hk => ?_, he⟩
      by_cases e : k = i
      · subst e; exact hd
      · exact hn k (by omega)
  | @phi b hp => intro _; exact Or.inr ⟨fun k hk => over hk, Or.inl ((phiAt_iff h).2 hp)⟩
  | @edge b d he _ ih =>
    intro hb
    have hd : d < c.g.n := h.prog.graph.outsLt b d hb he
    exact Or.inr ⟨fun k hk => over hk, Or.inr ⟨d, he, lin_of_here h hv hd (ih hd)⟩⟩

omit h in
/-- back through instructions that do not yield the value -/
theorem live_back {v b : Nat} {j : Nat} (hl : c.prog.LiveAt v b j) (hj : j ≤ (c.sched b).length) {i : Nat} (hi : i ≤ j) (hn : ∀ k, i ≤ k → k < j → ¬ c.prog.DefAt v b k) :
    c.prog.LiveAt v b i := by
  obtain ⟨m, rfl⟩ : ∃ m, j = i + m := ⟨j - i, by omega⟩
  clear hi
  induction m generalizing i with
  | zero => exact hl
  | succ m ih =>
    have : c.prog.LiveAt v b (i + 1) := ih (i := i + 1) (by rw [show i + 1 + m = i + (m + 1) by omega]; exact hl) (by omega) fun k a e => hn k (by omega) (by omega)
    exact .step (show i < (c.sched b).length by omega) (hn i (Nat.le_refl _) (by omega)) this

omit h in
theorem use_lt {v b i : Nat} (hu : c.prog.UseAt v b i) : i < (c.sched b).length := by
  obtain ⟨u, h1, -⟩ := hu
  exact (List.getElem?_eq_some_iff.1 h1).1

theorem live_of_lin {v : Nat} {b : Nat} (hb : b < c.g.n) (hl : c.LIn v b) : c.prog.LiveAt v b 0 := by
  obtain ⟨l, u, hp, hu, hd⟩ := hl
  have nodef : ∀ {b : Nat}, b < c.g.n → b ≠ c.db v → ∀ k, ¬ c.prog.DefAt v b k := fun hb hne k hk => hne (def_block h hb hk).symm
  induction hp with
  | nil b =>
    have hne : b ≠ c.db v := fun e => hd (by simp [e])
    rcases (usedIn_iff h).1 hu with ⟨-, i, hi⟩ | hp
    · exact live_back (.use hi) (Nat.le_of_lt (use_lt hi)) (Nat.zero_le _) fun k _ _ => nodef hb hne k
    · exact live_back (.phi hp) (Nat.le_refl _) (Nat.zero_le _) fun k _ _ => nodef hb hne k
  | @cons b d u l e _ ih =>
    have hne : b ≠ c.db v := fun e => hd (by simp [e])
    have hdn : d < c.g.n := h.prog.graph.outsLt b d hb e
    exact live_back (.edge e (ih hdn hu fun hh => hd (List.mem_cons_of_mem _ hh))) (Nat.le_refl _) (Nat.zero_le _) fun k _ _ => nodef hb hne k

theorem live_of_here {v b i : Nat} (hb : b < c.g.n) (hi : i ≤ (c.sched b).length) (hl : c.LiveHere v b i) : c.prog.LiveAt v b i := by
  rcases hl with ⟨j, hj, hu, hn⟩ | ⟨hn, he⟩
  · exact live_back (.use hu) (Nat.le_of_lt (use_lt hu)) hj hn
  · refine live_back (j := (c.sched b).length) ?_ (Nat.le_refl _) hi fun k a _ => hn k a
    rcases he with hp | ⟨d, e, hl⟩
    · exact .phi ((phiAt_iff h).1 hp)
    · exact .edge e (live_of_lin h (h.prog.graph.outsLt b d hb e) hl)

theorem live_iff {v : Nat} (hv : c.prog.Value v) {b i : Nat} (hb : b < c.g.n) (hi : i ≤ (c.sched b).length) : c.prog.LiveAt v b i ↔ c.LiveHere v b i :=
  ⟨fun hl => here_of_live h hv hl hb, live_of_here h hb hi⟩

/-! ## Dominance -/

theorem used_dom {v : Nat} (hv : c.prog.Value v) : ∀ b, UsedIn (c.uses v) b → Reachable c.g.Flow c.g.start b ∧ Dominates c.g.Edge c.g.start (c.db v) b := by
  intro b hu
  have hb := usedIn_lt h hu
  rcases (usedIn_iff h).1 hu with ⟨-, i, hi⟩ | hp
  · have := hv.strict.use b i hb hi
    exact ⟨this.1, this.2.1⟩
  · exact hv.strict.phi b hb hp

theorem lin_dom {v : Nat} (hv : c.prog.Value v) {b : Nat} (hl : c.LIn v b) : Dominates c.g.Edge c.g.start (c.db v) b :=
  live_dom (fun d hd => (used_dom h hv d hd).2) hl

/-- a block in which the value is live other than that of the definition -/
theorem here_lin {v b i : Nat} (hb : b < c.g.n) (hne : c.db v ≠ b) (hl : c.LiveHere v b i) : c.LIn v b := by
  rcases hl with ⟨j, -, hu, -⟩ | ⟨-, he⟩
  · exact lin_of_use h hne hb hu
  · exact lin_of_end hne he

/-- in the block of the definition the value is live after it only -/
theorem here_after {v i k : Nat} (hv : c.prog.Value v) (hl : c.LiveHere v (c.db v) i) (hk : c.prog.DefAt v (c.db v) k) : k < i := by
  rcases Nat.lt_or_ge k i with hh | hh
  · exact hh
  · rcases hl with ⟨j, hj, hu, hn⟩ | ⟨hn, -⟩
    · obtain ⟨m, hm, hd⟩ := (hv.strict.use _ j hv.block hu).2.2 rfl
      have e := idx_unique h hd hk
      subst e
      exact absurd hk (hn m hh hm)
    · exact absurd hk (hn k hh)

theorem flow_of_edge {b : Nat} (hr : Reachable c.g.Edge c.g.start b) (hne : b ≠ c.g.stop) : Reachable c.g.Flow c.g.start b := by
  obtain ⟨l, hl⟩ := hr
  refine ⟨l, ?_⟩
  have : ∀ {u v l}, Path c.g.Edge u l v → v ≠ c.g.stop → Path c.g.Flow u l v := by
    intro u v l hp hv
    induction hp with
    | nil v => exact .nil v
    | @cons u w v l e hp ih =>
      rcases e with e | ⟨rfl, -⟩
      · exact .cons e (ih hv)
      · cases hp with
        | nil => exact absurd rfl hv
        | cons e' _ =>
          rcases e' with e' | ⟨-, e', -⟩
          · exact absurd e' (h.prog.stopOut _)
          · exact absurd rfl e'
  exact this hl hne

theorem lin_reach {v : Nat} (hv : c.prog.Value v) {b : Nat} (hb : b < c.g.n) (hl : c.LIn v b) : Reachable c.g.Flow c.g.start b := by
  by_cases hne : b = c.g.stop
  · obtain ⟨l, u, hp, hu, -⟩ := hl
    cases hp with
    | nil => exact (used_dom h hv _ hu).1
    | cons e _ => subst hne; exact absurd e (h.prog.stopOut _)
  · exact flow_of_edge h (h.prog.reach b hb) hne

/-- If two values are live in a block other than that of the second definition, and the first definition dominates the second, then the first is live at
the end of the block of the second definition. -/
theorem end_of_both {a b : Nat} (hb : c.prog.Value b) {d : Nat} (hd : d < c.g.n) (hab : Dominates c.g.Edge c.g.start (c.db a) (c.db b))
    (hbd : c.db b ≠ d) (hlb : c.LIn b d) (hla : c.LIn a d) : c.LEnd a (c.db b) := by
  have hdb := lin_dom h hb hlb
  obtain ⟨l, hl⟩ := lin_reach h hb hd hlb
  obtain ⟨x, l', hx, hp, hnb⟩ := path_after hl (hdb l (path_mono (fun _ _ => flow_edge) hl)) (Ne.symm hbd)
  have hna : c.db a ∉ l' := by
    intro hm
    by_cases e : c.db a = c.db b
    · exact hnb (e ▸ hm)
    · -- a path to the first definition without the second one
      have hnd : ¬ Dominates c.g.Edge c.g.start (c.db b) (c.db a) := fun hh => e (dominates_antisymm hab hh (h.prog.reach _ hb.block))
      obtain ⟨l1, hl1⟩ := Classical.not_forall.1 hnd
      obtain ⟨hp1, hn1⟩ := Classical.not_imp.1 hl1
      -- the rest of the path from the first definition on
      have tail : ∀ {u v l}, Path c.g.Flow u l v → c.db a ∈ l → ∃ l2, Path c.g.Flow (c.db a) l2 v ∧ ∀ x ∈ l2, x ∈ l := by
        intro u v l hp
        induction hp with
        | nil v => intro hm; rw [List.mem_singleton] at hm; exact ⟨[v], by rw [hm]; exact .nil v, fun x hx => hx⟩
        | @cons u w v l e hp ih =>
          intro hm
          rcases List.mem_cons.1 hm with e' | hm
          · exact ⟨u :: l, by rw [e']; exact .cons e hp, fun x hx => hx⟩
          · obtain ⟨l2, h1, h2⟩ := ih hm
            exact ⟨l2, h1, fun x hx => List.mem_cons_of_mem _ (h2 x hx)⟩
      obtain ⟨l2, hl2, hs2⟩ := tail hp hm
      obtain ⟨l3, hl3, hs3⟩ := path_append hp1 (path_mono (fun _ _ => flow_edge) hl2)
      rcases hs3 _ (hdb l3 hl3) with hh | hh
      · exact hn1 hh
      · exact hnb (hs2 _ hh)
  obtain ⟨l2, u, hp2, hu, hn2⟩ := hla
  obtain ⟨l3, hl3, hs3⟩ := path_append hp hp2
  exact Or.inr ⟨x, hx, l3, u, hl3, hu, fun hh => (hs3 _ hh).elim hna hn2⟩

/-! ## The functions -/

/-- the flags at the end of the blocks are right -/
def Code.LvOk (c : Code) (v : Nat) : Prop := ∀ b, b < c.g.n → ((c.lv b v).end_ = true ↔ c.LEnd v b)

theorem liveAfter_iff {v after i : Nat} (hlv : c.LvOk v) (hb : c.block after < c.g.n) (hi : (c.sched (c.block after))[i]? = some after) :
    c.liveAfter v after = true ↔ c.LEnd v (c.block after) ∨ ∃ j, i < j ∧ c.prog.UseAt v (c.block after) j := by
  unfold Code.liveAfter
  rw [Bool.or_eq_true, hlv _ hb, List.any_eq_true]
  refine or_congr Iff.rfl ⟨?_, ?_⟩
  · rintro ⟨⟨u, j⟩, he, hc⟩
    simp only [Bool.and_eq_true, decide_eq_true_eq, Bool.not_eq_true'] at hc
    obtain ⟨⟨c1, c2⟩, c3⟩ := hc
    obtain ⟨e1, e2, e3⟩ := (h.edges v u j).1 he
    rw [c1] at e2
    obtain ⟨k, hk, hku⟩ := List.getElem_of_mem e2
    have hk' := List.getElem?_eq_some_iff.2 ⟨hk, hku⟩
    exact ⟨k, (ts_iff h hb hi hk').1 c3, u, hk', c2, List.mem_of_getElem? e3⟩
  · rintro ⟨k, hik, u, h1, h2, h3⟩
    have hu := List.mem_of_getElem? h1
    have hbu : c.block u = c.block after := mem_block h hb hu
    obtain ⟨j, hj, hjv⟩ := List.getElem_of_mem h3
    refine ⟨(u, j), (h.edges v u j).2 ⟨by rw [hbu]; exact hb, by rw [hbu]; exact hu, List.getElem?_eq_some_iff.2 ⟨hj, hjv⟩⟩, ?_⟩
    have h2' : c.phi u = false := h2
    simp [hbu, h2', (ts_iff h hb hi h1).2 hik]

theorem sdom_iff {a b : Nat} (ha : c.block a < c.g.n) (hb : c.block b < c.g.n) {i j : Nat} (hi : (c.sched (c.block a))[i]? = some a)
    (hj : (c.sched (c.block b))[j]? = some b) :
    c.strictlyDominates a b = true ↔ (c.block a ≠ c.block b ∧ Dominates c.g.Edge c.g.start (c.block a) (c.block b)) ∨ (c.block a = c.block b ∧ i < j) := by
  unfold Code.strictlyDominates
  by_cases e : c.block a = c.block b
  · rw [if_neg (fun hh => hh e), decide_eq_true_eq]
    rw [← e] at hj
    rw [ts_iff h ha hi hj]
    simp [e]
  · rw [if_pos e]
    have hsm : c.g.n ≤ 2 ^ 31 := h.prog.small
    have := dominates_block (g := c.g) h.prog.graph (by omega) (h.prog.reach _ ha) (h.prog.reach _ hb)
    rw [this]
    simp [e]

/-- for a definition that dominates the instruction: live at the point after it -/
theorem liveAfter_live {v after i k : Nat} (hv : c.prog.Value v) (hlv : c.LvOk v) (hb : c.block after < c.g.n) (hi : (c.sched (c.block after))[i]? = some after)
    (hk : c.prog.DefAt v (c.db v) k) (hs : c.db v = c.block after → k ≤ i) : c.liveAfter v after = true ↔ c.prog.LiveAt v (c.block after) (i + 1) := by
  have hlen : i + 1 ≤ (c.sched (c.block after)).length := (List.getElem?_eq_some_iff.1 hi).1
  have nodef : ∀ m, i + 1 ≤ m → ¬ c.prog.DefAt v (c.block after) m := by
    intro m hm hd
    have e := def_block h hb hd
    have hk' := hk
    rw [e] at hk'
    have := idx_unique h hd hk'
    have := hs e
    omega
  rw [liveAfter_iff h hlv hb hi, live_iff h hv hb hlen]
  constructor
  · rintro (he | ⟨j, hj, hu⟩)
    · exact Or.inr ⟨nodef, he⟩
    · exact Or.inl ⟨j, hj, hu, fun m hm _ => nodef m hm⟩
  · rintro (⟨j, hj, hu, -⟩ | ⟨-, he⟩)
    · exact Or.inr ⟨j, hj, hu⟩
    · exact Or.inl he

/-- if the first value dominates the second and both occupy a point, the first is live after the second -/
theorem live_of_occupied {a b : Nat} (ha : c.prog.Value a) (hb : c.prog.Value b) {i j : Nat} (hi : c.prog.DefAt a (c.db a) i) (hj : c.prog.DefAt b (c.db b) j)
    (hlv : c.LvOk a) (hab : (c.db a ≠ c.db b ∧ Dominates c.g.Edge c.g.start (c.db a) (c.db b)) ∨ (c.db a = c.db b ∧ i < j))
    {d k : Nat} (hd : d < c.g.n) (hoa : c.prog.Occupies a d k) (hob : c.prog.Occupies b d k) : c.liveAfter a (c.owner b) = true := by
  have hdom : Dominates c.g.Edge c.g.start (c.db a) (c.db b) := by
    rcases hab with hh | hh
    · exact hh.2
    · rw [hh.1]; exact dominates_refl _
  have hanti : Dominates c.g.Edge c.g.start (c.db b) (c.db a) → c.db a = c.db b ∧ i < j := by
    intro hh
    rcases hab with h1 | h1
    · exact absurd (dominates_antisymm hdom hh (h.prog.reach _ hb.block)) h1.1
    · exact h1
  -- the first value is really live at the point
  have hla : c.prog.LiveAt a d k ∨ ∃ m, k = m + 1 ∧ c.prog.DefAt b d m := by
    rcases hoa with hla | ⟨m, rfl, hm⟩
    · exact Or.inl hla
    · refine Or.inr ?_
      rcases hob with hlb | ho
      · exfalso
        have hea := def_block h hd hm
        have hhere := here_of_live h hb hlb hd
        by_cases heb : c.db b = d
        · subst heb
          have h1 := here_after h hb hhere hj
          have h2 := hanti (by rw [hea]; exact dominates_refl _)
          rw [hea] at hi
          have := idx_unique h hi hm
          omega
        · have := hanti (by rw [hea]; exact lin_dom h hb (here_lin h hd heb hhere))
          exact heb (this.1 ▸ hea)
      · exact ho
  by_cases hpt : ∃ m, k = m + 1 ∧ c.prog.DefAt b d m
  · obtain ⟨m, rfl, hm⟩ := hpt
    have heb := def_block h hd hm
    subst heb
    have hmj := idx_unique h hm hj
    subst hmj
    have hla : c.prog.LiveAt a (c.db b) (m + 1) := by
      rcases hoa with hla | ⟨m', e, hm'⟩
      · exact hla
      · have e' : m' = m := by omega
        subst e'
        have hea := def_block h hd hm'
        rcases hab with h1 | h1
        · exact absurd hea h1.1
        · rw [hea] at hi
          have := idx_unique h hi hm'
          omega
    refine (liveAfter_live h ha hlv hd hm hi fun e => ?_).2 hla
    rcases hab with h1 | h1
    · exact absurd e h1.1
    · omega
  · have hla : c.prog.LiveAt a d k := hla.resolve_right hpt
    have hlb : c.prog.LiveAt b d k := hob.resolve_right hpt
    have hha := here_of_live h ha hla hd
    have hhb := here_of_live h hb hlb hd
    refine (liveAfter_iff (c := c) h hlv hb.block hj).2 ?_
    by_cases heb : c.db b = d
    · subst heb
      have hjk := here_after h hb hhb hj
      rcases hha with ⟨m, hm, hu, -⟩ | ⟨-, he⟩
      · exact Or.inr ⟨m, by omega, hu⟩
      · exact Or.inl he
    · have hlb' := here_lin h hd heb hhb
      have hea : c.db a ≠ d := by
        intro e
        have := hanti (by rw [e]; exact lin_dom h hb hlb')
        exact heb (this.1 ▸ e)
      exact Or.inl (end_of_both h hb hd hdom heb hlb' (here_lin h hd hea hha))

end

end Verif.Model.Interfere
