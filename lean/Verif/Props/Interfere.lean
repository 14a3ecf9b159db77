import Verif.Lemmas.Interfere
import Verif.Props.LiveSets
/-!
# Properties of the questions about liveness and interference of values (C100)
-/
namespace Verif.Props.Interfere
open Verif.Model.Dom Verif.Model.LiveChk Verif.Model.Interfere Verif.Spec Verif.Spec.LivePoints Verif.Props

theorem occupied_dom {c : Code} (h : c.Ok) {v : Nat} (hv : c.prog.Value v) {d k : Nat} (hd : d < c.g.n) (ho : c.prog.Occupies v d k) :
    Dominates c.g.Edge c.g.start (c.db v) d := by
  rcases ho with hl | ⟨m, -, hm⟩
  · by_cases e : c.db v = d
    · rw [e]; exact dominates_refl _
    · exact lin_dom h hv (here_lin h hd e (here_of_live h hv hl hd))
  · rw [def_block h hd hm]; exact dominates_refl _

/-- Two values of different instructions interfere according to `be_values_interfere` if and only if there is a point of the program at which both
need a register.  This needs that the flags for the ends of blocks are right. -/
theorem values_interfere_iff {c : Code} (h : c.Ok) {a b : Nat} (ha : c.prog.Value a) (hb : c.prog.Value b) (hne : c.owner a ≠ c.owner b)
    (hla : c.LvOk a) (hlb : c.LvOk b) :
    c.interfere a b = true ↔ ∃ d k, d < c.g.n ∧ c.prog.Occupies a d k ∧ c.prog.Occupies b d k := by
  obtain ⟨i, hi⟩ := def_exists ha
  obtain ⟨j, hj⟩ := def_exists hb
  have sab := sdom_iff (c := c) h ha.block hb.block hi hj
  have sba := sdom_iff (c := c) h hb.block ha.block hj hi
  have sab' : c.strictlyDominates (c.owner a) (c.owner b) = true ↔
      (c.db a ≠ c.db b ∧ Dominates c.g.Edge c.g.start (c.db a) (c.db b)) ∨ (c.db a = c.db b ∧ i < j) := sab
  have sba' : c.strictlyDominates (c.owner b) (c.owner a) = true ↔
      (c.db b ≠ c.db a ∧ Dominates c.g.Edge c.g.start (c.db b) (c.db a)) ∨ (c.db b = c.db a ∧ j < i) := sba
  -- the point after the second definition
  have mk : ∀ {a b i j : Nat}, c.prog.Value a → c.prog.Value b → c.LvOk a → c.prog.DefAt a (c.db a) i → c.prog.DefAt b (c.db b) j →
      ((c.db a ≠ c.db b ∧ Dominates c.g.Edge c.g.start (c.db a) (c.db b)) ∨ (c.db a = c.db b ∧ i < j)) → c.liveAfter a (c.owner b) = true →
      ∃ d k, d < c.g.n ∧ c.prog.Occupies a d k ∧ c.prog.Occupies b d k := by
    intro a b i j ha hb hla hi hj hs hl
    have := (liveAfter_live (c := c) h ha hla hb.block hj hi fun e => by
      rcases hs with hs | hs
      · exact absurd e hs.1
      · exact Nat.le_of_lt hs.2).1 hl
    exact ⟨c.db b, j + 1, hb.block, Or.inl this, Or.inr ⟨j, rfl, hj⟩⟩
  unfold Code.interfere
  by_cases c1 : c.strictlyDominates (c.owner b) (c.owner a) = true
  · rw [if_pos c1]
    constructor
    · intro hl
      obtain ⟨d, k, h1, h2, h3⟩ := mk hb ha hlb hj hi (sba'.1 c1) hl
      exact ⟨d, k, h1, h3, h2⟩
    · rintro ⟨d, k, h1, h2, h3⟩
      exact live_of_occupied h hb ha hj hi hlb (sba'.1 c1) h1 h3 h2
  · rw [if_neg c1]
    by_cases c2 : c.strictlyDominates (c.owner a) (c.owner b) = true
    · rw [if_pos c2]
      constructor
      · exact fun hl => mk ha hb hla hi hj (sab'.1 c2) hl
      · rintro ⟨d, k, h1, h2, h3⟩
        exact live_of_occupied h ha hb hi hj hla (sab'.1 c2) h1 h2 h3
    · rw [if_neg c2]
      refine ⟨fun hh => (nomatch hh), ?_⟩
      rintro ⟨d, k, h1, h2, h3⟩
      exfalso
      rw [sab'] at c2
      rw [sba'] at c1
      have e : c.db a = c.db b := by
        refine Classical.byContradiction fun e => ?_
        rcases dominates_chain h.prog.graph (h.prog.reach d h1) (occupied_dom h ha h1 h2) (occupied_dom h hb h1 h3) with hh | hh
        · exact c2 (Or.inl ⟨e, hh⟩)
        · exact c1 (Or.inl ⟨Ne.symm e, hh⟩)
      rcases Nat.lt_trichotomy i j with hh | hh | hh
      · exact c2 (Or.inr ⟨e, hh⟩)
      · subst hh
        rw [← e] at hj
        have := hi.symm.trans hj
        exact hne (Option.some.inj this)
      · exact c1 (Or.inr ⟨e.symm, hh⟩)

/-- `be_value_live_after`: the value of another instruction is live at the point after the instruction -/
theorem value_live_after_iff {c : Code} (h : c.Ok) {v after i : Nat} (hv : c.prog.Value v) (hlv : c.LvOk v) (hb : c.block after < c.g.n)
    (hi : (c.sched (c.block after))[i]? = some after) (hne : c.owner v ≠ after) :
    c.valueLiveAfter v after = true ↔ c.prog.LiveAt v (c.block after) (i + 1) := by
  obtain ⟨k, hk⟩ := def_exists hv
  have hs : c.strictlyDominates (c.owner v) after = true ↔
      (c.db v ≠ c.block after ∧ Dominates c.g.Edge c.g.start (c.db v) (c.block after)) ∨ (c.db v = c.block after ∧ k < i) := sdom_iff (c := c) h hv.block hb hk hi
  unfold Code.valueLiveAfter
  rw [Bool.and_eq_true]
  constructor
  · rintro ⟨h1, h2⟩
    refine (liveAfter_live h hv hlv hb hi hk fun e => ?_).1 h2
    rcases hs.1 h1 with hh | hh
    · exact absurd e hh.1
    · exact Nat.le_of_lt hh.2
  · intro hl
    have hhere := here_of_live h hv hl hb
    by_cases e : c.db v = c.block after
    · have hk' := hk
      rw [e] at hk'
      have hlt : k < i + 1 := by
        rw [← e] at hhere
        exact here_after h hv hhere hk
      have hne' : k ≠ i := by
        rintro rfl
        exact hne (Option.some.inj (hk'.symm.trans hi))
      exact ⟨hs.2 (Or.inr ⟨e, by omega⟩), (liveAfter_live h hv hlv hb hi hk fun _ => by omega).2 hl⟩
    · exact ⟨hs.2 (Or.inl ⟨e, lin_dom h hv (here_lin h hb e hhere)⟩), (liveAfter_live h hv hlv hb hi hk fun e' => absurd e' e).2 hl⟩

/-! ## The values that are live before an instruction -/

theorem live_step {p : Prog} {v b i : Nat} (hi : i < (p.sched b).length) : p.LiveAt v b i ↔ p.UseAt v b i ∨ (¬ p.DefAt v b i ∧ p.LiveAt v b (i + 1)) := by
  constructor
  · intro hl
    have : ∀ {b k}, p.LiveAt v b k → k < (p.sched b).length → p.UseAt v b k ∨ (¬ p.DefAt v b k ∧ p.LiveAt v b (k + 1)) := by
      intro b k hl hk
      cases hl with
      | use hu => exact Or.inl hu
      | step _ hd hl => exact Or.inr ⟨hd, hl⟩
      | phi _ => omega
      | edge _ _ => omega
    exact this hl hi
  · rintro (hu | ⟨hd, hl⟩)
    · exact .use hu
    · exact .step hi hd hl

theorem foldl_remove (ds : List Nat) : ∀ (l : List Nat) (v : Nat), v ∈ ds.foldl (fun l v => l.filter (· ≠ v)) l ↔ v ∈ l ∧ v ∉ ds := by
  induction ds with
  | nil => intro l v; simp
  | cons d ds ih =>
    intro l v
    rw [List.foldl_cons, ih, List.mem_filter, List.mem_cons, not_or, decide_eq_true_eq, and_assoc]

theorem foldl_insert (ds : List Nat) : ∀ (l : List Nat) (v : Nat), v ∈ ds.foldl (fun l v => v :: l) l ↔ v ∈ l ∨ v ∈ ds := by
  induction ds with
  | nil => intro l v; simp
  | cons d ds ih =>
    intro l v
    rw [List.foldl_cons, ih, List.mem_cons, List.mem_cons]
    constructor
    · rintro ((h | h) | h)
      · exact Or.inr (Or.inl h)
      · exact Or.inl h
      · exact Or.inr (Or.inr h)
    · rintro (h | h | h)
      · exact Or.inl (Or.inr h)
      · exact Or.inl (Or.inl h)
      · exact Or.inr h

theorem transfer_mem {c : Code} (h : c.Ok) {cls : Nat → Bool} {u : Nat} (hp : c.phi u = false) (live : List Nat) : ∃ l, c.transfer cls u live = some l ∧
    ∀ v, v ∈ l ↔ (v ∈ live ∧ ¬ (c.owner v = u ∧ cls v = true)) ∨ (v ∈ c.ops u ∧ cls v = true) := by
  unfold Code.transfer
  rw [hp]
  refine ⟨_, rfl, fun v => ?_⟩
  rw [foldl_insert, foldl_remove, List.mem_filter, List.mem_filter, h.values]

/-- `be_liveness_nodes_live_before` yields exactly the values of the class that are live before the instruction, if no Phi comes after it -/
theorem live_before_exact {c : Code} (h : c.Ok) {cls : Nat → Bool} {vs : List Nat} {pos i : Nat} (hb : c.block pos < c.g.n)
    (hi : (c.sched (c.block pos))[i]? = some pos) (hphi : ∀ k u, i ≤ k → (c.sched (c.block pos))[k]? = some u → c.phi u = false)
    (hvs : ∀ v, v ∈ vs ↔ c.prog.Value v) (hlv : ∀ v ∈ vs, c.LvOk v)
    (hops : ∀ u v, u ∈ c.sched (c.block pos) → v ∈ c.ops u → v ∈ vs) :
    ∃ l, c.liveBefore cls vs pos = some l ∧ ∀ v, v ∈ l ↔ c.prog.Value v ∧ cls v = true ∧ c.prog.LiveAt v (c.block pos) i := by
  have hil : i < (c.sched (c.block pos)).length := (List.getElem?_eq_some_iff.1 hi).1
  have key : ∀ (m k : Nat), k = i + m → k < (c.sched (c.block pos)).length → ∀ live : List Nat,
      (∀ v, v ∈ live ↔ c.prog.Value v ∧ cls v = true ∧ c.prog.LiveAt v (c.block pos) (k + 1)) →
      ∃ l, c.walk cls pos ((c.sched (c.block pos)).take (k + 1)).reverse live = some l ∧
        ∀ v, v ∈ l ↔ c.prog.Value v ∧ cls v = true ∧ c.prog.LiveAt v (c.block pos) i := by
    intro m
    induction m with
    | zero =>
      intro k hk hkl live hlive
      obtain rfl : k = i := by omega
      rw [List.take_add_one, hi]
      simp only [Option.toList_some, List.reverse_append, List.reverse_cons, List.reverse_nil, List.nil_append, List.cons_append]
      obtain ⟨l, h1, h2⟩ := transfer_mem h (cls := cls) (hphi k pos (Nat.le_refl _) hi) live
      unfold Code.walk
      rw [h1]
      simp only
      rw [if_pos trivial]
      refine ⟨l, rfl, fun v => ?_⟩
      rw [h2, hlive, live_step (p := c.prog) (b := c.block pos) hkl]
      constructor
      · rintro (⟨⟨a1, a2, a3⟩, a4⟩ | ⟨a1, a2⟩)
        · exact ⟨a1, a2, Or.inr ⟨fun hd => a4 ⟨(Option.some.inj (hd.symm.trans hi)), a2⟩, a3⟩⟩
        · exact ⟨(hvs v).1 (hops pos v (List.mem_of_getElem? hi) a1), a2, Or.inl ⟨pos, hi, hphi k pos (Nat.le_refl _) hi, a1⟩⟩
      · rintro ⟨a1, a2, ⟨u, b1, -, b3⟩ | ⟨b1, b2⟩⟩
        · have e : u = pos := Option.some.inj (b1.symm.trans hi)
          exact Or.inr ⟨e ▸ b3, a2⟩
        · exact Or.inl ⟨⟨a1, a2, b2⟩, fun hd => b1 (show (c.sched (c.block pos))[k]? = some (c.owner v) by rw [hd.1]; exact hi)⟩
    | succ m ih =>
      intro k hk hkl live hlive
      have hku : (c.sched (c.block pos))[k]? = some (c.sched (c.block pos))[k] := List.getElem?_eq_getElem hkl
      generalize (c.sched (c.block pos))[k] = u at hku
      have hne : u ≠ pos := by
        rintro rfl
        have := idx_unique h hku hi
        omega
      rw [List.take_add_one, hku]
      simp only [Option.toList_some, List.reverse_append, List.reverse_cons, List.reverse_nil, List.nil_append, List.cons_append]
      have hpu := hphi k u (by omega) hku
      obtain ⟨l, h1, h2⟩ := transfer_mem h (cls := cls) hpu live
      unfold Code.walk
      rw [h1]
      simp only
      rw [if_neg hne]
      obtain ⟨k', rfl⟩ : ∃ k', k = k' + 1 := ⟨k - 1, by omega⟩
      refine ih k' (by omega) (by omega) l fun v => ?_
      rw [h2, hlive, live_step (p := c.prog) (b := c.block pos) hkl]
      constructor
      · rintro (⟨⟨a1, a2, a3⟩, a4⟩ | ⟨a1, a2⟩)
        · exact ⟨a1, a2, Or.inr ⟨fun hd => a4 ⟨(Option.some.inj (hd.symm.trans hku)), a2⟩, a3⟩⟩
        · exact ⟨(hvs v).1 (hops u v (List.mem_of_getElem? hku) a1), a2, Or.inl ⟨u, hku, hpu, a1⟩⟩
      · rintro ⟨a1, a2, ⟨w, b1, -, b3⟩ | ⟨b1, b2⟩⟩
        · have e : w = u := Option.some.inj (b1.symm.trans hku)
          exact Or.inr ⟨e ▸ b3, a2⟩
        · exact Or.inl ⟨⟨a1, a2, b2⟩, fun hd => b1 (show (c.sched (c.block pos))[k' + 1]? = some (c.owner v) by rw [hd.1]; exact hku)⟩
  have hend : ∀ v, v ∈ c.endOfBlock cls vs (c.block pos) ↔ c.prog.Value v ∧ cls v = true ∧ c.prog.LiveAt v (c.block pos) (c.sched (c.block pos)).length := by
    intro v
    unfold Code.endOfBlock
    rw [List.mem_filter, Bool.and_eq_true]
    constructor
    · rintro ⟨a1, a2, a3⟩
      refine ⟨(hvs v).1 a1, a3, live_of_here h hb (Nat.le_refl _) (Or.inr ⟨fun k hk hd => ?_, (hlv v a1 _ hb).1 a2⟩)⟩
      have := (List.getElem?_eq_some_iff.1 hd).1
      exact absurd this (Nat.not_lt.2 hk)
    · rintro ⟨a1, a2, a3⟩
      refine ⟨(hvs v).2 a1, (hlv v ((hvs v).2 a1) _ hb).2 ?_, a2⟩
      rcases here_of_live h a1 a3 hb with ⟨j, hj, hu, -⟩ | ⟨-, he⟩
      · exact absurd (use_lt hu) (Nat.not_lt.2 hj)
      · exact he
  have hlen : (c.sched (c.block pos)).length - 1 + 1 = (c.sched (c.block pos)).length := by omega
  obtain ⟨l, h1, h2⟩ := key ((c.sched (c.block pos)).length - 1 - i) ((c.sched (c.block pos)).length - 1) (by omega) (by omega)
    (c.endOfBlock cls vs (c.block pos)) (by rw [hlen]; exact hend)
  rw [hlen, List.take_length] at h1
  exact ⟨l, h1, h2⟩

/-! ## With the sets of C99 -/

/-- after `be_liveness_compute_sets` the flags are right, so the questions are answered right -/
theorem flags_of_sets {c : Code} (h : c.Ok) (hbad : ∀ b, b < c.g.n → none ∉ c.g.ins b) {vs : List Nat} (hnd : vs.Nodup) (hpos : ∀ v ∈ vs, v ≠ 0) :
    ∃ m, Verif.Model.LiveSets.computeSets c.g.ins (c.g.n + 1) (vs.map fun v => ⟨v, c.db v, c.uses v⟩) = some m ∧
      ∀ c', c' = { c with lv := fun b v => (Verif.Model.LiveSets.liveState m b v).getD Verif.Model.LiveSets.State.none } → ∀ v ∈ vs, c'.LvOk v := by
  obtain ⟨m, h1, h2⟩ := LiveSets.live_sets_exact (g := c.g) h.prog.graph hbad (vs.map fun v => ⟨v, c.db v, c.uses v⟩)
    (by rw [List.map_map]; simpa [Function.comp_def] using hnd) fun w hw => by
      obtain ⟨v, hv, rfl⟩ := List.mem_map.1 hw
      refine ⟨hpos v hv, fun u hu => ?_⟩
      obtain ⟨⟨x, j⟩, he, rfl⟩ := List.mem_map.1 hu
      obtain ⟨e1, e2, e3⟩ := (h.edges v x j).1 he
      simp only
      by_cases hp : c.phi x = true
      · rw [if_pos hp]
        obtain ⟨hj, -⟩ := List.getElem?_eq_some_iff.1 e3
        obtain ⟨q, hq⟩ := h.arity _ x j e1 e2 hp hj
        rw [List.getD_eq_getElem?_getD, hq]
        exact ⟨q, rfl, h.prog.graph.insLt _ q e1 (List.mem_of_getElem? hq)⟩
      · rw [if_neg hp]
        exact ⟨_, rfl, e1⟩
  refine ⟨m, h1, ?_⟩
  rintro c' rfl v hv b hb
  obtain ⟨s, e, -, r, -⟩ := h2 _ (List.mem_map.2 ⟨v, hv, rfl⟩) b hb
  simp only at e ⊢
  rw [e]
  exact r

/-! ## Values in memory -/

theorem liveAtUser_eq {c : Code} {sync : Nat → Bool} {node bb : Nat} : ∀ {fuel : Nat} {es : List (Nat × Nat)}, es.length ≤ fuel → (∀ e ∈ es, sync e.1 = false) →
    c.liveAtUser sync node bb fuel es = es.any fun e => decide (c.block e.1 = bb) && !c.phi e.1 && decide (c.ts node < c.ts e.1) := by
  intro fuel
  induction fuel with
  | zero =>
    intro es hl hs
    obtain rfl : es = [] := List.eq_nil_of_length_eq_zero (by omega)
    rfl
  | succ fuel ih =>
    intro es hl hs
    cases es with
    | nil => rfl
    | cons e es =>
      have h1 := hs e (List.mem_cons_self ..)
      have h2 := ih (es := es) (by simpa using hl) fun x hx => hs x (List.mem_cons_of_mem _ hx)
      unfold Code.liveAtUser
      rw [h1, List.any_cons, ← h2]
      simp only [Bool.false_eq_true, if_false]
      by_cases hc : c.block e.1 = bb ∧ c.phi e.1 = false ∧ c.ts node < c.ts e.1
      · rw [if_pos hc]
        simp [hc.1, hc.2.1, hc.2.2]
      · rw [if_neg hc]
        have : (decide (c.block e.1 = bb) && !c.phi e.1 && decide (c.ts node < c.ts e.1)) = false := by
          apply Bool.eq_false_iff.2
          intro hh
          simp only [Bool.and_eq_true, decide_eq_true_eq, Bool.not_eq_true'] at hh
          exact hc ⟨hh.1.1, hh.1.2, hh.2⟩
        rw [this, Bool.false_or]

/-- `be_memory_values_interfere` answers right for values without a Sync.  What is missing are values with Syncs, see `memory_interfere_wrong`. -/
theorem memory_interfere_partial {c : Code} (h : c.Ok) {a b : Nat} (ha : c.prog.Value a) (hb : c.prog.Value b) (hne : c.owner a ≠ c.owner b)
    (hla : c.LvOk a) (hlb : c.LvOk b) {sync : Nat → Bool} {fuel : Nat} (hsa : sync a = false) (hsb : sync b = false)
    (hua : ∀ e ∈ c.edges a, sync e.1 = false) (hub : ∀ e ∈ c.edges b, sync e.1 = false)
    (hfa : (c.edges a).length ≤ fuel) (hfb : (c.edges b).length ≤ fuel) :
    c.memInterfere sync fuel a b = true ↔ ∃ d k, d < c.g.n ∧ c.prog.Occupies a d k ∧ c.prog.Occupies b d k := by
  rw [← values_interfere_iff h ha hb hne hla hlb]
  unfold Code.memInterfere Code.interfere Code.liveAfter
  simp only [hsa, hsb, Bool.false_eq_true, if_false, liveAtUser_eq hfa hua, liveAtUser_eq hfb hub]

/-! ## Examples -/

/-- Three blocks, the second is a loop.  Block 0: `10` and `11`; block 1: Phi `12` of `10` and `14`, then `13` of `12` and `11`, then `14` of `13`,
then the jump `15`.  The instruction `14` has two values, `14` and `16`. -/
def loopCode : Code where
  g := ⟨3, 0, 2, fun b => [[some 1], [some 1, some 2], []].getD b [], fun b => [[], [some 0, some 1], [some 1]].getD b [], []⟩
  sched := fun b => [[10, 11], [12, 13, 14, 15], []].getD b []
  block := fun u => if u = 10 ∨ u = 11 then 0 else if 12 ≤ u ∧ u ≤ 15 then 1 else 7
  ts := fun u => u
  phi := fun u => u == 12
  ops := fun u => if u = 12 then [10, 14] else if u = 13 then [12, 11] else if u = 14 then [13] else if u = 15 then [16] else []
  owner := fun v => if v = 16 then 14 else v
  values := fun u => if u = 14 then [14, 16] else if u = 16 then [] else [u]
  edges := fun v => if v = 10 then [(12, 0)] else if v = 14 then [(12, 1)] else if v = 12 then [(13, 0)] else if v = 11 then [(13, 1)]
    else if v = 13 then [(14, 0)] else if v = 16 then [(15, 0)] else []
  lv := fun b v => if b = 0 then (if v = 11 then ⟨false, true, true⟩ else ⟨false, v == 10, false⟩)
    else if b = 1 then (if v = 11 then ⟨true, true, true⟩ else ⟨false, v == 14, false⟩) else ⟨false, false, false⟩

theorem loop_block {b : Nat} (hb : b < loopCode.g.n) : b = 0 ∨ b = 1 ∨ b = 2 := by
  have : b < 3 := hb
  omega

theorem loop_sched {u : Nat} (h : u ∈ loopCode.sched (loopCode.block u)) : u = 10 ∨ u = 11 ∨ u = 12 ∨ u = 13 ∨ u = 14 ∨ u = 15 := by
  by_cases h1 : u = 10 ∨ u = 11
  · omega
  · by_cases h2 : 12 ≤ u ∧ u ≤ 15
    · omega
    · simp [loopCode, h1, h2] at h

theorem loop_ok : loopCode.Ok where
  prog :=
    { graph :=
        { start := by decide
          stop := by decide
          outsLt := by
            intro b c hb
            rcases loop_block hb with rfl | rfl | rfl <;> simp [loopCode, Code.prog] <;> omega
          insLt := by
            intro b c hb
            rcases loop_block hb with rfl | rfl | rfl <;> simp [loopCode, Code.prog] <;> omega
          keepLt := by intro b h; cases h
          edge := by
            have : ∀ b, b < 3 → ∀ c, c < 3 → (some c ∈ loopCode.g.outs b ↔ some b ∈ loopCode.g.ins c) := by decide
            exact fun b c hb hc => this b hb c hc
          keep := by decide }
      small := by decide
      reach := by
        have e1 : loopCode.g.Edge 0 1 := by unfold Cfg.Edge; decide
        have e2 : loopCode.g.Edge 1 2 := by unfold Cfg.Edge; decide
        intro b hb
        rcases loop_block hb with rfl | rfl | rfl
        · exact ⟨_, .nil 0⟩
        · exact ⟨_, .cons e1 (.nil 1)⟩
        · exact ⟨_, .cons e1 (.cons e2 (.nil 2))⟩
      stopOut := by
        rintro c h
        change some c ∈ [] at h
        cases h
      nodup := by
        intro b
        rcases (by omega : b = 0 ∨ b = 1 ∨ b = 2 ∨ 2 < b) with rfl | rfl | rfl | hb
        · decide
        · decide
        · decide
        · change ([[10, 11], [12, 13, 14, 15], []].getD b []).Nodup
          rw [List.getD_eq_getElem?_getD, List.getElem?_eq_none (by simp only [List.length_cons, List.length_nil]; omega)]
          exact List.nodup_nil
      block := by
        intro b u hb
        rcases loop_block hb with rfl | rfl | rfl
        · simp [loopCode, Code.prog]; omega
        · intro hu
          change u ∈ [12, 13, 14, 15] at hu
          simp only [List.mem_cons, List.not_mem_nil, or_false] at hu
          rcases hu with rfl | rfl | rfl | rfl <;> rfl
        · simp [loopCode, Code.prog] }
  ts := by
    intro b hb
    rcases loop_block hb with rfl | rfl | rfl <;> simp [loopCode]
  edges := by
    intro v u j
    constructor
    · intro he
      have hv : v = 10 ∨ v = 14 ∨ v = 12 ∨ v = 11 ∨ v = 13 ∨ v = 16 := by
        refine Classical.byContradiction fun hv => ?_
        simp only [not_or] at hv
        simp [loopCode, hv] at he
      rcases hv with rfl | rfl | rfl | rfl | rfl | rfl <;> simp only [loopCode] at he <;> simp at he <;> obtain ⟨rfl, rfl⟩ := he <;> decide
    · rintro ⟨-, h1, h2⟩
      rcases loop_sched h1 with rfl | rfl | rfl | rfl | rfl | rfl <;> simp only [loopCode] at h2 <;> rcases j with _ | _ | j <;> simp at h2 <;> subst h2 <;> decide
  arity := by
    intro b u j hb hu hp hj
    have e : u = 12 := by simpa [loopCode] using hp
    subst e
    rcases loop_block hb with rfl | rfl | rfl
    · simp [loopCode] at hu
    · rcases j with _ | _ | j
      · exact ⟨0, rfl⟩
      · exact ⟨1, rfl⟩
      · simp [loopCode] at hj
        omega
    · simp [loopCode] at hu
  values := by
    intro v u
    simp only [loopCode]
    split <;> split <;> try split
    all_goals simp <;> omega

theorem loop_flow {b : Nat} (hb : b < loopCode.g.n) : Reachable loopCode.g.Flow 0 b := by
  have e1 : loopCode.g.Flow 0 1 := by unfold Cfg.Flow; decide
  have e2 : loopCode.g.Flow 1 2 := by unfold Cfg.Flow; decide
  rcases loop_block hb with rfl | rfl | rfl
  · exact ⟨_, .nil 0⟩
  · exact ⟨_, .cons e1 (.nil 1)⟩
  · exact ⟨_, .cons e1 (.cons e2 (.nil 2))⟩

theorem start_dominates {E : Nat → Nat → Prop} {r b : Nat} : Dominates E r r b := by
  intro l hl
  cases hl with
  | nil => exact List.mem_singleton.2 rfl
  | cons _ _ => exact List.mem_cons_self ..

/-- the uses of the program -/
theorem loop_use {v b i : Nat} (hb : b < loopCode.g.n) (h : loopCode.prog.UseAt v b i) :
    b = 1 ∧ ((i = 1 ∧ (v = 12 ∨ v = 11)) ∨ (i = 2 ∧ v = 13) ∨ (i = 3 ∧ v = 16)) := by
  obtain ⟨u, h1, h2, h3⟩ := h
  rcases loop_block hb with rfl | rfl | rfl
  · rcases i with _ | _ | i <;> simp [loopCode, Code.prog] at h1 <;> subst h1 <;> simp [loopCode, Code.prog] at h3
  · rcases i with _ | _ | _ | _ | i <;> simp [loopCode, Code.prog] at h1 <;> subst h1 <;> simp [loopCode, Code.prog] at h2 h3 <;> simp [h3]
  · simp [loopCode, Code.prog] at h1

theorem loop_phi {v b : Nat} (h : loopCode.prog.PhiUse v b) : (b = 0 ∧ v = 10) ∨ (b = 1 ∧ v = 14) := by
  obtain ⟨c, j, u, h1, h2, h3, h4, h5⟩ := h
  have e : u = 12 := by simpa [loopCode, Code.prog] using h4
  subst e
  rcases loop_block h1 with rfl | rfl | rfl
  · simp [loopCode, Code.prog] at h3
  · rcases j with _ | _ | j <;> simp [loopCode, Code.prog] at h2 h5
    · exact Or.inl ⟨h2.symm, h5.symm⟩
    · exact Or.inr ⟨h2.symm, h5.symm⟩
  · simp [loopCode, Code.prog] at h3

theorem loop_value {v : Nat} (hv : v = 10 ∨ v = 11 ∨ v = 12 ∨ v = 13 ∨ v = 14 ∨ v = 16) : loopCode.prog.Value v where
  block := by rcases hv with rfl | rfl | rfl | rfl | rfl | rfl <;> decide
  sched := by rcases hv with rfl | rfl | rfl | rfl | rfl | rfl <;> decide
  strict :=
    { use := by
        intro b i hb hu
        refine ⟨loop_flow hb, ?_⟩
        obtain ⟨rfl, ⟨rfl, rfl | rfl⟩ | ⟨rfl, rfl⟩ | ⟨rfl, rfl⟩⟩ := loop_use hb hu
        · exact ⟨dominates_refl _, fun _ => ⟨0, by decide, rfl⟩⟩
        · exact ⟨start_dominates, fun e => (nomatch e)⟩
        · exact ⟨dominates_refl _, fun _ => ⟨1, by decide, rfl⟩⟩
        · exact ⟨dominates_refl _, fun _ => ⟨2, by decide, rfl⟩⟩
      phi := by
        intro b hb hu
        refine ⟨loop_flow hb, ?_⟩
        obtain ⟨rfl, rfl⟩ | ⟨rfl, rfl⟩ := loop_phi hu
        · exact start_dominates
        · exact dominates_refl _ }

/-- the flags that `be_liveness_compute_sets` computes are those of the example -/
theorem loop_sets : ((Verif.Model.LiveSets.computeSets loopCode.g.ins 4 ([10, 11, 12, 13, 14, 16].map fun v => ⟨v, loopCode.db v, loopCode.uses v⟩)).map fun m =>
    [0, 1, 2].map fun b => [10, 11, 12, 13, 14, 16].map (Verif.Model.LiveSets.liveState m b)) =
    some ([0, 1, 2].map fun b => [10, 11, 12, 13, 14, 16].map fun v => some (loopCode.lv b v)) := by decide +kernel

theorem loop_lv {v : Nat} (hv : v ∈ [10, 11, 12, 13, 14, 16]) : loopCode.LvOk v := by
  obtain ⟨m, h1, h2⟩ := flags_of_sets loop_ok (by decide) (vs := [10, 11, 12, 13, 14, 16]) (by decide) (by decide)
  have e := loop_sets
  have h1' : Verif.Model.LiveSets.computeSets loopCode.g.ins 4 ([10, 11, 12, 13, 14, 16].map fun v => ⟨v, loopCode.db v, loopCode.uses v⟩) = some m := h1
  rw [h1', Option.map_some, Option.some.injEq] at e
  intro b hb
  have h3 := h2 _ rfl v hv b hb
  have h4 : Verif.Model.LiveSets.liveState m b v = some (loopCode.lv b v) := by
    have hb' : b ∈ [0, 1, 2] := by rcases loop_block hb with rfl | rfl | rfl <;> decide
    rw [List.map_inj_left] at e
    have := e b hb'
    rw [List.map_inj_left] at this
    exact this v hv
  simp only [h4] at h3
  exact h3

/-- the hypotheses of `values_interfere_iff` hold for the values of the loop -/
example : ∃ d k, d < 3 ∧ loopCode.prog.Occupies 11 d k ∧ loopCode.prog.Occupies 12 d k :=
  (values_interfere_iff loop_ok (loop_value (by omega)) (loop_value (by omega)) (by decide) (loop_lv (by decide)) (loop_lv (by decide))).1 (by decide +kernel)

example : ¬ ∃ d k, d < 3 ∧ loopCode.prog.Occupies 10 d k ∧ loopCode.prog.Occupies 12 d k := fun h =>
  absurd ((values_interfere_iff loop_ok (loop_value (by omega)) (loop_value (by omega)) (by decide) (loop_lv (by decide)) (loop_lv (by decide))).2 h)
    (by decide +kernel)

example : (loopCode.interfere 11 12, loopCode.interfere 10 12, loopCode.interfere 11 14, loopCode.interfere 10 11, loopCode.interfere 13 14) =
    (true, false, true, true, false) := by decide +kernel

example : loopCode.liveBefore (fun _ => true) [10, 11, 12, 13, 14, 16] 14 = some [13, 11] := by decide +kernel

/-- **Two values of one instruction.**  The values `14` and `16` of the instruction `14` are both live after it, but according to
`be_values_interfere` they do not interfere. -/
theorem projections_interfere_wrong : loopCode.Ok ∧ loopCode.prog.Value 14 ∧ loopCode.prog.Value 16 ∧ loopCode.prog.LiveAt 14 1 3 ∧ loopCode.prog.LiveAt 16 1 3 ∧
    loopCode.interfere 14 16 = false ∧ loopCode.interfere 16 14 = false := by
  refine ⟨loop_ok, loop_value (by omega), loop_value (by omega), ?_, ?_, by decide +kernel, by decide +kernel⟩
  · refine .step (by decide) ?_ (.phi (p := loopCode.prog) (b := 1) ⟨1, 1, 12, by decide, rfl, by decide, rfl, rfl⟩)
    intro h
    change some 15 = some 14 at h
    exact absurd h (by decide)
  · exact .use ⟨15, rfl, rfl, by decide⟩

/-- the same for all values of one instruction -/
theorem projections_never_interfere {c : Code} (h : c.Ok) {a b : Nat} (ha : c.prog.Value a) (he : c.owner a = c.owner b) : c.interfere a b = false := by
  obtain ⟨i, hi⟩ := def_exists ha
  have hs := sdom_iff (c := c) h ha.block ha.block hi hi
  have : c.strictlyDominates (c.owner a) (c.owner a) = false := by
    apply Bool.eq_false_iff.2
    intro hh
    rcases hs.1 hh with ⟨h1, -⟩ | ⟨-, h2⟩
    · exact h1 rfl
    · exact Nat.lt_irrefl _ h2
  unfold Code.interfere
  rw [← he, this]
  rfl

/-- Stores to the stack: `10` and `11` store, `14` loads from the Sync `13` of `10`, and `12` loads from `10`. -/
def slotCode : Code where
  g := ⟨1, 0, 0, fun _ => [], fun _ => [], []⟩
  sched := fun b => if b = 0 then [10, 14, 11, 12] else []
  block := fun _ => 0
  ts := fun u => if u = 10 then 1 else if u = 14 then 2 else if u = 11 then 3 else 4
  phi := fun _ => false
  ops := fun u => if u = 13 then [10] else if u = 14 then [13] else if u = 12 then [10] else []
  owner := fun v => v
  values := fun u => [u]
  edges := fun v => if v = 10 then [(13, 0), (12, 0)] else if v = 13 then [(14, 0)] else []
  lv := fun _ _ => ⟨false, false, false⟩

/-- **A Sync hides the other users.**  The contents of the slot that `10` writes are still needed after `11`, but `be_memory_values_interfere`
answers no since it only looks at the users of the Sync. -/
theorem memory_interfere_wrong : slotCode.prog.LiveAt 10 0 3 ∧ slotCode.prog.DefAt 11 0 2 ∧ slotCode.prog.DefAt 10 0 0 ∧
    (∀ fuel, slotCode.memInterfere (· == 13) fuel 10 11 = false) ∧ slotCode.interfere 10 11 = true := by
  refine ⟨.use ⟨12, rfl, rfl, by decide⟩, rfl, rfl, fun fuel => ?_, by decide +kernel⟩
  rcases fuel with _ | _ | _ | fuel
  · decide +kernel
  · decide +kernel
  · decide +kernel
  · simp only [Code.memInterfere]
    have e1 : ((11 : Nat) == 13) = false := rfl
    have e2 : ((10 : Nat) == 13) = false := rfl
    simp only [e1, e2, Bool.false_eq_true, if_false]
    rw [if_neg (by decide +kernel), if_pos (by decide +kernel)]
    simp [Code.liveAtUser, slotCode]

end Verif.Props.Interfere
