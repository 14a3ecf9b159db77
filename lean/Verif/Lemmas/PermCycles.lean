import Verif.Lemmas.Perm
/-!
# Lemmas: cycles of Perm nodes
-/
namespace Verif.Model.Perm
open Verif.Spec.Perm

/-- only cycles are left; `W` are the contents that the registers shall get -/
structure C (n : Nat) (W : Nat → Nat) (scratch : Nat → Prop) (s : State) (R : Nat → Nat) : Prop where
  next : ∀ r, s.inregs r = true → r < n ∧ ∃ i, s.oregmap r = some i ∧ i ≠ r ∧ s.inregs i = true
  inj : ∀ r r' i, s.inregs r = true → s.inregs r' = true → s.oregmap r = some i → s.oregmap r' = some i → r = r'
  value : ∀ r i, s.inregs r = true → s.oregmap r = some i → s.cur R i = W r
  other : ∀ r, s.inregs r = false → ¬ scratch r → s.cur R r = W r

/-! ## With a free register -/

/-- inside of the loop for one cycle; `D` are the registers that have got their value -/
structure Loop (s0 : State) (W : Nat → Nat) (R : Nat → Nat) (free i si : Nat) (D : Nat → Prop) (r : Nat) (s : State) : Prop where
  map : ∀ x, s.oregmap x = s0.oregmap x
  inregs : ∀ x, s.inregs x = true ↔ s0.inregs x = true ∧ ¬ ∃ y, D y ∧ s0.oregmap y = some x
  sub : ∀ x, D x → s0.inregs x = true
  done : ∀ x, D x → s.cur R x = W x
  rest : ∀ y j, s0.inregs y = true → ¬ D y → y ≠ i → s0.oregmap y = some j → s.cur R j = W y
  saved : s.cur R free = W i
  outside : ∀ x, s0.inregs x = false → x ≠ free → s.cur R x = W x
  start : ¬ D i
  pre : ∀ x, D x ∨ x = r → x = si ∨ ∃ y, D y ∧ s0.oregmap y = some x
  closed : ∀ y j, D y → s0.oregmap y = some j → D j ∨ j = r
  first : D si ∨ si = r

theorem cycleCopy_ok {n : Nat} {W R : Nat → Nat} {free : Nat} {s0 : State} (h0 : C n W (· = free) s0 R) (hfree : s0.inregs free = false) {i si : Nat} (hi : s0.inregs i = true)
    (hsi : s0.oregmap i = some si) : ∀ fuel D r s, Loop s0 W R free i si D r s → r ≠ i → ¬ D r → s0.inregs r = true → cnt n s.inregs < fuel →
    ∃ D' s', cycleCopy i fuel r s = some s' ∧ Loop s0 W R free i si D' i s' := by
  intro fuel
  induction fuel with
  | zero => intro D r s _ _ _ _ hf; omega
  | succ fuel ih =>
    intro D r s hl hri hDr hr hf
    unfold cycleCopy
    obtain ⟨hrn, j, hj, hjr, hjin⟩ := h0.next r hr
    rw [hl.map r, hj]
    simp only
    have hcur : ∀ x, ((s.emit (.copy j r)).setIn j false).cur R x = if x = r then s.cur R j else s.cur R x := by
      intro x
      rw [cur_setIn, cur_emit]
      rfl
    have hin : ∀ x, ((s.emit (.copy j r)).setIn j false).inregs x = if x = j then false else s.inregs x := fun x => rfl
    have hmap : ∀ x, ((s.emit (.copy j r)).setIn j false).oregmap x = s.oregmap x := fun x => rfl
    generalize (s.emit (.copy j r)).setIn j false = s1 at hcur hin hmap
    have hwr : s.cur R j = W r := hl.rest r j hr hDr hri hj
    have hfr : free ≠ r := by rintro rfl; rw [hr] at hfree; cases hfree
    have hpred : ∀ y, s0.inregs y = true → ¬ D y → y ≠ i → s0.oregmap y ≠ some r := by
      intro y hy hDy hyi hyr
      rcases hl.pre r (Or.inr rfl) with e | ⟨z, z1, z2⟩
      · rw [e] at hyr
        exact hyi (h0.inj y i si hy hi hyr hsi)
      · exact hDy (h0.inj y z r hy (hl.sub z z1) hyr z2 ▸ z1)
    have hjD : j ≠ i → ¬ (D j ∨ j = r) := by
      rintro hji (e | e)
      · rcases hl.pre j (Or.inl e) with e | ⟨z, z1, z2⟩
        · rw [e] at hj
          exact hri (h0.inj r i si hr hi hj hsi)
        · exact hDr (h0.inj r z j hr (hl.sub z z1) hj z2 ▸ z1)
      · exact hjr e
    have loop : Loop s0 W R free i si (fun x => D x ∨ x = r) j s1 := by
      refine ⟨fun x => (hmap x).trans (hl.map x), fun x => ?_, ?_, ?_, ?_, ?_, ?_, ?_, ?_, ?_, ?_⟩
      · rw [hin]
        by_cases e : x = j
        · rw [if_pos e]
          refine ⟨fun hh => (nomatch hh), fun hh => absurd ⟨r, Or.inr rfl, e ▸ hj⟩ hh.2⟩
        · rw [if_neg e, hl.inregs]
          refine and_congr_right fun _ => not_congr ⟨fun ⟨y, y1, y2⟩ => ⟨y, Or.inl y1, y2⟩, fun ⟨y, y1, y2⟩ => ?_⟩
          rcases y1 with y1 | rfl
          · exact ⟨y, y1, y2⟩
          · rw [hj] at y2
            exact absurd (Option.some.inj y2).symm e
      · rintro x (hx | rfl)
        · exact hl.sub x hx
        · exact hr
      · rintro x (hx | rfl)
        · rw [hcur, if_neg (by rintro rfl; exact hDr hx)]
          exact hl.done x hx
        · rw [hcur, if_pos rfl, hwr]
      · intro y k hy hDy hyi hyk
        rw [hcur, if_neg (by rintro rfl; exact hpred y hy (fun e => hDy (Or.inl e)) hyi hyk)]
        exact hl.rest y k hy (fun e => hDy (Or.inl e)) hyi hyk
      · rw [hcur, if_neg hfr]
        exact hl.saved
      · intro x hx hxf
        rw [hcur, if_neg (by rintro rfl; rw [hr] at hx; cases hx)]
        exact hl.outside x hx hxf
      · rintro (e | e)
        · exact hl.start e
        · exact hri e.symm
      · rintro x (hx | rfl)
        · rcases hl.pre x hx with e | ⟨y, y1, y2⟩
          · exact Or.inl e
          · exact Or.inr ⟨y, Or.inl y1, y2⟩
        · exact Or.inr ⟨r, Or.inr rfl, hj⟩
      · rintro y k (hy | rfl) hyk
        · rcases hl.closed y k hy hyk with e | e
          · exact Or.inl (Or.inl e)
          · exact Or.inl (Or.inr e)
        · rw [hj] at hyk
          exact Or.inr (Option.some.inj hyk).symm
      · rcases hl.first with e | e
        · exact Or.inl (Or.inl e)
        · exact Or.inl (Or.inr e)
    by_cases e : j = i
    · rw [if_pos e]
      subst e
      exact ⟨_, _, rfl, loop⟩
    · rw [if_neg e]
      refine ih _ j s1 loop e (hjD e) hjin ?_
      have hjs : s.inregs j = true := (hl.inregs j).2 ⟨hjin, fun ⟨y, y1, y2⟩ => hDr (h0.inj y r j (hl.sub y y1) hr y2 hj ▸ y1)⟩
      have : cnt n s1.inregs < cnt n s.inregs := by
        refine cnt_lt (fun x hx => ?_) (h0.next j hjin).1 hjs (by rw [hin, if_pos rfl])
        rw [hin] at hx
        split at hx
        · cases hx
        · exact hx
      omega

theorem cyclesCopy_ok {n : Nat} {W R : Nat → Nat} {free : Nat} : ∀ fuel i s, C n W (· = free) s R → s.inregs free = false → i ≤ n → (∀ r, r < i → s.inregs r = false) →
    (n - i) + cnt n s.inregs < fuel → ∃ s', cyclesCopy n free fuel i s = some s' ∧ ∀ r, r ≠ free → s'.cur R r = W r := by
  intro fuel
  induction fuel with
  | zero => intro i s _ _ _ _ hf; omega
  | succ fuel ih =>
    intro i s hc hfree hin hlt hf
    unfold cyclesCopy
    by_cases c1 : i = n
    · rw [if_pos c1]
      refine ⟨s, rfl, fun r hr => hc.other r ?_ hr⟩
      by_cases hrn : r < n
      · exact hlt r (c1 ▸ hrn)
      · exact Bool.eq_false_iff.2 fun e => hrn (hc.next r e).1
    rw [if_neg c1]
    by_cases c2 : s.inregs i = false
    · rw [if_pos c2]
      refine ih (i + 1) s hc hfree (by omega) (fun r hr => ?_) (by omega)
      rcases Nat.lt_succ_iff_lt_or_eq.1 hr with hh | rfl
      · exact hlt r hh
      · exact c2
    rw [if_neg c2]
    have c2' : s.inregs i = true := by simpa using c2
    obtain ⟨-, si, hsi, hne, hsin⟩ := hc.next i c2'
    rw [hsi]
    simp only
    have hcur0 : ∀ x, (s.emit (.copy si free)).cur R x = if x = free then s.cur R si else s.cur R x := by
      intro x
      rw [cur_emit]
      rfl
    have hsif : si ≠ free := by rintro rfl; rw [hsin] at hfree; cases hfree
    have l0 : Loop s W R free i si (fun _ => False) si (s.emit (.copy si free)) := by
      refine ⟨fun x => rfl, fun x => ?_, fun x hx => hx.elim, fun x hx => hx.elim, fun y j hy _ _ hj => ?_, ?_, fun x hx hxf => ?_, fun e => e, ?_, fun y j hy => hy.elim, Or.inr rfl⟩
      · show s.inregs x = true ↔ _
        exact ⟨fun e => ⟨e, fun ⟨_, e, _⟩ => e⟩, fun e => e.1⟩
      · rw [hcur0, if_neg (by
          rintro rfl
          obtain ⟨-, j', h1, -, h3⟩ := hc.next y hy
          rw [hj] at h1
          rw [← Option.some.inj h1, hfree] at h3
          cases h3)]
        exact hc.value y j hy hj
      · rw [hcur0, if_pos rfl]
        exact hc.value i si c2' hsi
      · rw [hcur0, if_neg hxf]
        exact hc.other x hx hxf
      · rintro x (e | e)
        · exact e.elim
        · exact Or.inl e
    obtain ⟨D, s', e1, hl⟩ := cycleCopy_ok hc hfree c2' hsi (n + 1) _ si _ l0 hne (fun e => e) hsin (Nat.lt_succ_of_le (cnt_bound ..))
    rw [e1]
    simp only
    have hcur : ∀ x, ((s'.setIn si false).emit (.copy free i)).cur R x = if x = i then s'.cur R free else s'.cur R x := by
      intro x
      rw [cur_emit]
      rfl
    have hin' : ∀ x, ((s'.setIn si false).emit (.copy free i)).inregs x = if x = si then false else s'.inregs x := fun x => rfl
    have hmap : ∀ x, ((s'.setIn si false).emit (.copy free i)).oregmap x = s'.oregmap x := fun x => rfl
    generalize (s'.setIn si false).emit (.copy free i) = s2 at hcur hin' hmap
    -- the registers of the cycle
    have hP : ∀ x, s2.inregs x = true ↔ s.inregs x = true ∧ ¬ D x ∧ x ≠ i := by
      intro x
      rw [hin']
      by_cases e : x = si
      · rw [if_pos e]
        refine ⟨fun hh => (nomatch hh), fun hh => ?_⟩
        rcases hl.first with hD | hD
        · exact absurd (e ▸ hD) hh.2.1
        · exact absurd (e.trans hD) hh.2.2
      · rw [if_neg e, hl.inregs]
        refine and_congr_right fun hx => ?_
        constructor
        · intro hh
          constructor
          · intro hD
            rcases hl.pre x (Or.inl hD) with e' | e'
            · exact e e'
            · exact hh e'
          · intro hxi
            rcases hl.pre x (Or.inr hxi) with e' | e'
            · exact e e'
            · exact hh e'
        · rintro ⟨h1, h2⟩ ⟨y, y1, y2⟩
          rcases hl.closed y x y1 y2 with hh | hh
          · exact h1 hh
          · exact h2 hh
    have hfi : free ≠ i := by rintro rfl; rw [c2'] at hfree; cases hfree
    refine ih i s2 ?_ ?_ hin (fun r hr => ?_) ?_
    · refine ⟨fun r hr => ?_, fun r r' j hr hr' hj hj' => ?_, fun r j hr hj => ?_, fun r hr hrf => ?_⟩
      · obtain ⟨h1, h2, h3⟩ := (hP r).1 hr
        obtain ⟨g1, j, g2, g3, g4⟩ := hc.next r h1
        refine ⟨g1, j, by rw [hmap, hl.map, g2], g3, (hP j).2 ⟨g4, ?_⟩⟩
        have : ¬ (D j ∨ j = i) := by
          intro hD
          rcases hl.pre j hD with e | ⟨y, y1, y2⟩
          · rw [e] at g2
            exact h3 (hc.inj r i si h1 c2' g2 hsi)
          · exact h2 (hc.inj r y j h1 (hl.sub y y1) g2 y2 ▸ y1)
        exact ⟨fun e => this (Or.inl e), fun e => this (Or.inr e)⟩
      · rw [hmap, hl.map] at hj hj'
        exact hc.inj r r' j ((hP r).1 hr).1 ((hP r').1 hr').1 hj hj'
      · obtain ⟨h1, h2, h3⟩ := (hP r).1 hr
        rw [hmap, hl.map] at hj
        rw [hcur, if_neg ?_]
        · exact hl.rest r j h1 h2 h3 hj
        · rintro rfl
          rcases hl.pre j (Or.inr rfl) with e | ⟨y, y1, y2⟩
          · exact hne e.symm
          · exact h2 (hc.inj r y j h1 (hl.sub y y1) hj y2 ▸ y1)
      · rw [hcur]
        by_cases e : r = i
        · rw [if_pos e, e]
          exact hl.saved
        · rw [if_neg e]
          by_cases hD : D r
          · exact hl.done r hD
          · refine hl.outside r ?_ hrf
            refine Bool.eq_false_iff.2 fun hh => ?_
            rw [(hP r).2 ⟨hh, hD, e⟩] at hr
            cases hr
    · refine Bool.eq_false_iff.2 fun hh => ?_
      rw [((hP free).1 hh).1] at hfree
      cases hfree
    · refine Bool.eq_false_iff.2 fun hh => ?_
      have := hlt r hr
      rw [((hP r).1 hh).1] at this
      cases this
    · have : cnt n s2.inregs < cnt n s.inregs :=
        cnt_lt (fun x hx => ((hP x).1 hx).1) (y := i) (by omega) c2' (Bool.eq_false_iff.2 fun hh => ((hP i).1 hh).2.2 rfl)
      omega

/-! ## With exchanges -/

theorem round_ok {n : Nat} {W R : Nat → Nat} {start : Nat} : ∀ fuel (D : Nat → Prop) a s, C n W (fun _ => False) s R → s.inregs a = true → (∀ x, D x → s.inregs x = true) → ¬ D a →
    (D start ∨ start = a) → (∀ x, D x ∨ x = a → x ≠ start → ∃ y, D y ∧ s.oregmap y = some x) → cnt n s.inregs < fuel →
    ∃ s', round start fuel a s = some s' ∧ C n W (fun _ => False) s' R ∧ (∀ x, s'.inregs x = true → s.inregs x = true) ∧ (a = start → cnt n s'.inregs < cnt n s.inregs) := by
  intro fuel
  induction fuel with
  | zero => intro D a s _ _ _ _ _ _ hf; omega
  | succ fuel ih =>
    intro D a s hc ha hD hDa hst hpre hf
    have hstart : s.inregs start = true := by
      rcases hst with e | e
      · exact hD _ e
      · exact e ▸ ha
    unfold round
    obtain ⟨-, q, hq, hqa, hqin⟩ := hc.next a ha
    rw [hq]
    simp only
    by_cases c1 : q = start
    · rw [if_pos c1]
      exact ⟨s, rfl, hc, fun x hx => hx, fun e => absurd (c1.trans e.symm) hqa⟩
    rw [if_neg c1]
    obtain ⟨hqn, qi, hqi, hqiq, hqiin⟩ := hc.next q hqin
    rw [hqi]
    simp only
    have hcur : ∀ x, (((s.setIn q false).setMap a (some qi)).emit (.swap q qi)).cur R x = if x = q then s.cur R qi else if x = qi then s.cur R q else s.cur R x := by
      intro x
      rw [cur_emit]
      rfl
    have hin : ∀ x, (((s.setIn q false).setMap a (some qi)).emit (.swap q qi)).inregs x = if x = q then false else s.inregs x := fun x => rfl
    have hmap : ∀ x, (((s.setIn q false).setMap a (some qi)).emit (.swap q qi)).oregmap x = if x = a then some qi else s.oregmap x := fun x => rfl
    generalize ((s.setIn q false).setMap a (some qi)).emit (.swap q qi) = s1 at hcur hin hmap
    have hsub : ∀ x, s1.inregs x = true ↔ s.inregs x = true ∧ x ≠ q := by
      intro x
      rw [hin]
      by_cases e : x = q
      · rw [if_pos e]; exact ⟨fun hh => (nomatch hh), fun hh => absurd e hh.2⟩
      · rw [if_neg e]; exact ⟨fun hh => ⟨hh, e⟩, fun hh => hh.1⟩
    have hlt : cnt n s1.inregs < cnt n s.inregs := cnt_lt (fun x hx => ((hsub x).1 hx).1) hqn hqin (by rw [hin, if_pos rfl])
    have hqW : s.cur R qi = W q := hc.value q qi hqin hqi
    have haW : s.cur R q = W a := hc.value a q ha hq
    -- other pairs do not read the two registers
    have hoth : ∀ r j, s.inregs r = true → r ≠ a → r ≠ q → s.oregmap r = some j → j ≠ q ∧ j ≠ qi := by
      intro r j hr hra hrq hj
      constructor
      · rintro rfl
        exact hra (hc.inj r a j hr ha hj hq)
      · rintro rfl
        exact hrq (hc.inj r q j hr hqin hj hqi)
    have hqD : ¬ D q := by
      intro hh
      obtain ⟨z, z1, z2⟩ := hpre q (Or.inl hh) c1
      exact hDa (hc.inj z a q (hD z z1) ha z2 hq ▸ z1)
    -- the state after the exchange, if no pair is a fixed point
    have hC : qi ≠ a → C n W (fun _ => False) s1 R := by
      intro hne
      refine ⟨fun r hr => ?_, fun r r' j hr hr' hj hj' => ?_, fun r j hr hj => ?_, fun r hr _ => ?_⟩
      · obtain ⟨h1, h2⟩ := (hsub r).1 hr
        by_cases e : r = a
        · subst e
          refine ⟨(hc.next r h1).1, qi, by rw [hmap, if_pos rfl], hne, (hsub qi).2 ⟨hqiin, hqiq⟩⟩
        · obtain ⟨g1, j, g2, g3, g4⟩ := hc.next r h1
          exact ⟨g1, j, by rw [hmap, if_neg e, g2], g3, (hsub j).2 ⟨g4, (hoth r j h1 e h2 g2).1⟩⟩
      · obtain ⟨h1, h2⟩ := (hsub r).1 hr
        obtain ⟨h1', h2'⟩ := (hsub r').1 hr'
        rw [hmap] at hj hj'
        by_cases e : r = a
        · by_cases e' : r' = a
          · exact e.trans e'.symm
          · rw [if_pos e] at hj
            rw [if_neg e'] at hj'
            exact absurd (Option.some.inj hj).symm (hoth r' j h1' e' h2' hj').2
        · rw [if_neg e] at hj
          by_cases e' : r' = a
          · rw [if_pos e'] at hj'
            exact absurd (Option.some.inj hj').symm (hoth r j h1 e h2 hj).2
          · rw [if_neg e'] at hj'
            exact hc.inj r r' j h1 h1' hj hj'
      · obtain ⟨h1, h2⟩ := (hsub r).1 hr
        rw [hmap] at hj
        by_cases e : r = a
        · rw [if_pos e] at hj
          obtain rfl := Option.some.inj hj
          rw [hcur, if_neg hqiq, if_pos rfl, haW, e]
        · rw [if_neg e] at hj
          obtain ⟨g1, g2⟩ := hoth r j h1 e h2 hj
          rw [hcur, if_neg g1, if_neg g2]
          exact hc.value r j h1 hj
      · by_cases e : r = q
        · rw [hcur, if_pos e, e, hqW]
        · have hr' : s.inregs r = false := Bool.eq_false_iff.2 fun hh => by
            rw [(hsub r).2 ⟨hh, e⟩] at hr
            cases hr
          rw [hcur, if_neg e, if_neg (by rintro rfl; rw [hqiin] at hr'; cases hr')]
          exact hc.other r hr' fun e => e
    by_cases c2 : qi = start
    · rw [if_pos c2]
      by_cases c3 : s1.oregmap start = some start
      · rw [if_pos c3]
        have hastart : a = start := by
          refine Classical.byContradiction fun e => ?_
          rw [hmap, if_neg (Ne.symm e)] at c3
          obtain ⟨-, j, g1, g2, -⟩ := hc.next start hstart
          rw [c3] at g1
          exact g2 (Option.some.inj g1).symm
        have hin2 : ∀ x, (s1.setIn qi false).inregs x = true ↔ s.inregs x = true ∧ x ≠ q ∧ x ≠ qi := by
          intro x
          show (if x = qi then false else s1.inregs x) = true ↔ _
          by_cases e : x = qi
          · rw [if_pos e]; exact ⟨fun hh => (nomatch hh), fun hh => absurd e hh.2.2⟩
          · rw [if_neg e, hsub]; exact ⟨fun hh => ⟨hh.1, hh.2, e⟩, fun hh => ⟨hh.1, hh.2.1⟩⟩
        have hqia : qi = a := c2.trans hastart.symm
        refine ⟨_, rfl, ⟨fun r hr => ?_, fun r r' j hr hr' hj hj' => ?_, fun r j hr hj => ?_, fun r hr _ => ?_⟩, fun x hx => ((hin2 x).1 hx).1, fun _ => ?_⟩
        · obtain ⟨h1, h2, h3⟩ := (hin2 r).1 hr
          have e : r ≠ a := fun e => h3 (e.trans hqia.symm)
          obtain ⟨g1, j, g2, g3, g4⟩ := hc.next r h1
          refine ⟨g1, j, ?_, g3, (hin2 j).2 ⟨g4, hoth r j h1 e h2 g2⟩⟩
          show s1.oregmap r = _
          rw [hmap, if_neg e, g2]
        · obtain ⟨h1, h2, h3⟩ := (hin2 r).1 hr
          obtain ⟨h1', h2', h3'⟩ := (hin2 r').1 hr'
          change s1.oregmap r = _ at hj
          change s1.oregmap r' = _ at hj'
          rw [hmap, if_neg fun e => h3 (e.trans hqia.symm)] at hj
          rw [hmap, if_neg fun e => h3' (e.trans hqia.symm)] at hj'
          exact hc.inj r r' j h1 h1' hj hj'
        · obtain ⟨h1, h2, h3⟩ := (hin2 r).1 hr
          have e : r ≠ a := fun e => h3 (e.trans hqia.symm)
          change s1.oregmap r = _ at hj
          rw [hmap, if_neg e] at hj
          obtain ⟨g1, g2⟩ := hoth r j h1 e h2 hj
          rw [cur_setIn, hcur, if_neg g1, if_neg g2]
          exact hc.value r j h1 hj
        · rw [cur_setIn, hcur]
          by_cases e : r = q
          · rw [if_pos e, e, hqW]
          · rw [if_neg e]
            by_cases e' : r = qi
            · rw [if_pos e', haW, e', hqia]
            · rw [if_neg e']
              refine hc.other r ?_ fun e => e
              refine Bool.eq_false_iff.2 fun hh => ?_
              rw [(hin2 r).2 ⟨hh, e, e'⟩] at hr
              cases hr
        · refine Nat.lt_of_le_of_lt (cnt_le n fun x hx => ?_) hlt
          obtain ⟨h1, h2, -⟩ := (hin2 x).1 hx
          exact (hsub x).2 ⟨h1, h2⟩
      · rw [if_neg c3]
        have hne : qi ≠ a := by
          rintro rfl
          subst c2
          rw [hmap, if_pos rfl] at c3
          exact c3 rfl
        exact ⟨s1, rfl, hC hne, fun x hx => ((hsub x).1 hx).1, fun _ => hlt⟩
    · rw [if_neg c2]
      have hne : qi ≠ a := by
        intro e
        obtain ⟨y, y1, y2⟩ := hpre a (Or.inr rfl) (fun h => c2 (e.trans h))
        rw [e] at hqi
        exact hqD (hc.inj y q a (hD y y1) hqin y2 hqi ▸ y1)
      have hqiD : ¬ D qi := by
        intro hh
        obtain ⟨z, z1, z2⟩ := hpre qi (Or.inl hh) c2
        exact hqD (hc.inj z q qi (hD z z1) hqin z2 hqi ▸ z1)
      obtain ⟨s', f1, f2, f3, -⟩ := ih (fun x => D x ∨ x = a) qi s1 (hC hne) ((hsub qi).2 ⟨hqiin, hqiq⟩)
        (by
          rintro x (hx | rfl)
          · exact (hsub x).2 ⟨hD x hx, by rintro rfl; exact hqD hx⟩
          · exact (hsub x).2 ⟨ha, Ne.symm hqa⟩)
        (by
          rintro (e | e)
          · exact hqiD e
          · exact hne e)
        (by
          rcases hst with e | e
          · exact Or.inl (Or.inl e)
          · exact Or.inl (Or.inr e))
        (by
          rintro x (hx | rfl) hxs
          · obtain ⟨y, y1, y2⟩ := hpre x hx hxs
            exact ⟨y, Or.inl y1, by rw [hmap, if_neg (by rintro rfl; exact hDa y1), y2]⟩
          · exact ⟨a, Or.inr rfl, by rw [hmap, if_pos rfl]⟩)
        (by omega)
      exact ⟨s', f1, f2, fun x hx => ((hsub x).1 (f3 x hx)).1, fun _ => Nat.lt_of_le_of_lt (cnt_le n f3) hlt⟩

theorem cyclesSwap_ok {n : Nat} {W R : Nat → Nat} : ∀ fuel i s, C n W (fun _ => False) s R → i ≤ n → (∀ r, r < i → s.inregs r = false) →
    (n - i) + cnt n s.inregs < fuel → ∃ s', cyclesSwap n fuel i s = some s' ∧ ∀ r, s'.cur R r = W r := by
  intro fuel
  induction fuel with
  | zero => intro i s _ _ _ hf; omega
  | succ fuel ih =>
    intro i s hc hin hlt hf
    unfold cyclesSwap
    by_cases c1 : i = n
    · rw [if_pos c1]
      refine ⟨s, rfl, fun r => hc.other r ?_ fun e => e⟩
      by_cases hrn : r < n
      · exact hlt r (c1 ▸ hrn)
      · exact Bool.eq_false_iff.2 fun e => hrn (hc.next r e).1
    rw [if_neg c1]
    by_cases c2 : s.inregs i = false
    · rw [if_pos c2]
      refine ih (i + 1) s hc (by omega) (fun r hr => ?_) (by omega)
      rcases Nat.lt_succ_iff_lt_or_eq.1 hr with hh | rfl
      · exact hlt r hh
      · exact c2
    rw [if_neg c2]
    have c2' : s.inregs i = true := by simpa using c2
    obtain ⟨s', e1, e2, e3, e4⟩ := round_ok (start := i) (n + 1) (fun _ => False) i s hc c2' (fun x hx => hx.elim) (fun e => e) (Or.inr rfl)
      (by
        rintro x (hx | hx) hne
        · exact hx.elim
        · exact absurd hx hne) (Nat.lt_succ_of_le (cnt_bound ..))
    rw [e1]
    simp only
    refine ih i s' e2 hin (fun r hr => Bool.eq_false_iff.2 fun hh => ?_) ?_
    · have := hlt r hr
      rw [e3 r hh] at this
      cases this
    · have := e4 rfl
      omega

end Verif.Model.Perm
