import Verif.Model.TvIntern
import Verif.Props.LSet
import Verif.Lemmas.TarVal
import Verif.Props.IntArith
/-!
# C09: target values are hash-consed
-/
namespace Verif.Props
open Verif.Model Verif.Spec

theorem tv_hashEq (h : Mode → List Nat → Nat) : HashEq (tvHash h) tvEqual where
  refl := by intro x; simp [tvEqual]
  symm := by intro x y; simp only [tvEqual, Bool.and_eq_true, decide_eq_true_eq]; exact fun ⟨a, b⟩ => ⟨a.symm, b.symm⟩
  trans := by
    intro x y z; simp only [tvEqual, Bool.and_eq_true, decide_eq_true_eq]
    exact fun ⟨a, b⟩ ⟨c, d⟩ => ⟨a.trans c, b.trans d⟩
  hash := by
    intro x y; simp only [tvEqual, Bool.and_eq_true, decide_eq_true_eq]
    intro ⟨a, b⟩; simp only [tvHash, a, b]

/-- invariant: the table is a set of cells with pairwise different addresses
below `next` -/
structure TvRep (h : Mode → List Nat → Nat) (T : TvTable) (S : List TvCell) : Prop where
  rep : Rep (tvHash h) tvEqual T.table S
  below : ∀ c ∈ S, c.addr < T.next
  inj : ∀ c ∈ S, ∀ d ∈ S, c.addr = d.addr → c = d

theorem identify_step {h : Mode → List Nat → Nat} {T : TvTable} {S : List TvCell} (hr : TvRep h T S) (md : Mode) (v : List Nat) :
    ∃ T' a S', T.identify h md v = some (T', a) ∧ TvRep h T' S' ∧ (∀ c ∈ S, c ∈ S') ∧ ⟨a, md, v⟩ ∈ S' := by
  obtain ⟨T', x, S', e, hs, hr'⟩ := lset_insert (tv_hashEq h) hr.rep ⟨T.next, md, v⟩
  unfold TvTable.identify
  rw [e]
  cases hs with
  | insertOld hx heq =>
    refine ⟨_, _, S, rfl, ⟨hr', ?_, hr.inj⟩, fun c hc => hc, ?_⟩
    · intro c hc; have := hr.below c hc; simp only; omega
    · simp only [tvEqual, Bool.and_eq_true, decide_eq_true_eq] at heq
      obtain ⟨h1, h2⟩ := heq
      obtain ⟨a, b, c⟩ := x
      simp only at h1 h2
      rw [← h1, ← h2]; exact hx
  | insertNew hno =>
    refine ⟨_, _, _, rfl, ⟨hr', ?_, ?_⟩, fun c hc => List.mem_cons_of_mem _ hc, List.mem_cons_self ..⟩
    · intro c hc
      rcases List.mem_cons.1 hc with hc | hc
      · rw [hc]; simp only; omega
      · have := hr.below c hc; simp only; omega
    · intro c hc d hd hcd
      rcases List.mem_cons.1 hc with hc | hc <;> rcases List.mem_cons.1 hd with hd | hd
      · rw [hc, hd]
      · have := hr.below d hd; rw [hc] at hcd; simp only at hcd; omega
      · have := hr.below c hc; rw [hd] at hcd; simp only at hcd; omega
      · exact hr.inj c hc d hd hcd

theorem run_spec {h : Mode → List Nat → Nat} (reqs : List (Mode × List Nat)) :
    ∀ {T : TvTable} {S : List TvCell}, TvRep h T S →
    ∃ as S' T', T.run h reqs = some as ∧ as.length = reqs.length ∧ TvRep h T' S' ∧ (∀ c ∈ S, c ∈ S') ∧
      ∀ i (hi : i < reqs.length) a, as[i]? = some a →
        ∃ v', getIntTarval reqs[i].2 reqs[i].1 = .int reqs[i].1 v' ∧ (⟨a, reqs[i].1, v'⟩ : TvCell) ∈ S' := by
  induction reqs with
  | nil => intro T S hr; exact ⟨[], S, T, rfl, rfl, hr, fun c hc => hc, fun i hi => by simp at hi⟩
  | cons r rest ih =>
    intro T S hr
    obtain ⟨md, v⟩ := r
    obtain ⟨T1, a, S1, e1, hr1, hsub, hmem⟩ := identify_step hr md (if md.signed then scSignExtend v md.bits else scZeroExtend v md.bits)
    obtain ⟨as, S2, T2, e2, hlen, hr2, hsub2, hall⟩ := ih hr1
    refine ⟨a :: as, S2, T2, ?_, by simp [hlen], hr2, fun c hc => hsub2 c (hsub c hc), ?_⟩
    · rw [TvTable.run]
      have : T.getInt h md v = some (T1, a) := e1
      rw [this]
      show (do let as ← T1.run h rest; pure (a :: as)) = some (a :: as)
      rw [e2]; rfl
    · intro i hi b hb
      cases i with
      | zero =>
        simp only [List.getElem?_cons_zero, Option.some.injEq] at hb
        subst hb
        exact ⟨_, rfl, hsub2 _ hmem⟩
      | succ i =>
        rw [List.getElem?_cons_succ] at hb
        exact hall i (by simpa using hi) b hb

theorem tvNew_rep (h : Mode → List Nat → Nat) : TvRep h TvTable.new [] :=
  ⟨new_rep _ _ _, by simp, by simp⟩

/-- C09: whatever is constructed and in whatever order, and whatever the hash
function, two constructions yield the same pointer iff the target values agree
in mode and bytes. -/
theorem intern_pointer_eq (h : Mode → List Nat → Nat) (reqs : List (Mode × List Nat)) :
    ∃ as, TvTable.new.run h reqs = some as ∧ as.length = reqs.length ∧
      ∀ i j (hi : i < reqs.length) (hj : j < reqs.length),
        as[i]? = as[j]? ↔ getIntTarval reqs[i].2 reqs[i].1 = getIntTarval reqs[j].2 reqs[j].1 := by
  obtain ⟨as, S, T, e, hlen, hr, -, hall⟩ := run_spec (h := h) reqs (tvNew_rep h)
  refine ⟨as, e, hlen, ?_⟩
  intro i j hi hj
  have hia : as[i]? = some (as[i]'(by omega)) := List.getElem?_eq_getElem (by omega)
  have hja : as[j]? = some (as[j]'(by omega)) := List.getElem?_eq_getElem (by omega)
  obtain ⟨v1, e1, m1⟩ := hall i hi _ hia
  obtain ⟨v2, e2, m2⟩ := hall j hj _ hja
  rw [e1, e2, hia, hja]
  constructor
  · intro heq
    have := hr.inj _ m1 _ m2 (Option.some.inj heq)
    injection this with h1 h2 h3
    rw [h2, h3]
  · intro heq
    injection heq with h1 h2
    have := spec_find_unique (tv_hashEq h) hr.rep.nodup (k := ⟨0, reqs[i].1, v1⟩) m1 m2
      (by simp [tvEqual]) (by simp [tvEqual, h1, h2])
    rw [TvCell.mk.inj this |>.1]

/-- C09: two constructions in one mode, from buffers holding `x` and `y`, yield
the same pointer iff `x` and `y` are the same value of the mode. -/
theorem tarval_hash_consing {E : TvEnv} (h : Mode → List Nat → Nat) (reqs : List (Mode × List Nat))
    (hv : ∀ r ∈ reqs, ModeOk E r.1 ∧ r.2.length = 2 * E.m ∧ Bytes r.2) :
    ∃ as, TvTable.new.run h reqs = some as ∧ as.length = reqs.length ∧
      ∀ i j (hi : i < reqs.length) (hj : j < reqs.length), reqs[i].1 = reqs[j].1 →
        (as[i]? = as[j]? ↔
          wrap reqs[i].1.signed reqs[i].1.bits (svalue reqs[i].2) = wrap reqs[j].1.signed reqs[j].1.bits (svalue reqs[j].2)) := by
  obtain ⟨as, e, hlen, hall⟩ := intern_pointer_eq h reqs
  refine ⟨as, e, hlen, ?_⟩
  intro i j hi hj hmd
  obtain ⟨o1, l1, b1⟩ := hv reqs[i] (List.getElem_mem hi)
  obtain ⟨o2, l2, b2⟩ := hv reqs[j] (List.getElem_mem hj)
  have d1 := getIntTarval_denotes o1 l1 b1
  have d2 := getIntTarval_denotes o2 l2 b2
  rw [hall i j hi hj]
  constructor
  · intro heq
    rw [heq, hmd] at d1
    rw [hmd]; exact denotes_fun d1 d2
  · intro heq
    rw [hmd] at d1 heq
    rw [heq] at d1
    rw [hmd]; exact denotes_unique d1 d2

/-- C09: tarvals that denote values of one mode are interned to the same
pointer iff the values are equal; `a` and `b` may be results of any operations. -/
theorem tarval_pointer_eq_iff {E : TvEnv} {t u : TarVal} {md : Mode} {x y : Int} (h1 : Denotes E t md x) (h2 : Denotes E u md y) :
    t = u ↔ x = y :=
  ⟨fun h => denotes_fun h1 (h ▸ h2), fun h => denotes_unique h1 (h ▸ h2)⟩

/-- different modes never share a pointer -/
theorem intern_modes_differ (h : Mode → List Nat → Nat) (reqs : List (Mode × List Nat)) (as : List Nat)
    (e : TvTable.new.run h reqs = some as) (i j : Nat) (hi : i < reqs.length) (hj : j < reqs.length)
    (hne : reqs[i].1 ≠ reqs[j].1) : as[i]? ≠ as[j]? := by
  obtain ⟨as', e', -, hall⟩ := intern_pointer_eq h reqs
  rw [e] at e'; cases e'
  rw [Ne, hall i j hi hj]
  intro heq
  injection heq with h1 _
  exact hne h1

/-- non-vacuity: 300, 44 and 7 in an unsigned 8 bit mode, all hashes equal -/
example : (TvTable.new.run (fun _ _ => 0)
    [(⟨0, .intNumber, 8, false, 32⟩, [44, 1, 0, 0]), (⟨0, .intNumber, 8, false, 32⟩, [7, 0, 0, 0]),
     (⟨0, .intNumber, 8, false, 32⟩, [44, 0, 0, 0])]) = some [0, 1, 0] := by decide

end Verif.Props
