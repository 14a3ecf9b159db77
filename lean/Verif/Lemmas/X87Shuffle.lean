import Verif.Lemmas.X87
/-! # Lemmas about the permutations between blocks -/
namespace Verif.Lemmas.X87
open Verif.Spec.X87 Verif.Model.X87

variable {V : Type} {sem : Sem V}

/-- every place takes what the one before it holds -/
def Chain (dst L : St) : Nat → List Nat → Prop
  | _, [] => True
  | src, k :: ks => dst[k]? = L[src]? ∧ Chain dst L k ks

theorem Chain.congr {dst L L' : St} : ∀ {ks : List Nat} {src : Nat}, Chain dst L src ks →
    (∀ x ∈ src :: ks, L'[x]? = L[x]?) → Chain dst L' src ks := by
  intro ks
  induction ks with
  | nil => intro src _ _; trivial
  | cons k ks ih =>
    intro src h he
    exact ⟨by rw [he src (List.mem_cons_self ..)]; exact h.1,
      ih h.2 fun x hx => he x (List.mem_cons_of_mem _ hx)⟩

theorem Chain.src {dst L : St} {s s' : Nat} {ks : List Nat} (h : Chain dst L s ks) (he : L[s']? = L[s]?) :
    Chain dst L s' ks := by
  cases ks with
  | nil => trivial
  | cons k ks => exact ⟨by rw [he]; exact h.1, h.2⟩

theorem exchanges_append {a b : List Nat} {L L1 L2 : St} {c1 c2 : List Insn}
    (h1 : exchanges a L = some (c1, L1)) (h2 : exchanges b L1 = some (c2, L2)) :
    exchanges (a ++ b) L = some (c1 ++ c2, L2) := by
  induction a generalizing L c1 with
  | nil =>
    simp only [exchanges] at h1
    cases h1
    simpa using h2
  | cons i is ih =>
    simp only [exchanges] at h1
    simp only [List.cons_append, exchanges]
    cases hx : createFxch L i with
    | none => rw [hx] at h1; cases h1
    | some p =>
      obtain ⟨c, st⟩ := p
      rw [hx] at h1
      simp only [Sim.andThen] at h1 ⊢
      cases hy : exchanges is st with
      | none => rw [hy] at h1; cases h1
      | some q =>
        obtain ⟨c', st'⟩ := q
        rw [hy] at h1
        cases h1
        rw [ih hy]
        simp

/-- What is said of a run of exchanges: places in the list get what they should have, the others are as
before. -/
theorem run_ok {dst : St} : ∀ (ks : List Nat) (L : St), 0 ∉ ks → ks.Nodup → (∀ k ∈ ks, k < L.length) →
    Chain dst L 0 ks →
    ∃ c L', exchanges ks L = some (c, L') ∧ L'.length = L.length ∧ (∀ k ∈ ks, L'[k]? = dst[k]?) ∧
      (∀ j, j ≠ 0 → j ∉ ks → L'[j]? = L[j]?) ∧ L'[0]? = L[(0 :: ks).getLast (by simp)]? ∧
      ∀ R : Nat → V, exec sem (L.map R) c = some ([], L'.map R) := by
  intro ks
  induction ks with
  | nil =>
    intro L _ _ _ _
    exact ⟨[], L, rfl, rfl, by simp, fun _ _ _ => rfl, by simp, fun R => rfl⟩
  | cons k ks ih =>
    intro L h0 hn hlt hc
    simp only [List.mem_cons, not_or] at h0
    rw [List.nodup_cons] at hn
    obtain ⟨a, rest, h1, h2, h3, h4, h5, h6⟩ := exch_ok (sem := sem) (st := L) (i := k) (hlt k (List.mem_cons_self ..))
    have hlen : (a :: rest).length = L.length := h3.length_eq
    have hk : (a :: rest)[k]? = L[0]? := h5 (by omega)
    have hz : (a :: rest)[0]? = L[k]? := by rw [h2]; rfl
    have hsame : ∀ x ∈ ks, (a :: rest)[x]? = L[x]? := fun x hx =>
      h4 x (by have : x ≠ 0 := by rintro rfl; exact h0.2 hx
               omega) (by rintro rfl; exact hn.1 hx)
    have hc1 : Chain dst (a :: rest) 0 ks := by
      cases ks with
      | nil => trivial
      | cons k' ks =>
        refine ⟨by rw [hz]; exact hc.2.1, Chain.congr hc.2.2 ?_⟩
        intro x hx
        exact hsame x hx
    obtain ⟨c, L', e1, e2, e3, e4, e5, e6⟩ := ih (a :: rest) h0.2 hn.2 (fun x hx => by rw [hlen]; exact hlt x (List.mem_cons_of_mem _ hx)) hc1
    refine ⟨[.fxch k] ++ c, L', andThen_some h1 e1, by rw [e2, hlen], ?_, ?_, ?_, fun R => ?_⟩
    · intro x hx
      rcases List.mem_cons.mp hx with rfl | hx
      · rw [e4 x (fun e => h0.1 e.symm) hn.1, hk]; exact hc.1.symm
      · exact e3 x hx
    · intro j hj hjk
      simp only [List.mem_cons, not_or] at hjk
      rw [e4 j hj hjk.2, h4 j (by omega) hjk.1]
    · rw [e5]
      cases ks with
      | nil => simpa using hz
      | cons k' ks =>
        have : (0 :: k' :: ks).getLast (by simp) = (k' :: ks).getLast (by simp) := List.getLast_cons (by simp)
        have h7 : (0 :: k :: k' :: ks).getLast (by simp) = (k' :: ks).getLast (by simp) := by
          rw [List.getLast_cons (by simp), List.getLast_cons (by simp)]
        rw [this, h7]
        exact hsame _ (List.getLast_mem _)
    · have := exec_append (h6 R) (e6 R)
      simpa using this

theorem cycle_ok {dst L : St} {i : Nat} {c : List Nat} (hn : (i :: c).Nodup) (hlt : ∀ k ∈ i :: c, k < L.length)
    (hc : Chain dst L i c) (hl : dst[i]? = L[(i :: c).getLast (by simp)]?) (h0 : 0 ∈ i :: c → i = 0) :
    ∃ code L', exchanges (cycleExchanges (i :: c)) L = some (code, L') ∧ L'.length = L.length ∧
      (∀ k ∈ i :: c, L'[k]? = dst[k]?) ∧ (∀ j, j ∉ i :: c → L'[j]? = L[j]?) ∧
      ∀ R : Nat → V, exec sem (L.map R) code = some ([], L'.map R) := by
  rw [List.nodup_cons] at hn
  unfold cycleExchanges
  dsimp only
  by_cases hz : 0 ∈ i :: c
  · rw [if_pos hz]
    have := h0 hz
    subst this
    obtain ⟨code, L', e1, e2, e3, e4, e5, e6⟩ := run_ok (sem := sem) c L hn.1 hn.2 (fun k hk => hlt k (List.mem_cons_of_mem _ hk)) hc
    refine ⟨code, L', e1, e2, ?_, ?_, e6⟩
    · intro k hk
      rcases List.mem_cons.mp hk with rfl | hk
      · rw [e5, hl]
      · exact e3 k hk
    · intro j hj
      simp only [List.mem_cons, not_or] at hj
      exact e4 j hj.1 hj.2
  · rw [if_neg hz]
    simp only [List.mem_cons, not_or] at hz
    obtain ⟨a, rest, h1, h2, h3, h4, h5, h6⟩ := exch_ok (sem := sem) (st := L) (i := i) (hlt i (List.mem_cons_self ..))
    have hlen : (a :: rest).length = L.length := h3.length_eq
    have hzz : (a :: rest)[0]? = L[i]? := by rw [h2]; rfl
    have hii : (a :: rest)[i]? = L[0]? := h5 (by omega)
    have hsame : ∀ x, x ≠ 0 → x ≠ i → (a :: rest)[x]? = L[x]? := fun x hx hxi => h4 x (by omega) hxi
    have hc1 : Chain dst (a :: rest) 0 c := by
      cases c with
      | nil => trivial
      | cons k' ks =>
        refine ⟨by rw [hzz]; exact hc.1, Chain.congr hc.2 ?_⟩
        intro x hx
        exact hsame x (by rintro rfl; exact hz.2 hx) (by rintro rfl; exact hn.1 hx)
    obtain ⟨code, L1, e1, e2, e3, e4, e5, e6⟩ := run_ok (sem := sem) c (a :: rest) hz.2 hn.2
      (fun k hk => by rw [hlen]; exact hlt k (List.mem_cons_of_mem _ hk)) hc1
    have hi1 : i < L1.length := by rw [e2, hlen]; exact hlt i (List.mem_cons_self ..)
    obtain ⟨a', rest', f1, f2, f3, f4, f5, f6⟩ := exch_ok (sem := sem) (st := L1) (i := i) hi1
    have hL1i : L1[i]? = L[0]? := by rw [e4 i (fun e => hz.1 e.symm) hn.1, hii]
    refine ⟨[.fxch i] ++ (code ++ [.fxch i]), a' :: rest', ?_, by rw [f3.length_eq, e2, hlen], ?_, ?_, fun R => ?_⟩
    · have : i :: c ++ [i] = [i] ++ (c ++ [i]) := by simp
      rw [this]
      refine exchanges_append (L1 := a :: rest) ?_ (exchanges_append (L1 := L1) e1 ?_)
      · simp [exchanges, h1, Sim.andThen]
      · simp [exchanges, f1, Sim.andThen]
    · intro k hk
      rcases List.mem_cons.mp hk with rfl | hk
      · rw [f5 (by omega), e5, hl]
        cases c with
        | nil => simpa using hzz
        | cons k' ks =>
          have h7 : (0 :: k' :: ks).getLast (by simp) = (k' :: ks).getLast (by simp) := List.getLast_cons (by simp)
          have h8 : (k :: k' :: ks).getLast (by simp) = (k' :: ks).getLast (by simp) := List.getLast_cons (by simp)
          rw [h7, h8]
          have hm := List.getLast_mem (l := k' :: ks) (by simp)
          exact hsame _ (by intro e; rw [e] at hm; exact hz.2 hm) (by intro e; rw [e] at hm; exact hn.1 hm)
      · rw [f4 k (by have : k ≠ 0 := by rintro rfl; exact hz.2 hk
                     omega) (fun e => hn.1 (e ▸ hk)), e3 k hk]
    · intro j hj
      simp only [List.mem_cons, not_or] at hj
      by_cases hj0 : j = 0
      · subst hj0
        have : (a' :: rest')[0]? = L1[i]? := by rw [f2]; rfl
        rw [this, hL1i]
      · rw [f4 j (by omega) hj.1, e4 j hj0 hj.2, hsame j hj0 hj.1]
    · have := exec_append (h6 R) (exec_append (e6 R) (f6 R))
      simpa using this

/-! ### The cycles -/

theorem onStack_some {st : St} {r q : Nat} (h : onStack st r = some q) : st[q]? = some r := by
  unfold onStack at h
  rw [List.findIdx?_eq_some_iff_getElem] at h
  obtain ⟨hq, h1, -⟩ := h
  rw [List.getElem?_eq_getElem hq]
  simpa using h1

theorem follow_ok {st dst : St} (hmem : ∀ r ∈ st, r ∈ dst) (hlen : dst.length = st.length) :
    ∀ (fuel src : Nat) (free : List Nat), free.length ≤ fuel → free.Nodup → (∀ x ∈ free, x < st.length) →
    src < st.length →
    ∃ c free', followCycle st dst fuel src free = some (c, free') ∧ Chain dst st src c ∧ c.Nodup ∧ free'.Nodup ∧
      (∀ x ∈ c, x ∈ free) ∧ (∀ x, x ∈ free' ↔ x ∈ free ∧ x ∉ c) ∧ free'.length + c.length = free.length ∧
      ∀ q, dst[q]? = st[(src :: c).getLast (by simp)]? → q < st.length → dst.Nodup → q ∉ free' := by
  intro fuel
  induction fuel with
  | zero =>
    intro src free hf hn _ hs
    have : free = [] := List.eq_nil_of_length_eq_zero (by omega)
    subst this
    exact ⟨[], [], rfl, trivial, List.nodup_nil, List.nodup_nil, (fun x h => nomatch h), by simp, rfl, by simp⟩
  | succ fuel ih =>
    intro src free hf hn hlt hs
    have hr : st[src]? = some st[src] := List.getElem?_eq_getElem hs
    obtain ⟨l1, l2, e, -, hq⟩ := onStack_of_mem (hmem st[src] (List.getElem_mem hs))
    have hd : dst[l1.length]? = some st[src] := onStack_some hq
    unfold followCycle
    rw [hr]
    dsimp only
    rw [hq]
    dsimp only
    by_cases hm : l1.length ∈ free
    · rw [if_pos hm]
      have hle : (free.erase l1.length).length + 1 = free.length := by
        rw [List.length_erase_of_mem hm]
        have := List.length_pos_of_mem hm
        omega
      have hme : ∀ x, x ∈ free.erase l1.length ↔ x ≠ l1.length ∧ x ∈ free := fun x => hn.mem_erase_iff
      obtain ⟨c, free', f1, f2, f3, f4, f5, f6, f7, f8⟩ := ih l1.length (free.erase l1.length) (by omega) (hn.erase _)
        (fun x hx => hlt x ((hme x).mp hx).2) (hlt _ hm)
      refine ⟨l1.length :: c, free', by rw [f1]; rfl, ⟨by rw [hd, hr], f2⟩, ?_, f4, ?_, ?_, ?_, ?_⟩
      · rw [List.nodup_cons]
        exact ⟨fun h => ((hme _).mp (f5 _ h)).1 rfl, f3⟩
      · intro x hx
        rcases List.mem_cons.mp hx with rfl | hx
        · exact hm
        · exact ((hme x).mp (f5 x hx)).2
      · intro x
        rw [f6, hme, List.mem_cons, not_or]
        constructor
        · rintro ⟨⟨h1, h2⟩, h3⟩; exact ⟨h2, h1, h3⟩
        · rintro ⟨h2, h1, h3⟩; exact ⟨⟨h1, h2⟩, h3⟩
      · simp only [List.length_cons]; omega
      · intro q hq' hql hdn
        rw [List.getLast_cons (by simp)] at hq'
        exact f8 q hq' hql hdn
    · rw [if_neg hm]
      refine ⟨[], free, rfl, trivial, List.nodup_nil, hn, (fun x h => nomatch h), by simp, rfl, ?_⟩
      intro q hq' hql hdn hqf
      simp only [List.getLast_singleton] at hq'
      have : dst[q]? = dst[l1.length]? := by rw [hq', hd, hr]
      have := (List.getElem?_inj (by omega) hdn).mp this
      rw [this] at hqf
      exact hm hqf

theorem first_none {st dst : St} : ∀ {free : List Nat}, firstOfCycle st dst free = none → ∀ p ∈ free, st[p]? = dst[p]? := by
  intro free
  induction free with
  | nil => intro _ p h; cases h
  | cons i free ih =>
    intro h p hp
    unfold firstOfCycle at h
    by_cases hd : st[i]? ≠ dst[i]?
    · rw [if_pos hd] at h; cases h
    · rw [if_neg hd] at h
      rcases List.mem_cons.mp hp with rfl | hp
      · exact Classical.byContradiction hd
      · exact ih h p hp

theorem first_some {st dst : St} : ∀ {free : List Nat} {i : Nat} {rest : List Nat}, firstOfCycle st dst free = some (i, rest) →
    ∃ pre, free = pre ++ i :: rest ∧ (∀ p ∈ pre, st[p]? = dst[p]?) ∧ st[i]? ≠ dst[i]? := by
  intro free
  induction free with
  | nil => intro i rest h; cases h
  | cons j free ih =>
    intro i rest h
    unfold firstOfCycle at h
    by_cases hd : st[j]? ≠ dst[j]?
    · rw [if_pos hd] at h
      cases h
      exact ⟨[], rfl, (fun p h => nomatch h), hd⟩
    · rw [if_neg hd] at h
      obtain ⟨pre, e, h1, h2⟩ := ih h
      refine ⟨j :: pre, by rw [e]; rfl, ?_, h2⟩
      intro p hp
      rcases List.mem_cons.mp hp with rfl | hp
      · exact Classical.byContradiction hd
      · exact h1 p hp

/-- an element of a chain but the first comes from one before the last -/
theorem Chain.pred {dst L : St} : ∀ {ks : List Nat} {src x : Nat}, Chain dst L src ks → (src :: ks).Nodup → x ∈ ks →
    ∃ y ∈ src :: ks, dst[x]? = L[y]? ∧ y ≠ (src :: ks).getLast (by simp) := by
  intro ks
  induction ks with
  | nil => intro src x _ _ h; cases h
  | cons k ks ih =>
    intro src x hc hn hx
    rw [List.nodup_cons] at hn
    have hl : (src :: k :: ks).getLast (by simp) = (k :: ks).getLast (by simp) := List.getLast_cons (by simp)
    rcases List.mem_cons.mp hx with rfl | hx
    · refine ⟨src, List.mem_cons_self .., hc.1, ?_⟩
      rw [hl]
      intro e
      have := List.getLast_mem (l := x :: ks) (by simp)
      rw [← e] at this
      exact hn.1 this
    · obtain ⟨y, hy, h1, h2⟩ := ih hc.2 hn.2 hx
      exact ⟨y, List.mem_cons_of_mem _ hy, h1, by rw [hl]; exact h2⟩

/-- an element of a chain but the last has a successor -/
theorem Chain.next {dst L : St} : ∀ {ks : List Nat} {src x : Nat}, Chain dst L src ks → x ∈ src :: ks →
    x ≠ (src :: ks).getLast (by simp) → ∃ y ∈ ks, dst[y]? = L[x]? := by
  intro ks
  induction ks with
  | nil =>
    intro src x _ h hne
    simp only [List.mem_cons, List.not_mem_nil, or_false] at h
    exact absurd (by simpa using h) hne
  | cons k ks ih =>
    intro src x hc hx hne
    have hl : (src :: k :: ks).getLast (by simp) = (k :: ks).getLast (by simp) := List.getLast_cons (by simp)
    rw [hl] at hne
    rcases List.mem_cons.mp hx with rfl | hx
    · exact ⟨k, List.mem_cons_self .., hc.1⟩
    · obtain ⟨y, hy, h1⟩ := ih hc.2 hx hne
      exact ⟨y, List.mem_cons_of_mem _ hy, h1⟩

theorem cycles_ok {st dst : St} (hsn : st.Nodup) (hdn : dst.Nodup) (hmem : ∀ r ∈ st, r ∈ dst)
    (hlen : dst.length = st.length) :
    ∀ (fuel : Nat) (free : List Nat), free.length ≤ fuel → free.Nodup → (∀ x ∈ free, x < st.length) →
    (∀ p q, p < st.length → q < st.length → dst[q]? = st[p]? → (p ∈ free ↔ q ∈ free)) →
    (0 ∈ free → free.head? = some 0) →
    ∃ cs, findCycles st dst fuel free = some cs ∧ 2 * cs.length ≤ free.length ∧ (∀ c ∈ cs, c.length ≤ free.length) ∧
      ∀ L : St, L.length = st.length → (∀ p ∈ free, L[p]? = st[p]?) →
        ∃ code L', exchanges (cs.flatMap cycleExchanges) L = some (code, L') ∧ L'.length = L.length ∧
          (∀ p ∈ free, L'[p]? = dst[p]?) ∧ (∀ p, p ∉ free → L'[p]? = L[p]?) ∧
          ∀ R : Nat → V, exec sem (L.map R) code = some ([], L'.map R) := by
  have sinj : ∀ p q, p < st.length → st[p]? = st[q]? → p = q := fun p q hp h => (List.getElem?_inj hp hsn).mp h
  have dinj : ∀ p q, p < st.length → dst[p]? = dst[q]? → p = q := fun p q hp h => (List.getElem?_inj (by omega) hdn).mp h
  intro fuel
  induction fuel with
  | zero =>
    intro free hf _ _ _ _
    have : free = [] := List.eq_nil_of_length_eq_zero (by omega)
    subst this
    refine ⟨[], rfl, by simp, (fun c h => nomatch h), fun L hL hp => ⟨[], L, rfl, rfl, (fun p h => nomatch h), fun _ _ => rfl, fun R => rfl⟩⟩
  | succ fuel ih =>
    intro free hf hn hlt hcl h0
    unfold findCycles
    cases hfst : firstOfCycle st dst free with
    | none =>
      dsimp only
      have := first_none hfst
      exact ⟨[], rfl, by simp, (fun c h => nomatch h), fun L hL hp => ⟨[], L, rfl, rfl,
        (fun p h => by rw [hp p h, this p h]), fun _ _ => rfl, fun R => rfl⟩⟩
    | some pr =>
      obtain ⟨i, rest⟩ := pr
      dsimp only
      obtain ⟨pre, e, hpre, hne⟩ := first_some hfst
      have hnn := hn
      rw [e, List.nodup_append, List.nodup_cons] at hnn
      obtain ⟨hpn, ⟨hir, hrn⟩, hdis⟩ := hnn
      have hif : i ∈ free := by rw [e]; simp
      have hil := hlt i hif
      have hrest0 : 0 ∉ rest := by
        intro hz
        have hz' := h0 (by rw [e]; simp [hz])
        cases pre with
        | nil =>
          rw [e] at hz'
          simp only [List.nil_append, List.head?_cons, Option.some.injEq] at hz'
          rw [hz'] at hir
          exact hir hz
        | cons x pre =>
          rw [e] at hz'
          simp only [List.cons_append, List.head?_cons, Option.some.injEq] at hz'
          exact hdis x (List.mem_cons_self ..) 0 (List.mem_cons_of_mem _ hz) hz'
      -- the target of a place
      have tgt : ∀ p, p < st.length → ∃ q, q < st.length ∧ dst[q]? = st[p]? := by
        intro p hp
        obtain ⟨l1, l2, e', -, hq⟩ := onStack_of_mem (hmem st[p] (List.getElem_mem hp))
        refine ⟨l1.length, by rw [← hlen, e']; simp, ?_⟩
        rw [onStack_some hq, List.getElem?_eq_getElem hp]
      -- a fixed place is the target of itself only
      have hfix : ∀ p q, p < st.length → q < st.length → q ∈ pre → dst[q]? = st[p]? → p = q := by
        intro p q hp hq hqp h
        rw [← hpre q hqp] at h
        exact (sinj q p hq h).symm
      have htr : ∀ p q, p < st.length → q < st.length → p ∈ i :: rest → dst[q]? = st[p]? → q ∈ i :: rest := by
        intro p q hp hq hpm h
        have hqf := (hcl p q hp hq h).mp (by rw [e]; exact List.mem_append_right _ hpm)
        rw [e] at hqf
        rcases List.mem_append.mp hqf with hqf | hqf
        · have := hfix p q hp hq hqf h
          subst this
          exact absurd rfl (hdis p hqf p hpm)
        · exact hqf
      obtain ⟨d, hdl, hd⟩ := tgt i hil
      have hdr : d ∈ rest := by
        rcases List.mem_cons.mp (htr i d hil hdl (List.mem_cons_self ..) hd) with h | h
        · rw [h] at hd
          exact absurd hd.symm hne
        · exact h
      rw [if_neg (by
        intro hE
        rw [List.isEmpty_iff] at hE
        rw [hE] at hdr
        cases hdr)]
      have hrl : ∀ x ∈ rest, x < st.length := fun x hx => hlt x (by rw [e]; simp [hx])
      obtain ⟨c, free', f1, f2, f3, f4, f5, f6, f7, f8⟩ := follow_ok hmem hlen rest.length i rest (Nat.le_refl _) hrn hrl hil
      rw [f1]
      dsimp only
      have hicn : (i :: c).Nodup := List.nodup_cons.mpr ⟨fun h => hir (f5 i h), f3⟩
      have hic : ∀ x ∈ i :: c, x < st.length := by
        intro x hx
        rcases List.mem_cons.mp hx with rfl | hx
        · exact hil
        · exact hrl x (f5 x hx)
      have hicr : ∀ x ∈ i :: c, x ∈ i :: rest := by
        intro x hx
        rcases List.mem_cons.mp hx with rfl | hx
        · exact List.mem_cons_self ..
        · exact List.mem_cons_of_mem _ (f5 x hx)
      have hlm := List.getLast_mem (l := i :: c) (by simp)
      -- it closes
      have hclose : dst[i]? = st[(i :: c).getLast (by simp)]? := by
        obtain ⟨q, hql, hq⟩ := tgt _ (hic _ hlm)
        have h1 := htr _ q (hic _ hlm) hql (hicr _ hlm) hq
        have h2 := f8 q hq hql hdn
        rcases List.mem_cons.mp h1 with rfl | h1
        · exact hq
        · have hqc : q ∈ c := by
            refine Classical.byContradiction fun hqc => h2 ((f6 q).mpr ⟨h1, hqc⟩)
          obtain ⟨y, hy, hy1, hy2⟩ := Chain.pred f2 hicn hqc
          exact absurd (sinj y _ (hic y hy) (by rw [← hy1, hq])) hy2
      have hcne : d ∈ c := by
        refine Classical.byContradiction fun hdc => ?_
        have h1 : d ∈ free' := (f6 d).mpr ⟨hdr, hdc⟩
        cases c with
        | nil => exact f8 d (by simpa using hd) hdl hdn h1
        | cons k ks =>
          have : dst[d]? = dst[k]? := by rw [hd]; exact f2.1.symm
          have := dinj d k hdl this
          exact hdc (by rw [this]; simp)
      -- closed under targets
      have hcl' : ∀ p q, p < st.length → q < st.length → dst[q]? = st[p]? → (p ∈ i :: c ↔ q ∈ i :: c) := by
        intro p q hp hq h
        constructor
        · intro hpc
          by_cases hL : p = (i :: c).getLast (by simp)
          · have : dst[q]? = dst[i]? := by rw [h, hclose, ← hL]
            rw [dinj q i hq this]
            exact List.mem_cons_self ..
          · obtain ⟨y, hy, h1⟩ := Chain.next f2 hpc hL
            rw [dinj q y hq (by rw [h, h1])]
            exact List.mem_cons_of_mem _ hy
        · intro hqc
          rcases List.mem_cons.mp hqc with rfl | hqc
          · exact (sinj p _ hp (h.symm.trans hclose)) ▸ hlm
          · obtain ⟨y, hy, h1, -⟩ := Chain.pred f2 hicn hqc
            rw [sinj p y hp (by rw [← h, h1])]
            exact hy
      have hfl : rest.length + 1 ≤ free.length := by rw [e]; simp
      have hcl1 : 1 ≤ c.length := List.length_pos_of_mem hcne
      have hfree' : ∀ x, x ∈ free' ↔ x ∈ rest ∧ x ∉ c := f6
      obtain ⟨cs, g1, g2, g3, g4⟩ := ih free' (by omega) f4 (fun x hx => hrl x ((f6 x).mp hx).1)
        (by
          intro p q hp hq h
          have h1 := hcl p q hp hq h
          have h2 := hcl' p q hp hq h
          have hx : ∀ x, x ∈ free' ↔ x ∈ i :: rest ∧ x ∉ i :: c := by
            intro x
            rw [f6, List.mem_cons, List.mem_cons, not_or]
            constructor
            · rintro ⟨ha, hb⟩
              exact ⟨.inr ha, by rintro rfl; exact hir ha, hb⟩
            · rintro ⟨ha | ha, hb, hc⟩
              · exact absurd ha hb
              · exact ⟨ha, hc⟩
          have h3 : p ∈ i :: rest ↔ q ∈ i :: rest := by
            constructor
            · intro hpm; exact htr p q hp hq hpm h
            · intro hqm
              have hpf := h1.mpr (by rw [e]; exact List.mem_append_right _ hqm)
              rw [e] at hpf
              rcases List.mem_append.mp hpf with hpf | hpf
              · have : p = q := dinj p q hp (by rw [← hpre p hpf, h])
                rw [this]; exact hqm
              · exact hpf
          rw [hx, hx, h2, h3])
        (fun hz => absurd ((f6 0).mp hz).1 hrest0)
      refine ⟨(i :: c) :: cs, by rw [g1]; rfl, by simp only [List.length_cons]; omega, ?_, ?_⟩
      · intro x hx
        rcases List.mem_cons.mp hx with rfl | hx
        · simp only [List.length_cons]; omega
        · have := g3 x hx; omega
      · intro L hL hLp
        have hLic : ∀ x ∈ i :: c, L[x]? = st[x]? := fun x hx => hLp x (by rw [e]; exact List.mem_append_right _ (hicr x hx))
        obtain ⟨code1, L1, a1, a2, a3, a4, a5⟩ := cycle_ok (sem := sem) (dst := dst) (L := L) hicn
          (fun k hk => by rw [hL]; exact hic k hk) (Chain.congr f2 hLic)
          (by rw [hLic _ hlm]; exact hclose)
          (by
            intro hz
            rcases List.mem_cons.mp hz with h | h
            · exact h.symm
            · exact absurd (f5 0 h) hrest0)
        obtain ⟨code2, L2, b1, b2, b3, b4, b5⟩ := g4 L1 (by rw [a2, hL]) (by
          intro p hp
          have hp' := (f6 p).mp hp
          rw [a4 p (by
            rw [List.mem_cons, not_or]
            exact ⟨by rintro rfl; exact hir hp'.1, hp'.2⟩)]
          exact hLp p (by rw [e]; simp [hp'.1]))
        refine ⟨code1 ++ code2, L2, by rw [List.flatMap_cons]; exact exchanges_append a1 b1, by rw [b2, a2], ?_, ?_, fun R => ?_⟩
        · intro p hp
          by_cases hpf : p ∈ free'
          · exact b3 p hpf
          · rw [b4 p hpf]
            by_cases hpc : p ∈ i :: c
            · exact a3 p hpc
            · rw [a4 p hpc, hLp p hp]
              rw [e] at hp
              rcases List.mem_append.mp hp with hp | hp
              · exact hpre p hp
              · exfalso
                rcases List.mem_cons.mp hp with h | h
                · exact hpc (by rw [h]; exact List.mem_cons_self ..)
                · exact hpf ((f6 p).mpr ⟨h, fun h' => hpc (List.mem_cons_of_mem _ h')⟩)
        · intro p hp
          have h1 : p ∉ i :: rest := fun h => hp (by rw [e]; exact List.mem_append_right _ h)
          rw [b4 p (fun h => h1 (List.mem_cons_of_mem _ ((f6 p).mp h).1)), a4 p (fun h => h1 (hicr p h))]
        · have := exec_append (a5 R) (b5 R)
          simpa using this

theorem shuffle_ok {st dst : St} (hsn : st.Nodup) (hdn : dst.Nodup) (hmem : ∀ r, r ∈ st ↔ r ∈ dst) :
    ∃ c, shuffle st dst = some (c, dst) ∧ ∀ R : Nat → V, exec sem (st.map R) c = some ([], dst.map R) := by
  have hlen : dst.length = st.length :=
    Nat.le_antisymm (Verif.Model.Perm.length_le_of_subset hdn fun x hx => (hmem x).mpr hx)
      (Verif.Model.Perm.length_le_of_subset hsn fun x hx => (hmem x).mp hx)
  obtain ⟨cs, h1, -, -, h2⟩ := cycles_ok (sem := sem) hsn hdn (fun r h => (hmem r).mp h) hlen (st.length + 1) (List.range st.length)
    (by simp) List.nodup_range (fun x hx => by simpa using hx) (by intro p q hp hq _; simp [hp, hq])
    (by
      intro hz
      have hz : 0 < st.length := by simpa using hz
      obtain ⟨n, hn⟩ : ∃ n, st.length = n + 1 := ⟨st.length - 1, by omega⟩
      rw [hn, List.range_succ_eq_map]
      rfl)
  obtain ⟨code, L', e1, e2, e3, -, e5⟩ := h2 st rfl (fun _ _ => rfl)
  have : L' = dst := by
    apply List.ext_getElem?
    intro p
    by_cases hp : p < st.length
    · exact e3 p (by simpa using hp)
    · rw [List.getElem?_eq_none (by omega), List.getElem?_eq_none (by omega)]
  subst this
  refine ⟨code, ?_, e5⟩
  unfold shuffle
  rw [if_neg (by omega), h1]
  exact e1

theorem cycles_bound {st dst : St} (hsn : st.Nodup) (hdn : dst.Nodup) (hmem : ∀ r, r ∈ st ↔ r ∈ dst) :
    ∃ cs, findCycles st dst (st.length + 1) (List.range st.length) = some cs ∧ 2 * cs.length ≤ st.length ∧
      ∀ c ∈ cs, c.length ≤ st.length := by
  have hlen : dst.length = st.length :=
    Nat.le_antisymm (Verif.Model.Perm.length_le_of_subset hdn fun x hx => (hmem x).mpr hx)
      (Verif.Model.Perm.length_le_of_subset hsn fun x hx => (hmem x).mp hx)
  obtain ⟨cs, h1, h2, h3, -⟩ := cycles_ok (sem := (⟨fun _ => (), fun _ _ => (), fun _ _ _ => ()⟩ : Sem Unit)) hsn hdn
    (fun r h => (hmem r).mp h) hlen (st.length + 1) (List.range st.length)
    (by simp) List.nodup_range (fun x hx => by simpa using hx) (by intro p q hp hq _; simp [hp, hq])
    (by
      intro hz
      have hz : 0 < st.length := by simpa using hz
      obtain ⟨n, hn⟩ : ∃ n, st.length = n + 1 := ⟨st.length - 1, by omega⟩
      rw [hn, List.range_succ_eq_map]
      rfl)
  exact ⟨cs, h1, by simpa using h2, fun c hc => by simpa using h3 c hc⟩

end Verif.Lemmas.X87
