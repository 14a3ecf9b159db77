import Verif.Lemmas.HashSet
import Verif.Props.LSet
/-!
# C35, C36: the open addressing hash table implements a finite set / map
-/
namespace Verif.Props
open Verif.Model

/-- C36: the probe sequence visits every bucket, whatever the hash, and it does
so within `num_buckets` probes. -/
theorem probing_visits_all (k h b : Nat) (hb : b < 2 ^ k) : ∃ i < 2 ^ k, hsProbe (2 ^ k) h i = b :=
  probe_surj hb

/-- C36: no bucket is visited twice within `num_buckets` probes -/
theorem probing_no_repeat (k h i j : Nat) (hi : i < 2 ^ k) (hj : j < 2 ^ k) (e : hsProbe (2 ^ k) h i = hsProbe (2 ^ k) h j) : i = j :=
  probe_inj hi hj e

/-- C36: the power of two matters: with 6 buckets, bucket 5 is never visited from bucket 0. -/
theorem probing_needs_pow2 : ∀ i, tri i % 6 ≠ 5 := by
  intro i h
  have h2 := two_tri i
  have hm : (i * (i + 1)) % 3 = 1 := by omega
  have : i % 3 = 0 ∨ i % 3 = 1 ∨ i % 3 = 2 := by omega
  rw [Nat.mul_mod, Nat.add_mod] at hm
  rcases this with h | h | h <;> rw [h] at hm <;> simp at hm

example : (List.range 8).map (hsProbe 8 13) = [5, 6, 0, 3, 7, 4, 2, 1] := by decide

section
variable {K D : Type} {hash : K → Nat} {keq : K → K → Bool}

/-- operations on a table with data attached to keys -/
inductive HOp (K D : Type)
  | insert (k : K) (upd : Option D → D)
  | find (k : K)
  | remove (k : K)

/-- Independent specification: a finite map as a collection of (key, data). -/
inductive HSpec (keq : K → K → Bool) : List (K × D) → HOp K D → List (K × D) → Option (K × D) → Prop
  /-- insertion of a key present: the entry keeps its key, its data is updated -/
  | insertOld {S R k k' d upd} : S.Perm ((k', d) :: R) → keq k' k = true →
      HSpec keq S (.insert k upd) ((k', upd (some d)) :: R) (some (k', d))
  | insertNew {S k upd} : (∀ x ∈ S, keq x.1 k = false) → HSpec keq S (.insert k upd) ((k, upd none) :: S) none
  | findYes {S k k' d} : (k', d) ∈ S → keq k' k = true → HSpec keq S (.find k) S (some (k', d))
  | findNo {S k} : (∀ x ∈ S, keq x.1 k = false) → HSpec keq S (.find k) S none
  | removeYes {S R k k' d} : S.Perm ((k', d) :: R) → keq k' k = true → HSpec keq S (.remove k) R none
  | removeNo {S k} : (∀ x ∈ S, keq x.1 k = false) → HSpec keq S (.remove k) S none

/-- no key occurs twice -/
def KeysDistinct (keq : K → K → Bool) (S : List (K × D)) : Prop := S.Pairwise fun x y => keq x.1 y.1 = false

/-- Entries represent the collection `S`. -/
structure HCore (hash : K → Nat) (keq : K → K → Bool) (es : List (HEntry K D)) (S : List (K × D)) : Prop where
  pow : ∃ k, es.length = 2 ^ k
  live : (hsLive es).Perm S
  distinct : KeysDistinct keq S
  reach : ∀ (p : Nat) (k : K) (d : D), es[p]? = some (.full k d) →
    ∃ t < es.length, hsProbe es.length (hash k) t = p ∧ ∀ j < t, es[hsProbe es.length (hash k) j]? ≠ some .empty

theorem distinct_perm (H : HashEq hash keq) {S S' : List (K × D)} (h : S.Perm S') (hd : KeysDistinct keq S) : KeysDistinct keq S' := by
  refine (h.pairwise_iff ?_).1 hd
  intro x y hxy
  by_contra hn
  rw [Bool.not_eq_false] at hn
  rw [H.symm hn] at hxy
  cases hxy

theorem mem_live {es : List (HEntry K D)} {k : K} {d : D} : (k, d) ∈ hsLive es ↔ ∃ p : Nat, es[p]? = some (.full k d) := by
  unfold hsLive
  rw [List.mem_filterMap]
  constructor
  · rintro ⟨e, he, hv⟩
    obtain ⟨p, hp⟩ := List.getElem?_of_mem he
    cases e with
    | full k' d' => cases hv; exact ⟨p, hp⟩
    | empty => cases hv
    | deleted => cases hv
  · rintro ⟨p, hp⟩
    exact ⟨_, List.mem_of_getElem? hp, rfl⟩

theorem match_iff (H : HashEq hash keq) {key : K} {e : HEntry K D} : hsMatch hash keq key e = true ↔ ∃ k d, e = .full k d ∧ keq k key = true := by
  cases e with
  | empty => simp [hsMatch]
  | deleted => simp [hsMatch]
  | full k d =>
    simp only [hsMatch, Bool.and_eq_true, beq_iff_eq]
    constructor
    · rintro ⟨_, h⟩; exact ⟨k, d, rfl, h⟩
    · rintro ⟨k', d', h, hk⟩; cases h; exact ⟨H.hash hk, hk⟩

/-- no match before the first empty entry means that the key is absent -/
theorem absent_of_no_match (H : HashEq hash keq) {es : List (HEntry K D)} {S : List (K × D)} (hc : HCore hash keq es S) {key : K} {m : Nat}
    (hm : FirstEmpty es (hash key) m)
    (hno : ∀ j e, 0 ≤ j → j < m → es[hsProbe es.length (hash key) j]? = some e → hsMatch hash keq key e = false) :
    ∀ x ∈ S, keq x.1 key = false := by
  rintro ⟨k, d⟩ hx
  by_contra hk
  rw [Bool.not_eq_false] at hk
  obtain ⟨p, hp⟩ := mem_live.1 (hc.live.mem_iff.2 hx)
  obtain ⟨t, ht, htp, hbef⟩ := hc.reach p k d hp
  have hh : hash k = hash key := H.hash hk
  rw [hh] at htp hbef
  have htm : t < m := by
    by_contra hge
    by_cases he : t = m
    · subst he; rw [← htp, hm.empty] at hp; cases hp
    · exact hbef m (by omega) hm.empty
  have := hno t _ (Nat.zero_le _) htm (by rw [htp]; exact hp)
  rw [(match_iff H).2 ⟨k, d, rfl, hk⟩] at this
  cases this

theorem getElem?_set_cases {α : Type} {l : List α} {p q : Nat} {x y : α} (h : (l.set p x)[q]? = some y) :
    (q = p ∧ y = x) ∨ (q ≠ p ∧ l[q]? = some y) := by
  rw [List.getElem?_set] at h
  split at h
  · next hpq =>
    split at h
    · cases h; exact Or.inl ⟨hpq.symm, rfl⟩
    · cases h
  · next hpq => exact Or.inr ⟨fun h => hpq h.symm, h⟩

/-- overwriting an entry by a non-empty one keeps all other entries reachable -/
theorem nonempty_set {es : List (HEntry K D)} {p q : Nat} {e : HEntry K D} (he : e ≠ .empty) (h : es[q]? ≠ some .empty) :
    (es.set p e)[q]? ≠ some .empty := by
  intro hq
  rcases getElem?_set_cases hq with ⟨_, rfl⟩ | ⟨_, h'⟩
  · exact he rfl
  · exact h h'

theorem core_put (H : HashEq hash keq) {es : List (HEntry K D)} {S : List (K × D)} (hc : HCore hash keq es S) {key : K} {d : D} {t : Nat}
    (ht : t < es.length) (hbef : ∀ j < t, es[hsProbe es.length (hash key) j]? ≠ some .empty)
    (hfree : es[hsProbe es.length (hash key) t]? = some .empty ∨ es[hsProbe es.length (hash key) t]? = some .deleted)
    (habs : ∀ x ∈ S, keq x.1 key = false) : HCore hash keq (es.set (hsProbe es.length (hash key) t) (.full key d)) ((key, d) :: S) := by
  refine ⟨by rw [List.length_set]; exact hc.pow, ?_, ?_, ?_⟩
  · rcases hfree with h | h
    · exact (live_set (e' := .full key d) h).trans (List.Perm.cons _ hc.live)
    · exact (live_set (e' := .full key d) h).trans (List.Perm.cons _ hc.live)
  · refine List.pairwise_cons.2 ⟨?_, hc.distinct⟩
    intro x hx
    by_contra hn
    rw [Bool.not_eq_false] at hn
    have := habs x hx
    rw [H.symm hn] at this
    cases this
  · intro p k d' hp
    rw [List.length_set]
    rcases getElem?_set_cases hp with ⟨rfl, he⟩ | ⟨_, hp⟩
    · cases he
      exact ⟨t, ht, rfl, fun j hj => nonempty_set (by simp) (hbef j hj)⟩
    · obtain ⟨t', ht', e, hb⟩ := hc.reach p k d' hp
      exact ⟨t', ht', e, fun j hj => nonempty_set (by simp) (hb j hj)⟩

theorem core_update (H : HashEq hash keq) {es : List (HEntry K D)} {S : List (K × D)} (hc : HCore hash keq es S) {k : K} {d d' : D} {p : Nat}
    (hp : es[p]? = some (.full k d)) :
    ∃ R, S.Perm ((k, d) :: R) ∧ HCore hash keq (es.set p (.full k d')) ((k, d') :: R) := by
  classical
  have hmem : (k, d) ∈ S := hc.live.mem_iff.1 (mem_live.2 ⟨p, hp⟩)
  refine ⟨S.erase (k, d), List.perm_cons_erase hmem, by rw [List.length_set]; exact hc.pow, ?_, ?_, ?_⟩
  · have h1 := live_set (e' := .full k d') hp
    have h2 : ((k, d) :: hsLive (es.set p (.full k d'))).Perm ((k, d') :: (k, d) :: S.erase (k, d)) :=
      h1.trans ((hc.live.trans (List.perm_cons_erase hmem)).cons _)
    exact (h2.trans (List.Perm.swap _ _ _)).cons_inv
  · have := distinct_perm H (List.perm_cons_erase hmem) hc.distinct
    exact List.pairwise_cons.2 (List.pairwise_cons.1 this)
  · intro q k' d'' hq
    rw [List.length_set]
    have : ∃ d0, es[q]? = some (.full k' d0) := by
      rcases getElem?_set_cases hq with ⟨rfl, he⟩ | ⟨_, hq⟩
      · cases he; exact ⟨d, hp⟩
      · exact ⟨d'', hq⟩
    obtain ⟨d0, hq⟩ := this
    obtain ⟨t', ht', e, hb⟩ := hc.reach q k' d0 hq
    exact ⟨t', ht', e, fun j hj => nonempty_set (by simp) (hb j hj)⟩

theorem core_delete (H : HashEq hash keq) {es : List (HEntry K D)} {S : List (K × D)} (hc : HCore hash keq es S) {k : K} {d : D} {p : Nat}
    (hp : es[p]? = some (.full k d)) :
    ∃ R, S.Perm ((k, d) :: R) ∧ HCore hash keq (es.set p .deleted) R := by
  classical
  have hmem : (k, d) ∈ S := hc.live.mem_iff.1 (mem_live.2 ⟨p, hp⟩)
  refine ⟨S.erase (k, d), List.perm_cons_erase hmem, by rw [List.length_set]; exact hc.pow, ?_, ?_, ?_⟩
  · have h1 : ((k, d) :: hsLive (es.set p .deleted)).Perm (hsLive es) := live_set (e' := .deleted) hp
    exact (h1.trans (hc.live.trans (List.perm_cons_erase hmem))).cons_inv
  · exact (List.pairwise_cons.1 (distinct_perm H (List.perm_cons_erase hmem) hc.distinct)).2
  · intro q k' d'' hq
    rw [List.length_set]
    rcases getElem?_set_cases hq with ⟨rfl, he⟩ | ⟨_, hq⟩
    · cases he
    · obtain ⟨t', ht', e, hb⟩ := hc.reach q k' d'' hq
      exact ⟨t', ht', e, fun j hj => nonempty_set (by simp) (hb j hj)⟩

theorem core_empty (hash : K → Nat) (keq : K → K → Bool) (k : Nat) : HCore hash keq (List.replicate (2 ^ k) (.empty : HEntry K D)) [] := by
  refine ⟨⟨k, by simp⟩, ?_, List.Pairwise.nil, ?_⟩
  · unfold hsLive
    have : List.filterMap HEntry.value (List.replicate (2 ^ k) (.empty : HEntry K D)) = [] := by
      rw [List.filterMap_eq_nil_iff]
      intro x hx
      rw [(List.mem_replicate.1 hx).2]; rfl
    rw [this]
  · intro p k' d hp
    have := (List.mem_replicate.1 (List.mem_of_getElem? hp)).2
    cases this

theorem tombs_zero {es : List (HEntry K D)} : hsTombs es = 0 ↔ .deleted ∉ es := by
  unfold hsTombs
  rw [List.countP_eq_zero]
  constructor
  · intro h hm; exact absurd rfl (h _ hm)
  · intro h e he hd
    cases e with
    | deleted => exact h he
    | empty => cases hd
    | full k d => cases hd

/-- reinsertion of old entries into a fresh table -/
theorem reinsert_spec (H : HashEq hash keq) : ∀ (old es : List (HEntry K D)) (S : List (K × D)) (n : Nat),
    HCore hash keq es S → hsTombs es = 0 → KeysDistinct keq (hsLive old ++ S) → (hsLive old ++ S).length ≤ es.length →
    ∃ es', hsReinsert hash old es n = some (es', n + (hsLive old).length) ∧ es'.length = es.length ∧ hsTombs es' = 0 ∧
      ∃ S', S'.Perm (hsLive old ++ S) ∧ HCore hash keq es' S' := by
  intro old
  induction old with
  | nil => intro es S n hc ht _ _; exact ⟨es, rfl, rfl, ht, S, List.Perm.refl _, hc⟩
  | cons e old ih =>
    intro es S n hc ht hd hl
    cases e with
    | empty => exact ih es S n hc ht hd hl
    | deleted => exact ih es S n hc ht hd hl
    | full k d =>
      rw [hsReinsert]
      have hlive : hsLive (HEntry.full k d :: old) = (k, d) :: hsLive old := rfl
      rw [hlive] at hd hl ⊢
      have hperm : ((k, d) :: hsLive old ++ S).Perm (hsLive old ++ ((k, d) :: S)) := List.perm_middle.symm
      obtain ⟨p, hp⟩ := exists_empty (es := es) (by
        rw [hc.live.length_eq, ht]
        simp only [List.length_append, List.length_cons] at hl
        omega)
      obtain ⟨m, hm⟩ := exists_firstEmpty hc.pow (hash k) hp
      have hloop := newLoop_spec hc.pow (tombs_zero.1 ht) hm es.length 0 (Nat.zero_le _) (by omega)
      have habs : ∀ x ∈ S, keq x.1 k = false := by
        intro x hx
        by_contra hn
        rw [Bool.not_eq_false] at hn
        have := (List.pairwise_cons.1 hd).1 x (List.mem_append_right _ hx)
        rw [H.symm hn] at this
        cases this
      have hc' := core_put H (d := d) hc hm.lt hm.before (Or.inl hm.empty) habs
      have ht' : hsTombs (es.set (hsProbe es.length (hash k) m) (.full k d)) = 0 := by
        have := tombs_set (e' := .full k d) hm.empty
        simp [hsIsDeleted, ht] at this; exact this
      obtain ⟨es', h1, h2, h3, S', h4, h5⟩ := ih _ ((k, d) :: S) (n + 1) hc' ht' (distinct_perm H hperm hd)
        (by rw [← hperm.length_eq, List.length_set]; exact hl)
      refine ⟨es', ?_, by rw [h2, List.length_set], h3, S', h4.trans hperm.symm, h5⟩
      have hins : hsInsertNew hash es k d = some (es.set (hsProbe es.length (hash k) m) (.full k d)) := by
        unfold hsInsertNew
        have : hash k &&& (es.length - 1) = hsProbe es.length (hash k) 0 := rfl
        rw [this, hloop]; rfl
      rw [hins]
      show hsReinsert hash old _ (n + 1) = _
      rw [h1, List.length_cons]
      congr 2
      omega

/-- The table represents the collection `S`, without a bound on the load. -/
structure HWeak (hash : K → Nat) (keq : K → K → Bool) (T : HSet K D) (S : List (K × D)) : Prop where
  core : HCore hash keq T.entries S
  min : 4 ≤ T.entries.length
  max : T.entries.length ≤ 2 ^ 34
  count : T.numElements = S.length + T.numDeleted
  tombs : hsTombs T.entries ≤ T.numDeleted
  enlarge : T.enlarge = T.entries.length / 2
  fits : S.length ≤ T.entries.length

/-- The table represents the collection `S`. -/
structure HRep (hash : K → Nat) (keq : K → K → Bool) (T : HSet K D) (S : List (K × D)) : Prop extends HWeak hash keq T S where
  fill : T.numElements ≤ T.entries.length / 2 + 1

theorem HRep.exists_empty {T : HSet K D} {S : List (K × D)} (h : HRep hash keq T S) : ∃ p : Nat, T.entries[p]? = some .empty := by
  apply Verif.Props.exists_empty
  rw [h.core.live.length_eq]
  have h1 := h.count
  have h2 := h.tombs
  have h3 := h.fill
  have h4 := h.min
  by_contra hn
  have h5 : T.entries.length ≤ T.entries.length / 2 + 1 := by omega
  omega

theorem resize_spec (H : HashEq hash keq) {T : HSet K D} {S : List (K × D)} (h : HWeak hash keq T S) {k : Nat} (hk : S.length ≤ 2 ^ k)
    (h4 : 4 ≤ 2 ^ k) (h34 : 2 ^ k ≤ 2 ^ 34) :
    ∃ T' S', T.resize hash (2 ^ k) = some T' ∧ S'.Perm S ∧ HWeak hash keq T' S' ∧ T'.entries.length = 2 ^ k ∧ T'.numElements = S.length := by
  have hlen : (hsLive T.entries ++ []).Perm S := by rw [List.append_nil]; exact h.core.live
  obtain ⟨es', h1, h2, h3, S', hS', hc'⟩ := reinsert_spec H T.entries (List.replicate (2 ^ k) .empty) [] 0 (core_empty hash keq k)
    (tombs_zero.2 (fun hm => by cases (List.mem_replicate.1 hm).2)) (distinct_perm H hlen.symm h.core.distinct)
    (by rw [hlen.length_eq, List.length_replicate]; omega)
  have hl : (hsLive T.entries).length = S.length := h.core.live.length_eq
  rw [List.length_replicate] at h2
  refine ⟨{ entries := es', numElements := 0 + (hsLive T.entries).length, numDeleted := 0, enlarge := 2 ^ k / 2, shrink := 2 ^ k / 5, considerShrink := false },
    S', ?_, hS'.trans hlen, ?_, h2, by simp [hl]⟩
  · unfold HSet.resize; rw [h1]; rfl
  · refine ⟨hc', ?_, ?_, ?_, ?_, ?_, ?_⟩
    · simp only [h2]; exact h4
    · simp only [h2]; exact h34
    · simp only [(hS'.trans hlen).length_eq, hl]; omega
    · simp only [h3]; exact le_refl _
    · simp only [h2]
    · simp only [h2, (hS'.trans hlen).length_eq]; exact hk

theorem maybeShrink_spec (H : HashEq hash keq) {T : HSet K D} {S : List (K × D)} (h : HWeak hash keq T S) (hs : S.length < 2 ^ 31) :
    ∃ T' S', T.maybeShrink hash = some T' ∧ S'.Perm S ∧ HWeak hash keq T' S' := by
  unfold HSet.maybeShrink
  have hsize : T.size = S.length := by unfold HSet.size; rw [h.count]; omega
  have hT' : HWeak hash keq { T with considerShrink := false } S := ⟨h.core, h.min, h.max, h.count, h.tombs, h.enlarge, h.fits⟩
  cases hcs : T.considerShrink with
  | false => exact ⟨T, S, rfl, List.Perm.refl _, h⟩
  | true =>
    simp only [Bool.not_true, Bool.false_eq_true, if_false]
    have hsize' : HSet.size { T with considerShrink := false } = S.length := hsize
    rw [hsize']
    by_cases h32 : S.length ≤ 32
    · rw [if_pos h32]; exact ⟨_, S, rfl, List.Perm.refl _, hT'⟩
    · rw [if_neg h32]
      by_cases hsh : S.length > T.shrink
      · rw [if_pos hsh]; exact ⟨_, S, rfl, List.Perm.refl _, hT'⟩
      · rw [if_neg hsh, Nat.mod_eq_of_lt (by omega : S.length < 2 ^ 32)]
        have hc := ceil_po2_gnu (x := S.length)
        rw [if_pos hs] at hc
        obtain ⟨r, hr, hc⟩ := hc
        rcases hc with ⟨h0, _⟩ | ⟨_, k, rfl, hk, hmin⟩
        · omega
        · rw [hr]
          have hk31 := hmin 31 (by omega)
          have hle : 2 ^ k ≤ 2 ^ 31 := Nat.pow_le_pow_right (by decide) hk31
          obtain ⟨T', S', e1, e2, e3, _⟩ := resize_spec H hT' hk (by omega) (by omega)
          exact ⟨T', S', by rw [← e1]; show HSet.resize hash _ _ = _; rw [if_neg (by omega)], e2, e3⟩

theorem maybeGrow_spec (H : HashEq hash keq) {T : HSet K D} {S : List (K × D)} (h : HWeak hash keq T S) (hs : S.length < 2 ^ 31) :
    ∃ T' S', T.maybeGrow hash = some T' ∧ S'.Perm S ∧ HWeak hash keq T' S' ∧ T'.numElements ≤ T'.entries.length / 2 := by
  unfold HSet.maybeGrow
  have he := h.enlarge
  have hmin := h.min
  have hmax := h.max
  by_cases h1 : T.numElements + 1 ≤ T.enlarge
  · rw [if_pos h1]; exact ⟨T, S, rfl, List.Perm.refl _, h, by omega⟩
  · rw [if_neg h1]
    have hcount : T.numElements - T.numDeleted = S.length := by rw [h.count]; omega
    rw [hcount]
    obtain ⟨k, hk⟩ := h.core.pow
    have hfits := h.fits
    by_cases h2 : S.length + 2 > T.enlarge
    · rw [if_pos h2]
      have hmod : T.entries.length * 2 % 2 ^ 64 = 2 ^ (k + 1) := by
        rw [Nat.mod_eq_of_lt (by omega), hk, Nat.pow_succ]
      have hk1 : 2 ^ (k + 1) = 2 * T.entries.length := by rw [Nat.pow_succ, hk]; omega
      simp only [hmod]
      rw [if_neg (by omega)]
      obtain ⟨T', S', e1, e2, e3, e4, e5⟩ := resize_spec H h (k := k + 1) (by omega) (by omega) (by omega)
      exact ⟨T', S', e1, e2, e3, by omega⟩
    · rw [if_neg h2]
      obtain ⟨T', S', e1, e2, e3, e4, e5⟩ := resize_spec H h (k := k) (by omega) (by omega) (by omega)
      rw [hk]
      exact ⟨T', S', e1, e2, e3, by omega⟩

/-- C35, lookup: succeeds exactly for the keys present, and delivers the entry. -/
theorem hashset_find (H : HashEq hash keq) {T : HSet K D} {S : List (K × D)} (h : HRep hash keq T S) (key : K) :
    ∃ a, T.find hash keq key = some a ∧ HSpec keq S (.find key) S a := by
  obtain ⟨p, hp⟩ := h.exists_empty
  obtain ⟨m, hm⟩ := exists_firstEmpty h.core.pow (hash key) hp
  have h0 : hash key &&& (T.entries.length - 1) = hsProbe T.entries.length (hash key) 0 := rfl
  unfold HSet.find
  rw [h0]
  rcases findLoop_spec (keq := keq) h.core.pow hm T.entries.length 0 (Nat.zero_le _) (by omega) with ⟨j, e, _, hj, he, hmt, hl⟩ | ⟨hno, hl⟩
  · obtain ⟨k, d, rfl, hk⟩ := (match_iff H).1 hmt
    rw [hl]
    simp only [he]
    exact ⟨_, rfl, HSpec.findYes (h.core.live.mem_iff.1 (mem_live.2 ⟨_, he⟩)) hk⟩
  · rw [hl]
    exact ⟨_, rfl, HSpec.findNo (absent_of_no_match H h.core hm hno)⟩

/-- C35, removal -/
theorem hashset_remove (H : HashEq hash keq) {T : HSet K D} {S : List (K × D)} (h : HRep hash keq T S) (key : K) :
    ∃ T' S', T.remove hash keq key = some T' ∧ HSpec keq S (.remove key) S' none ∧ HRep hash keq T' S' := by
  obtain ⟨p, hp⟩ := h.exists_empty
  obtain ⟨m, hm⟩ := exists_firstEmpty h.core.pow (hash key) hp
  have h0 : hash key &&& (T.entries.length - 1) = hsProbe T.entries.length (hash key) 0 := rfl
  unfold HSet.remove
  rw [h0]
  rcases findLoop_spec (keq := keq) h.core.pow hm T.entries.length 0 (Nat.zero_le _) (by omega) with ⟨j, e, _, hj, he, hmt, hl⟩ | ⟨hno, hl⟩
  · obtain ⟨k, d, rfl, hk⟩ := (match_iff H).1 hmt
    rw [hl]
    obtain ⟨R, hR, hc⟩ := core_delete H h.core he
    have hlen : S.length = R.length + 1 := hR.length_eq
    have hcount := h.count
    have htombs := h.tombs
    have ht := tombs_set (e' := .deleted) he
    simp only [hsIsDeleted, Bool.false_eq_true, if_false, if_true] at ht
    refine ⟨_, R, rfl, HSpec.removeYes hR hk, ⟨hc, ?_, ?_, ?_, ?_, ?_, ?_⟩, ?_⟩
    · simp only [List.length_set]; exact h.min
    · simp only [List.length_set]; exact h.max
    · simp only []; omega
    · simp only []; omega
    · simp only [List.length_set]; exact h.enlarge
    · simp only [List.length_set]; have := h.fits; omega
    · simp only [List.length_set]; exact h.fill
  · rw [hl]
    exact ⟨T, S, rfl, HSpec.removeNo (absent_of_no_match H h.core hm hno), h⟩

theorem spec_insert_perm (H : HashEq hash keq) {S S' S'' : List (K × D)} {k : K} {upd : Option D → D} {a : Option (K × D)} (hp : S'.Perm S)
    (h : HSpec keq S' (.insert k upd) S'' a) : ∃ S3, S''.Perm S3 ∧ HSpec keq S (.insert k upd) S3 a := by
  cases h with
  | insertOld h1 h2 => exact ⟨_, List.Perm.refl _, .insertOld (hp.symm.trans h1) h2⟩
  | insertNew h1 => exact ⟨_, hp.cons _, .insertNew (fun x hx => h1 x (hp.mem_iff.2 hx))⟩

theorem HCore.perm (H : HashEq hash keq) {es : List (HEntry K D)} {S S' : List (K × D)} (h : HCore hash keq es S) (hp : S.Perm S') :
    HCore hash keq es S' :=
  ⟨h.pow, h.live.trans hp, distinct_perm H hp h.distinct, h.reach⟩

theorem HRep.perm (H : HashEq hash keq) {T : HSet K D} {S S' : List (K × D)} (h : HRep hash keq T S) (hp : S.Perm S') : HRep hash keq T S' :=
  ⟨⟨h.core.perm H hp, h.min, h.max, by rw [h.count, hp.length_eq], h.tombs, h.enlarge, by rw [← hp.length_eq]; exact h.fits⟩, h.fill⟩

/-- C35, insertion: an equal key already present is reported (and kept), otherwise
the key is added; this terminates without running out of buckets, including
growing and shrinking. -/
theorem hashset_insert (H : HashEq hash keq) {T : HSet K D} {S : List (K × D)} (h : HRep hash keq T S) (hs : S.length < 2 ^ 31) (key : K)
    (upd : Option D → D) :
    ∃ T' S' a k' found, T.insert hash keq key upd = some (T', k', found) ∧ HSpec keq S (.insert key upd) S' a ∧ HRep hash keq T' S' ∧
      (match a with | some x => found = true ∧ k' = x.1 | none => found = false ∧ k' = key) := by
  obtain ⟨T1, S1, e1, p1, w1⟩ := maybeShrink_spec H h.toHWeak hs
  obtain ⟨T2, S2, e2, p2, w2, hfill⟩ := maybeGrow_spec H w1 (by rw [p1.length_eq]; exact hs)
  have h2 : HRep hash keq T2 S2 := ⟨w2, by omega⟩
  have hp : S2.Perm S := p2.trans p1
  obtain ⟨p, hpe⟩ := h2.exists_empty
  obtain ⟨m, hm⟩ := exists_firstEmpty h2.core.pow (hash key) hpe
  have h0 : hash key &&& (T2.entries.length - 1) = hsProbe T2.entries.length (hash key) 0 := rfl
  have hunf : T.insert hash keq key upd = (hsInsertLoop hash keq T2.entries key T2.entries.length 0 (hsProbe T2.entries.length (hash key) 0) none).bind
      fun x => if x.2 then
          match T2.entries[x.1]? with
          | some (.full k d) => some ({ T2 with entries := T2.entries.set x.1 (.full k (upd (some d))) }, k, true)
          | _ => none
        else
          some ({ T2 with entries := T2.entries.set x.1 (.full key (upd none)), numElements := T2.numElements + 1 }, key, false) := by
    unfold HSet.insert
    rw [e1]
    show ((T1.maybeGrow hash).bind _) = _
    rw [e2]; rfl
  rw [hunf]
  have hcount := h2.count
  have htombs := h2.tombs
  have hfit := h2.fits
  rcases insertLoop_spec (keq := keq) h2.core.pow hm T2.entries.length 0 none (Nat.zero_le _) (by omega) (by simp) with
    ⟨j, e, _, hj, he, hmt, hl⟩ | ⟨hno, t, htm, hl, hfree⟩
  · obtain ⟨k, d, rfl, hk⟩ := (match_iff H).1 hmt
    rw [hl]
    simp only [Option.bind_some, he, if_true]
    obtain ⟨R, hR, hc⟩ := core_update H (d' := upd (some d)) h2.core he
    have ht := tombs_set (e' := .full k (upd (some d))) he
    simp only [hsIsDeleted, Bool.false_eq_true, if_false] at ht
    have hlen : S2.length = R.length + 1 := hR.length_eq
    refine ⟨_, (k, upd (some d)) :: R, some (k, d), k, true, rfl, .insertOld (hp.symm.trans hR) hk, ⟨⟨hc, ?_, ?_, ?_, ?_, ?_, ?_⟩, ?_⟩, rfl, rfl⟩
    · simp only [List.length_set]; exact h2.min
    · simp only [List.length_set]; exact h2.max
    · simp only [List.length_cons]; omega
    · simp only []; omega
    · simp only [List.length_set]; exact h2.enlarge
    · simp only [List.length_set, List.length_cons]; omega
    · simp only [List.length_set]; exact h2.fill
  · rw [hl]
    simp only [Option.bind_some, Bool.false_eq_true, if_false]
    have habs := absent_of_no_match H h2.core hm hno
    have hc := core_put H (d := upd none) h2.core (by have := hm.lt; omega) (fun j hj => hm.before j (by omega)) hfree habs
    have hlen : S2.length = S.length := hp.length_eq
    have ht : hsTombs (T2.entries.set (hsProbe T2.entries.length (hash key) t) (.full key (upd none))) ≤ hsTombs T2.entries := by
      rcases hfree with hf | hf
      · have := tombs_set (e' := .full key (upd none)) hf
        simp only [hsIsDeleted, Bool.false_eq_true, if_false] at this; omega
      · have := tombs_set (e' := .full key (upd none)) hf
        simp only [hsIsDeleted, Bool.false_eq_true, if_false, if_true] at this; omega
    have hmin := h2.min
    have hr : HRep hash keq { T2 with entries := T2.entries.set (hsProbe T2.entries.length (hash key) t) (.full key (upd none)), numElements := T2.numElements + 1 }
        ((key, upd none) :: S2) := by
      refine ⟨⟨hc, ?_, ?_, ?_, ?_, ?_, ?_⟩, ?_⟩
      · simp only [List.length_set]; exact h2.min
      · simp only [List.length_set]; exact h2.max
      · simp only [List.length_cons]; omega
      · simp only []; omega
      · simp only [List.length_set]; exact h2.enlarge
      · simp only [List.length_set, List.length_cons]; omega
      · simp only [List.length_set]; omega
    exact ⟨_, (key, upd none) :: S, none, key, false, rfl, .insertNew (fun x hx => habs x (hp.mem_iff.2 hx)), hr.perm H (hp.cons _), rfl, rfl⟩

/-- one operation of the model; the answer of an insertion is only whether the key was found -/
def HSet.step (hash : K → Nat) (keq : K → K → Bool) (T : HSet K D) : HOp K D → Option (HSet K D × Bool × Option (K × D))
  | .insert k upd => (T.insert hash keq k upd).map fun r => (r.1, r.2.2, none)
  | .find k => (T.find hash keq k).map fun a => (T, a.isSome, a)
  | .remove k => (T.remove hash keq k).map fun T' => (T', false, none)

def HSet.run (hash : K → Nat) (keq : K → K → Bool) : HSet K D → List (HOp K D) → Option (HSet K D × List (Bool × Option (K × D)))
  | T, [] => some (T, [])
  | T, op :: ops => do
      let (T, a) ← HSet.step hash keq T op
      let (T, as) ← HSet.run hash keq T ops
      pure (T, a :: as)

/-- what an observer sees of the specified answer -/
def hObserve : HOp K D → Option (K × D) → Bool × Option (K × D)
  | .insert _ _, a => (a.isSome, none)
  | .find _, a => (a.isSome, a)
  | .remove _, _ => (false, none)

/-- runs of the specification -/
inductive HSpecRun (keq : K → K → Bool) : List (K × D) → List (HOp K D) → List (K × D) → List (Bool × Option (K × D)) → Prop
  | nil {S} : HSpecRun keq S [] S []
  | cons {S S1 S2 op ops a as} : HSpec keq S op S1 a → HSpecRun keq S1 ops S2 as →
      HSpecRun keq S (op :: ops) S2 (hObserve op a :: as)

theorem hashset_step_refines (H : HashEq hash keq) {T : HSet K D} {S : List (K × D)} (h : HRep hash keq T S) (hs : S.length < 2 ^ 31)
    (op : HOp K D) : ∃ T' S' a, HSet.step hash keq T op = some (T', hObserve op a) ∧ HSpec keq S op S' a ∧ HRep hash keq T' S' := by
  cases op with
  | insert k upd =>
    obtain ⟨T', S', a, k', f, e, sp, r, ha⟩ := hashset_insert H h hs k upd
    refine ⟨T', S', a, ?_, sp, r⟩
    rw [HSet.step, e]
    cases a with
    | none => simp [hObserve, ha.1]
    | some x => simp [hObserve, ha.1]
  | find k =>
    obtain ⟨a, e, sp⟩ := hashset_find H h k
    exact ⟨T, S, a, by rw [HSet.step, e]; rfl, sp, h⟩
  | remove k =>
    obtain ⟨T', S', e, sp, r⟩ := hashset_remove H h k
    exact ⟨T', S', none, by rw [HSet.step, e]; rfl, sp, r⟩

theorem spec_length {S S' : List (K × D)} {op : HOp K D} {a : Option (K × D)} (h : HSpec keq S op S' a) : S'.length ≤ S.length + 1 := by
  cases h with
  | insertOld h1 h2 => rw [List.length_cons, h1.length_eq, List.length_cons]; omega
  | removeYes h1 h2 => rw [h1.length_eq, List.length_cons]; omega
  | _ => simp

/-- C35: every sequence of operations on a represented table behaves like the
finite map; no operation fails. -/
theorem hashset_refines (H : HashEq hash keq) : ∀ (ops : List (HOp K D)) {T : HSet K D} {S : List (K × D)}, HRep hash keq T S →
    S.length + ops.length ≤ 2 ^ 31 →
    ∃ T' S' as, HSet.run hash keq T ops = some (T', as) ∧ HSpecRun keq S ops S' as ∧ HRep hash keq T' S' := by
  intro ops
  induction ops with
  | nil => intro T S h _; exact ⟨T, S, [], rfl, .nil, h⟩
  | cons op ops ih =>
    intro T S h hlen
    rw [List.length_cons] at hlen
    obtain ⟨T1, S1, a, e, sp, r⟩ := hashset_step_refines H h (by omega) op
    have := spec_length sp
    obtain ⟨T2, S2, as, e2, sp2, r2⟩ := ih r (by omega)
    refine ⟨T2, S2, hObserve op a :: as, ?_, .cons sp sp2, r2⟩
    unfold HSet.run
    rw [e]
    show (HSet.run hash keq T1 ops).bind _ = _
    rw [e2]; rfl

/-- tables made by `init_size` with a power of two are empty -/
theorem initSize_rep (hash : K → Nat) (keq : K → K → Bool) {k : Nat} (hk : k ≤ 34) : HRep hash keq (HSet.initSize (2 ^ k) : HSet K D) [] := by
  have key : ∀ j, j ≤ 34 → 4 ≤ 2 ^ j → HRep hash keq ({ entries := List.replicate (2 ^ j) .empty, numElements := 0, numDeleted := 0, enlarge := 2 ^ j / 2, shrink := 2 ^ j / 5, considerShrink := false } : HSet K D) [] := by
    intro j hj h4
    have : 2 ^ j ≤ 2 ^ 34 := Nat.pow_le_pow_right (by decide) hj
    refine ⟨⟨core_empty hash keq j, ?_, ?_, rfl, ?_, ?_, ?_⟩, ?_⟩
    · simp only [List.length_replicate]; exact h4
    · simp only [List.length_replicate]; exact this
    · exact le_of_eq (tombs_zero.2 (fun hm => by cases (List.mem_replicate.1 hm).2))
    · simp only [List.length_replicate]
    · simp
    · simp only [List.length_replicate]; omega
  unfold HSet.initSize
  by_cases h : 2 ^ k < 4
  · simp only [h, if_true]
    exact key 2 (by decide) (by decide)
  · simp only [h, if_false]
    exact key k hk (by omega)

/-- C35: a fresh table (`hashset_init`) behaves like the empty finite map under
every sequence of up to 2^31 operations, and iteration delivers exactly its
values, each once; `hashset_size` is their number. -/
theorem hashset_new_refines (H : HashEq hash keq) (ops : List (HOp K D)) (hlen : ops.length ≤ 2 ^ 31) :
    ∃ T' S' as, HSet.run hash keq HSet.init ops = some (T', as) ∧ HSpecRun keq [] ops S' as ∧ T'.size = S'.length ∧ T'.iterate.Perm S' ∧
      KeysDistinct keq T'.iterate := by
  have h0 : HRep hash keq (HSet.init : HSet K D) [] := initSize_rep hash keq (k := 5) (by decide)
  obtain ⟨T', S', as, e, sp, r⟩ := hashset_refines H ops h0 (by simpa using hlen)
  exact ⟨T', S', as, e, sp, by unfold HSet.size; rw [r.count]; omega, r.core.live, distinct_perm H r.core.live.symm r.core.distinct⟩

/-- C35: `hashset_init_size` gives an empty table for fewer than 2^30 expected
elements, and stops in `ceil_po2` otherwise. -/
theorem hashset_init_size (hash : K → Nat) (keq : K → K → Bool) (n : Nat) (hn : n < 2 ^ 32) :
    if n < 2 ^ 30 then ∃ T : HSet K D, HSet.initExpected n = some T ∧ HRep hash keq T [] else (HSet.initExpected n : Option (HSet K D)) = none := by
  unfold HSet.initExpected
  split
  · next h =>
    rw [if_neg (by omega), Nat.mod_eq_of_lt (by omega)]
    have hc := ceil_po2_gnu (x := n * 2)
    rw [if_pos (by omega)] at hc
    obtain ⟨r, hr, hc⟩ := hc
    rw [hr]
    rcases hc with ⟨_, rfl⟩ | ⟨_, k, rfl, hk, hmin⟩
    · exact ⟨HSet.initSize 0, rfl, by
        have := initSize_rep (D := D) hash keq (k := 2) (by decide)
        exact this⟩
    · exact ⟨_, rfl, initSize_rep hash keq (by have := hmin 31 (by omega); omega)⟩
  · next h =>
    by_cases h1 : n ≥ 2 ^ 31 - 1
    · rw [if_pos h1]
    · rw [if_neg h1, Nat.mod_eq_of_lt (by omega)]
      have hc := ceil_po2_gnu (x := n * 2)
      rw [if_neg (by omega)] at hc
      rw [hc]; rfl

/-- C35: removing during iteration (`hashset_remove_iterator`) deletes exactly the
value at that position, and leaves the other positions alone. -/
theorem hashset_remove_iterator (H : HashEq hash keq) {T : HSet K D} {S : List (K × D)} (h : HRep hash keq T S) {pos : Nat} {k : K} {d : D}
    (hp : T.entries[pos]? = some (.full k d)) :
    ∃ T' R, T.removeIter pos = some T' ∧ S.Perm ((k, d) :: R) ∧ HRep hash keq T' R ∧ ∀ q, q ≠ pos → T'.entries[q]? = T.entries[q]? := by
  obtain ⟨R, hR, hc⟩ := core_delete H h.core hp
  have hlen : S.length = R.length + 1 := hR.length_eq
  have hcount := h.count
  have htombs := h.tombs
  have ht := tombs_set (e' := .deleted) hp
  simp only [hsIsDeleted, Bool.false_eq_true, if_false, if_true] at ht
  refine ⟨{ T with entries := T.entries.set pos .deleted, numDeleted := T.numDeleted + 1, considerShrink := true }, R, by unfold HSet.removeIter; rw [hp], hR, ⟨⟨hc, ?_, ?_, ?_, ?_, ?_, ?_⟩, ?_⟩, ?_⟩
  · simp only [List.length_set]; exact h.min
  · simp only [List.length_set]; exact h.max
  · simp only []; omega
  · simp only []; omega
  · simp only [List.length_set]; exact h.enlarge
  · simp only [List.length_set]; have := h.fits; omega
  · simp only [List.length_set]; exact h.fill
  · intro q hq
    rw [List.getElem?_set]
    exact if_neg (fun h => hq h.symm)

/-- C35: removing twice at the same position is the same as removing once; in particular the element is
subtracted from the size only once. -/
theorem hashset_remove_iterator_twice (T T' : HSet K D) (pos : Nat) (h : T.removeIter pos = some T') :
    T'.removeIter pos = some T' := by
  have key : ∀ U : HSet K D, U.entries[pos]? = some .deleted → U.removeIter pos = some U := by
    intro U hU
    unfold HSet.removeIter
    rw [hU]
  apply key
  unfold HSet.removeIter at h
  split at h
  · exact absurd h (by simp)
  · next hd => cases h; exact hd
  · next hd =>
    cases h
    exact List.getElem?_set_self (List.getElem?_eq_some_iff.1 hd).1

end

/-- a non-trivial run: colliding hashes, removal, reinsertion into the tombstone -/
example : ((HSet.run (fun k : Nat => k % 2) (fun a b => a == b) HSet.init
    [.insert 1 (fun _ => 10), .insert 3 (fun _ => 30), .remove 1, .find 3, .find 1, .insert 5 (fun _ => 50), .insert 3 (fun _ => 31), .find 3]).map
    fun r => (r.1.size, r.2)) =
    some (2, [(false, none), (false, none), (false, none), (true, some (3, 30)), (false, none), (false, none), (true, none), (true, some (3, 31))]) := by
  decide +kernel

/-! ### the instances -/

/-- `ir_nodeset`/`ir_nodehashmap`: the hash is the node number, which identifies
the node (irnodeset.c:25-26, irnodehashmap.c:30-31: `KeysEqual` is pointer equality). -/
theorem nodeset_hashEq (nr : Nat → Nat) : HashEq nr (fun a b => a == b) where
  refl x := by simp
  symm h := by simp at h ⊢; exact h.symm
  trans h1 h2 := by simp at h1 h2 ⊢; exact h1.trans h2
  hash h := by simp at h; rw [h]

/-- `pset_new`: `Hash` is the pointer truncated to `unsigned`, and `KeysEqual` is the
constant 1 (hashset.c.h:66, pset_new.c:21), on 64-bit pointers. -/
def psetNewHash (p : Nat) : Nat := p % 2 ^ 32
def psetNewKeysEqual (_ _ : Nat) : Bool := true

/-- C35 fails for `pset_new` on a 64-bit host: two different pointers that agree
in the low 32 bits are taken for the same element. -/
theorem pset_new_conflates : ((HSet.run psetNewHash psetNewKeysEqual (HSet.init : HSet Nat Unit)
    [.insert 0x7f0000001000 (fun _ => ()), .find 0x7f0100001000, .insert 0x7f0100001000 (fun _ => ())]).map fun r => (r.1.size, r.2.map (·.1))) =
    some (1, [false, true, true]) := by
  decide +kernel

end Verif.Props
