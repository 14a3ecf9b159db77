import Verif.Model.HashSet
import Verif.Props.PQueue
import Verif.Props.BitFiddle
import Mathlib.Data.Fintype.EquivFin
/-!
# Triangular probing and the loops of the hash set
-/
namespace Verif.Props
open Verif.Model

/-- triangular numbers -/
def tri : Nat → Nat
  | 0 => 0
  | i + 1 => tri i + (i + 1)

theorem two_tri (i : Nat) : 2 * tri i = i * (i + 1) := by
  induction i with
  | zero => rfl
  | succ i ih => rw [tri, Nat.mul_add, ih]; ring

theorem probe_eq {k : Nat} (h i : Nat) : hsProbe (2 ^ k) h i = (h + tri i) % 2 ^ k := by
  induction i with
  | zero => rw [hsProbe, tri, Nat.and_two_pow_sub_one_eq_mod, Nat.add_zero]
  | succ i ih =>
    rw [hsProbe, Nat.and_two_pow_sub_one_eq_mod, ih, Nat.mod_add_mod, tri, Nat.add_assoc]

/-- a power of two divides a product with one odd factor only through the other -/
theorem pow_dvd_of_odd {k a b : Nat} (ha : a % 2 = 1) (h : 2 ^ k ∣ a * b) : 2 ^ k ∣ b := by
  induction k generalizing b with
  | zero => simp
  | succ k ih =>
    have h2 : 2 ∣ a * b := Dvd.dvd.trans ⟨2 ^ k, by rw [Nat.pow_succ, Nat.mul_comm]⟩ h
    have hb : b % 2 = 0 := by
      have hm : (a * b) % 2 = 0 := Nat.mod_eq_zero_of_dvd h2
      rw [Nat.mul_mod, ha, Nat.one_mul, Nat.mod_mod] at hm
      exact hm
    obtain ⟨c, rfl⟩ := Nat.dvd_of_mod_eq_zero hb
    obtain ⟨e, he⟩ := h
    have : 2 ^ k ∣ a * c := ⟨e, by
      have : 2 * (a * c) = 2 * (2 ^ k * e) := by
        calc 2 * (a * c) = a * (2 * c) := by ring
          _ = 2 ^ (k + 1) * e := he
          _ = 2 * (2 ^ k * e) := by rw [Nat.pow_succ]; ring
      omega⟩
    obtain ⟨f, hf⟩ := ih this
    exact ⟨f, by rw [hf, Nat.pow_succ]; ring⟩

theorem probe_inj {k h i j : Nat} (hi : i < 2 ^ k) (hj : j < 2 ^ k)
    (e : hsProbe (2 ^ k) h i = hsProbe (2 ^ k) h j) : i = j := by
  rw [probe_eq, probe_eq] at e
  wlog hij : i ≤ j generalizing i j with H
  · exact (H hj hi e.symm (by omega)).symm
  by_contra hne
  have htri : tri i ≤ tri j := by
    have h1 := two_tri i
    have h2 := two_tri j
    have : i * (i + 1) ≤ j * (j + 1) := Nat.mul_le_mul hij (by omega)
    omega
  have hd : 2 ^ k ∣ tri j - tri i := by
    have := Nat.dvd_of_mod_eq_zero (Nat.sub_mod_eq_zero_of_mod_eq e.symm)
    rwa [Nat.add_sub_add_left] at this
  have hprod : 2 * (tri j - tri i) = (j - i) * (j + i + 1) := by
    rw [Nat.mul_sub, two_tri, two_tri]
    obtain ⟨d, rfl⟩ : ∃ d, j = i + d := ⟨j - i, by omega⟩
    rw [Nat.add_sub_cancel_left]
    have : (i + d) * (i + d + 1) = i * (i + 1) + d * (i + d + i + 1) := by ring
    rw [this, Nat.add_sub_cancel_left]
  have hd2 : 2 ^ (k + 1) ∣ (j - i) * (j + i + 1) := by
    rw [← hprod, Nat.pow_succ, Nat.mul_comm]
    exact Nat.mul_dvd_mul_left 2 hd
  have hpow : 2 ^ (k + 1) = 2 * 2 ^ k := by rw [Nat.pow_succ, Nat.mul_comm]
  by_cases hpar : (j - i) % 2 = 1
  · have := Nat.le_of_dvd (by omega) (pow_dvd_of_odd hpar hd2)
    omega
  · rw [Nat.mul_comm] at hd2
    have := Nat.le_of_dvd (by omega) (pow_dvd_of_odd (by omega) hd2)
    omega

theorem probe_lt {k : Nat} (h i : Nat) : hsProbe (2 ^ k) h i < 2 ^ k := by
  rw [probe_eq]; exact Nat.mod_lt _ (by positivity)

theorem probe_surj {k h b : Nat} (hb : b < 2 ^ k) : ∃ i < 2 ^ k, hsProbe (2 ^ k) h i = b := by
  have hinj : Function.Injective (fun i : Fin (2 ^ k) => (⟨hsProbe (2 ^ k) h i, probe_lt h i⟩ : Fin (2 ^ k))) := by
    intro i j e
    exact Fin.ext (probe_inj i.2 j.2 (Fin.mk.inj e))
  obtain ⟨i, hi⟩ := Finite.injective_iff_surjective.1 hinj ⟨b, hb⟩
  exact ⟨i, i.2, Fin.mk.inj hi⟩

/-! ## loops -/

variable {K D : Type} {hash : K → Nat} {keq : K → K → Bool}

/-- `m` is the index of the first empty entry on the probe path of `h` -/
structure FirstEmpty (es : List (HEntry K D)) (h m : Nat) : Prop where
  lt : m < es.length
  empty : es[hsProbe es.length h m]? = some .empty
  before : ∀ j < m, es[hsProbe es.length h j]? ≠ some .empty

theorem exists_firstEmpty {es : List (HEntry K D)} (hn : ∃ k, es.length = 2 ^ k) (h : Nat) {p : Nat} (hp : es[p]? = some .empty) :
    ∃ m, FirstEmpty es h m := by
  classical
  obtain ⟨k, hk⟩ := hn
  obtain ⟨i, hi, e⟩ := probe_surj (k := k) (h := h) (b := p) (by rw [← hk]; exact lt_of_get hp)
  have hex : ∃ i, i < es.length ∧ es[hsProbe es.length h i]? = some .empty := ⟨i, by omega, by rw [hk, e]; exact hp⟩
  refine ⟨Nat.find hex, (Nat.find_spec hex).1, (Nat.find_spec hex).2, ?_⟩
  intro j hj he
  exact Nat.find_min hex hj ⟨by have := (Nat.find_spec hex).1; omega, he⟩

theorem probe_get {es : List (HEntry K D)} (hn : ∃ k, es.length = 2 ^ k) (h i : Nat) : ∃ e, es[hsProbe es.length h i]? = some e := by
  obtain ⟨k, hk⟩ := hn
  exact get_some (by rw [hk]; exact probe_lt h i)

theorem probe_succ (n h i : Nat) : hsProbe n h (i + 1) = (hsProbe n h i + (i + 1)) &&& (n - 1) := rfl

theorem findLoop_empty {es : List (HEntry K D)} {key : K} {fuel probes b : Nat} (he : es[b]? = some .empty) :
    hsFindLoop hash keq es key (fuel + 1) probes b = some none := by
  rw [hsFindLoop, he]

theorem findLoop_step {es : List (HEntry K D)} {key : K} {fuel probes b : Nat} {e : HEntry K D} (he : es[b]? = some e)
    (hne : e ≠ .empty) (hlt : probes + 1 < es.length) :
    hsFindLoop hash keq es key (fuel + 1) probes b =
      if hsMatch hash keq key e then some (some b)
      else hsFindLoop hash keq es key fuel (probes + 1) ((b + (probes + 1)) &&& (es.length - 1)) := by
  rw [hsFindLoop, he]
  cases e with
  | empty => exact absurd rfl hne
  | deleted => simp only [hlt, if_true]
  | full k d => simp only [hlt, if_true]

theorem insertLoop_empty {es : List (HEntry K D)} {key : K} {fuel probes b : Nat} {ipos : Option Nat} (he : es[b]? = some .empty) :
    hsInsertLoop hash keq es key (fuel + 1) probes b ipos = some (hsTarget ipos b, false) := by
  rw [hsInsertLoop, he]

theorem insertLoop_step {es : List (HEntry K D)} {key : K} {fuel probes b : Nat} {ipos : Option Nat} {e : HEntry K D}
    (he : es[b]? = some e) (hne : e ≠ .empty) (hlt : probes + 1 < es.length) :
    hsInsertLoop hash keq es key (fuel + 1) probes b ipos =
      if hsMatch hash keq key e then some (b, true)
      else hsInsertLoop hash keq es key fuel (probes + 1) ((b + (probes + 1)) &&& (es.length - 1))
        (hsFirstDeleted e ipos b) := by
  rw [hsInsertLoop, he]
  cases e with
  | empty => exact absurd rfl hne
  | deleted => simp only [hlt, if_true]
  | full k d => simp only [hlt, if_true]

/-- the find loop delivers the first match on the path before the first empty entry -/
theorem findLoop_spec {es : List (HEntry K D)} (hn : ∃ k, es.length = 2 ^ k) {key : K} {m : Nat} (hm : FirstEmpty es (hash key) m) :
    ∀ (fuel i : Nat), i ≤ m → es.length - i ≤ fuel →
    (∃ j e, i ≤ j ∧ j < m ∧ es[hsProbe es.length (hash key) j]? = some e ∧ hsMatch hash keq key e = true ∧
      hsFindLoop hash keq es key fuel i (hsProbe es.length (hash key) i) = some (some (hsProbe es.length (hash key) j))) ∨
    ((∀ j e, i ≤ j → j < m → es[hsProbe es.length (hash key) j]? = some e → hsMatch hash keq key e = false) ∧
      hsFindLoop hash keq es key fuel i (hsProbe es.length (hash key) i) = some none) := by
  intro fuel
  induction fuel with
  | zero => intro i hi hf; have := hm.lt; omega
  | succ fuel ih =>
    intro i hi hf
    have hlt := hm.lt
    by_cases him : i = m
    · right
      subst him
      exact ⟨fun j e h1 h2 => by omega, findLoop_empty hm.empty⟩
    · obtain ⟨e, he⟩ := probe_get hn (hash key) i
      have hne := hm.before i (by omega)
      rw [findLoop_step he (by rintro rfl; exact hne he) (by omega), ← probe_succ]
      by_cases hmt : hsMatch hash keq key e = true
      · left
        exact ⟨i, e, le_refl _, by omega, he, hmt, by rw [if_pos hmt]⟩
      · rw [if_neg hmt]
        rcases ih (i + 1) (by omega) (by omega) with ⟨j, e', h1, h2, h3, h4, h5⟩ | ⟨h1, h2⟩
        · left; exact ⟨j, e', by omega, h2, h3, h4, h5⟩
        · right
          refine ⟨?_, h2⟩
          intro j e' hj1 hj2 hj3
          by_cases hji : j = i
          · subst hji
            rw [he] at hj3; cases hj3
            simpa using hmt
          · exact h1 j e' (by omega) hj2 hj3

/-- the insert loop finds the same entry, or a free position on the path -/
theorem insertLoop_spec {es : List (HEntry K D)} (hn : ∃ k, es.length = 2 ^ k) {key : K} {m : Nat} (hm : FirstEmpty es (hash key) m) :
    ∀ (fuel i : Nat) (ipos : Option Nat), i ≤ m → es.length - i ≤ fuel →
    (∀ p, ipos = some p → ∃ t < m, hsProbe es.length (hash key) t = p ∧ es[p]? = some .deleted) →
    (∃ j e, i ≤ j ∧ j < m ∧ es[hsProbe es.length (hash key) j]? = some e ∧ hsMatch hash keq key e = true ∧
      hsInsertLoop hash keq es key fuel i (hsProbe es.length (hash key) i) ipos = some (hsProbe es.length (hash key) j, true)) ∨
    ((∀ j e, i ≤ j → j < m → es[hsProbe es.length (hash key) j]? = some e → hsMatch hash keq key e = false) ∧
      ∃ t ≤ m, hsInsertLoop hash keq es key fuel i (hsProbe es.length (hash key) i) ipos = some (hsProbe es.length (hash key) t, false) ∧
        (es[hsProbe es.length (hash key) t]? = some .empty ∨ es[hsProbe es.length (hash key) t]? = some .deleted)) := by
  intro fuel
  induction fuel with
  | zero => intro i ipos hi hf; have := hm.lt; omega
  | succ fuel ih =>
    intro i ipos hi hf hip
    have hlt := hm.lt
    by_cases him : i = m
    · right
      subst him
      refine ⟨fun j e h1 h2 => by omega, ?_⟩
      rw [insertLoop_empty hm.empty]
      cases ipos with
      | none => exact ⟨i, le_refl _, rfl, Or.inl hm.empty⟩
      | some p =>
        obtain ⟨t, ht, e1, e2⟩ := hip p rfl
        exact ⟨t, by omega, by rw [e1]; rfl, Or.inr (by rw [e1]; exact e2)⟩
    · obtain ⟨e, he⟩ := probe_get hn (hash key) i
      have hne := hm.before i (by omega)
      have hip' : ∀ p, hsFirstDeleted e ipos (hsProbe es.length (hash key) i) = some p → ∃ t < m, hsProbe es.length (hash key) t = p ∧ es[p]? = some .deleted := by
        intro p hp
        cases e with
        | empty => exact hip p hp
        | full k d => exact hip p hp
        | deleted =>
          cases ipos with
          | none => cases hp; exact ⟨i, by omega, rfl, he⟩
          | some q => exact hip p hp
      rw [insertLoop_step he (by rintro rfl; exact hne he) (by omega), ← probe_succ]
      by_cases hmt : hsMatch hash keq key e = true
      · left
        exact ⟨i, e, le_refl _, by omega, he, hmt, by rw [if_pos hmt]⟩
      · rw [if_neg hmt]
        rcases ih (i + 1) _ (by omega) (by omega) hip' with ⟨j, e', h1, h2, h3, h4, h5⟩ | ⟨h1, h2⟩
        · left; exact ⟨j, e', by omega, h2, h3, h4, h5⟩
        · right
          refine ⟨?_, h2⟩
          intro j e' hj1 hj2 hj3
          by_cases hji : j = i
          · subst hji
            rw [he] at hj3; cases hj3
            simpa using hmt
          · exact h1 j e' (by omega) hj2 hj3

/-- without deleted entries `insert_new` finds the first empty entry -/
theorem newLoop_spec {es : List (HEntry K D)} (hn : ∃ k, es.length = 2 ^ k) (hnd : .deleted ∉ es) {h m : Nat} (hm : FirstEmpty es h m) :
    ∀ (fuel i : Nat), i ≤ m → es.length - i ≤ fuel → hsNewLoop es fuel i (hsProbe es.length h i) = some (hsProbe es.length h m) := by
  intro fuel
  induction fuel with
  | zero => intro i hi hf; have := hm.lt; omega
  | succ fuel ih =>
    intro i hi hf
    have hlt := hm.lt
    rw [hsNewLoop]
    by_cases him : i = m
    · subst him; rw [hm.empty]
    · obtain ⟨e, he⟩ := probe_get hn h i
      have hne := hm.before i (by omega)
      rw [he] at hne ⊢
      cases e with
      | empty => exact absurd rfl hne
      | deleted => exact absurd (List.mem_of_getElem? he) hnd
      | full k d =>
        simp only [show i + 1 < es.length by omega, if_true]
        exact ih (i + 1) (by omega) (by omega)

/-! ## the entries as a collection of values -/

def hsLive (es : List (HEntry K D)) : List (K × D) := es.filterMap HEntry.value

def hsIsDeleted : HEntry K D → Bool
  | .deleted => true
  | _ => false

def hsTombs (es : List (HEntry K D)) : Nat := es.countP hsIsDeleted

theorem exists_empty {es : List (HEntry K D)} (h : (hsLive es).length + hsTombs es < es.length) : ∃ p : Nat, es[p]? = some HEntry.empty := by
  induction es with
  | nil => simp at h
  | cons e es ih =>
    cases e with
    | empty => exact ⟨0, rfl⟩
    | deleted =>
      obtain ⟨p, hp⟩ := ih (by simp only [hsLive, hsTombs, List.filterMap_cons, HEntry.value, List.countP_cons, hsIsDeleted,
        List.length_cons, if_true] at h ⊢; omega)
      exact ⟨p + 1, hp⟩
    | full k d =>
      obtain ⟨p, hp⟩ := ih (by
        simp only [hsLive, hsTombs, List.filterMap_cons, HEntry.value, List.countP_cons, hsIsDeleted, List.length_cons] at h ⊢
        simp at h; omega)
      exact ⟨p + 1, hp⟩

theorem live_set {es : List (HEntry K D)} {p : Nat} {e e' : HEntry K D} (h : es[p]? = some e) :
    (e.value.toList ++ hsLive (es.set p e')).Perm (e'.value.toList ++ hsLive es) := by
  have := (set_perm (x := e') h).filterMap HEntry.value
  have hc : ∀ (x : HEntry K D) (l : List (HEntry K D)), List.filterMap HEntry.value (x :: l) = x.value.toList ++ hsLive l := by
    intro x l
    rw [List.filterMap_cons]
    cases x <;> rfl
  rw [hc, hc] at this
  exact this

theorem tombs_set {es : List (HEntry K D)} {p : Nat} {e e' : HEntry K D} (h : es[p]? = some e) :
    hsTombs (es.set p e') + (if hsIsDeleted e then 1 else 0) = hsTombs es + (if hsIsDeleted e' then 1 else 0) := by
  have := (set_perm (x := e') h).countP_eq hsIsDeleted
  rw [List.countP_cons, List.countP_cons] at this
  exact this

end Verif.Props
