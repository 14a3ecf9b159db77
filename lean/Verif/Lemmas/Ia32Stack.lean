import Verif.Model.Ia32Stack
/-! # Lemmas about pushes and pops -/
namespace Verif.Lemmas.Ia32Stack
open Verif.Spec.StackCode Verif.Model.Ia32Stack

theorem run_append (s : State) (l m : List Instr) : run s (l ++ m) = run (run s l) m := by
  unfold run; rw [List.foldl_append]

theorem run_cons (s : State) (x : Instr) (l : List Instr) : run s (x :: l) = run (exec s x) l := rfl

/-! ### Stores -/

/-- The byte that a store puts at an address. -/
def wr (s : State) (x : Instr) (a : Int) : Option (BitVec 8) :=
  match x with
  | .store ad size v =>
    if s.addr ad ≤ a ∧ a < s.addr ad + size then some (byteOf (s.val v) (a - s.addr ad).toNat) else none
  | _ => none

theorem wr_none {s : State} {x : Instr} {a : Int} : wr s x a = none ↔ ¬ Writes s x a := by
  constructor
  · rintro h ⟨ad, n, v, rfl, h1, h2⟩
    simp only [wr] at h
    rw [if_pos ⟨h1, h2⟩] at h
    cases h
  · intro h
    cases x with
    | store ad n v =>
      simp only [wr]
      rw [if_neg (fun hh => h ⟨ad, n, v, rfl, hh.1, hh.2⟩)]
    | _ => rfl

def IsStore (x : Instr) : Prop := ∃ a n v, x = .store a n v

theorem wr_congr {s t : State} (hr : t.reg = s.reg) (hs : t.sp = s.sp) (x : Instr) (a : Int) :
    wr t x a = wr s x a := by
  cases x <;> simp only [wr]
  rename_i ad n v
  have h1 : t.addr ad = s.addr ad := by unfold State.addr; rw [hr, hs]
  have h2 : t.val v = s.val v := by cases v <;> simp only [State.val, hr, hs]
  rw [h1, h2]

theorem run_stores (s : State) (l : List Instr) (h : ∀ x ∈ l, IsStore x) :
    (run s l).reg = s.reg ∧ (run s l).sp = s.sp ∧
    ∀ a, (run s l).mem a = (l.reverse.findSome? (wr s · a)).getD (s.mem a) := by
  induction l generalizing s with
  | nil => exact ⟨rfl, rfl, fun _ => rfl⟩
  | cons x xs ih =>
    obtain ⟨ad, n, v, rfl⟩ := h x (by simp)
    have hs : (exec s (.store ad n v)).reg = s.reg ∧ (exec s (.store ad n v)).sp = s.sp := ⟨rfl, rfl⟩
    obtain ⟨h1, h2, h3⟩ := ih (exec s (.store ad n v)) (fun y hy => h y (by simp [hy]))
    refine ⟨h1.trans hs.1, h2.trans hs.2, fun a => ?_⟩
    rw [run_cons, h3]
    have he : (fun y => wr (exec s (.store ad n v)) y a) = fun y => wr s y a := by
      funext y; exact wr_congr hs.1 hs.2 y a
    rw [he, List.reverse_cons, List.findSome?_append]
    cases hf : xs.reverse.findSome? (fun y => wr s y a) with
    | some b => simp
    | none =>
      simp only [Option.getD_none, Option.none_or, List.findSome?_cons, List.findSome?_nil]
      unfold exec write wr
      dsimp only
      split <;> rfl

theorem run_pushes (f : Nat → Option Val) (k : Nat) (s : State)
    (hv : ∀ j, j < k → ∃ r, f j = some (.reg r)) :
    (run s (((List.range k).reverse.filterMap f).map Instr.push)).reg = s.reg ∧
    (run s (((List.range k).reverse.filterMap f).map Instr.push)).sp = s.sp - 4 * k ∧
    (∀ a, (a < s.sp - 4 * k ∨ s.sp ≤ a) →
      (run s (((List.range k).reverse.filterMap f).map Instr.push)).mem a = s.mem a) ∧
    (∀ j r, j < k → f j = some (.reg r) → ∀ a, s.sp - 4 * k + 4 * j ≤ a → a < s.sp - 4 * k + 4 * j + 4 →
      (run s (((List.range k).reverse.filterMap f).map Instr.push)).mem a
        = byteOf (s.reg r) (a - (s.sp - 4 * k + 4 * j)).toNat) := by
  induction k generalizing s with
  | zero =>
    refine ⟨rfl, ?_, fun _ _ => rfl, ?_⟩
    · show s.sp = _
      simp
    · intro j r hj; omega
  | succ k ih =>
    obtain ⟨r0, hr0⟩ := hv k (by omega)
    have e : ((List.range (k + 1)).reverse.filterMap f).map Instr.push
        = .push (.reg r0) :: ((List.range k).reverse.filterMap f).map Instr.push := by
      rw [List.range_succ, List.reverse_append]
      simp [hr0]
    rw [e, run_cons]
    obtain ⟨h1, h2, h3, h4⟩ := ih (exec s (.push (.reg r0))) (fun j hj => hv j (by omega))
    have hsp : (exec s (.push (.reg r0))).sp = s.sp - 4 := rfl
    have hreg : (exec s (.push (.reg r0))).reg = s.reg := rfl
    rw [hsp] at h2 h3 h4
    rw [hreg] at h1 h4
    refine ⟨h1, ?_, ?_, ?_⟩
    · rw [h2]; push_cast; omega
    · intro a ha
      rw [h3 a (by push_cast at ha; omega)]
      simp only [exec, write]
      rw [if_neg (by push_cast at ha ⊢; omega)]
    · intro j r hj hf a ha1 ha2
      by_cases hjk : j = k
      · subst hjk
        rw [hr0] at hf
        cases hf
        rw [h3 a (by push_cast at ha1 ha2; omega)]
        simp only [exec, write, State.val]
        rw [if_pos (by push_cast at ha1 ha2 ⊢; omega)]
        congr 1
        push_cast at ha1 ha2 ⊢
        omega
      · rw [h4 j r (by omega) hf a (by push_cast at ha1; omega) (by push_cast at ha2; omega)]
        congr 1
        push_cast
        omega

/-! ### The walk over the stores -/

/-- What is known of a node with its slot. -/
def TakenOk (inc : Int) (p : After × Option Nat) : Prop :=
  match p.2 with
  | some j => p.1.ourSp = true ∧ p.1.noMem = true ∧ (4 * (j : Int) ≤ inc - 4 ∧ (j : Int) < maxPush) ∧
      ∃ a n v, p.1.instr = .store a n v ∧ a.index = none ∧ a.offset = 4 * j
  | none => p.1.ourSp = false ∨ p.1.noMem = false ∨
      ∃ a n v, p.1.instr = .store a n v ∧ a.index = none ∧
        (inc - 4 < a.offset ∨ a.offset ≥ maxPush * 4) ∧ a.offset % 4 = 0

theorem collectStores_split (inc : Int) (l : List After)
    (hw : ∀ x ∈ l, x.isStore = true → IsStore x.instr ∧
      (x.ourSp = true → ∀ a n v, x.instr = .store a n v → 0 ≤ a.offset)) (seen : List Nat) :
    ∃ cw r, l = cw.map Prod.fst ++ r ∧
      collectStores inc seen l = cw ++ r.map (fun y => (y, none)) ∧
      (∀ p ∈ cw, p.1.isStore = true ∧ IsStore p.1.instr ∧ TakenOk inc p) ∧
      (cw.filterMap (·.2)).Nodup ∧ (∀ j ∈ cw.filterMap (·.2), j ∉ seen) := by
  induction l generalizing seen with
  | nil => exact ⟨[], [], rfl, rfl, by simp, by simp, by simp⟩
  | cons x xs ih =>
    have stopCase : ∃ cw r, x :: xs = cw.map Prod.fst ++ r ∧
        ((x :: xs).map fun y => (y, none)) = cw ++ r.map (fun y => (y, (none : Option Nat))) ∧
        (∀ p ∈ cw, p.1.isStore = true ∧ IsStore p.1.instr ∧ TakenOk inc p) ∧
        (cw.filterMap (·.2)).Nodup ∧ (∀ j ∈ cw.filterMap (·.2), j ∉ seen) :=
      ⟨[], x :: xs, rfl, rfl, by simp, by simp, by simp⟩
    have hxs := fun y hy => hw y (List.mem_cons_of_mem _ hy)
    have skipCase : x.isStore = true → IsStore x.instr → TakenOk inc (x, none) →
        ∃ cw r, x :: xs = cw.map Prod.fst ++ r ∧
        ((x, none) :: collectStores inc seen xs) = cw ++ r.map (fun y => (y, (none : Option Nat))) ∧
        (∀ p ∈ cw, p.1.isStore = true ∧ IsStore p.1.instr ∧ TakenOk inc p) ∧
        (cw.filterMap (·.2)).Nodup ∧ (∀ j ∈ cw.filterMap (·.2), j ∉ seen) := by
      intro h0 h1 h2
      obtain ⟨cw, r, e1, e2, h3, h4, h5⟩ := ih hxs seen
      refine ⟨(x, none) :: cw, r, ?_, ?_, ?_, ?_, ?_⟩
      · rw [List.map_cons, List.cons_append, ← e1]
      · rw [e2]; rfl
      · intro p hp
        rcases List.mem_cons.mp hp with rfl | hp
        · exact ⟨h0, h1, h2⟩
        · exact h3 p hp
      · simpa using h4
      · simpa using h5
    unfold collectStores
    dsimp only
    by_cases h1 : x.isStore = true
    · obtain ⟨hst, hoff⟩ := hw x (by simp) h1
      rw [if_neg (by simp [h1])]
      by_cases h2 : x.ourSp = true
      · rw [if_neg (by simp [h2])]
        by_cases h3 : x.noMem = true
        · rw [if_neg (by simp [h3])]
          obtain ⟨a, n, v, hx⟩ := hst
          rw [hx]
          dsimp only
          by_cases h4 : a.index.isSome = true
          · rw [if_pos h4]; exact stopCase
          · rw [if_neg h4]
            have hidx : a.index = none := by simpa using h4
            by_cases h5 : a.offset % 4 ≠ 0
            · rw [if_pos h5]; exact stopCase
            · rw [if_neg h5]
              have h5' : a.offset % 4 = 0 := by simpa using h5
              by_cases h6 : inc - 4 < a.offset ∨ a.offset ≥ maxPush * 4
              · rw [if_pos h6]
                exact skipCase h1 ⟨a, n, v, hx⟩ (Or.inr (Or.inr ⟨a, n, v, hx, hidx, h6, h5'⟩))
              · rw [if_neg h6]
                by_cases h7 : (a.offset / 4).toNat ∈ seen
                · rw [if_pos h7]; exact stopCase
                · rw [if_neg h7]
                  have hpos := hoff h2 a n v hx
                  obtain ⟨cw, r, e1, e2, h8, h9, h10⟩ := ih hxs ((a.offset / 4).toNat :: seen)
                  refine ⟨(x, some (a.offset / 4).toNat) :: cw, r, ?_, ?_, ?_, ?_, ?_⟩
                  · rw [List.map_cons, List.cons_append, ← e1]
                  · rw [e2]; rfl
                  · intro p hp
                    rcases List.mem_cons.mp hp with rfl | hp
                    · refine ⟨h1, ⟨a, n, v, hx⟩, h2, h3, ?_, a, n, v, hx, hidx, ?_⟩
                      · omega
                      · omega
                    · exact h8 p hp
                  · simp only [List.filterMap_cons, List.nodup_cons]
                    refine ⟨fun hm => ?_, h9⟩
                    exact h10 _ hm (by simp)
                  · simp only [List.filterMap_cons, List.mem_cons]
                    rintro j (rfl | hj)
                    · exact h7
                    · exact fun hm => h10 j hj (by simp [hm])
        · rw [if_pos (by simpa using h3)]
          exact skipCase h1 hst (Or.inr (Or.inl (by simpa using h3)))
      · rw [if_pos (by simpa using h2)]
        exact skipCase h1 hst (Or.inl (by simpa using h2))
    · rw [if_pos (by simpa using h1)]; exact stopCase

theorem countRun_mem (slots : List Nat) (n i : Nat) :
    ∀ j, i ≤ j → j < countRun slots n i → j ∈ slots := by
  induction n generalizing i with
  | zero => intro j h1 h2; simp only [countRun] at h2; omega
  | succ n ih =>
    intro j h1 h2
    simp only [countRun] at h2
    split at h2
    · by_cases hj : j = i
      · subst hj; assumption
      · exact ih (i + 1) j (by omega) h2
    · omega

/-- The nodes are as the code takes for granted: a store writes at most four bytes, and one on the new
stack pointer does not write below it. -/
def NodesOk (l : List After) : Prop :=
  ∀ x ∈ l, x.isStore = true → ∃ a n v, x.instr = .store a n v ∧ n ≤ 4 ∧
    (x.ourSp = true → a.base = .sp ∧ 0 ≤ a.offset)

/-- A node that the walk may take. -/
def Candidate (x : After) : Prop := x.isStore = true ∧ x.ourSp = true ∧ x.noMem = true

/-- Stores that are not ordered by memory operands do not overlap: a store that the walk leaves in its
place writes nothing to a slot that is written by a candidate after it. -/
def Independent (s : State) (l : List After) : Prop :=
  ∀ l1 x l2 y l3, l = l1 ++ x :: l2 ++ y :: l3 → (∀ z ∈ l1 ++ x :: l2, z.isStore = true) →
    Candidate y → ¬ Candidate x →
    ∀ ad n v, y.instr = .store ad n v → ∀ a, s.sp + ad.offset ≤ a → a < s.sp + ad.offset + 4 →
      ¬ Writes s x.instr a

/-- No candidate stores the stack pointer itself. -/
def NoSpStored (l : List After) : Prop :=
  ∀ x ∈ l, Candidate x → ∀ a n v, x.instr = .store a n v → v ≠ .sp

theorem findSome_none {α β : Type} {f : α → Option β} {l : List α} (h : ∀ x ∈ l, f x = none) :
    l.findSome? f = none := by
  rw [List.findSome?_eq_none_iff]; exact h

/-- Leaving out nodes that write nothing at an address. -/
theorem findSome_filter {α β : Type} {f : α → Option β} {p : α → Bool} {l : List α}
    (h : ∀ x ∈ l, p x = false → f x = none) : (l.filter p).findSome? f = l.findSome? f := by
  induction l with
  | nil => rfl
  | cons x xs ih =>
    have ih' := ih (fun y hy => h y (List.mem_cons_of_mem _ hy))
    by_cases hp : p x = true
    · rw [List.filter_cons_of_pos hp, List.findSome?_cons, List.findSome?_cons, ih']
    · rw [List.filter_cons_of_neg hp, ih', List.findSome?_cons, h x (by simp) (by simpa using hp)]

theorem addr_sp {s : State} {a : Addr} (hb : a.base = .sp) (hi : a.index = none) :
    s.addr a = s.sp + a.offset := by
  unfold State.addr; rw [hb, hi]; simp

/-- A taken node writes to its slot only. -/
theorem taken_slot {inc : Int} {p : After × Option Nat} {j : Nat} (hp : p.2 = some j)
    (ht : TakenOk inc p)
    (hok : ∃ a n v, p.1.instr = .store a n v ∧ n ≤ 4 ∧ (p.1.ourSp = true → a.base = .sp ∧ 0 ≤ a.offset)) :
    ∃ a n v, p.1.instr = .store a n v ∧ n ≤ 4 ∧ ∀ s : State, s.addr a = s.sp + 4 * j := by
  unfold TakenOk at ht
  rw [hp] at ht
  obtain ⟨ho, -, -, a, n, v, he, hi, hoff⟩ := ht
  obtain ⟨a', n', v', he', hn, hh⟩ := hok
  rw [he] at he'
  cases he'
  refine ⟨a, n, v, he, hn, fun s => ?_⟩
  rw [addr_sp (hh ho).1 hi, hoff]

theorem taken_none {inc : Int} {p : After × Option Nat} {j : Nat} (hp : p.2 = some j)
    (ht : TakenOk inc p)
    (hok : ∃ a n v, p.1.instr = .store a n v ∧ n ≤ 4 ∧ (p.1.ourSp = true → a.base = .sp ∧ 0 ≤ a.offset))
    (s : State) (a : Int) (ha : a < s.sp + 4 * j ∨ s.sp + 4 * j + 4 ≤ a) : wr s p.1.instr a = none := by
  obtain ⟨ad, n, v, he, hn, hs⟩ := taken_slot hp ht hok
  rw [he]
  simp only [wr]
  rw [if_neg]
  rw [hs s]
  omega

theorem slotVal_of {cw c1 c2 : List (After × Option Nat)} {p : After × Option Nat} {j : Nat}
    (hc : cw = c1 ++ p :: c2) (hj : p.2 = some j) (hnd : (cw.filterMap (·.2)).Nodup)
    {a : Addr} {n : Nat} {v : Val} (he : p.1.instr = .store a n v) (r : List (After × Option Nat)) :
    (∀ q ∈ c1, q.2 ≠ some j) ∧ (∀ q ∈ c2, q.2 ≠ some j) ∧ slotVal (cw ++ r) j = some v := by
  subst hc
  rw [List.filterMap_append, List.filterMap_cons, hj] at hnd
  have hnd' := List.nodup_append.mp hnd
  have h1 : ∀ q ∈ c1, q.2 ≠ some j := by
    intro q hq he
    exact hnd'.2.2 j (List.mem_filterMap.mpr ⟨q, hq, he⟩) j (by simp) rfl
  have h2 : ∀ q ∈ c2, q.2 ≠ some j := by
    intro q hq he
    have := (List.nodup_cons.mp hnd'.2.1).1
    exact this (List.mem_filterMap.mpr ⟨q, hq, he⟩)
  refine ⟨h1, h2, ?_⟩
  unfold slotVal
  rw [List.append_assoc, List.findSome?_append, findSome_none]
  · simp [hj, he]
  · intro q hq
    rw [if_neg (h1 q hq)]

/-- The prefix of the new code: everything up to the node the walk stops at. -/
theorem push_prefix (inc : Int) (l : List After) (hok : NodesOk l) (hsp : NoSpStored l) (s : State)
    (hind : Independent (exec s (.incSP inc)) l) :
    ∃ w r pre, l = w ++ r ∧ storeToPush inc l = pre ++ r.map (·.instr) ∧
      (∀ x ∈ w, IsStore x.instr) ∧
      (run s pre).reg = (run s (.incSP inc :: w.map (·.instr))).reg ∧
      (run s pre).sp = (run s (.incSP inc :: w.map (·.instr))).sp ∧
      (∀ a, (run s pre).mem a = (run s (.incSP inc :: w.map (·.instr))).mem a ∨
        (s.sp - inc ≤ a ∧ a < s.sp ∧ (∀ x ∈ w, ¬ Writes (exec s (.incSP inc)) x.instr a) ∧
          ∃ x ∈ w, Candidate x ∧ ∃ ad n v, x.instr = .store ad n v ∧ n < 4)) := by
  by_cases hinc : inc < 4
  · refine ⟨[], l, [.incSP inc], rfl, ?_, by simp, rfl, rfl, fun a => Or.inl rfl⟩
    unfold storeToPush
    rw [if_pos hinc]
    rfl
  · have hw : ∀ x ∈ l, x.isStore = true → IsStore x.instr ∧
        (x.ourSp = true → ∀ a n v, x.instr = .store a n v → 0 ≤ a.offset) := by
      intro x hx hs
      obtain ⟨a, n, v, e, -, hh⟩ := hok x hx hs
      refine ⟨⟨a, n, v, e⟩, fun ho a' n' v' e' => ?_⟩
      rw [e] at e'
      cases e'
      exact (hh ho).2
    obtain ⟨cw, r, hl, hc, hcw, hnd, -⟩ := collectStores_split inc l hw []
    have hslots : (collectStores inc [] l).filterMap (·.2) = cw.filterMap (·.2) := by
      rw [hc, List.filterMap_append]
      have : (r.map fun y => (y, (none : Option Nat))).filterMap (·.2) = [] := by
        rw [List.filterMap_map]
        induction r with
        | nil => rfl
        | cons y ys ih => simp
      rw [this, List.append_nil]
    have hmem : ∀ p ∈ cw, p.1 ∈ l := by
      intro p hp
      rw [hl]
      exact List.mem_append_left _ (List.mem_map_of_mem hp)
    have hokp : ∀ p ∈ cw, ∃ a n v, p.1.instr = .store a n v ∧ n ≤ 4 ∧
        (p.1.ourSp = true → a.base = .sp ∧ 0 ≤ a.offset) :=
      fun p hp => hok p.1 (hmem p hp) (hcw p hp).1
    generalize hk : countRun (cw.filterMap (·.2)) (cw.filterMap (·.2)).length 0 = k
    have hrun : ∀ j, j < k → ∃ c1 p c2, cw = c1 ++ p :: c2 ∧ p.2 = some j := by
      intro j hj
      have := countRun_mem (cw.filterMap (·.2)) (cw.filterMap (·.2)).length 0 j (by omega)
        (by rw [hk]; exact hj)
      obtain ⟨p, hp, he⟩ := List.mem_filterMap.mp this
      obtain ⟨c1, c2, hcc⟩ := List.append_of_mem hp
      exact ⟨c1, p, c2, hcc, he⟩
    have hval : ∀ j, j < k → ∃ q, slotVal (collectStores inc [] l) j = some (.reg q) := by
      intro j hj
      obtain ⟨c1, p, c2, hcc, hpj⟩ := hrun j hj
      have hp : p ∈ cw := by rw [hcc]; simp
      obtain ⟨a, n, v, he, -, -⟩ := hokp p hp
      have h3 := (slotVal_of hcc hpj hnd he (r.map fun y => (y, none))).2.2
      rw [← hc] at h3
      cases v with
      | reg q => exact ⟨q, h3⟩
      | sp =>
        exfalso
        have ht := (hcw p hp).2.2
        unfold TakenOk at ht
        rw [hpj] at ht
        exact hsp p.1 (hmem p hp) ⟨(hcw p hp).1, ht.1, ht.2.1⟩ a n .sp he rfl
    let keep : After × Option Nat → Bool :=
      fun p => match p.2 with | some j => decide (k ≤ j) | none => true
    have hkeep : ∀ p ∈ cw, keep p = false → ∃ j, p.2 = some j ∧ j < k := by
      intro p hp hf
      simp only [keep] at hf
      split at hf
      · rename_i j hj
        exact ⟨j, hj, by simpa using hf⟩
      · simp at hf
    generalize hpu : ((List.range k).reverse.filterMap (slotVal (collectStores inc [] l))).map
      Instr.push = pushes
    refine ⟨cw.map Prod.fst, r, .incSP (inc - 4 * k) :: pushes ++ (cw.filter keep).map (·.1.instr), hl,
      ?_, ?_, ?_⟩
    · unfold storeToPush
      rw [if_neg hinc]
      dsimp only
      rw [hslots, hk, hpu, hc, List.filter_append, List.map_append, ← List.append_assoc]
      congr 1
      rw [List.filter_eq_self.mpr]
      · rw [List.map_map]; rfl
      · intro q hq
        obtain ⟨y, -, rfl⟩ := List.mem_map.mp hq
        rfl
    · intro x hx
      obtain ⟨p, hp, rfl⟩ := List.mem_map.mp hx
      exact (hcw p hp).2.1
    · rw [List.cons_append, run_cons, run_append, run_cons]
      generalize hs' : exec s (.incSP inc) = s' at hind ⊢
      generalize hs1 : exec s (.incSP (inc - 4 * k)) = s1
      have e1 : s1.sp = s.sp - (inc - 4 * k) := by rw [← hs1]; rfl
      have e1r : s1.reg = s.reg := by rw [← hs1]; rfl
      have e1m : s1.mem = s.mem := by rw [← hs1]; rfl
      have e0 : s'.sp = s.sp - inc := by rw [← hs']; rfl
      have e0r : s'.reg = s.reg := by rw [← hs']; rfl
      have e0m : s'.mem = s.mem := by rw [← hs']; rfl
      obtain ⟨p1, p2, p3, p4⟩ := run_pushes (slotVal (collectStores inc [] l)) k s1 hval
      rw [hpu] at p1 p2 p3 p4
      generalize run s1 pushes = s2 at p1 p2 p3 p4 ⊢
      have e2 : s2.sp = s'.sp := by rw [p2, e1, e0]; omega
      have e2r : s2.reg = s'.reg := by rw [p1, e1r, e0r]
      obtain ⟨q1, q2, q3⟩ := run_stores s2 ((cw.filter keep).map (·.1.instr)) (by
        intro x hx
        obtain ⟨p, hp, rfl⟩ := List.mem_map.mp hx
        exact (hcw p (List.mem_filter.mp hp).1).2.1)
      obtain ⟨r1, r2, r3⟩ := run_stores s' ((cw.map Prod.fst).map (·.instr)) (by
        intro x hx
        obtain ⟨y, hy, rfl⟩ := List.mem_map.mp hx
        obtain ⟨p, hp, rfl⟩ := List.mem_map.mp hy
        exact (hcw p hp).2.1)
      refine ⟨by rw [q1, r1, e2r], by rw [q2, r2, e2], fun a => ?_⟩
      rw [q3, r3]
      have ew : (fun y => wr s2 y a) = fun y => wr s' y a := by
        funext y; exact wr_congr e2r e2 y a
      rw [ew]
      have conv1 : ((cw.filter keep).map (·.1.instr)).reverse.findSome? (fun y => wr s' y a)
          = (cw.filter keep).reverse.findSome? (fun p => wr s' p.1.instr a) := by
        rw [← List.map_reverse, List.findSome?_map]; rfl
      have conv2 : ((cw.map Prod.fst).map (·.instr)).reverse.findSome? (fun y => wr s' y a)
          = cw.reverse.findSome? (fun p => wr s' p.1.instr a) := by
        rw [List.map_map, ← List.map_reverse, List.findSome?_map]; rfl
      rw [conv1, conv2]
      by_cases hin : s'.sp ≤ a ∧ a < s'.sp + 4 * k
      · -- in a slot
        obtain ⟨j, hj, hja⟩ : ∃ j : Nat, j < k ∧ s'.sp + 4 * j ≤ a ∧ a < s'.sp + 4 * j + 4 := by
          refine ⟨((a - s'.sp) / 4).toNat, ?_, ?_⟩ <;> omega
        obtain ⟨c1, p, c2, hcc, hpj⟩ := hrun j hj
        have hp : p ∈ cw := by rw [hcc]; simp
        have hpt := (hcw p hp).2.2
        obtain ⟨ad, n, v, he, hn, haddr⟩ := taken_slot hpj hpt (hokp p hp)
        obtain ⟨hu1, hu2, hsv⟩ := slotVal_of hcc hpj hnd he (r.map fun y => (y, none))
        rw [← hc] at hsv
        obtain ⟨q, hq⟩ := hval j hj
        rw [hsv] at hq
        cases hq
        have hbyte := p4 j q hj hsv a (by omega) (by omega)
        have hcandp : Candidate p.1 := by
          unfold TakenOk at hpt
          rw [hpj] at hpt
          exact ⟨(hcw p hp).1, hpt.1, hpt.2.1⟩
        -- nothing is written before
        have other : ∀ x ∈ cw, ∀ j', x.2 = some j' → j' ≠ j → wr s' x.1.instr a = none := by
          intro x hx j' hj' hne
          exact taken_none hj' (hcw x hx).2.2 (hokp x hx) s' a (by omega)
        have before : ∀ x ∈ c1, wr s' x.1.instr a = none := by
          intro x hx
          have hxc : x ∈ cw := by rw [hcc]; simp [hx]
          cases hx2 : x.2 with
          | some j' => exact other x hxc j' hx2 (fun h => hu1 x hx (by rw [hx2, h]))
          | none =>
            by_cases hcand : Candidate x.1
            · have htx := (hcw x hxc).2.2
              unfold TakenOk at htx
              rw [hx2] at htx
              rcases htx with h | h | ⟨ad', n', v', he', hi', hoff', hal'⟩
              · exact absurd hcand.2.1 (by simp [h])
              · exact absurd hcand.2.2 (by simp [h])
              · obtain ⟨ad'', n'', v'', he'', -, hb''⟩ := hokp x hxc
                rw [he'] at he''
                cases he''
                rw [he']
                simp only [wr]
                rw [if_neg]
                rw [addr_sp (hb'' hcand.2.1).1 hi']
                unfold TakenOk at hpt
                rw [hpj] at hpt
                obtain ⟨-, -, hb, -⟩ := hpt
                omega
            · obtain ⟨d1, d2, hd⟩ := List.append_of_mem hx
              refine wr_none.mpr (hind (d1.map Prod.fst) x.1 (d2.map Prod.fst) p.1 (c2.map Prod.fst ++ r) ?_ ?_ hcandp
                hcand ad n (.reg q) he a ?_ ?_)
              · rw [hl, hcc, hd]
                simp
              · intro z hz
                have : z ∈ c1.map Prod.fst := by rw [hd]; simpa using hz
                obtain ⟨y, hy, rfl⟩ := List.mem_map.mp this
                exact (hcw y (by rw [hcc]; simp [hy])).1
              · have := haddr s'
                unfold TakenOk at hpt
                rw [hpj] at hpt
                obtain ⟨-, -, -, a3, n3, v3, he3, -, ho3⟩ := hpt
                rw [he] at he3
                cases he3
                omega
              · unfold TakenOk at hpt
                rw [hpj] at hpt
                obtain ⟨-, -, -, a3, n3, v3, he3, -, ho3⟩ := hpt
                rw [he] at he3
                cases he3
                omega
        have kp : keep p = false := by simp only [keep, hpj]; simp; omega
        have f1 : (c1.filter keep).reverse.findSome? (fun p => wr s' p.1.instr a) = none := by
          apply findSome_none
          intro x hx
          exact before x (List.mem_filter.mp (List.mem_reverse.mp hx)).1
        have f1' : c1.reverse.findSome? (fun p => wr s' p.1.instr a) = none := by
          apply findSome_none
          intro x hx
          exact before x (List.mem_reverse.mp hx)
        have f2 : (c2.filter keep).reverse.findSome? (fun p => wr s' p.1.instr a)
            = c2.reverse.findSome? (fun p => wr s' p.1.instr a) := by
          rw [← List.filter_reverse]
          apply findSome_filter
          intro x hx hf
          have hx' := List.mem_reverse.mp hx
          have hxc : x ∈ cw := by rw [hcc]; simp [hx']
          obtain ⟨j', hj', -⟩ := hkeep x hxc hf
          exact other x hxc j' hj' (fun h => hu2 x hx' (by rw [hj', h]))
        rw [hcc, List.filter_append, List.filter_cons_of_neg (by simp [kp]), List.reverse_append,
          List.findSome?_append, f1, f2, Option.or_none, List.reverse_append, List.reverse_cons,
          List.append_assoc, List.findSome?_append, List.findSome?_append, f1', Option.or_none]
        cases hc2 : c2.reverse.findSome? (fun p => wr s' p.1.instr a) with
        | some b => left; rfl
        | none =>
          rw [Option.none_or, List.findSome?_cons, List.findSome?_nil, Option.getD_none, hbyte]
          by_cases hwn : a < s'.sp + 4 * j + n
          · left
            have : wr s' p.1.instr a = some (byteOf (s.reg q) (a - (s'.sp + 4 * j)).toNat) := by
              rw [he]
              simp only [wr]
              rw [if_pos (by rw [haddr]; omega), haddr]
              simp only [State.val, e0r]
            rw [this]
            simp only [Option.getD_some]
            rw [e1r]
            congr 1
            omega
          · right
            refine ⟨by omega, ?_, ?_, p.1, ?_, hcandp, ad, n, .reg q, he, by omega⟩
            · unfold TakenOk at hpt
              rw [hpj] at hpt
              obtain ⟨-, -, hb, -⟩ := hpt
              omega
            · intro x hx
              rw [← wr_none]
              obtain ⟨y, hy, rfl⟩ := List.mem_map.mp hx
              rcases List.mem_append.mp hy with h | h
              · exact before y h
              · rcases List.mem_cons.mp h with rfl | h
                · rw [he]
                  simp only [wr]
                  rw [if_neg (by rw [haddr]; omega)]
                · rw [List.findSome?_eq_none_iff] at hc2
                  exact hc2 y (List.mem_reverse.mpr h)
            · simp
      · left
        have hm : s2.mem a = s'.mem a := by
          rw [p3 a (by omega), e1m, e0m]
        rw [hm, ← List.filter_reverse, findSome_filter]
        intro x hx hf
        have hxc := List.mem_reverse.mp hx
        obtain ⟨j', hj', hlt⟩ := hkeep x hxc hf
        exact taken_none hj' (hcw x hxc).2.2 (hokp x hxc) s' a (by omega)

/-! ### Loads and pops -/

/-- The loads that start from the stack pointer say so in their address. -/
def LoadsOk (l : List Before) : Prop := ∀ d a, Before.load d a true ∈ l → a.base = .sp

/-- An instruction that may read a register. -/
def Uses (d : Nat) : Before → Prop
  | .load _ a _ => a.base = .reg d ∨ a.index = some d
  | .copy _ s => s = d
  | .otherCopy => False
  | .other _ => True

/-- A loaded value is used before its register is loaded again; the list is the schedule in reverse. -/
def LiveLoads (l : List Before) : Prop :=
  ∀ l1 d a b l2 a' b' l3, l = l1 ++ .load d a b :: (l2 ++ .load d a' b' :: l3) → ∃ y ∈ l2, Uses d y

theorem LiveLoads.tail {x : Before} {l : List Before} (h : LiveLoads (x :: l)) : LiveLoads l :=
  fun l1 d a b l2 a' b' l3 e => h (x :: l1) d a b l2 a' b' l3 (by rw [e]; rfl)

/-- A node of the walk leaves a register alone. -/
def NoTouch (x : Before) (d : Nat) : Prop :=
  match x with
  | .load d' _ _ => d' ≠ d
  | .copy d' s' => d' ≠ d ∧ s' ≠ d
  | _ => True

/-- A later node and an earlier taken node. -/
def Apart (x p : Before × Option Nat) : Prop :=
  ∀ d a b j, p = (.load d a b, some j) → NoTouch x.1 d ∧ x.2 ≠ some j

def LTakenOk (inc : Int) (p : Before × Option Nat) : Prop :=
  match p.1 with
  | .load _ a b => b = true ∧ a.base = .sp ∧ a.index = none ∧
      ∀ j, p.2 = some j → a.offset = 4 * j ∧ 4 * (j : Int) ≤ inc - 4
  | .other _ => False
  | _ => p.2 = none

theorem collectLoads_split (inc : Int) (l : List Before) (hb : LoadsOk l) (hl : LiveLoads l)
    (mask copied seen : List Nat) :
    ∃ cw r, l = cw.map Prod.fst ++ r ∧
      collectLoads inc mask copied seen l = cw ++ r.map (fun y => (y, none)) ∧
      (∀ p ∈ cw, LTakenOk inc p) ∧ cw.Pairwise Apart ∧
      (∀ p ∈ cw, ∀ d a b j, p = (.load d a b, some j) → d ∉ mask ∧ j ∉ seen) := by
  induction l generalizing mask copied seen with
  | nil => exact ⟨[], [], rfl, rfl, by simp, by simp, by simp⟩
  | cons x xs ih =>
    have stopCase : ∃ cw r, x :: xs = cw.map Prod.fst ++ r ∧
        (x :: xs).map (fun y => (y, (none : Option Nat))) = cw ++ r.map (fun y => (y, none)) ∧
        (∀ p ∈ cw, LTakenOk inc p) ∧ cw.Pairwise Apart ∧
        (∀ p ∈ cw, ∀ d a b j, p = (.load d a b, some j) → d ∉ mask ∧ j ∉ seen) :=
      ⟨[], x :: xs, rfl, rfl, by simp, by simp, by simp⟩
    have ih' := ih (fun d a h => hb d a (List.mem_cons_of_mem _ h)) hl.tail
    cases x with
    | other i => simp only [collectLoads]; exact stopCase
    | otherCopy =>
      simp only [collectLoads]
      obtain ⟨cw, r, h1, h2, h3, h4, h5⟩ := ih' mask copied seen
      refine ⟨(.otherCopy, none) :: cw, r, by rw [h1]; rfl, by rw [h2]; rfl, ?_, ?_, ?_⟩
      · intro p hp
        rcases List.mem_cons.mp hp with rfl | hp
        · rfl
        · exact h3 p hp
      · refine List.pairwise_cons.mpr ⟨fun p hp d a b j e => ⟨trivial, by simp⟩, h4⟩
      · intro p hp d a b j e
        rcases List.mem_cons.mp hp with rfl | hp
        · cases e
        · exact h5 p hp d a b j e
    | copy d s =>
      simp only [collectLoads]
      split
      · exact stopCase
      split
      · exact stopCase
      obtain ⟨cw, r, h1, h2, h3, h4, h5⟩ := ih' (d :: s :: mask) (d :: s :: copied) seen
      refine ⟨(.copy d s, none) :: cw, r, by rw [h1]; rfl, by rw [h2]; rfl, ?_, ?_, ?_⟩
      · intro p hp
        rcases List.mem_cons.mp hp with rfl | hp
        · rfl
        · exact h3 p hp
      · refine List.pairwise_cons.mpr ⟨fun p hp d' a b j e => ⟨?_, by simp⟩, h4⟩
        have := (h5 p hp d' a b j e).1
        simp only [List.mem_cons, not_or] at this
        exact ⟨fun h => this.1 h.symm, fun h => this.2.1 h.symm⟩
      · intro p hp d' a b j e
        rcases List.mem_cons.mp hp with rfl | hp
        · cases e
        · have := h5 p hp d' a b j e
          simp only [List.mem_cons, not_or] at this
          exact ⟨this.1.2.2, this.2⟩
    | load d a ourSp =>
      simp only [collectLoads]
      split
      · exact stopCase
      rename_i hos
      have hos : ourSp = true := by simpa using hos
      subst hos
      have hbase := hb d a (by simp)
      split
      · exact stopCase
      rename_i hidx
      have hidx : a.index = none := by simpa using hidx
      split
      · exact stopCase
      rename_i hal
      have skipCase : ∃ cw r, .load d a true :: xs = cw.map Prod.fst ++ r ∧
          (.load d a true, none) :: collectLoads inc mask copied seen xs
            = cw ++ r.map (fun y => (y, none)) ∧
          (∀ p ∈ cw, LTakenOk inc p) ∧ cw.Pairwise Apart ∧
          (∀ p ∈ cw, ∀ d a b j, p = (.load d a b, some j) → d ∉ mask ∧ j ∉ seen) := by
        obtain ⟨cw, r, h1, h2, h3, h4, h5⟩ := ih' mask copied seen
        refine ⟨(.load d a true, none) :: cw, r, by rw [h1]; rfl, by rw [h2]; rfl, ?_, ?_, ?_⟩
        · intro p hp
          rcases List.mem_cons.mp hp with rfl | hp
          · exact ⟨rfl, hbase, hidx, by simp⟩
          · exact h3 p hp
        · refine List.pairwise_cons.mpr ⟨fun p hp d' a' b' j e => ⟨?_, by simp⟩, h4⟩
          intro hdd
          have hdd : d = d' := hdd
          subst hdd
          obtain ⟨c1, c2, hc⟩ := List.append_of_mem hp
          obtain ⟨y, hy, hu⟩ := hl [] d a true (c1.map Prod.fst) a' b' (c2.map Prod.fst ++ r) (by
            rw [h1, hc, e]; simp)
          obtain ⟨q, hq, rfl⟩ := List.mem_map.mp hy
          have hq3 := h3 q (by rw [hc]; simp [hq])
          rw [hc] at h4
          have hap := (List.pairwise_append.mp h4).2.2 q hq p (by simp) d a' b' j e
          obtain ⟨q1, q2⟩ := q
          cases q1 with
          | load d2 a2 b2 =>
            obtain ⟨-, hb2, hi2, -⟩ := hq3
            rcases hu with hu | hu
            · rw [hb2] at hu; cases hu
            · rw [hi2] at hu; cases hu
          | copy d2 s2 => exact hap.1.2 hu
          | otherCopy => exact hu
          | other i => exact hq3
        · intro p hp d' a' b' j e
          rcases List.mem_cons.mp hp with rfl | hp
          · cases e
          · exact h5 p hp d' a' b' j e
      split
      · exact skipCase
      rename_i hw1
      split
      · exact skipCase
      rename_i hw2
      split
      · exact stopCase
      rename_i hseen
      split
      · exact stopCase
      rename_i hmask
      obtain ⟨cw, r, h1, h2, h3, h4, h5⟩ := ih' (d :: mask) copied ((a.offset / 4).toNat :: seen)
      refine ⟨(.load d a true, some (a.offset / 4).toNat) :: cw, r, by rw [h1]; rfl, by rw [h2]; rfl,
        ?_, ?_, ?_⟩
      · intro p hp
        rcases List.mem_cons.mp hp with rfl | hp
        · refine ⟨rfl, hbase, hidx, fun j hj => ?_⟩
          cases hj
          omega
        · exact h3 p hp
      · refine List.pairwise_cons.mpr ⟨fun p hp d' a' b' j e => ?_, h4⟩
        have := h5 p hp d' a' b' j e
        simp only [List.mem_cons, not_or] at this
        exact ⟨fun h => this.1.1 h.symm, fun h => this.2.1 (by simpa using h.symm)⟩
      · intro p hp d' a' b' j e
        rcases List.mem_cons.mp hp with rfl | hp
        · cases e
          exact ⟨hmask, hseen⟩
        · have := h5 p hp d' a' b' j e
          simp only [List.mem_cons, not_or] at this
          exact ⟨this.1.2, this.2.2⟩

/-- The walked part of the schedule without the converted loads: registers that are not loaded by one
have the same value, the others are to be loaded. -/
theorem run_loads (inc : Int) (first : Nat) (cw : List (Before × Option Nat))
    (hok : ∀ p ∈ cw, LTakenOk inc p) (hap : cw.Pairwise Apart) (s : State) :
    let keep : Before × Option Nat → Bool :=
      fun p => match p.2 with | some j => decide (j < first) | none => true
    let o := run s (cw.map (·.1.instr)).reverse
    let n := run s ((cw.filter keep).map (·.1.instr)).reverse
    o.sp = s.sp ∧ o.mem = s.mem ∧ n.sp = s.sp ∧ n.mem = s.mem ∧
    (∀ d a b j, (.load d a b, some j) ∈ cw → first ≤ j → o.reg d = read s.mem (s.sp + 4 * j)) ∧
    (∀ q, (∀ a b j, (Before.load q a b, some j) ∈ cw → j < first) → o.reg q = n.reg q) := by
  intro keep
  induction cw with
  | nil => exact ⟨rfl, rfl, rfl, rfl, by simp, fun _ _ => rfl⟩
  | cons x xs ih =>
    obtain ⟨h1, h2⟩ := List.pairwise_cons.mp hap
    obtain ⟨i1, i2, i3, i4, i5, i6⟩ := ih (fun p hp => hok p (List.mem_cons_of_mem _ hp)) h2
    have hx := hok x (by simp)
    dsimp only
    rw [List.map_cons, List.reverse_cons, run_append]
    generalize run s (xs.map (·.1.instr)).reverse = o at i1 i2 i5 i6 ⊢
    by_cases hk : keep x = true
    · rw [List.filter_cons_of_pos hk, List.map_cons, List.reverse_cons, run_append]
      generalize run s ((xs.filter keep).map (·.1.instr)).reverse = n at i3 i4 i6 ⊢
      obtain ⟨x1, x2⟩ := x
      -- the taken nodes among all
      have hsplit : ∀ d a b j, (Before.load d a b, some j) ∈ ((x1, x2) :: xs) → first ≤ j →
          (Before.load d a b, some j) ∈ xs := by
        intro d a b j hm hj
        rcases List.mem_cons.mp hm with e | hm
        · cases e
          simp only [keep, decide_eq_true_eq] at hk
          omega
        · exact hm
      cases x1 with
      | other i => exact absurd hx (by simp [LTakenOk])
      | otherCopy =>
        refine ⟨i1, i2, i3, i4, fun d a b j hm hj => i5 d a b j (hsplit d a b j hm hj) hj,
          fun q hq => i6 q fun a b j hm => hq a b j (List.mem_cons_of_mem _ hm)⟩
      | copy d0 s0 =>
        refine ⟨i1, i2, i3, i4, fun d a b j hm hj => ?_, fun q hq => ?_⟩
        · have hm' := hsplit d a b j hm hj
          have := (h1 _ hm' d a b j rfl).1
          show (if d = d0 then o.reg s0 else o.reg d) = _
          rw [if_neg (fun h => this.1 h.symm)]
          exact i5 d a b j hm' hj
        · show (if q = d0 then o.reg s0 else o.reg q) = (if q = d0 then n.reg s0 else n.reg q)
          split
          · refine i6 s0 fun a b j hm => ?_
            exact absurd rfl (h1 _ hm s0 a b j rfl).1.2
          · exact i6 q fun a b j hm => hq a b j (List.mem_cons_of_mem _ hm)
      | load d0 a0 b0 =>
        obtain ⟨-, hb0, hi0, -⟩ := hx
        refine ⟨i1, i2, i3, i4, fun d a b j hm hj => ?_, fun q hq => ?_⟩
        · have hm' := hsplit d a b j hm hj
          have := (h1 _ hm' d a b j rfl).1
          show (if d = d0 then read o.mem (o.addr a0) else o.reg d) = _
          rw [if_neg (fun h => this h.symm)]
          exact i5 d a b j hm' hj
        · show (if q = d0 then read o.mem (o.addr a0) else o.reg q)
            = (if q = d0 then read n.mem (n.addr a0) else n.reg q)
          rw [addr_sp hb0 hi0, addr_sp hb0 hi0, i1, i2, i3, i4]
          split
          · rfl
          · exact i6 q fun a b j hm => hq a b j (List.mem_cons_of_mem _ hm)
    · rw [List.filter_cons_of_neg hk]
      generalize run s ((xs.filter keep).map (·.1.instr)).reverse = n at i3 i4 i6 ⊢
      obtain ⟨x1, x2⟩ := x
      cases x2 with
      | none => exact absurd rfl hk
      | some j0 =>
        simp only [keep, decide_eq_true_eq] at hk
        cases x1 with
        | other i => exact absurd hx (by simp [LTakenOk])
        | otherCopy => exact absurd hx (by simp [LTakenOk])
        | copy d0 s0 => exact absurd hx (by simp [LTakenOk])
        | load d0 a0 b0 =>
          obtain ⟨-, hb0, hi0, hoff⟩ := hx
          refine ⟨i1, i2, i3, i4, fun d a b j hm hj => ?_, fun q hq => ?_⟩
          · show (if d = d0 then read o.mem (o.addr a0) else o.reg d) = _
            rcases List.mem_cons.mp hm with e | hm
            · cases e
              rw [if_pos rfl, addr_sp hb0 hi0, i1, i2, (hoff _ rfl).1]
            · rw [if_neg]
              · exact i5 d a b j hm hj
              · exact fun h => (h1 _ hm d a b j rfl).1 h.symm
          · show (if q = d0 then read o.mem (o.addr a0) else o.reg q) = n.reg q
            rw [if_neg]
            · exact i6 q fun a b j hm => hq a b j (List.mem_cons_of_mem _ hm)
            · rintro rfl
              exact hk (hq a0 b0 j0 (by simp))

/-- A run of pops. -/
theorem run_pops (g : Nat → Option Nat) (base : Int) (k f : Nat) (s : State)
    (hs : s.sp = base + 4 * f) (hg : ∀ j, f ≤ j → j < f + k → ∃ d, g j = some d)
    (hinj : ∀ j j' d, f ≤ j → j < j' → j' < f + k → g j = some d → g j' ≠ some d) :
    let t := run s (((List.range' f k).filterMap g).map Instr.pop)
    t.sp = base + 4 * (f + k) ∧ t.mem = s.mem ∧
    (∀ j d, f ≤ j → j < f + k → g j = some d → t.reg d = read s.mem (base + 4 * j)) ∧
    (∀ q, (∀ j, f ≤ j → j < f + k → g j ≠ some q) → t.reg q = s.reg q) := by
  induction k generalizing f s with
  | zero => exact ⟨by rw [show run s _ = s from rfl, hs]; omega, rfl, fun j d h1 h2 => by omega, fun _ _ => rfl⟩
  | succ k ih =>
    obtain ⟨d0, hd0⟩ := hg f (by omega) (by omega)
    intro t
    have ht : t = run (exec s (.pop d0)) (((List.range' (f + 1) k).filterMap g).map Instr.pop) := by
      show run s _ = _
      rw [List.range'_succ, List.filterMap_cons, hd0]
      rfl
    have hs' : (exec s (.pop d0)).sp = base + 4 * (f + 1 : Nat) := by
      show s.sp + 4 = _
      rw [hs]; omega
    obtain ⟨h1, h2, h3, h4⟩ := ih (f + 1) (exec s (.pop d0)) hs'
      (fun j a b => hg j (by omega) (by omega)) (fun j j' d a b c => hinj j j' d (by omega) b (by omega))
    rw [← ht] at h1 h2 h3 h4
    refine ⟨by rw [h1]; omega, h2, fun j d hj1 hj2 hgj => ?_, fun q hq => ?_⟩
    · by_cases hj : j = f
      · subst hj
        rw [hd0] at hgj
        cases hgj
        rw [h4 d0 (fun j' a b => hinj j j' d0 (by omega) (by omega) (by omega) hd0)]
        show (if d0 = d0 then read s.mem s.sp else _) = _
        rw [if_pos rfl, hs]
      · exact h3 j d (by omega) (by omega) hgj
    · rw [h4 q (fun j a b => hq j (by omega) (by omega))]
      show (if q = d0 then _ else s.reg q) = _
      rw [if_neg]
      rintro rfl
      exact hq f (by omega) (by omega) hd0

theorem firstOfRun_spec (slots : List Nat) (m : Nat) (hm : m ∈ slots) :
    firstOfRun slots m ≤ m ∧ ∀ j, firstOfRun slots m ≤ j → j ≤ m → j ∈ slots := by
  have aux : ∀ m, firstOfRun slots m ≤ m + 1 ∧ (∀ j, firstOfRun slots m ≤ j → j ≤ m → j ∈ slots) ∧
      (m ∈ slots → firstOfRun slots m ≤ m) := by
    intro m
    induction m with
    | zero =>
      simp only [firstOfRun]
      split
      · rename_i h
        exact ⟨by omega, fun j _ h2 => by rw [show j = 0 by omega]; exact h, fun _ => by omega⟩
      · rename_i h
        exact ⟨by omega, fun j h1 h2 => by omega, fun h' => absurd h' h⟩
    | succ m ih =>
      simp only [firstOfRun]
      split
      · rename_i h
        refine ⟨by omega, fun j h1 h2 => ?_, fun _ => by omega⟩
        by_cases hj : j = m + 1
        · subst hj; exact h
        · exact ih.2.1 j h1 (by omega)
      · rename_i h
        exact ⟨by omega, fun j h1 h2 => by omega, fun h' => absurd h' h⟩
  exact ⟨(aux m).2.2 hm, (aux m).2.1⟩

theorem pairwise_either {α : Type} {R : α → α → Prop} {l : List α} (h : l.Pairwise R) {x y : α}
    (hx : x ∈ l) (hy : y ∈ l) : x = y ∨ R x y ∨ R y x := by
  induction l with
  | nil => cases hx
  | cons z zs ih =>
    obtain ⟨h1, h2⟩ := List.pairwise_cons.mp h
    rcases List.mem_cons.mp hx with e | hx'
    · subst e
      rcases List.mem_cons.mp hy with e | hy
      · exact .inl e.symm
      · exact .inr (.inl (h1 _ hy))
    · rcases List.mem_cons.mp hy with e | hy
      · subst e; exact .inr (.inr (h1 _ hx'))
      · exact ih h2 hx' hy

theorem state_ext {s t : State} (h1 : ∀ q, s.reg q = t.reg q) (h2 : s.sp = t.sp) (h3 : s.mem = t.mem) :
    s = t := by
  cases s; cases t
  simp only at h1 h2 h3
  rw [funext h1, h2, h3]

/-- Loads and pops: the code does the same. -/
theorem pop_same (inc : Int) (l : List Before) (hb : LoadsOk l) (hl : LiveLoads l) (s : State) :
    run s (loadToPop inc l) = run s ((l.map (·.instr)).reverse ++ [.incSP (-inc)]) := by
  unfold loadToPop
  split
  · rfl
  obtain ⟨cw, r, e1, e2, hok, hap, -⟩ := collectLoads_split inc l hb hl [] [] []
  dsimp only
  generalize hc : collectLoads inc [] [] [] l = c at e2 ⊢
  generalize hslots : c.filterMap (·.2) = slots
  split
  · rfl
  rename_i m hm
  have hmm : m ∈ slots := List.max?_mem hm
  have hmax : ∀ j ∈ slots, j ≤ m := (List.max?_eq_some_iff.mp hm).2
  obtain ⟨hf1, hf2⟩ := firstOfRun_spec slots m hmm
  generalize firstOfRun slots m = first at hf1 hf2 ⊢
  -- slots and registers
  have hmemslot : ∀ j, j ∈ slots → ∃ d a b, (Before.load d a b, some j) ∈ cw := by
    intro j hj
    rw [← hslots, e2] at hj
    obtain ⟨p, hp, hpj⟩ := List.mem_filterMap.mp hj
    rcases List.mem_append.mp hp with hp | hp
    · have := hok p hp
      obtain ⟨p1, p2⟩ := p
      dsimp only at hpj
      subst hpj
      cases p1 with
      | load d a b => exact ⟨d, a, b, hp⟩
      | copy d a => simp [LTakenOk] at this
      | otherCopy => simp [LTakenOk] at this
      | other i => simp [LTakenOk] at this
    · obtain ⟨y, -, rfl⟩ := List.mem_map.mp hp
      cases hpj
  have hslotmem : ∀ d a b j, (Before.load d a b, some j) ∈ cw → j ∈ slots := by
    intro d a b j h
    rw [← hslots, e2]
    exact List.mem_filterMap.mpr ⟨_, List.mem_append_left _ h, rfl⟩
  have huniq : ∀ d a b j d' a' b', (Before.load d a b, some j) ∈ cw →
      (Before.load d' a' b', some j) ∈ cw → d = d' := by
    intro d a b j d' a' b' h h'
    rcases pairwise_either hap h h' with e | e | e
    · cases e; rfl
    · exact absurd rfl (e d' a' b' j rfl).2
    · exact absurd rfl (e d a b j rfl).2
  have hreg : ∀ j d, slotReg c j = some d ↔ ∃ a b, (Before.load d a b, some j) ∈ cw := by
    have fwd : ∀ j d, slotReg c j = some d → ∃ a b, (Before.load d a b, some j) ∈ cw := by
      intro j d h
      unfold slotReg at h
      obtain ⟨p, hp, hpd⟩ := List.exists_of_findSome?_eq_some h
      obtain ⟨p1, p2⟩ := p
      dsimp only at hpd
      split at hpd
      · rename_i hj
        subst hj
        split at hpd
        · rename_i d' a b
          cases hpd
          rw [e2] at hp
          rcases List.mem_append.mp hp with hp | hp
          · exact ⟨_, _, hp⟩
          · obtain ⟨y, -, e⟩ := List.mem_map.mp hp
            cases e
        · cases hpd
      · cases hpd
    intro j d
    refine ⟨fwd j d, fun ⟨a, b, h⟩ => ?_⟩
    cases hs : slotReg c j with
    | none =>
      exfalso
      unfold slotReg at hs
      rw [List.findSome?_eq_none_iff] at hs
      have := hs (.load d a b, some j) (by rw [e2]; exact List.mem_append_left _ h)
      simp at this
    | some d' =>
      obtain ⟨a', b', h'⟩ := fwd j d' hs
      rw [huniq d a b j d' a' b' h h']
  have hinj : ∀ j j' d, slotReg c j = some d → slotReg c j' = some d → j = j' := by
    intro j j' d h h'
    obtain ⟨a, b, h⟩ := (hreg j d).mp h
    obtain ⟨a', b', h'⟩ := (hreg j' d).mp h'
    rcases pairwise_either hap h h' with e | e | e
    · cases e; rfl
    · exact absurd rfl (e d a' b' j' rfl).1
    · exact absurd rfl (e d a b j rfl).1
  -- the two codes
  let keep : Before × Option Nat → Bool :=
    fun p => match p.2 with | some j => decide (j < first) | none => true
  have hfilt : (c.filter keep).map (·.1.instr)
      = (cw.filter keep).map (·.1.instr) ++ r.map (·.instr) := by
    rw [e2, List.filter_append, List.map_append]
    congr 1
    rw [List.filter_eq_self.mpr]
    · rw [List.map_map]; rfl
    · intro q hq
      obtain ⟨y, -, rfl⟩ := List.mem_map.mp hq
      rfl
  show run s (((c.filter keep).map (·.1.instr)).reverse ++ _ ++ _ ++ _) = _
  rw [hfilt, List.reverse_append]
  have horig : (l.map (·.instr)).reverse
      = (r.map (·.instr)).reverse ++ (cw.map (·.1.instr)).reverse := by
    rw [e1, List.map_append, List.reverse_append, List.map_map]
    rfl
  rw [horig]
  simp only [List.append_assoc, run_append]
  generalize run s (r.map (·.instr)).reverse = s0
  obtain ⟨i1, i2, i3, i4, i5, i6⟩ := run_loads inc first cw hok hap s0
  generalize run s0 (cw.map (·.1.instr)).reverse = o at i1 i2 i5 i6 ⊢
  change (run s0 ((cw.filter keep).map (·.1.instr)).reverse).sp = _ at i3
  change (run s0 ((cw.filter keep).map (·.1.instr)).reverse).mem = _ at i4
  change ∀ q, _ → _ = (run s0 ((cw.filter keep).map (·.1.instr)).reverse).reg q at i6
  generalize run s0 ((cw.filter keep).map (·.1.instr)).reverse = n at i3 i4 i6 ⊢
  generalize hn1 : run n (if first > 0 then [.incSP (-(4 * (first : Int)))] else []) = n1
  have hn1r : n1.reg = n.reg ∧ n1.mem = n.mem ∧ n1.sp = s0.sp + 4 * first := by
    rw [← hn1]
    split
    · refine ⟨rfl, rfl, ?_⟩
      show n.sp - -(4 * (first : Int)) = _
      rw [i3]; omega
    · refine ⟨rfl, rfl, ?_⟩
      show n.sp = _
      rw [i3]; omega
  obtain ⟨hr1, hm1, hs1⟩ := hn1r
  obtain ⟨p1, p2, p3, p4⟩ := run_pops (slotReg c) s0.sp (m + 1 - first) first n1 hs1
    (by
      intro j hj1 hj2
      obtain ⟨d, a, b, h⟩ := hmemslot j (hf2 j hj1 (by omega))
      exact ⟨d, (hreg j d).mpr ⟨a, b, h⟩⟩)
    (by
      intro j j' d _ hlt _ h h'
      have := hinj j j' d h h'
      omega)
  generalize run n1 (((List.range' first (m + 1 - first)).filterMap (slotReg c)).map Instr.pop) = t at p1 p2 p3 p4 ⊢
  apply state_ext
  · intro q
    show t.reg q = o.reg q
    by_cases hq : ∃ j, first ≤ j ∧ j ≤ m ∧ slotReg c j = some q
    · obtain ⟨j, hj1, hj2, hj⟩ := hq
      rw [p3 j q hj1 (by omega) hj]
      obtain ⟨a, b, h⟩ := (hreg j q).mp hj
      rw [i5 q a b j h hj1, hm1, i4]
    · rw [p4 q (fun j h1 h2 h3 => hq ⟨j, h1, by omega, h3⟩), hr1]
      refine (i6 q fun a b j hm => ?_).symm
      by_cases hlt : j < first
      · exact hlt
      · exact absurd ⟨j, by omega, hmax j (hslotmem q a b j hm), (hreg j q).mpr ⟨a, b, hm⟩⟩ hq
  · show t.sp - -(inc - 4 * (m + 1)) = o.sp - -inc
    rw [p1, i1]
    omega
  · show t.mem = o.mem
    rw [p2, hm1, i4, i2]

/-! ### Moves of the stack pointer -/

theorem exec_spFree {x : Instr} (hx : SpFree x = true) (s : State) (p : Int) :
    exec { s with sp := p } x = { exec s x with sp := p } ∧ (exec s x).sp = s.sp := by
  have haddr : ∀ a : Addr, a.base ≠ .sp → State.addr { s with sp := p } a = s.addr a := by
    intro a ha
    unfold State.addr
    cases hb : a.base with
    | sp => exact absurd hb ha
    | reg r => rfl
  cases x with
  | incSP n => cases hx
  | push v => cases hx
  | pop d => cases hx
  | copy d r => exact ⟨rfl, rfl⟩
  | idle => exact ⟨rfl, rfl⟩
  | store a n v =>
    simp only [SpFree, Bool.and_eq_true, bne_iff_ne, ne_eq] at hx
    refine ⟨?_, rfl⟩
    simp only [exec]
    rw [haddr a hx.1]
    cases v with
    | sp => exact absurd rfl hx.2
    | reg r => rfl
  | load d a =>
    simp only [SpFree, bne_iff_ne, ne_eq] at hx
    refine ⟨?_, rfl⟩
    simp only [exec]
    rw [haddr a hx]
    rfl

theorem run_spFree {l : List Instr} (hl : ∀ x ∈ l, SpFree x = true) (s : State) (p : Int) :
    run { s with sp := p } l = { run s l with sp := p } ∧ (run s l).sp = s.sp := by
  induction l generalizing s with
  | nil => exact ⟨rfl, rfl⟩
  | cons x xs ih =>
    obtain ⟨h1, h2⟩ := exec_spFree (hl x (by simp)) s p
    obtain ⟨i1, i2⟩ := ih (fun y hy => hl y (List.mem_cons_of_mem _ hy)) (exec s x)
    rw [run_cons, run_cons, h1]
    exact ⟨i1, i2.trans h2⟩

end Verif.Lemmas.Ia32Stack
