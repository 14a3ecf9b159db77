import Verif.Model.LowerModeB
/-!
# Lemmas: lowering of boolean values
-/
namespace Verif.Lemmas.LowerModeB

open Verif.Spec.ModeB Verif.Model.LowerModeB

variable {w : Nat} {N : Nat} {g0 : Nat → Node} {e : Nat → Nat} {V : Bool → Nat → Bool}

/-- a new Phi has the value of an old one, and is entered as that one was; the others use nodes made before -/
def Shape (N : Nat) (g0 : Nat → Node) (V : Bool → Nat → Bool) (W : Bool → Nat → BitVec w) (preds : Nat → Entry) (nd : Node) (r : Nat) : Prop :=
  (∀ k, nd.op = .phi k → ∃ n, n < N ∧ (g0 n).op = .phi k ∧ Rep V W n r ∧ preds nd.blk = .orig (g0 n).blk) ∧ ((∀ k, nd.op ≠ .phi k) → ∀ x ∈ nd.ins, x < r)

/-- the old nodes are as before, but for their blocks; links lead to right values; the new nodes have right equations -/
structure Inv (N : Nat) (g0 : Nat → Node) (e : Nat → Nat) (V : Bool → Nat → Bool) (s : St) (W : Bool → Nat → BitVec w) : Prop where
  le : N ≤ s.cnt
  old : ∀ n, n < N → (s.node n).op = (g0 n).op ∧ (s.node n).ins = (g0 n).ins
  phi : ∀ n k, n < N → (g0 n).op = .phi k → s.preds (s.node n).blk = .orig (g0 n).blk
  blk : ∀ n, (s.node n).blk < s.nblk
  link : ∀ n r, s.link n = some r → r < s.cnt ∧ N ≤ r ∧ Rep V W n r
  eqs : ∀ r, N ≤ r → r < s.cnt → IntEq e s.preds V W (s.node r) r ∧ (∀ x ∈ (s.node r).ins, x < s.cnt)
  new : ∀ r, N ≤ r → r < s.cnt → (s.node r).op ≠ .condSet → ∀ x ∈ (s.node r).ins, N ≤ x
  shape : ∀ r, N ≤ r → r < s.cnt → Shape N g0 V W s.preds (s.node r) r

/-- what stays in a later state -/
structure Ext (s s' : St) (W W' : Bool → Nat → BitVec w) : Prop where
  le : s.cnt ≤ s'.cnt
  val : ∀ p r, r < s.cnt → W' p r = W p r
  node : ∀ r, r < s.cnt → (s'.node r).op = (s.node r).op ∧ (s'.node r).ins = (s.node r).ins
  compl : ∀ r, s.cnt ≤ r → r < s'.cnt → Complete (s'.node r)
  nblk : s.nblk ≤ s'.nblk
  entry : ∀ r, r < s.cnt → isPhi (s.node r).op = true → s'.preds (s'.node r).blk = s.preds (s.node r).blk

theorem Ext.refl (s : St) (W : Bool → Nat → BitVec w) : Ext s s W W :=
  ⟨Nat.le_refl _, fun _ _ _ => rfl, fun _ _ => ⟨rfl, rfl⟩, fun _ h h' => absurd h (by omega), Nat.le_refl _, fun _ _ _ => rfl⟩

theorem Ext.trans {s s' s'' : St} {W W' W'' : Bool → Nat → BitVec w} (h : Ext s s' W W') (h' : Ext s' s'' W' W'') : Ext s s'' W W'' := by
  refine ⟨Nat.le_trans h.le h'.le, fun p r hr => ?_, fun r hr => ?_, fun r hr hr' => ?_, Nat.le_trans h.nblk h'.nblk,
    fun r hr hp => (h'.entry r (by have := h.le; omega) (by rw [(h.node r hr).1]; exact hp)).trans (h.entry r hr hp)⟩
  · rw [h'.val p r (by have := h.le; omega), h.val p r hr]
  · have a := h.node r hr
    have b := h'.node r (by have := h.le; omega)
    exact ⟨b.1.trans a.1, b.2.trans a.2⟩
  · by_cases hc : r < s'.cnt
    · have a := h.compl r hr hc
      have b := h'.node r hc
      intro k hk
      rw [b.1] at hk
      rw [b.2]
      exact a k hk
    · exact h'.compl r (by omega) hr'

theorem Ext.rep {s s' : St} {W W' : Bool → Nat → BitVec w} (h : Ext s s' W W') {n r : Nat} (hr : r < s.cnt) (hp : Rep V W n r) : Rep V W' n r :=
  fun p => by rw [h.val p r hr]; exact hp p

/-- equations need the values of the node and its operands only -/
theorem intEq_congr {preds : Nat → Entry} {W W' : Bool → Nat → BitVec w} {nd : Node} {r : Nat} (hr : ∀ p, W' p r = W p r) (hi : ∀ x ∈ nd.ins, ∀ p, W' p x = W p x)
    (h : IntEq e preds V W nd r) : IntEq e preds V W' nd r := by
  obtain ⟨op, ins, blk⟩ := nd
  cases op
  case phi k =>
    intro b0 x hb hx
    have hm : x ∈ ins := List.mem_of_getElem? hx
    rw [hr, hi x hm]
    exact h b0 x hb hx
  case one | zero =>
    cases ins with
    | nil => intro p; rw [hr]; exact h p
    | cons a l => exact h
  case condSet =>
    match ins, h with
    | [c], h => intro p; rw [hr]; exact h p
  case and | or | eor =>
    match ins, h, hi with
    | [a, b], h, hi =>
      intro p
      rw [hr, hi a (by simp), hi b (by simp)]
      exact h p
  all_goals exact h

/-- one more value -/
def upd (W : Bool → Nat → BitVec w) (c : Nat) (val : Bool → BitVec w) : Bool → Nat → BitVec w := fun p x => if x = c then val p else W p x

theorem upd_self (W : Bool → Nat → BitVec w) (c : Nat) (val : Bool → BitVec w) (p : Bool) : upd W c val p c = val p := if_pos rfl

theorem upd_lt (W : Bool → Nat → BitVec w) {c x : Nat} (val : Bool → BitVec w) (p : Bool) (h : x < c) : upd W c val p x = W p x := if_neg (by omega)

/-- a new node with the value its equation gives it -/
theorem push_inv {s : St} {W : Bool → Nat → BitVec w} (hI : Inv N g0 e V s W) (op : Op) (ins : List Nat) (b : Nat) (val : Bool → BitVec w) (hb : b < s.nblk)
    (hi : ∀ x ∈ ins, x < s.cnt)
    (heq : IntEq e s.preds V (upd W s.cnt val) ⟨op, ins, b⟩ s.cnt) (hnew : op ≠ .condSet → ∀ x ∈ ins, N ≤ x)
    (hsh : ∀ k, op = .phi k → ∃ n, n < N ∧ (g0 n).op = .phi k ∧ (∀ p, val p = if V p n then 1 else 0) ∧ s.preds b = .orig (g0 n).blk) :
    Inv N g0 e V (push op ins b s).2 (upd W s.cnt val) := by
  have hle := hI.le
  refine ⟨by show N ≤ s.cnt + 1; omega, fun n hn => ?_, fun n k hn hk => ?_, fun n => ?_, fun n r hr => ?_, fun r hr hr' => ?_, fun r hr hr' => ?_, fun r hr hr' => ?_⟩
  · show ((if n = s.cnt then _ else s.node n : Node)).op = _ ∧ ((if n = s.cnt then _ else s.node n : Node)).ins = _
    rw [if_neg (by omega)]
    exact hI.old n hn
  · show s.preds ((if n = s.cnt then _ else s.node n : Node)).blk = _
    rw [if_neg (by omega)]
    exact hI.phi n k hn hk
  · show ((if n = s.cnt then _ else s.node n : Node)).blk < s.nblk
    by_cases h : n = s.cnt
    · rw [if_pos h]; exact hb
    · rw [if_neg h]; exact hI.blk n
  · obtain ⟨h1, h0, h2⟩ := hI.link n r hr
    refine ⟨Nat.lt_succ_of_lt h1, h0, fun p => ?_⟩
    rw [upd_lt _ _ _ h1]
    exact h2 p
  · show IntEq e s.preds V _ (if r = s.cnt then _ else s.node r) r ∧ ∀ x ∈ ((if r = s.cnt then _ else s.node r : Node)).ins, x < s.cnt + 1
    by_cases h : r = s.cnt
    · subst h
      rw [if_pos rfl]
      exact ⟨heq, fun x hx => Nat.lt_succ_of_lt (hi x hx)⟩
    · rw [if_neg h]
      have hr'' : r < s.cnt := by have : r < s.cnt + 1 := hr'; omega
      obtain ⟨h1, h2⟩ := hI.eqs r hr hr''
      refine ⟨intEq_congr (fun p => ?_) (fun x hx p => ?_) h1, fun x hx => Nat.lt_succ_of_lt (h2 x hx)⟩
      · rw [upd_lt _ _ _ hr'']
      · rw [upd_lt _ _ _ (h2 x hx)]
  · show ((if r = s.cnt then _ else s.node r : Node)).op ≠ _ → ∀ x ∈ ((if r = s.cnt then _ else s.node r : Node)).ins, N ≤ x
    by_cases h : r = s.cnt
    · rw [if_pos h]; exact hnew
    · rw [if_neg h]; exact hI.new r hr (by have : r < s.cnt + 1 := hr'; omega)
  · show Shape N g0 V _ s.preds (if r = s.cnt then _ else s.node r) r
    by_cases h : r = s.cnt
    · subst h
      rw [if_pos rfl]
      refine ⟨fun k hk => ?_, fun _ x hx => hi x hx⟩
      obtain ⟨n, h1, h2, h3, h4⟩ := hsh k hk
      exact ⟨n, h1, h2, fun p => by rw [upd_self, h3 p], h4⟩
    · rw [if_neg h]
      have hr'' : r < s.cnt := by have : r < s.cnt + 1 := hr'; omega
      obtain ⟨h1, h2⟩ := hI.shape r hr hr''
      refine ⟨fun k hk => ?_, h2⟩
      obtain ⟨n, a1, a2, a3, a4⟩ := h1 k hk
      exact ⟨n, a1, a2, fun p => by rw [upd_lt _ _ _ hr'', a3 p], a4⟩

theorem push_node_lt {s : St} {op : Op} {ins : List Nat} {b r : Nat} (hr : r < s.cnt) : (push op ins b s).2.node r = s.node r := by
  show (if r = s.cnt then _ else s.node r : Node) = _
  rw [if_neg (by omega)]

theorem push_ext {s : St} {W : Bool → Nat → BitVec w} (op : Op) (ins : List Nat) (b : Nat) (val : Bool → BitVec w) (hc : Complete ⟨op, ins, b⟩) :
    Ext s (push op ins b s).2 W (upd W s.cnt val) := by
  refine ⟨Nat.le_succ _, fun p r hr => ?_, fun r hr => ?_, fun r hr hr' => ?_, Nat.le_refl _, fun r hr _ => by rw [push_node_lt hr]; rfl⟩
  · rw [upd_lt _ _ _ hr]
  · rw [push_node_lt hr]; exact ⟨rfl, rfl⟩
  · have : r = s.cnt := by have : r < s.cnt + 1 := hr'; omega
    subst this
    show Complete (if s.cnt = s.cnt then _ else _)
    rw [if_pos rfl]
    exact hc

theorem complete_of {op : Op} {ins : List Nat} {b : Nat} (h : ∀ k, op ≠ .phi k) : Complete ⟨op, ins, b⟩ := fun k hk => absurd hk (h k)

theorem setLink_inv {s : St} {W : Bool → Nat → BitVec w} (hI : Inv N g0 e V s W) {n r : Nat} (hr : r < s.cnt) (hN : N ≤ r) (hp : Rep V W n r) :
    Inv N g0 e V (setLink n r s) W := by
  refine ⟨hI.le, hI.old, hI.phi, hI.blk, fun n' r' h => ?_, hI.eqs, hI.new, hI.shape⟩
  have h : (if n' = n then some r else s.link n') = some r' := h
  by_cases hc : n' = n
  · rw [if_pos hc] at h
    cases h
    subst hc
    exact ⟨hr, hN, hp⟩
  · rw [if_neg hc] at h
    exact hI.link n' r' h

theorem setLink_ext {s s' : St} {W W' : Bool → Nat → BitVec w} (h : Ext s s' W W') (n r : Nat) : Ext s (setLink n r s') W W' := ⟨h.le, h.val, h.node, h.compl, h.nblk, h.entry⟩

/-! ## splitting of blocks -/

theorem move_spec (fr to : Nat) (hne : to ≠ fr) (f : Nat) : ∀ (n : Nat) (g : Nat → Node), (g n).blk = fr → ∀ x, (move fr to f n g x).op = (g x).op ∧
    (move fr to f n g x).ins = (g x).ins ∧ ((move fr to f n g x).blk = (g x).blk ∨ (g x).blk = fr ∧ (move fr to f n g x).blk = to) := by
  induction f with
  | zero => intro n g _ x; exact ⟨rfl, rfl, .inl rfl⟩
  | succ f ih =>
    intro n g hn x
    have hset : ∀ y, (setBlk g n to y).op = (g y).op ∧ (setBlk g n to y).ins = (g y).ins ∧
        ((setBlk g n to y).blk = (g y).blk ∨ (g y).blk = fr ∧ (setBlk g n to y).blk = to) := by
      intro y
      unfold setBlk
      by_cases h : y = n
      · subst h; rw [if_pos rfl]; exact ⟨rfl, rfl, .inr ⟨hn, rfl⟩⟩
      · rw [if_neg h]; exact ⟨rfl, rfl, .inl rfl⟩
    rw [move]
    by_cases hp : isPhi (g n).op = true
    · rw [if_pos hp]; exact hset x
    · rw [if_neg hp]
      have : ∀ (l : List Nat) (h : Nat → Node), (∀ y, (h y).op = (g y).op ∧ (h y).ins = (g y).ins ∧ ((h y).blk = (g y).blk ∨ (g y).blk = fr ∧ (h y).blk = to)) →
          ∀ y, (l.foldl (fun h p => if (h p).blk = fr then move fr to f p h else h) h y).op = (g y).op ∧
            (l.foldl (fun h p => if (h p).blk = fr then move fr to f p h else h) h y).ins = (g y).ins ∧
            ((l.foldl (fun h p => if (h p).blk = fr then move fr to f p h else h) h y).blk = (g y).blk ∨
              (g y).blk = fr ∧ (l.foldl (fun h p => if (h p).blk = fr then move fr to f p h else h) h y).blk = to) := by
        intro l
        induction l with
        | nil => intro h hh y; exact hh y
        | cons p l ihl =>
          intro h hh
          rw [List.foldl_cons]
          apply ihl
          intro y
          by_cases hb : (h p).blk = fr
          · rw [if_pos hb]
            obtain ⟨a1, a2, a3⟩ := ih p h hb y
            obtain ⟨b1, b2, b3⟩ := hh y
            refine ⟨a1.trans b1, a2.trans b2, ?_⟩
            rcases a3 with a3 | ⟨a3, a4⟩
            · rw [a3]; exact b3
            · rcases b3 with b3 | ⟨_, b4⟩
              · exact .inr ⟨b3 ▸ a3, a4⟩
              · rw [b4] at a3; exact absurd a3 hne
          · rw [if_neg hb]; exact hh y
      exact this _ _ hset x

theorem part_inv {s : St} {W : Bool → Nat → BitVec w} (hI : Inv N g0 e V s W) (fuel c : Nat) :
    Inv N g0 e V (partBlock fuel c s) W ∧ (∀ x, ((partBlock fuel c s).node x).op = (s.node x).op ∧ ((partBlock fuel c s).node x).ins = (s.node x).ins) ∧
      (∀ x, isPhi (s.node x).op = true → (partBlock fuel c s).preds ((partBlock fuel c s).node x).blk = s.preds (s.node x).blk) := by
  have hB := hI.blk c
  have hmv := move_spec (s.node c).blk s.nblk (by omega) fuel c s.node rfl
  have hn : ∀ x, ((partBlock fuel c s).node x).op = (s.node x).op ∧ ((partBlock fuel c s).node x).ins = (s.node x).ins ∧
      (((partBlock fuel c s).node x).blk = (s.node x).blk ∧ (isPhi (s.node x).op = true → (s.node x).blk ≠ (s.node c).blk) ∨
        (s.node x).blk = (s.node c).blk ∧ ((partBlock fuel c s).node x).blk = s.nblk) := by
    intro x
    obtain ⟨h1, h2, h3⟩ := hmv x
    unfold partBlock
    dsimp only
    by_cases hc : isPhi (move (s.node c).blk s.nblk fuel c s.node x).op = true ∧ (move (s.node c).blk s.nblk fuel c s.node x).blk = (s.node c).blk
    · rw [if_pos hc]
      refine ⟨h1, h2, .inr ⟨?_, rfl⟩⟩
      rcases h3 with h3 | ⟨h3, _⟩
      · rw [← h3]; exact hc.2
      · exact h3
    · rw [if_neg hc]
      refine ⟨h1, h2, ?_⟩
      rcases h3 with h3 | h3
      · refine .inl ⟨h3, fun hp hb => hc ⟨by rw [h1]; exact hp, by rw [h3]; exact hb⟩⟩
      · exact .inr h3
  have hpre : ∀ x, isPhi (s.node x).op = true → (partBlock fuel c s).preds ((partBlock fuel c s).node x).blk = s.preds (s.node x).blk := by
    intro x hp
    have hx := hI.blk x
    show (if _ = s.nblk then s.preds (s.node c).blk else if _ = (s.node c).blk then _ else s.preds _) = _
    rcases (hn x).2.2 with ⟨h1, h2⟩ | ⟨h1, h2⟩
    · rw [h1, if_neg (by omega), if_neg (h2 hp)]
    · rw [h2, if_pos rfl, h1]
  refine ⟨⟨hI.le, fun n hn' => ?_, fun n k hn' hk => ?_, fun n => ?_, hI.link, fun r hr hr' => ?_, fun r hr hr' => ?_, fun r hr hr' => ?_⟩, fun x => ⟨(hn x).1, (hn x).2.1⟩, hpre⟩
  · exact ⟨(hn n).1.trans (hI.old n hn').1, (hn n).2.1.trans (hI.old n hn').2⟩
  · rw [hpre n (by rw [(hI.old n hn').1, hk]; rfl)]
    exact hI.phi n k hn' hk
  · show _ < s.nblk + 1
    have := hI.blk n
    rcases (hn n).2.2 with ⟨h1, _⟩ | ⟨_, h2⟩
    · rw [h1]; omega
    · rw [h2]; omega
  · obtain ⟨h1, h2⟩ := hI.eqs r hr hr'
    refine ⟨?_, fun x hx => h2 x ((hn r).2.1 ▸ hx)⟩
    have hop := (hn r).1
    have hins := (hn r).2.1
    have hp := hpre r
    generalize (partBlock fuel c s).node r = nd' at hop hins hp
    generalize s.node r = nd at h1 hop hins hp
    obtain ⟨op', ins', blk'⟩ := nd'
    obtain ⟨op, ins, blk⟩ := nd
    dsimp only at hop hins hp
    subst hop hins
    cases op'
    case phi k =>
      intro b0 x hb hx
      exact h1 b0 x ((hp rfl).symm.trans hb) hx
    case and | or | eor =>
      match ins', h1 with
      | [a, b], h1 => exact h1
    case one | zero =>
      match ins', h1 with
      | [], h1 => exact h1
    case condSet =>
      match ins', h1 with
      | [a], h1 => exact h1
    all_goals exact h1
  · rw [(hn r).1, (hn r).2.1]; exact hI.new r hr hr'
  · obtain ⟨h1, h2⟩ := hI.shape r hr hr'
    refine ⟨fun k hk => ?_, fun h => by rw [(hn r).2.1]; exact h2 (fun k => by rw [← (hn r).1]; exact h k)⟩
    rw [(hn r).1] at hk
    obtain ⟨n, a1, a2, a3, a4⟩ := h1 k hk
    exact ⟨n, a1, a2, a3, (hpre r (by rw [hk]; rfl)).trans a4⟩

theorem bv_and (a b : Bool) : ((if a then 1 else 0 : BitVec w) &&& (if b then 1 else 0)) = if a && b then 1 else 0 := by
  cases a <;> cases b <;> simp

theorem bv_or (a b : Bool) : ((if a then 1 else 0 : BitVec w) ||| (if b then 1 else 0)) = if a || b then 1 else 0 := by
  cases a <;> cases b <;> simp

theorem bv_eor (a b : Bool) : ((if a then 1 else 0 : BitVec w) ^^^ (if b then 1 else 0)) = if a ^^ b then 1 else 0 := by
  cases a <;> cases b <;> simp

/-! ## lowering -/

/-- what a call of `lower_node` gives -/
def Good (N : Nat) (g0 : Nat → Node) (e : Nat → Nat) (V : Bool → Nat → Bool) (s : St) (W : Bool → Nat → BitVec w) (n r : Nat) (s' : St) : Prop :=
  ∃ W' : Bool → Nat → BitVec w, Inv N g0 e V s' W' ∧ Ext s s' W W' ∧ r < s'.cnt ∧ N ≤ r ∧ Rep V W' n r

/-- one node pushed at the end -/
theorem push_good {s s1 : St} {W W1 : Bool → Nat → BitVec w} (hI : Inv N g0 e V s1 W1) (hE : Ext s s1 W W1) (op : Op) (ins : List Nat) (b : Nat)
    (val : Bool → BitVec w) (hb : b < s1.nblk) (hi : ∀ x ∈ ins, x < s1.cnt) (hop : ∀ k, op ≠ .phi k)
    (heq : IntEq e s1.preds V (upd W1 s1.cnt val) ⟨op, ins, b⟩ s1.cnt) (hnew : op ≠ .condSet → ∀ x ∈ ins, N ≤ x) :
    ∃ W' : Bool → Nat → BitVec w, Inv N g0 e V (push op ins b s1).2 W' ∧ Ext s (push op ins b s1).2 W W' ∧ Ext s1 (push op ins b s1).2 W1 W' ∧
      ∀ p, W' p s1.cnt = val p :=
  ⟨_, push_inv hI op ins b val hb hi heq hnew (fun k hk => absurd hk (hop k)), hE.trans (push_ext op ins b val (complete_of hop)), push_ext op ins b val (complete_of hop), fun p => upd_self _ _ _ p⟩

theorem pair_mem {P : Nat → Prop} {a b : Nat} (ha : P a) (hb : P b) : ∀ x ∈ [a, b], P x := by
  intro x hx
  rcases List.mem_cons.1 hx with h | h
  · subst h; exact ha
  · rcases List.mem_cons.1 h with h | h
    · subst h; exact hb
    · exact absurd h List.not_mem_nil

theorem not_good {s s1 : St} {W W1 : Bool → Nat → BitVec w} (hI : Inv N g0 e V s1 W1) (hE : Ext s s1 W W1) {r : Nat} (hr : r < s1.cnt) (hN : N ≤ r) (f : Bool → Bool)
    (hv : ∀ p, W1 p r = if f p then 1 else 0) :
    ∃ W' : Bool → Nat → BitVec w, Inv N g0 e V (createNot r s1).2 W' ∧ Ext s (createNot r s1).2 W W' ∧ Ext s1 (createNot r s1).2 W1 W' ∧
      (createNot r s1).1 < (createNot r s1).2.cnt ∧ N ≤ (createNot r s1).1 ∧ ∀ p, W' p (createNot r s1).1 = if !f p then 1 else 0 := by
  obtain ⟨W2, hI2, hE2, hE2', hv2⟩ := push_good hI hE .one [] (s1.node r).blk (fun _ => 1) (hI.blk r) (fun _ h => nomatch h) (fun _ h => nomatch h)
    (fun p => upd_self _ _ _ p) (fun _ _ h => nomatch h)
  have hc2 : (push .one [] (s1.node r).blk s1).2.cnt = s1.cnt + 1 := rfl
  obtain ⟨W3, hI3, hE3, hE3', hv3⟩ := push_good hI2 hE2 .eor [r, s1.cnt] (s1.node r).blk (fun p => if !f p then 1 else 0) (hI.blk r)
    (fun x hx => by
      rw [hc2]
      rcases List.mem_cons.1 hx with h | h
      · omega
      · rcases List.mem_cons.1 h with h | h
        · omega
        · exact absurd h List.not_mem_nil)
    (fun _ h => nomatch h)
    (fun p => by
      have hA : W2 p r = if f p then 1 else 0 := by rw [hE2'.val p r hr, hv p]
      rw [upd_self, upd_lt _ _ _ (by omega), upd_lt _ _ _ (by omega), hv2, hA]
      cases f p <;> simp)
    (fun _ => pair_mem hN hI.le)
  exact ⟨W3, hI3, hE3, hE2'.trans hE3', Nat.lt_succ_self _, hI2.le, hv3⟩

theorem condSet_good {s : St} {W : Bool → Nat → BitVec w} (hI : Inv N g0 e V s W) (fuel n : Nat) (hn : n < N) :
    ∃ W' : Bool → Nat → BitVec w, Inv N g0 e V (createCondSet fuel n s).2 W' ∧ Ext s (createCondSet fuel n s).2 W W' ∧
      (createCondSet fuel n s).1 < (createCondSet fuel n s).2.cnt ∧ N ≤ (createCondSet fuel n s).1 ∧ Rep V W' n (createCondSet fuel n s).1 := by
  obtain ⟨hI1, hop, hent⟩ := part_inv hI fuel n
  have hI2 : Inv N g0 e V ({ partBlock fuel n s with link := (fun x => if ((partBlock fuel n s).node x).blk = ((partBlock fuel n s).node n).blk then none
      else (partBlock fuel n s).link x) } : St) W := by
    refine ⟨hI1.le, hI1.old, hI1.phi, hI1.blk, fun m r h => ?_, hI1.eqs, hI1.new, hI1.shape⟩
    dsimp only at h
    by_cases hc : ((partBlock fuel n s).node m).blk = ((partBlock fuel n s).node n).blk
    · rw [if_pos hc] at h; exact absurd h (by simp)
    · rw [if_neg hc] at h; exact hI1.link m r h
  have hE : Ext s ({ partBlock fuel n s with link := (fun x => if ((partBlock fuel n s).node x).blk = ((partBlock fuel n s).node n).blk then none
      else (partBlock fuel n s).link x) } : St) W W :=
    ⟨Nat.le_refl _, fun _ _ _ => rfl, fun r _ => hop r, fun r h h' => absurd (show s.cnt ≤ r from h) (by have : r < s.cnt := h'; omega), Nat.le_succ _, fun r _ hp => hent r hp⟩
  have hb : (s.node n).blk < s.nblk + 1 := Nat.lt_succ_of_lt (hI.blk n)
  obtain ⟨W3, hI3, hE3, _, hv3⟩ := push_good hI2 hE .condSet [n] (s.node n).blk (fun p => if V p n then 1 else 0) hb
    (fun x hx => by
      rcases List.mem_cons.1 hx with h | h
      · subst h; exact Nat.lt_of_lt_of_le hn hI2.le
      · exact absurd h List.not_mem_nil)
    (fun _ h => nomatch h) (fun p => upd_self _ _ _ p) (fun h => absurd rfl h)
  exact ⟨W3, hI3, hE3, Nat.lt_succ_self _, hI.le, hv3⟩

/-- `lower_node` is right -/
theorem lower_good (hg : ∀ n, n < N → BoolEq e V (g0 n) n ∧ (∀ x ∈ (g0 n).ins, (g0 n).op ≠ .cmp → x < N) ∧ Complete (g0 n)) (f : Nat) :
    (∀ n s (W : Bool → Nat → BitVec w) r s', n < N → Inv N g0 e V s W → lower f n s = some (r, s') → Good N g0 e V s W n r s') := by
  induction f with
  | zero => intro n s W r s' _ _ h; rw [lower] at h; exact absurd h (by simp)
  | succ f ih =>
    have ihl : ∀ (ns : List Nat) (s : St) (W : Bool → Nat → BitVec w) (rs : List Nat) (s' : St), (∀ x ∈ ns, x < N) → Inv N g0 e V s W →
        lowerList (lower f) ns s = some (rs, s') → ∃ W' : Bool → Nat → BitVec w, Inv N g0 e V s' W' ∧ Ext s s' W W' ∧ rs.length = ns.length ∧
          (∀ x ∈ rs, x < s'.cnt ∧ N ≤ x) ∧ ∀ (i x r : Nat), ns[i]? = some x → rs[i]? = some r → Rep V W' x r := by
      intro ns
      induction ns with
      | nil =>
        intro s W rs s' _ hI h
        rw [lowerList] at h
        cases h
        exact ⟨W, hI, Ext.refl s W, rfl, (fun x h => absurd h List.not_mem_nil), (fun i x r h => by simp at h)⟩
      | cons n ns ihn =>
        intro s W rs s' hN hI h
        rw [lowerList] at h
        rcases h1 : lower f n s with _ | ⟨r, s1⟩
        · rw [h1] at h; exact absurd h (by simp)
        · rw [h1] at h
          dsimp only at h
          rcases h2 : lowerList (lower f) ns s1 with _ | ⟨rs2, s2⟩
          · rw [h2] at h; exact absurd h (by simp)
          · rw [h2] at h
            simp only [Option.some.injEq, Prod.mk.injEq] at h
            obtain ⟨hh1, hh2⟩ := h
            subst hh1 hh2
            obtain ⟨W1, hI1, hE1, hr1, hN1, hp1⟩ := ih n s W r s1 (hN n (by simp)) hI h1
            obtain ⟨W2, hI2, hE2, hlen, hlt, hp2⟩ := ihn s1 W1 rs2 s2 (fun x hx => hN x (List.mem_cons_of_mem _ hx)) hI1 h2
            refine ⟨W2, hI2, hE1.trans hE2, by simp [hlen], fun x hx => ?_, fun i x r' hx hr' => ?_⟩
            · rcases List.mem_cons.1 hx with h | h
              · subst h; exact ⟨Nat.lt_of_lt_of_le hr1 hE2.le, hN1⟩
              · exact hlt x h
            · cases i with
              | zero =>
                simp only [List.getElem?_cons_zero, Option.some.injEq] at hx hr'
                subst hx hr'
                exact hE2.rep hr1 hp1
              | succ i =>
                simp only [List.getElem?_cons_succ] at hx hr'
                exact hp2 i x r' hx hr'
    intro n s W r s' hn hI h
    obtain ⟨hbe, hins, hcm⟩ := hg n hn
    rw [lower] at h
    rcases hlk : s.link n with _ | r0
    case some =>
      rw [hlk] at h
      cases h
      exact ⟨W, hI, Ext.refl s W, hI.link n r hlk⟩
    rw [hlk] at h
    dsimp only at h
    rw [(hI.old n hn).1, (hI.old n hn).2] at h
    have hphi := hI.phi n
    have hbb := hI.blk n
    generalize (s.node n).blk = b at h hphi hbb
    have hbin : ∀ (op : Op) (x y : Nat) (fb : Bool → Bool → Bool) (fi : BitVec w → BitVec w → BitVec w), (∀ k, op ≠ .phi k) → x < N → y < N →
        (∀ p, V p n = fb (V p x) (V p y)) → (∀ a b : Bool, fi (if a then 1 else 0) (if b then 1 else 0) = if fb a b then 1 else 0) →
        (∀ (W : Bool → Nat → BitVec w) preds u v r, (∀ p, W p r = fi (W p u) (W p v)) → IntEq e preds V W ⟨op, [u, v], b⟩ r) →
        lowerBin (lower f) op n x y b s = some (r, s') → Good N g0 e V s W n r s' := by
      intro op x y fb fi hop hx hy hV hf hq h
      rw [lowerBin] at h
      rcases h1 : lower f x s with _ | ⟨ra, s1⟩
      · rw [h1] at h; exact absurd h (by simp)
      rw [h1] at h
      dsimp only at h
      rcases h2 : lower f y s1 with _ | ⟨rb, s2⟩
      · rw [h2] at h; exact absurd h (by simp)
      rw [h2] at h
      cases h
      obtain ⟨W1, hI1, hE1, hr1, hN1, hp1⟩ := ih x s W ra s1 hx hI h1
      obtain ⟨W2, hI2, hE2, hr2, hN2, hp2⟩ := ih y s1 W1 rb s2 hy hI1 h2
      have hr1' : ra < s2.cnt := Nat.lt_of_lt_of_le hr1 hE2.le
      have hp1' := hE2.rep hr1 hp1
      obtain ⟨W3, hI3, hE3, hE3', hv3⟩ := push_good hI2 (hE1.trans hE2) op [ra, rb] b (fun p => if V p n then 1 else 0)
        (by have := hE1.nblk; have := hE2.nblk; omega) (pair_mem hr1' hr2) hop
        (hq _ _ _ _ _ fun p => by
          rw [upd_self, upd_lt _ _ _ hr1', upd_lt _ _ _ hr2, hp1' p, hp2 p, hf, ← hV p])
        (fun _ => pair_mem hN1 hN2)
      exact ⟨W3, setLink_inv hI3 (Nat.lt_succ_self _) hI2.le hv3, setLink_ext hE3 _ _, Nat.lt_succ_self _, hI2.le, hv3⟩
    rcases hnd : g0 n with ⟨op, ins, b0⟩
    rw [hnd] at h hbe hins hcm
    have hphi' := hphi
    rw [hnd] at hphi'
    dsimp only at h hins hphi'
    cases op
    case other => exact absurd h (by cases ins <;> simp)
    case one => exact absurd h (by cases ins <;> simp)
    case zero => exact absurd h (by cases ins <;> simp)
    case condSet => exact absurd h (by cases ins <;> simp)
    case const c =>
      have hbe : ∀ p, V p n = c := hbe
      dsimp only at h
      have : Good N g0 e V s W n (push (if c then .one else .zero) [] b s).1 (setLink n (push (if c then .one else .zero) [] b s).1 (push (if c then .one else .zero) [] b s).2) := by
        obtain ⟨W3, hI3, hE3, hE3', hv3⟩ := push_good hI (Ext.refl s W) (if c then .one else .zero) [] b (fun p => if V p n then 1 else 0) hbb (fun _ h => nomatch h)
          (by cases c <;> (intro k h; nomatch h)) (by
            cases c
            · intro p; rw [upd_self, hbe p]; rfl
            · intro p; rw [upd_self, hbe p]; rfl) (fun _ _ h => nomatch h)
        exact ⟨W3, setLink_inv hI3 (Nat.lt_succ_self _) hI.le hv3, setLink_ext hE3 _ _, Nat.lt_succ_self _, hI.le, hv3⟩
      cases h
      exact this
    case cmp =>
      dsimp only at h
      cases h
      obtain ⟨W3, hI3, hE3, hlt, hN3, hv3⟩ := condSet_good hI s.cnt n hn
      exact ⟨W3, setLink_inv hI3 hlt hN3 hv3, setLink_ext hE3 _ _, hlt, hN3, hv3⟩
    case and =>
      match ins, h, hbe, hins with
      | [x, y], h, hbe, hins =>
        exact hbin .and x y (· && ·) (· &&& ·) (fun _ h => nomatch h) (hins x (by simp) (by simp)) (hins y (by simp) (by simp)) hbe bv_and
          (fun _ _ _ _ _ h => h) h
    case or =>
      match ins, h, hbe, hins with
      | [x, y], h, hbe, hins =>
        exact hbin .or x y (· || ·) (· ||| ·) (fun _ h => nomatch h) (hins x (by simp) (by simp)) (hins y (by simp) (by simp)) hbe bv_or
          (fun _ _ _ _ _ h => h) h
    case eor =>
      match ins, h, hbe, hins with
      | [x, y], h, hbe, hins =>
        exact hbin .eor x y (· ^^ ·) (· ^^^ ·) (fun _ h => nomatch h) (hins x (by simp) (by simp)) (hins y (by simp) (by simp)) hbe bv_eor
          (fun _ _ _ _ _ h => h) h
    case not =>
      match ins, h, hbe, hins with
      | [x], h, hbe, hins =>
        dsimp only at h
        rcases h1 : lower f x s with _ | ⟨ra, s1⟩
        · rw [h1] at h; exact absurd h (by simp)
        rw [h1] at h
        dsimp only at h
        cases h
        obtain ⟨W1, hI1, hE1, hr1, hN1, hp1⟩ := ih x s W ra s1 (hins x (by simp) (by simp)) hI h1
        obtain ⟨W3, hI3, hE3, _, hlt, hN3, hv3⟩ := not_good hI1 hE1 hr1 hN1 (fun p => V p x) hp1
        have hv3 : Rep V W3 n (createNot ra s1).1 := fun p => by rw [hv3 p, hbe p]
        exact ⟨W3, setLink_inv hI3 hlt hN3 hv3, setLink_ext hE3 _ _, hlt, hN3, hv3⟩
    case mux =>
      match ins, h, hbe, hins with
      | [c, t, u], h, hbe, hins =>
        dsimp only at h
        rcases h1 : lower f c s with _ | ⟨rc, s1⟩
        · rw [h1] at h; exact absurd h (by simp)
        rw [h1] at h
        dsimp only at h
        rcases h2 : lower f t s1 with _ | ⟨rt, s2⟩
        · rw [h2] at h; exact absurd h (by simp)
        rw [h2] at h
        dsimp only at h
        rcases h3 : lower f u s2 with _ | ⟨re, s3⟩
        · rw [h3] at h; exact absurd h (by simp)
        rw [h3] at h
        dsimp only at h
        obtain ⟨W1, hI1, hE1, hr1, hN1, hp1⟩ := ih c s W rc s1 (hins c (by simp) (by simp)) hI h1
        obtain ⟨W2, hI2, hE2, hr2, hN2, hp2⟩ := ih t s1 W1 rt s2 (hins t (by simp) (by simp)) hI1 h2
        obtain ⟨W3, hI3, hE3, hr3, hN3, hp3⟩ := ih u s2 W2 re s3 (hins u (by simp) (by simp)) hI2 h3
        have hE13 := hE2.trans hE3
        have hc3 : rc < s3.cnt := Nat.lt_of_lt_of_le hr1 hE13.le
        have ht3 : rt < s3.cnt := Nat.lt_of_lt_of_le hr2 hE3.le
        have hpc := hE13.rep hr1 hp1
        have hpt := hE3.rep hr2 hp2
        have hb3 : b < s3.nblk := by have := hE1.nblk; have := hE13.nblk; omega
        obtain ⟨W4, hI4, hE4, hE34, hv4⟩ := push_good hI3 (hE1.trans hE13) .and [rc, rt] b (fun p => if V p c && V p t then 1 else 0) hb3 (pair_mem hc3 ht3)
          (fun _ h => nomatch h) (fun p => by rw [upd_self, upd_lt _ _ _ (by omega), upd_lt _ _ _ (by omega), hpc p, hpt p, bv_and]) (fun _ => pair_mem hN1 hN2)
        have hc4 : (push .and [rc, rt] b s3).2.cnt = s3.cnt + 1 := rfl
        obtain ⟨W5, hI5, hE5, hE45, hlt5, hN5, hv5⟩ := not_good hI4 hE4 (r := rc) (by omega) hN1 (fun p => V p c) (hE34.rep hc3 hpc)
        have hE35 := hE34.trans hE45
        have hre5 := hE35.rep hr3 hp3
        have h0 : ∀ p, W5 p s3.cnt = if V p c && V p t then 1 else 0 := fun p => by rw [hE45.val p _ (by omega), hv4 p]
        have hle5 := hE45.le
        have hle35 := hE35.le
        have hnb5 := hE35.nblk
        generalize hs5 : createNot rc (push .and [rc, rt] b s3).2 = q5 at h hI5 hE5 hE45 hlt5 hN5 hv5 hE35 hre5 hle5 hle35 hnb5
        obtain ⟨r5, s5⟩ := q5
        dsimp only at h hI5 hE5 hE45 hlt5 hN5 hv5 hE35 hre5 hle5 hle35 hnb5
        obtain ⟨W6, hI6, hE6, hE56, hv6⟩ := push_good hI5 hE5 .and [r5, re] b (fun p => if (!V p c) && V p u then 1 else 0) (by omega)
          (pair_mem hlt5 (by omega)) (fun _ h => nomatch h)
          (fun p => by rw [upd_self, upd_lt _ _ _ (by omega), upd_lt _ _ _ (by omega), hv5 p, hre5 p, bv_and]) (fun _ => pair_mem hN5 hN3)
        have hc6 : (push .and [r5, re] b s5).2.cnt = s5.cnt + 1 := rfl
        have h06 : ∀ p, W6 p s3.cnt = if V p c && V p t then 1 else 0 := fun p => by rw [hE56.val p _ (by omega), h0 p]
        obtain ⟨W7, hI7, hE7, hE67, hv7⟩ := push_good hI6 hE6 .or [s3.cnt, s5.cnt] b (fun p => if V p n then 1 else 0)
          (by show b < s5.nblk; omega) (pair_mem (by omega) (by omega)) (fun _ h => nomatch h)
          (fun p => by
            rw [upd_self, upd_lt _ _ _ (by omega), upd_lt _ _ _ (by omega), h06 p, hv6 p, bv_or, hbe p]
            cases V p c <;> simp)
          (fun _ => pair_mem hI3.le hI5.le)
        cases h
        exact ⟨W7, setLink_inv hI7 (Nat.lt_succ_self _) hI6.le hv7, setLink_ext hE7 _ _, Nat.lt_succ_self _, hI6.le, hv7⟩
    case phi k =>
      dsimp only at h
      rcases h1 : lowerList (lower f) ins (setLink n (push (.phi k) [] b s).1 (push (.phi k) [] b s).2) with _ | ⟨rs, s2⟩
      · rw [h1] at h; exact absurd h (by simp)
      rw [h1] at h
      dsimp only at h
      have hpre : s.preds b = .orig b0 := hphi' k hn rfl
      have hI1 := push_inv hI (.phi k) [] b (fun p => if V p n then 1 else 0) hbb (fun _ h => nomatch h) (fun b1 x _ hx => by simp at hx) (fun _ _ h => nomatch h)
        (fun k' hk' => ⟨n, hn, by rw [hnd]; exact hk', fun p => rfl, by rw [hnd]; exact hpre⟩)
      have hI1' := setLink_inv (n := n) (r := (push (.phi k) [] b s).1) hI1 (Nat.lt_succ_self _) hI.le (fun p => upd_self _ _ _ p)
      obtain ⟨W2, hI2, hE2, hlen, hlt, hp2⟩ := ihl ins _ _ rs s2 (fun x hx => hins x hx (by simp)) hI1' h1
      have hcnt1 : (setLink n (push (.phi k) [] b s).1 (push (.phi k) [] b s).2).cnt = s.cnt + 1 := rfl
      have hle2 : s.cnt + 1 ≤ s2.cnt := hE2.le
      have hnode : ∀ x, x < s.cnt → (setLink n (push (.phi k) [] b s).1 (push (.phi k) [] b s).2).node x = s.node x := fun x hx => push_node_lt hx
      have hrep : Rep V W2 n s.cnt := fun p => by
        rw [hE2.val p s.cnt (by omega), upd_self]
      have hopr : (s2.node s.cnt).op = .phi k := by
        rw [(hE2.node s.cnt (by omega)).1]
        show ((if s.cnt = s.cnt then _ else _ : Node)).op = _
        rw [if_pos rfl]
      have hpre2 : s2.preds (s2.node s.cnt).blk = .orig b0 := by
        have hn1 : (setLink n (push (.phi k) [] b s).1 (push (.phi k) [] b s).2).node s.cnt = ⟨.phi k, [], b⟩ := by
          show (if s.cnt = s.cnt then _ else _ : Node) = _
          rw [if_pos rfl]
        rw [hE2.entry s.cnt (by omega) (by rw [hn1]; rfl), hn1]
        exact hpre
      have hbase : ∀ x, x ≠ s.cnt → (if x = s.cnt then { s2.node x with ins := rs } else s2.node x : Node) = s2.node x := fun x hx => if_neg hx
      have hself : (if s.cnt = s.cnt then { s2.node s.cnt with ins := rs } else s2.node s.cnt : Node) = { s2.node s.cnt with ins := rs } := if_pos rfl
      have hle := hI.le
      simp only [Option.some.injEq, Prod.mk.injEq] at h
      obtain ⟨hh1, hh2⟩ := h
      subst hh1 hh2
      refine ⟨W2, ⟨hI2.le, fun m hm => ?_, fun m k' hm hk => ?_, fun m => ?_, hI2.link, fun r hr hr' => ?_, fun r hr hr' => ?_, fun r hr hr' => ?_⟩,
        ⟨by show s.cnt ≤ s2.cnt; omega, fun p r hr => ?_, fun r hr => ?_, fun r hr hr' => ?_, hE2.nblk, fun r hr hp => ?_⟩,
        (by show s.cnt < s2.cnt; omega), hI.le, hrep⟩
      · show ((if m = s.cnt then { s2.node m with ins := rs } else s2.node m : Node)).op = _ ∧ ((if m = s.cnt then { s2.node m with ins := rs } else s2.node m : Node)).ins = _
        rw [hbase m (by omega)]
        exact hI2.old m hm
      · show s2.preds ((if m = s.cnt then { s2.node m with ins := rs } else s2.node m : Node)).blk = _
        rw [hbase m (by omega)]
        exact hI2.phi m k' hm hk
      · show ((if m = s.cnt then { s2.node m with ins := rs } else s2.node m : Node)).blk < s2.nblk
        by_cases hm : m = s.cnt
        · subst hm; rw [hself]; exact hI2.blk _
        · rw [hbase m hm]; exact hI2.blk m
      · show IntEq e s2.preds V W2 (if r = s.cnt then { s2.node r with ins := rs } else s2.node r : Node) r ∧
          ∀ x ∈ ((if r = s.cnt then { s2.node r with ins := rs } else s2.node r : Node)).ins, x < s2.cnt
        by_cases hm : r = s.cnt
        · subst hm
          rw [hself]
          refine ⟨?_, fun x hx => (hlt x hx).1⟩
          generalize s2.node s.cnt = nd at hopr hpre2
          obtain ⟨op', ins', blk'⟩ := nd
          dsimp only at hopr hpre2
          subst hopr
          intro b1 x hb1 hx
          have hb1 : s2.preds blk' = .orig b1 := hb1
          rw [hpre2] at hb1
          cases hb1
          have hlt' : e b0 < ins.length := by
            rw [← hlen]
            exact (List.getElem?_eq_some_iff.1 hx).1
          have hy : ins[e b0]? = some ins[e b0] := List.getElem?_eq_getElem hlt'
          rw [hrep true, hp2 (e b0) _ x hy hx false, hbe _ hy]
        · rw [hbase r hm]; exact hI2.eqs r hr hr'
      · show ((if r = s.cnt then { s2.node r with ins := rs } else s2.node r : Node)).op ≠ _ →
          ∀ x ∈ ((if r = s.cnt then { s2.node r with ins := rs } else s2.node r : Node)).ins, N ≤ x
        by_cases hm : r = s.cnt
        · subst hm
          rw [hself]
          exact fun _ x hx => (hlt x hx).2
        · rw [hbase r hm]; exact hI2.new r hr hr'
      · show Shape N g0 V W2 s2.preds (if r = s.cnt then { s2.node r with ins := rs } else s2.node r : Node) r
        by_cases hm : r = s.cnt
        · subst hm
          rw [hself]
          exact ⟨(hI2.shape s.cnt hr hr').1, fun h => absurd hopr (h k)⟩
        · rw [hbase r hm]; exact hI2.shape r hr hr'
      · have := hE2.val p r (by omega)
        rw [this, upd_lt _ _ _ hr]
      · show ((if r = s.cnt then { s2.node r with ins := rs } else s2.node r : Node)).op = _ ∧ ((if r = s.cnt then { s2.node r with ins := rs } else s2.node r : Node)).ins = _
        rw [hbase r (by omega)]
        have := hE2.node r (by omega)
        rw [hnode r hr] at this
        exact this
      · show Complete (if r = s.cnt then { s2.node r with ins := rs } else s2.node r : Node)
        by_cases hm : r = s.cnt
        · subst hm
          rw [hself]
          intro k' hk'
          have hk' : (s2.node s.cnt).op = .phi k' := hk'
          rw [hopr] at hk'
          cases hk'
          show rs.length = k
          rw [hlen]
          exact hcm k rfl
        · rw [hbase r hm]
          exact hE2.compl r (by omega) hr'
      · show s2.preds ((if r = s.cnt then { s2.node r with ins := rs } else s2.node r : Node)).blk = _
        rw [hbase r (by omega)]
        have := hE2.entry r (by omega) (by rw [hnode r hr]; exact hp)
        rw [hnode r hr] at this
        exact this

/-- all roots, one after the other -/
theorem lowerList_good (hg : ∀ n, n < N → BoolEq e V (g0 n) n ∧ (∀ x ∈ (g0 n).ins, (g0 n).op ≠ .cmp → x < N) ∧ Complete (g0 n)) (f : Nat) :
    ∀ (ns : List Nat) (s : St) (W : Bool → Nat → BitVec w) (rs : List Nat) (s' : St), (∀ x ∈ ns, x < N) → Inv N g0 e V s W →
      lowerList (lower f) ns s = some (rs, s') → ∃ W' : Bool → Nat → BitVec w, Inv N g0 e V s' W' ∧ Ext s s' W W' ∧ rs.length = ns.length ∧
        ∀ (i x r : Nat), ns[i]? = some x → rs[i]? = some r → N ≤ r ∧ r < s'.cnt ∧ Rep V W' x r := by
  intro ns
  induction ns with
  | nil =>
    intro s W rs s' _ hI h
    rw [lowerList] at h
    cases h
    exact ⟨W, hI, Ext.refl s W, rfl, (fun i x r h => by simp at h)⟩
  | cons n ns ihn =>
    intro s W rs s' hN hI h
    rw [lowerList] at h
    rcases h1 : lower f n s with _ | ⟨r, s1⟩
    · rw [h1] at h; exact absurd h (by simp)
    rw [h1] at h
    dsimp only at h
    rcases h2 : lowerList (lower f) ns s1 with _ | ⟨rs2, s2⟩
    · rw [h2] at h; exact absurd h (by simp)
    rw [h2] at h
    simp only [Option.some.injEq, Prod.mk.injEq] at h
    obtain ⟨hh1, hh2⟩ := h
    subst hh1 hh2
    obtain ⟨W1, hI1, hE1, hr1, hN1, hp1⟩ := lower_good hg f n s W r s1 (hN n (by simp)) hI h1
    obtain ⟨W2, hI2, hE2, hlen, hp2⟩ := ihn s1 W1 rs2 s2 (fun x hx => hN x (List.mem_cons_of_mem _ hx)) hI1 h2
    refine ⟨W2, hI2, hE1.trans hE2, by simp [hlen], fun i x r' hx hr' => ?_⟩
    cases i with
    | zero =>
      simp only [List.getElem?_cons_zero, Option.some.injEq] at hx hr'
      subst hx hr'
      exact ⟨hN1, Nat.lt_of_lt_of_le hr1 hE2.le, hE2.rep hr1 hp1⟩
    | succ i =>
      simp only [List.getElem?_cons_succ] at hx hr'
      exact hp2 i x r' hx hr'

/-- the values of all nodes follow from those of the Phis -/
theorem determined {s : St} {W0 W : Bool → Nat → BitVec w} (hI : Inv N g0 e V s W0) (p : Bool)
    (hW : ∀ r, N ≤ r → r < s.cnt → IntEq e s.preds V W (s.node r) r)
    (hphi : ∀ r k, N ≤ r → r < s.cnt → (s.node r).op = .phi k → W p r = W0 p r) : ∀ r, N ≤ r → r < s.cnt → W p r = W0 p r := by
  intro r
  induction r using Nat.strongRecOn with
  | ind r ih =>
    intro hr hr'
    have h0 := (hI.eqs r hr hr').1
    have h1 := hW r hr hr'
    have hnew := hI.new r hr hr'
    have hsh := (hI.shape r hr hr').2
    have hp := hphi r
    generalize s.node r = nd at h0 h1 hnew hsh hp
    obtain ⟨op, ins, b⟩ := nd
    dsimp only at hnew hsh hp
    cases op
    case phi k => exact hp k hr hr' rfl
    case one | zero =>
      match ins, h0, h1 with
      | [], h0, h1 => rw [h0 p, h1 p]
    case condSet =>
      match ins, h0, h1 with
      | [c], h0, h1 => rw [h0 p, h1 p]
    case and | or | eor =>
      match ins, h0, h1, hnew, hsh with
      | [a, b], h0, h1, hnew, hsh =>
        have ha := hsh (by simp) a (by simp)
        have hb := hsh (by simp) b (by simp)
        rw [h0 p, h1 p, ih a ha (hnew (by simp) a (by simp)) (by omega), ih b hb (hnew (by simp) b (by simp)) (by omega)]
    all_goals exact absurd h0 (by simp [IntEq])

end Verif.Lemmas.LowerModeB
