import Verif.Model.Hungarian
import Mathlib.Data.Finset.Card
import Mathlib.Data.Finset.Range
/-!
# Lemmas: the invariants of the Hungarian method
-/
namespace Verif.Lemmas.Hungarian

open Verif.Model.Hungarian

theorem foldl_min_le (h : Nat → Int) : ∀ (l : List Nat) (a : Int), l.foldl (fun m r => if h r < m then h r else m) a ≤ a ∧
    (∀ r ∈ l, l.foldl (fun m r => if h r < m then h r else m) a ≤ h r) ∧ (l.foldl (fun m r => if h r < m then h r else m) a = a ∨
      ∃ r ∈ l, l.foldl (fun m r => if h r < m then h r else m) a = h r) := by
  intro l
  induction l with
  | nil => intro a; exact ⟨Int.le_refl _, fun r hr => absurd hr List.not_mem_nil, .inl rfl⟩
  | cons x l ih =>
    intro a
    obtain ⟨h1, h2, h3⟩ := ih (if h x < a then h x else a)
    rw [List.foldl_cons]
    have ha : (if h x < a then h x else a) ≤ a ∧ (if h x < a then h x else a) ≤ h x := by
      by_cases hx : h x < a
      · rw [if_pos hx]; omega
      · rw [if_neg hx]; omega
    refine ⟨by omega, fun r hr => ?_, ?_⟩
    · rcases List.mem_cons.1 hr with hr | hr
      · subst hr; omega
      · exact h2 r hr
    · rcases h3 with h3 | ⟨r, hr, h3⟩
      · by_cases hx : h x < a
        · exact .inr ⟨x, List.mem_cons_self, by rw [h3, if_pos hx]⟩
        · exact .inl (by rw [h3, if_neg hx])
      · exact .inr ⟨r, List.mem_cons_of_mem _ hr, h3⟩


/-- the two arrays of mates are inverse -/
structure Mat (n : Nat) (m : Mates) : Prop where
  col : ∀ r c, m.col r = some c → r < n ∧ c < n ∧ m.row c = some r
  row : ∀ r c, m.row c = some r → m.col r = some c

/-- the duals bound the costs -/
def Feas (n : Nat) (cost : Nat → Nat → Int) (f : Forest) : Prop := ∀ r c, r < n → c < n → f.rowDec r - f.colInc c ≤ cost r c

def TightAt (cost : Nat → Nat → Int) (f : Forest) (r c : Nat) : Prop := cost r c = f.rowDec r - f.colInc c

/-- mates are tight -/
def Tight (cost : Nat → Nat → Int) (m : Mates) (f : Forest) : Prop := ∀ r c, m.col r = some c → TightAt cost f r c

/-- what is known about a row that has been explored -/
def Expl (cost : Nat → Nat → Int) (f : Forest) (r c : Nat) : Prop := ∃ x, f.slack c = some x ∧ (x ≠ 0 → x ≤ cost r c - f.rowDec r + f.colInc c)

structure FI (n : Nat) (cost : Nat → Nat → Int) (m : Mates) (f : Forest) : Prop where
  feas : Feas n cost f
  tight : Tight cost m f
  rows : ∀ r ∈ f.unchosen, r < n
  par : ∀ c r, c < n → f.parent c = some r → r ∈ f.unchosen ∧ TightAt cost f r c ∧ f.slack c = some 0
  zero : ∀ c, c < n → f.slack c = some 0 → ∃ x, m.row c = some x ∧ x ∈ f.unchosen
  mate : ∀ x ∈ f.unchosen, ∀ c, m.col x = some c → f.slack c = some 0
  pos : ∀ c x, c < n → f.slack c = some x → 0 ≤ x ∧ (x ≠ 0 → f.slackRow c ∈ f.unchosen ∧ cost (f.slackRow c) c - f.rowDec (f.slackRow c) + f.colInc c = x)
  expl : ∀ i r, i < f.q → f.unchosen[i]? = some r → ∀ c, c < n → Expl cost f r c
  len : f.q ≤ f.unchosen.length
  nodup : f.unchosen.Nodup
  chain : ∀ c, c < n → f.slack c = some 0 → ∃ r x, f.parent c = some r ∧ m.row c = some x ∧ f.unchosen.idxOf r < f.unchosen.idxOf x

structure BI (n : Nat) (cost : Nat → Nat → Int) (m : Mates) (b : Break) : Prop where
  r : b.r < n
  c : b.c < n
  free : m.row b.c = none
  feas : Feas n cost b.f
  tight : Tight cost m b.f
  here : TightAt cost b.f b.r b.c
  par : ∀ c r, c < n → b.f.parent c = some r → r < n ∧ TightAt cost b.f r c
  chain : ∃ l : List Nat, b.r ∈ l ∧ l.length ≤ n ∧ ∀ x ∈ l, ∀ c, m.col x = some c → ∃ r, b.f.parent c = some r ∧ r ∈ l ∧ l.idxOf r < l.idxOf x

theorem idx_new {l : List Nat} {r x : Nat} (hr : r ∈ l) (hx : x ∉ l) (ex : List Nat) : (l ++ ex).idxOf r < (l ++ ex).idxOf x := by
  rw [List.idxOf_append_of_mem hr, List.idxOf_append_of_notMem hx]
  have := List.idxOf_lt_length_of_mem hr
  omega

theorem idx_old {l : List Nat} {r x : Nat} (hr : r ∈ l) (hx : x ∈ l) (h : l.idxOf r < l.idxOf x) (ex : List Nat) : (l ++ ex).idxOf r < (l ++ ex).idxOf x := by
  rw [List.idxOf_append_of_mem hr, List.idxOf_append_of_mem hx]
  exact h

theorem length_le {n : Nat} {l : List Nat} (h : l.Nodup) (hn : ∀ r ∈ l, r < n) : l.length ≤ n := by
  rw [← List.toFinset_card_of_nodup h, ← Finset.card_range n]
  apply Finset.card_le_card
  intro x hx
  exact Finset.mem_range.2 (hn x (List.mem_toFinset.1 hx))

theorem FI.up {n : Nat} {cost : Nat → Nat → Int} {m : Mates} {f : Forest} (hm : Mat n m) (hf : FI n cost m f) : ∀ x ∈ f.unchosen, ∀ c, m.col x = some c →
    f.slack c = some 0 ∧ ∃ r, f.parent c = some r ∧ r ∈ f.unchosen ∧ f.unchosen.idxOf r < f.unchosen.idxOf x := by
  intro x hx c hc
  have h0 := hf.mate x hx c hc
  obtain ⟨_, hcn, hrow⟩ := hm.col x c hc
  obtain ⟨r, y, a1, a2, a3⟩ := hf.chain c hcn h0
  rw [hrow] at a2
  cases a2
  exact ⟨h0, r, a1, (hf.par c r hcn a1).1, a3⟩

theorem FI.mem {n : Nat} {cost : Nat → Nat → Int} {m : Mates} {f : Forest} (hf : FI n cost m f) {c r x : Nat} (hc : c < n) (h0 : f.slack c = some 0)
    (hp : f.parent c = some r) (hr : m.row c = some x) : r ∈ f.unchosen ∧ x ∈ f.unchosen := by
  refine ⟨(hf.par c r hc hp).1, ?_⟩
  obtain ⟨y, a1, a2⟩ := hf.zero c hc h0
  rw [hr] at a1
  cases a1
  exact a2

theorem get_append {l l' : List Nat} {i r : Nat} (hi : i < l.length) (h : (l ++ l')[i]? = some r) : l[i]? = some r := by
  rwa [List.getElem?_append_left hi] at h

theorem exploreCol_inv {n : Nat} {cost : Nat → Nat → Int} {m : Mates} (hm : Mat n m) {r c : Nat} {s : Int} {f : Forest} (hf : FI n cost m f) (hs : s = f.rowDec r)
    (hr : r ∈ f.unchosen) (hc : c < n) :
    (∀ b, exploreCol cost m r s c f = .inl b → BI n cost m b) ∧
    (∀ f', exploreCol cost m r s c f = .inr f' → FI n cost m f' ∧ Expl cost f' r c ∧ f'.rowDec = f.rowDec ∧ f'.colInc = f.colInc ∧ f'.q = f.q ∧
      (∃ ex, f'.unchosen = f.unchosen ++ ex) ∧ ∀ d, d ≠ c → f'.slack d = f.slack d) := by
  subst hs
  have hdel : 0 ≤ cost r c - f.rowDec r + f.colInc c := by
    have := hf.feas r c (hf.rows r hr) hc
    omega
  unfold exploreCol
  by_cases h0 : f.slack c = some 0
  · rw [if_pos h0]
    exact ⟨fun b h => (by cases h), fun f' h => by
      cases h
      exact ⟨hf, ⟨0, h0, fun h => absurd rfl h⟩, rfl, rfl, rfl, ⟨[], (List.append_nil _).symm⟩, fun _ _ => rfl⟩⟩
  · rw [if_neg h0]
    dsimp only
    by_cases h1 : below (cost r c - f.rowDec r + f.colInc c) (f.slack c) = true
    · rw [if_pos h1]
      by_cases h2 : cost r c - f.rowDec r + f.colInc c = 0
      · rw [if_pos h2]
        rcases hrow : m.row c with _ | x
        · refine ⟨fun b h => ?_, fun f' h => by cases h⟩
          cases h
          refine ⟨hf.rows r hr, hc, hrow, hf.feas, hf.tight, ?_, fun d y hd hy => ⟨hf.rows y (hf.par d y hd hy).1, (hf.par d y hd hy).2.1⟩,
            ⟨f.unchosen, hr, length_le hf.nodup hf.rows, fun x hx c hc => (hf.up hm x hx c hc).2⟩⟩
          show cost r c = f.rowDec r - f.colInc c
          omega
        · refine ⟨fun b h => (by cases h), fun f' h => ?_⟩
          cases h
          have hcol := hm.row x c hrow
          have hxU : x ∉ f.unchosen := fun h => h0 (hf.mate x h c hcol)
          refine ⟨⟨hf.feas, hf.tight, ?_, ?_, ?_, ?_, ?_, ?_, ?_, ?_, ?_⟩, ⟨0, if_pos rfl, fun h => absurd rfl h⟩, rfl, rfl, rfl, ⟨[x], rfl⟩, fun d hd => if_neg hd⟩
          · intro y hy
            rcases List.mem_append.1 hy with hy | hy
            · exact hf.rows y hy
            · rw [List.mem_singleton.1 hy]; exact (hm.col x c hcol).1
          · intro d y hd hy
            dsimp only [upd] at hy ⊢
            by_cases hdc : d = c
            · rw [if_pos hdc] at hy ⊢
              cases hy
              subst hdc
              exact ⟨List.mem_append_left _ hr, (by show cost r d = f.rowDec r - f.colInc d; omega), rfl⟩
            · rw [if_neg hdc] at hy ⊢
              obtain ⟨a1, a2, a3⟩ := hf.par d y hd hy
              exact ⟨List.mem_append_left _ a1, a2, a3⟩
          · intro d hd hz
            dsimp only [upd] at hz ⊢
            by_cases hdc : d = c
            · rw [hdc]; exact ⟨x, hrow, List.mem_append_right _ (List.mem_singleton.2 rfl)⟩
            · rw [if_neg hdc] at hz
              obtain ⟨y, a1, a2⟩ := hf.zero d hd hz
              exact ⟨y, a1, List.mem_append_left _ a2⟩
          · intro y hy d hd
            dsimp only [upd]
            by_cases hdc : d = c
            · rw [if_pos hdc]
            · rw [if_neg hdc]
              rcases List.mem_append.1 hy with hy | hy
              · exact hf.mate y hy d hd
              · rw [List.mem_singleton.1 hy, hcol] at hd
                cases hd
                exact absurd rfl hdc
          · intro d y hd hy
            dsimp only [upd] at hy ⊢
            by_cases hdc : d = c
            · rw [if_pos hdc] at hy
              cases hy
              exact ⟨Int.le_refl _, fun h => absurd rfl h⟩
            · rw [if_neg hdc] at hy
              obtain ⟨a1, a2⟩ := hf.pos d y hd hy
              exact ⟨a1, fun h => ⟨List.mem_append_left _ (a2 h).1, (a2 h).2⟩⟩
          · intro i y hi hy d hd
            have hlen := hf.len
            obtain ⟨z, a1, a2⟩ := hf.expl i y hi (get_append (Nat.lt_of_lt_of_le hi hlen) hy) d hd
            by_cases hdc : d = c
            · exact ⟨0, if_pos hdc, fun h => absurd rfl h⟩
            · exact ⟨z, (if_neg hdc).trans a1, a2⟩
          · show f.q ≤ (f.unchosen ++ [x]).length
            have := hf.len
            rw [List.length_append]; omega
          · refine List.nodup_append.2 ⟨hf.nodup, List.nodup_singleton x, fun a ha b hb e => hxU ?_⟩
            rw [← List.mem_singleton.1 hb, ← e]
            exact ha
          · intro d hd hz
            dsimp only [upd] at hz ⊢
            by_cases hdc : d = c
            · rw [hdc, if_pos rfl]
              exact ⟨r, x, rfl, hrow, idx_new hr hxU _⟩
            · rw [if_neg hdc] at hz ⊢
              obtain ⟨r', x', a1, a2, a3⟩ := hf.chain d hd hz
              obtain ⟨b1, b2⟩ := hf.mem hd hz a1 a2
              exact ⟨r', x', a1, a2, idx_old b1 b2 a3 _⟩
      · rw [if_neg h2]
        refine ⟨fun b h => (by cases h), fun f' h => ?_⟩
        cases h
        refine ⟨⟨hf.feas, hf.tight, hf.rows, ?_, ?_, ?_, ?_, ?_, hf.len, hf.nodup, ?_⟩, ⟨_, if_pos rfl, fun _ => Int.le_refl _⟩, rfl, rfl, rfl, ⟨[], (List.append_nil _).symm⟩, fun d hd => if_neg hd⟩
        · intro d y hd hy
          obtain ⟨a1, a2, a3⟩ := hf.par d y hd hy
          have hdc : d ≠ c := fun e => h0 (e ▸ a3)
          exact ⟨a1, a2, (if_neg hdc).trans a3⟩
        · intro d hd hz
          dsimp only [upd] at hz
          by_cases hdc : d = c
          · rw [if_pos hdc] at hz; exact absurd (Option.some.inj hz) h2
          · rw [if_neg hdc] at hz; exact hf.zero d hd hz
        · intro y hy d hd
          have a3 := hf.mate y hy d hd
          have hdc : d ≠ c := fun e => h0 (e ▸ a3)
          exact (if_neg hdc).trans a3
        · intro d y hd hy
          dsimp only [upd] at hy ⊢
          by_cases hdc : d = c
          · rw [if_pos hdc] at hy
            cases hy
            rw [if_pos hdc, hdc]
            exact ⟨hdel, fun _ => ⟨hr, rfl⟩⟩
          · rw [if_neg hdc] at hy ⊢
            exact hf.pos d y hd hy
        · intro i y hi hy d hd
          obtain ⟨z, a1, a2⟩ := hf.expl i y hi hy d hd
          by_cases hdc : d = c
          · refine ⟨_, if_pos hdc, fun _ => ?_⟩
            subst hdc
            rw [a1] at h1
            have hlt : cost r d - f.rowDec r + f.colInc d < z := of_decide_eq_true h1
            have hz : z ≠ 0 := by
              intro e
              rw [e] at a1
              exact h0 a1
            have := a2 hz
            show cost r d - f.rowDec r + f.colInc d ≤ cost y d - f.rowDec y + f.colInc d
            omega
          · exact ⟨z, (if_neg hdc).trans a1, a2⟩
        · intro d hd hz
          dsimp only [upd] at hz
          by_cases hdc : d = c
          · rw [if_pos hdc] at hz; exact absurd (Option.some.inj hz) h2
          · rw [if_neg hdc] at hz; exact hf.chain d hd hz
    · rw [if_neg h1]
      refine ⟨fun b h => (by cases h), fun f' h => ?_⟩
      cases h
      refine ⟨hf, ?_, rfl, rfl, rfl, ⟨[], (List.append_nil _).symm⟩, fun _ _ => rfl⟩
      rcases hsl : f.slack c with _ | x
      · rw [hsl] at h1; exact absurd rfl h1
      · rw [hsl] at h1
        refine ⟨x, hsl, fun _ => ?_⟩
        have : ¬ (cost r c - f.rowDec r + f.colInc c < x) := fun h => h1 (decide_eq_true h)
        omega

theorem explore_inv {n : Nat} {cost : Nat → Nat → Int} {m : Mates} (hm : Mat n m) {r : Nat} {s : Int} (l : List Nat) : ∀ (f : Forest) (done : List Nat), FI n cost m f → s = f.rowDec r →
    r ∈ f.unchosen → (∀ c ∈ l, c < n) → (∀ c ∈ done, Expl cost f r c) →
    (∀ b, cols (exploreCol cost m r s) l f = .inl b → BI n cost m b) ∧
    (∀ f', cols (exploreCol cost m r s) l f = .inr f' → FI n cost m f' ∧ (∀ c ∈ done ++ l, Expl cost f' r c) ∧ f'.q = f.q ∧ ∃ ex, f'.unchosen = f.unchosen ++ ex) := by
  induction l with
  | nil =>
    intro f done hf _ _ _ hd
    exact ⟨fun b h => (by cases h), fun f' h => by
      cases h
      exact ⟨hf, by rw [List.append_nil]; exact hd, rfl, [], (List.append_nil _).symm⟩⟩
  | cons c l ih =>
    intro f done hf hs hr hl hd
    obtain ⟨e1, e2⟩ := exploreCol_inv hm hf hs hr (hl c List.mem_cons_self)
    rw [cols]
    rcases hc : exploreCol cost m r s c f with b | f1
    · exact ⟨fun b' h => (by cases h; exact e1 _ hc), fun f' h => (by cases h)⟩
    · obtain ⟨g1, g2, g3, g4, g5, ⟨ex, g6⟩, g7⟩ := e2 f1 hc
      obtain ⟨i1, i2⟩ := ih f1 (done ++ [c]) g1 (by rw [g3]; exact hs) (by rw [g6]; exact List.mem_append_left _ hr) (fun d h => hl d (List.mem_cons_of_mem _ h)) (by
        intro d h
        by_cases hdc : d = c
        · rw [hdc]; exact g2
        · rcases List.mem_append.1 h with h | h
          · obtain ⟨x, a1, a2⟩ := hd d h
            exact ⟨x, by rw [g7 d hdc]; exact a1, by rw [g3, g4]; exact a2⟩
          · exact absurd (List.mem_singleton.1 h) hdc)
      refine ⟨i1, fun f' h => ?_⟩
      obtain ⟨k1, k2, k3, ⟨ex', k4⟩⟩ := i2 f' h
      refine ⟨k1, fun d hd => k2 d ?_, k3.trans g5, ex ++ ex', by rw [k4, g6, List.append_assoc]⟩
      rw [List.append_assoc]
      exact hd

/-- the state of the loop over the columns when a new zero is introduced: `k` columns are done -/
structure ZS (m : Mates) (f : Forest) (s : Int) (k : Nat) (f' : Forest) : Prop where
  rowDec : ∀ r, f'.rowDec r = if r ∈ f.unchosen then f.rowDec r + s else f.rowDec r
  colInc : ∀ c, f'.colInc c = if c < k ∧ f.slack c = some 0 then f.colInc c + s else f.colInc c
  slackLo : ∀ c, c < k → f'.slack c = (f.slack c).map fun x => if x = 0 then 0 else x - s
  slackHi : ∀ c, k ≤ c → f'.slack c = f.slack c
  slackRow : f'.slackRow = f.slackRow
  parNew : ∀ c, c < k → f.slack c = some s → f'.parent c = some (f.slackRow c)
  parOld : ∀ c, ¬ (c < k ∧ f.slack c = some s) → f'.parent c = f.parent c
  unch : ∃ ex, f'.unchosen = f.unchosen ++ ex ∧ ex.Nodup ∧ (∀ y ∈ ex, ∃ c, c < k ∧ f.slack c = some s ∧ m.row c = some y) ∧
    ∀ c, c < k → f.slack c = some s → ∃ y, m.row c = some y ∧ y ∈ ex
  q : f'.q = f.q

/-- the duals after the loop, also if it is left early -/
structure ZB (n : Nat) (m : Mates) (f : Forest) (s : Int) (b : Break) : Prop where
  c : b.c < n
  r : b.r = f.slackRow b.c
  free : m.row b.c = none
  slack : f.slack b.c = some s
  rowDec : ∀ r, b.f.rowDec r = if r ∈ f.unchosen then f.rowDec r + s else f.rowDec r
  colInc : ∀ c, c < n → b.f.colInc c = if f.slack c = some 0 then f.colInc c + s else f.colInc c
  par : ∀ c r, b.f.parent c = some r → (f.slack c = some s ∧ r = f.slackRow c) ∨ f.parent c = some r
  parOld : ∀ c, f.slack c ≠ some s → b.f.parent c = f.parent c

theorem zeroCol_inv {n : Nat} {m : Mates} (hm : Mat n m) {f f' : Forest} {s : Int} (hs : s ≠ 0) {k : Nat} (hk : k < n) (hz : ZS m f s k f') :
    (∀ b, zeroCol n m s k f' = .inl b → ZB n m f s b) ∧ (∀ f'', zeroCol n m s k f' = .inr f'' → ZS m f s (k + 1) f'') := by
  obtain ⟨z1, z2, z3, z4, z5, z6, z7, ⟨ex, z8, z8', z9, z10⟩, z11⟩ := hz
  have hsl := z4 k (Nat.le_refl _)
  have par : ∀ c r, f'.parent c = some r → (f.slack c = some s ∧ r = f.slackRow c) ∨ f.parent c = some r := by
    intro c r h
    by_cases hc : c < k ∧ f.slack c = some s
    · rw [z6 c hc.1 hc.2] at h
      cases h
      exact .inl ⟨hc.2, rfl⟩
    · rw [z7 c hc] at h
      exact .inr h
  unfold zeroCol
  rcases hx : f.slack k with _ | x
  · rw [hsl, hx]
    refine ⟨fun b h => (by cases h), fun f'' h => ?_⟩
    cases h
    refine ⟨z1, fun c => ?_, fun c hc => ?_, fun c hc => z4 c (by omega), z5, fun c hc h => ?_, fun c hc => z7 c (fun h => hc ⟨by omega, h.2⟩),
      ⟨ex, z8, z8', fun y hy => ?_, fun c hc h => ?_⟩, z11⟩
    · rw [z2 c]
      by_cases hck : c = k
      · subst hck
        rw [if_neg (fun h => by rw [hx] at h; cases h.2), if_neg (fun h => by rw [hx] at h; cases h.2)]
      · have : (c < k + 1 ∧ f.slack c = some 0) ↔ (c < k ∧ f.slack c = some 0) := by constructor <;> intro h <;> exact ⟨by omega, h.2⟩
        simp only [this]
    · by_cases hck : c = k
      · subst hck; rw [hsl, hx]; rfl
      · exact z3 c (by omega)
    · exact z6 c (by
        have : c ≠ k := fun e => by rw [e, hx] at h; cases h
        omega) h
    · obtain ⟨c, a, b⟩ := z9 y hy
      exact ⟨c, by omega, b⟩
    · exact z10 c (by
        have : c ≠ k := fun e => by rw [e, hx] at h; cases h
        omega) h
  · rw [hsl, hx]
    dsimp only
    by_cases h0 : x = 0
    · rw [if_pos h0]
      refine ⟨fun b h => (by cases h), fun f'' h => ?_⟩
      cases h
      have hks : f.slack k ≠ some s := by
        rw [hx, h0]
        intro h
        exact hs (Option.some.inj h).symm
      refine ⟨z1, fun c => ?_, fun c hc => ?_, fun c hc => z4 c (by omega), z5, fun c hc h => ?_, fun c hc => z7 c (fun h => hc ⟨by omega, h.2⟩),
        ⟨ex, z8, z8', fun y hy => ?_, fun c hc h => ?_⟩, z11⟩
      · dsimp only [upd]
        by_cases hck : c = k
        · subst hck
          rw [if_pos rfl, z2 c, if_neg (by omega), if_pos ⟨by omega, by rw [hx, h0]⟩]
        · rw [if_neg hck, z2 c]
          have : (c < k + 1 ∧ f.slack c = some 0) ↔ (c < k ∧ f.slack c = some 0) := by constructor <;> intro h <;> exact ⟨by omega, h.2⟩
          simp only [this]
      · by_cases hck : c = k
        · subst hck; show f'.slack c = _; rw [hsl, hx, h0]; rfl
        · exact z3 c (by omega)
      · exact z6 c (by
          have : c ≠ k := fun e => by rw [e] at h; exact hks h
          omega) h
      · obtain ⟨c, a, b⟩ := z9 y hy
        exact ⟨c, by omega, b⟩
      · exact z10 c (by
          have : c ≠ k := fun e => by rw [e] at h; exact hks h
          omega) h
    · rw [if_neg h0]
      have hcol : ∀ c, (c < k + 1 ∧ f.slack c = some 0) ↔ (c < k ∧ f.slack c = some 0) := by
        intro c
        constructor
        · intro h
          have : c ≠ k := fun e => by rw [e, hx] at h; exact h0 (Option.some.inj h.2)
          exact ⟨by omega, h.2⟩
        · intro h; exact ⟨by omega, h.2⟩
      have hslLo : ∀ c, c < k + 1 → upd f'.slack k (some (x - s)) c = (f.slack c).map fun x => if x = 0 then 0 else x - s := by
        intro c hc
        unfold upd
        by_cases hck : c = k
        · rw [if_pos hck, hck, hx, Option.map_some, if_neg h0]
        · rw [if_neg hck]; exact z3 c (by omega)
      have hslHi : ∀ c, k + 1 ≤ c → upd f'.slack k (some (x - s)) c = f.slack c := by
        intro c hc
        unfold upd
        rw [if_neg (by omega)]; exact z4 c (by omega)
      by_cases hxs : x - s = 0
      · rw [if_pos hxs]
        have hxs' : x = s := by omega
        rcases hrow : m.row k with _ | y
        · refine ⟨fun b h => ?_, fun f'' h => by cases h⟩
          cases h
          refine ⟨hk, by rw [z5], hrow, by rw [hx, hxs'], z1, fun c hc => ?_, par, fun c hc => z7 c (fun h => hc h.2)⟩
          dsimp only
          by_cases hck : k < c
          · have e : upd f'.slack k (some (x - s)) c = f.slack c := hslHi c hck
            have e2 : f'.colInc c = f.colInc c := by rw [z2 c, if_neg (fun h => by omega)]
            by_cases hz0 : f.slack c = some 0
            · rw [if_pos ⟨hck, hc, e.trans hz0⟩, if_pos hz0, e2]
            · rw [if_neg (fun h => hz0 (e.symm.trans h.2.2)), if_neg hz0, e2]
          · rw [if_neg (fun h => hck h.1), z2 c]
            by_cases hck' : c = k
            · subst hck'
              rw [if_neg (by omega), if_neg (fun h => by rw [hx] at h; exact h0 (Option.some.inj h))]
            · have : (c < k ∧ f.slack c = some 0) ↔ f.slack c = some 0 := ⟨fun h => h.2, fun h => ⟨by omega, h⟩⟩
              simp only [this]
        · refine ⟨fun b h => (by cases h), fun f'' h => ?_⟩
          cases h
          refine ⟨z1, fun c => ?_, hslLo, hslHi, z5, fun c hc h => ?_, fun c hc => ?_, ⟨ex ++ [y], ?_, ?_, fun w hw => ?_, fun c hc h => ?_⟩, z11⟩
          · simp only [hcol]; exact z2 c
          · dsimp only [upd]
            by_cases hck : c = k
            · rw [if_pos hck, hck, z5]
            · rw [if_neg hck]; exact z6 c (by omega) h
          · dsimp only [upd]
            by_cases hck : c = k
            · exact absurd ⟨by omega, by rw [hck, hx, hxs']⟩ hc
            · rw [if_neg hck]; exact z7 c (fun h => hc ⟨by omega, h.2⟩)
          · dsimp only; rw [z8, List.append_assoc]
          · refine List.nodup_append.2 ⟨z8', List.nodup_singleton y, fun a ha b hb e => ?_⟩
            rw [List.mem_singleton.1 hb] at e
            subst e
            obtain ⟨c, hc, _, hrc⟩ := z9 a ha
            have h1 := hm.row a c hrc
            rw [hm.row a k hrow] at h1
            cases h1
            omega
          · rcases List.mem_append.1 hw with hw | hw
            · obtain ⟨c, a, b⟩ := z9 w hw
              exact ⟨c, by omega, b⟩
            · rw [List.mem_singleton.1 hw]
              exact ⟨k, by omega, by rw [hx, hxs'], hrow⟩
          · by_cases hck : c = k
            · rw [hck]; exact ⟨y, hrow, List.mem_append_right _ (List.mem_singleton.2 rfl)⟩
            · obtain ⟨w, a, b⟩ := z10 c (by omega) h
              exact ⟨w, a, List.mem_append_left _ b⟩
      · rw [if_neg hxs]
        have hks : f.slack k ≠ some s := by
          rw [hx]
          intro h
          have := Option.some.inj h
          omega
        refine ⟨fun b h => (by cases h), fun f'' h => ?_⟩
        cases h
        refine ⟨z1, fun c => ?_, hslLo, hslHi, z5, fun c hc h => ?_, fun c hc => z7 c (fun h => hc ⟨by omega, h.2⟩),
          ⟨ex, z8, z8', fun y hy => ?_, fun c hc h => ?_⟩, z11⟩
        · simp only [hcol]; exact z2 c
        · exact z6 c (by
            have : c ≠ k := fun e => by rw [e] at h; exact hks h
            omega) h
        · obtain ⟨c, a, b⟩ := z9 y hy
          exact ⟨c, by omega, b⟩
        · exact z10 c (by
            have : c ≠ k := fun e => by rw [e] at h; exact hks h
            omega) h

theorem zero_loop {n : Nat} {m : Mates} (hm : Mat n m) {f : Forest} {s : Int} (hs : s ≠ 0) : ∀ (len k : Nat) (f' : Forest), k + len = n → ZS m f s k f' →
    (∀ b, cols (zeroCol n m s) (List.range' k len) f' = .inl b → ZB n m f s b) ∧
    (∀ f'', cols (zeroCol n m s) (List.range' k len) f' = .inr f'' → ZS m f s n f'') := by
  intro len
  induction len with
  | zero =>
    intro k f' hk hz
    have : k = n := by omega
    subst this
    exact ⟨fun b h => (by cases h), fun f'' h => (by cases h; exact hz)⟩
  | succ len ih =>
    intro k f' hk hz
    rw [List.range'_succ, cols]
    obtain ⟨a1, a2⟩ := zeroCol_inv hm hs (show k < n by omega) hz
    rcases hc : zeroCol n m s k f' with b | g
    · exact ⟨fun b' h => (by cases h; exact a1 _ hc), fun f'' h => (by cases h)⟩
    · exact ih (k + 1) g (by omega) (a2 g hc)

/-- the least slack -/
theorem leastSlack_spec {n : Nat} {f : Forest} {s : Int} (h : leastSlack n f = some s) : s ≠ 0 ∧ (∃ c, c < n ∧ f.slack c = some s) ∧
    ∀ c x, c < n → f.slack c = some x → x ≠ 0 → s ≤ x := by
  have key : ∀ (l : List Nat) (a : Option Int) (r : Option Int), l.foldl (fun s c =>
      match f.slack c, s with
      | some x, some y => if x ≠ 0 ∧ x < y then some x else some y
      | some x, none => if x ≠ 0 then some x else none
      | none, s => s) a = r → (∀ t, r = some t → a = some t ∨ (t ≠ 0 ∧ ∃ c ∈ l, f.slack c = some t)) ∧
        (∀ t u, r = some t → a = some u → t ≤ u) ∧ (∀ u, a = some u → ∃ t, r = some t) ∧ ∀ c ∈ l, ∀ x, f.slack c = some x → x ≠ 0 → ∃ t, r = some t ∧ t ≤ x := by
    intro l
    induction l with
    | nil =>
      intro a r h
      have h : a = r := h
      subst h
      exact ⟨fun t h => .inl h, fun t u h1 h2 => by rw [h1] at h2; cases h2; exact Int.le_refl _, fun u h => ⟨u, h⟩, fun c hc => absurd hc List.not_mem_nil⟩
    | cons c l ih =>
      intro a r h
      rw [List.foldl_cons] at h
      obtain ⟨i1, i2, i3, i4⟩ := ih _ r h
      clear h ih
      have lift : ∀ t, (t ≠ 0 ∧ ∃ d ∈ l, f.slack d = some t) → t ≠ 0 ∧ ∃ d ∈ c :: l, f.slack d = some t :=
        fun t h => ⟨h.1, by obtain ⟨d, a, b⟩ := h.2; exact ⟨d, List.mem_cons_of_mem _ a, b⟩⟩
      have tail : ∀ (P : Nat → Prop), P c → (∀ d ∈ l, P d) → ∀ d ∈ c :: l, P d := by
        intro P h1 h2 d hd
        rcases List.mem_cons.1 hd with h | h
        · rw [h]; exact h1
        · exact h2 d h
      rcases hsl : f.slack c with _ | x
      · rw [hsl] at i1 i2 i3
        dsimp only at i1 i2 i3
        refine ⟨fun t ht => ?_, i2, i3, tail _ (fun x hx => (by rw [hsl] at hx; cases hx)) i4⟩
        rcases i1 t ht with h | h
        · exact .inl h
        · exact .inr (lift t h)
      · rw [hsl] at i1 i2 i3
        rcases a with _ | y
        · dsimp only at i1 i2 i3
          by_cases hx : x ≠ 0
          · rw [if_pos hx] at i1 i2 i3
            obtain ⟨t0, ht0⟩ := i3 x rfl
            refine ⟨fun t ht => ?_, fun t u _ hu => (by cases hu), fun u hu => (by cases hu), tail _ (fun z hz hz0 => ?_) i4⟩
            · rcases i1 t ht with h | h
              · cases h; exact .inr ⟨hx, c, List.mem_cons_self, hsl⟩
              · exact .inr (lift t h)
            · rw [hsl] at hz
              cases hz
              exact ⟨t0, ht0, i2 t0 x ht0 rfl⟩
          · rw [if_neg hx] at i1 i2 i3
            refine ⟨fun t ht => ?_, fun t u _ hu => (by cases hu), fun u hu => (by cases hu), tail _ (fun z hz hz0 => ?_) i4⟩
            · rcases i1 t ht with h | h
              · cases h
              · exact .inr (lift t h)
            · rw [hsl] at hz
              cases hz
              exact absurd hz0 hx
        · dsimp only at i1 i2 i3
          by_cases hx : x ≠ 0 ∧ x < y
          · rw [if_pos hx] at i1 i2 i3
            obtain ⟨t0, ht0⟩ := i3 x rfl
            refine ⟨fun t ht => ?_, fun t u ht hu => ?_, fun u hu => ⟨t0, ht0⟩, tail _ (fun z hz hz0 => ?_) i4⟩
            · rcases i1 t ht with h | h
              · cases h; exact .inr ⟨hx.1, c, List.mem_cons_self, hsl⟩
              · exact .inr (lift t h)
            · cases hu
              have := i2 t x ht rfl
              omega
            · rw [hsl] at hz
              cases hz
              exact ⟨t0, ht0, i2 t0 x ht0 rfl⟩
          · rw [if_neg hx] at i1 i2 i3
            obtain ⟨t0, ht0⟩ := i3 y rfl
            refine ⟨fun t ht => ?_, i2, i3, tail _ (fun z hz hz0 => ?_) i4⟩
            · rcases i1 t ht with h | h
              · exact .inl h
              · exact .inr (lift t h)
            · rw [hsl] at hz
              cases hz
              have := i2 t0 y ht0 rfl
              exact ⟨t0, ht0, by omega⟩
  obtain ⟨k1, _, _, k4⟩ := key (List.range n) none (some s) h
  rcases k1 s rfl with h | ⟨h0, c, hc, hsl⟩
  · cases h
  · refine ⟨h0, ⟨c, List.mem_range.1 hc, hsl⟩, fun d x hd hx hx0 => ?_⟩
    obtain ⟨t, ht, hle⟩ := k4 d (List.mem_range.2 hd) x hx hx0
    cases ht
    exact hle

/-- the duals of a new zero -/
theorem dual_step {n : Nat} {cost : Nat → Nat → Int} {m : Mates} (hm : Mat n m) {f : Forest} (hf : FI n cost m f) (hq : f.unchosen[f.q]? = none) {s : Int}
    (hpos : 0 < s) (hmin : ∀ c x, c < n → f.slack c = some x → x ≠ 0 → s ≤ x) (rowDec colInc : Nat → Int)
    (hr : ∀ r, rowDec r = if r ∈ f.unchosen then f.rowDec r + s else f.rowDec r)
    (hc : ∀ c, c < n → colInc c = if f.slack c = some 0 then f.colInc c + s else f.colInc c) :
    (∀ r c, r < n → c < n → rowDec r - colInc c ≤ cost r c) ∧ (∀ r c, m.col r = some c → cost r c = rowDec r - colInc c) ∧
    (∀ c r, c < n → f.parent c = some r → cost r c = rowDec r - colInc c) ∧ (∀ c, c < n → f.slack c = some s → cost (f.slackRow c) c = rowDec (f.slackRow c) - colInc c) ∧
    ∀ r ∈ f.unchosen, ∀ c, c < n → Expl cost f r c := by
  have hall : ∀ r ∈ f.unchosen, ∀ c, c < n → Expl cost f r c := by
    intro r hru c hcn
    obtain ⟨i, hi, he⟩ := List.getElem_of_mem hru
    have hle := List.getElem?_eq_none_iff.1 hq
    exact hf.expl i r (Nat.lt_of_lt_of_le hi hle) (by rw [List.getElem?_eq_getElem hi, he]) c hcn
  refine ⟨fun r c hrn hcn => ?_, fun r c h => ?_, fun c r hcn h => ?_, fun c hcn h => ?_, hall⟩
  · have hfe := hf.feas r c hrn hcn
    rw [hr, hc c hcn]
    by_cases h1 : r ∈ f.unchosen
    · rw [if_pos h1]
      by_cases h2 : f.slack c = some 0
      · rw [if_pos h2]; omega
      · rw [if_neg h2]
        obtain ⟨x, a1, a2⟩ := hall r h1 c hcn
        have hx : x ≠ 0 := fun e => h2 (e ▸ a1)
        have := a2 hx
        have := hmin c x hcn a1 hx
        omega
    · rw [if_neg h1]
      by_cases h2 : f.slack c = some 0
      · rw [if_pos h2]; omega
      · rw [if_neg h2]; exact hfe
  · obtain ⟨_, hcn, hrow⟩ := hm.col r c h
    have ht : cost r c = f.rowDec r - f.colInc c := hf.tight r c h
    rw [hr, hc c hcn]
    by_cases h1 : r ∈ f.unchosen
    · rw [if_pos h1, if_pos (hf.mate r h1 c h)]; omega
    · rw [if_neg h1]
      have h2 : f.slack c ≠ some 0 := by
        intro h2
        obtain ⟨x, a1, a2⟩ := hf.zero c hcn h2
        rw [hrow] at a1
        cases a1
        exact h1 a2
      rw [if_neg h2]; exact ht
  · obtain ⟨a1, a2, a3⟩ := hf.par c r hcn h
    have a2 : cost r c = f.rowDec r - f.colInc c := a2
    rw [hr, hc c hcn, if_pos a1, if_pos a3]
    omega
  · obtain ⟨_, a2⟩ := hf.pos c s hcn h
    obtain ⟨a3, a4⟩ := a2 (by omega)
    have : f.slack c ≠ some 0 := by
      rw [h]
      intro e
      have := Option.some.inj e
      omega
    rw [hr, hc c hcn, if_pos a3, if_neg this]
    omega

theorem zero_break {n : Nat} {cost : Nat → Nat → Int} {m : Mates} (hm : Mat n m) {f : Forest} (hf : FI n cost m f) (hq : f.unchosen[f.q]? = none) {s : Int}
    (hpos : 0 < s) (hmin : ∀ c x, c < n → f.slack c = some x → x ≠ 0 → s ≤ x) {b : Break} (hb : ZB n m f s b) : BI n cost m b := by
  obtain ⟨d1, d2, d3, d4, _⟩ := dual_step hm hf hq hpos hmin b.f.rowDec b.f.colInc hb.rowDec hb.colInc
  have hsr : ∀ c, c < n → f.slack c = some s → f.slackRow c < n := fun c hc h => hf.rows _ ((hf.pos c s hc h).2 (by omega)).1
  refine ⟨by rw [hb.r]; exact hsr _ hb.c hb.slack, hb.c, hb.free, d1, d2, ?_, fun c r hc h => ?_,
    ⟨f.unchosen, (by rw [hb.r]; exact ((hf.pos _ s hb.c hb.slack).2 (by omega)).1), length_le hf.nodup hf.rows, fun x hx c hc => ?_⟩⟩
  · show cost b.r b.c = b.f.rowDec b.r - b.f.colInc b.c
    rw [hb.r]
    exact d4 _ hb.c hb.slack
  · rcases hb.par c r h with ⟨h1, h2⟩ | h1
    · subst h2; exact ⟨hsr c hc h1, d4 c hc h1⟩
    · exact ⟨hf.rows r (hf.par c r hc h1).1, d3 c r hc h1⟩
  · obtain ⟨h0, h1⟩ := hf.up hm x hx c hc
    rw [hb.parOld c (by
      rw [h0]
      intro e
      have := Option.some.inj e
      omega)]
    exact h1

theorem zero_forest {n : Nat} {cost : Nat → Nat → Int} {m : Mates} (hm : Mat n m) {f : Forest} (hf : FI n cost m f) (hq : f.unchosen[f.q]? = none) {s : Int}
    (hpos : 0 < s) (hmin : ∀ c x, c < n → f.slack c = some x → x ≠ 0 → s ≤ x) {f' : Forest} (hz : ZS m f s n f') : FI n cost m f' := by
  obtain ⟨z1, z2, z3, z4, z5, z6, z7, ⟨ex, z8, z8', z9, z10⟩, z11⟩ := hz
  have hcI : ∀ c, c < n → f'.colInc c = if f.slack c = some 0 then f.colInc c + s else f.colInc c := by
    intro c hc
    rw [z2 c]
    have : (c < n ∧ f.slack c = some 0) ↔ f.slack c = some 0 := ⟨fun h => h.2, fun h => ⟨hc, h⟩⟩
    simp only [this]
  obtain ⟨d1, d2, d3, d4, d5⟩ := dual_step hm hf hq hpos hmin f'.rowDec f'.colInc z1 hcI
  have hmem : ∀ r, r ∈ f.unchosen → r ∈ f'.unchosen := fun r h => by rw [z8]; exact List.mem_append_left _ h
  have hnew : ∀ y ∈ ex, y ∉ f.unchosen := by
    intro y hy hu
    obtain ⟨c, _, a1, a2⟩ := z9 y hy
    have := hf.mate y hu c (hm.row y c a2)
    rw [a1] at this
    have := Option.some.inj this
    omega
  have hzero : ∀ c, c < n → f.slack c = some 0 → f'.slack c = some 0 := fun c hc h => by rw [z3 c hc, h]; rfl
  have hzs : ∀ c, c < n → f.slack c = some s → f'.slack c = some 0 := fun c hc h => by
    rw [z3 c hc, h, Option.map_some, if_neg (by omega)]
    exact congrArg some (Int.sub_self s)
  refine ⟨d1, d2, fun r hr => ?_, fun c r hc h => ?_, fun c hc h => ?_, fun x hx c h => ?_, fun c x hc h => ?_, fun i r hi h c hc => ?_, ?_, ?_, fun c hc h => ?_⟩
  · rw [z8] at hr
    rcases List.mem_append.1 hr with h | h
    · exact hf.rows r h
    · obtain ⟨c, _, _, hrow⟩ := z9 r h
      exact (hm.col r c (hm.row r c hrow)).1
  · by_cases hn : c < n ∧ f.slack c = some s
    · rw [z6 c hc hn.2] at h
      cases h
      exact ⟨hmem _ ((hf.pos c s hc hn.2).2 (by omega)).1, d4 c hc hn.2, hzs c hc hn.2⟩
    · rw [z7 c hn] at h
      obtain ⟨a1, _, a3⟩ := hf.par c r hc h
      exact ⟨hmem r a1, d3 c r hc h, hzero c hc a3⟩
  · rw [z3 c hc] at h
    rcases hx : f.slack c with _ | x
    · rw [hx] at h; cases h
    · by_cases hx0 : x = 0
      · obtain ⟨y, a1, a2⟩ := hf.zero c hc (by rw [hx, hx0])
        exact ⟨y, a1, hmem y a2⟩
      · rw [hx, Option.map_some, if_neg hx0] at h
        have hxs : x = s := by
          have := Option.some.inj h
          omega
        obtain ⟨y, a1, a2⟩ := z10 c hc (by rw [hx, hxs])
        exact ⟨y, a1, by rw [z8]; exact List.mem_append_right _ a2⟩
  · have hcn := (hm.col x c h).2.1
    rw [z8] at hx
    rcases List.mem_append.1 hx with hx | hx
    · exact hzero c hcn (hf.mate x hx c h)
    · obtain ⟨d, hd, a1, a2⟩ := z9 x hx
      have := hm.row x d a2
      rw [h] at this
      cases this
      exact hzs c hcn a1
  · rw [z3 c hc] at h
    rcases hy : f.slack c with _ | y
    · rw [hy] at h; cases h
    · rw [hy, Option.map_some] at h
      by_cases hy0 : y = 0
      · rw [if_pos hy0] at h
        cases h
        exact ⟨Int.le_refl _, fun h => absurd rfl h⟩
      · rw [if_neg hy0] at h
        cases h
        have hle := hmin c y hc hy hy0
        refine ⟨by omega, fun _ => ?_⟩
        obtain ⟨a1, a2⟩ := (hf.pos c y hc hy).2 hy0
        have hne : f.slack c ≠ some 0 := by
          rw [hy]
          intro e
          exact hy0 (Option.some.inj e)
        rw [z5, z1, if_pos a1, hcI c hc, if_neg hne]
        exact ⟨hmem _ a1, by omega⟩
  · have hlen := hf.len
    rw [z11] at hi
    rw [z8] at h
    have h' := get_append (Nat.lt_of_lt_of_le hi hlen) h
    have hru : r ∈ f.unchosen := List.mem_of_getElem? h'
    obtain ⟨x, a1, a2⟩ := d5 r hru c hc
    unfold Expl
    rw [z3 c hc, a1, Option.map_some]
    by_cases hx : x = 0
    · exact ⟨0, by rw [if_pos hx], fun h => absurd rfl h⟩
    · refine ⟨x - s, by rw [if_neg hx], fun _ => ?_⟩
      have hne : f.slack c ≠ some 0 := by
        rw [a1]
        intro e
        exact hx (Option.some.inj e)
      have := a2 hx
      rw [z1, if_pos hru, hcI c hc, if_neg hne]
      omega
  · rw [z11, z8, List.length_append]
    have := hf.len
    omega
  · rw [z8]
    exact List.nodup_append.2 ⟨hf.nodup, z8', fun a ha b hb e => hnew b hb (e ▸ ha)⟩
  · rw [z3 c hc] at h
    rcases hx : f.slack c with _ | x
    · rw [hx] at h; cases h
    · by_cases hx0 : x = 0
      · have hs0 : f.slack c = some 0 := by rw [hx, hx0]
        obtain ⟨r', x', a1, a2, a3⟩ := hf.chain c hc hs0
        obtain ⟨b1, b2⟩ := hf.mem hc hs0 a1 a2
        rw [z8, z7 c (fun h => by
          have := hs0.symm.trans h.2
          have := Option.some.inj this
          omega)]
        exact ⟨r', x', a1, a2, idx_old b1 b2 a3 _⟩
      · rw [hx, Option.map_some, if_neg hx0] at h
        have hxs : f.slack c = some s := by
          have := Option.some.inj h
          rw [hx]
          exact congrArg some (by omega)
        obtain ⟨y, a1, a2⟩ := z10 c hc hxs
        rw [z8, z6 c hc hxs]
        exact ⟨_, y, rfl, a1, idx_new ((hf.pos c s hc hxs).2 (by omega)).1 (hnew y a2) _⟩

theorem search_inv {n : Nat} {cost : Nat → Nat → Int} {m : Mates} (hm : Mat n m) : ∀ fuel f b, FI n cost m f → search n cost m fuel f = some b → BI n cost m b := by
  intro fuel
  induction fuel with
  | zero => intro f b _ h; cases h
  | succ fuel ih =>
    intro f b hf h
    rw [search] at h
    rcases hu : f.unchosen[f.q]? with _ | r
    · rw [hu] at h
      dsimp only at h
      rcases hl : leastSlack n f with _ | s
      · rw [hl] at h; cases h
      · rw [hl] at h
        dsimp only at h
        obtain ⟨l1, ⟨c0, l2, l3⟩, l4⟩ := leastSlack_spec hl
        have hpos : 0 < s := by
          have := (hf.pos c0 s l2 l3).1
          omega
        have hz : ZS m f s 0 { f with rowDec := fun r => if r ∈ f.unchosen then f.rowDec r + s else f.rowDec r } :=
          ⟨fun _ => rfl, fun c => by rw [if_neg (by omega)], fun c hc => absurd hc (by omega), fun _ _ => rfl, rfl, fun c hc => absurd hc (by omega), fun _ _ => rfl,
            ⟨[], (List.append_nil _).symm, List.nodup_nil, fun y hy => absurd hy List.not_mem_nil, fun c hc => absurd hc (by omega)⟩, rfl⟩
        obtain ⟨w1, w2⟩ := zero_loop (n := n) hm l1 n 0 _ (by omega) hz
        rw [← List.range_eq_range'] at w1 w2
        rcases hc : cols (zeroCol n m s) (List.range n) { f with rowDec := fun r => if r ∈ f.unchosen then f.rowDec r + s else f.rowDec r } with b' | f'
        · rw [hc] at h
          cases h
          exact zero_break hm hf hu hpos l4 (w1 _ hc)
        · rw [hc] at h
          exact ih _ _ (zero_forest hm hf hu hpos l4 (w2 _ hc)) h
    · rw [hu] at h
      dsimp only at h
      have hlt : f.q < f.unchosen.length := (List.getElem?_eq_some_iff.1 hu).1
      obtain ⟨e1, e2⟩ := explore_inv (s := f.rowDec r) hm (List.range n) f [] hf rfl (List.mem_of_getElem? hu) (fun c hc => List.mem_range.1 hc)
        (fun c hc => absurd hc List.not_mem_nil)
      rcases hc : cols (exploreCol cost m r (f.rowDec r)) (List.range n) f with b' | f'
      · rw [hc] at h
        cases h
        exact e1 _ hc
      · rw [hc] at h
        obtain ⟨g1, g2, g3, ex, g4⟩ := e2 f' hc
        have h : search n cost m fuel { f' with q := f'.q + 1 } = some b := h
        refine ih { f' with q := f'.q + 1 } _ ⟨g1.feas, g1.tight, g1.rows, g1.par, g1.zero, g1.mate, g1.pos, fun i y hi hy c hcn => ?_, ?_, g1.nodup, g1.chain⟩ h
        · by_cases hiq : i < f'.q
          · exact g1.expl i y hiq hy c hcn
          · have hi : i < f'.q + 1 := hi
            have hie : i = f.q := by omega
            have hy : f'.unchosen[i]? = some y := hy
            rw [g4, hie, List.getElem?_append_left hlt, hu] at hy
            cases hy
            exact g2 c (List.mem_range.2 hcn)
        · show f'.q + 1 ≤ f'.unchosen.length
          rw [g4, List.length_append]
          omega

/-- rows without a mate -/
def unmatched (n : Nat) (m : Mates) : List Nat := (List.range n).filter fun r => (m.col r).isNone

theorem filter_len (n : Nat) (p p' : Nat → Bool) (r : Nat) (hr : r < n) (h1 : p r = true) (h2 : p' r = false) (h3 : ∀ x, x ≠ r → p' x = p x) :
    ((List.range n).filter p').length + 1 = ((List.range n).filter p).length := by
  induction n with
  | zero => omega
  | succ n ih =>
    rw [List.range_succ, List.filter_append, List.filter_append, List.length_append, List.length_append]
    by_cases hn : r = n
    · subst hn
      have : (List.range r).filter p' = (List.range r).filter p := by
        apply List.filter_congr
        intro x hx
        exact h3 x (by have := List.mem_range.1 hx; omega)
      rw [this]
      simp [h1, h2]
    · have := ih (by omega)
      have e : [n].filter p' = [n].filter p := by
        apply List.filter_congr
        intro x hx
        exact h3 x (by have := List.mem_singleton.1 hx; omega)
      rw [e]
      omega

theorem augment_inv {n : Nat} {cost : Nat → Nat → Int} {f : Forest} (hpar : ∀ c r, c < n → f.parent c = some r → r < n ∧ TightAt cost f r c) :
    ∀ fuel r c m m', r < n → c < n → TightAt cost f r c → Tight cost m f → (∀ x, m.col x ≠ some c) →
      (∀ x y, m.col x = some y → x < n ∧ y < n ∧ m.row y = some x) → (∀ x y, y ≠ c → m.row y = some x → m.col x = some y) →
      augment f.parent fuel r c m = some m' → Mat n m' ∧ Tight cost m' f ∧ (unmatched n m').length + 1 = (unmatched n m).length := by
  intro fuel
  induction fuel with
  | zero => intro r c m m' _ _ _ _ _ _ _ h; cases h
  | succ fuel ih =>
    intro r c m m' hr hc ht htm hno hcol hrow h
    rw [augment] at h
    have ht' : Tight cost ⟨upd m.col r (some c), upd m.row c (some r)⟩ f := by
      intro x y hx
      dsimp only [upd] at hx
      by_cases hxr : x = r
      · rw [if_pos hxr] at hx
        cases hx
        rw [hxr]; exact ht
      · rw [if_neg hxr] at hx; exact htm x y hx
    have hcol' : ∀ x y, upd m.col r (some c) x = some y → x < n ∧ y < n ∧ upd m.row c (some r) y = some x := by
      intro x y hx
      unfold upd at hx ⊢
      by_cases hxr : x = r
      · rw [if_pos hxr] at hx
        cases hx
        rw [if_pos rfl, hxr]
        exact ⟨hr, hc, rfl⟩
      · rw [if_neg hxr] at hx
        have hy : y ≠ c := fun e => hno x (by rw [hx, e])
        rw [if_neg hy]
        exact hcol x y hx
    have hrow' : ∀ x y, m.col r ≠ some y → upd m.row c (some r) y = some x → upd m.col r (some c) x = some y := by
      intro x y hne hx
      unfold upd at hx ⊢
      by_cases hyc : y = c
      · rw [if_pos hyc] at hx
        cases hx
        rw [if_pos rfl, hyc]
      · rw [if_neg hyc] at hx
        have := hrow x y hyc hx
        have hxr : x ≠ r := fun e => hne (e ▸ this)
        rw [if_neg hxr]
        exact this
    rcases hj : m.col r with _ | j
    · rw [hj] at h
      cases h
      refine ⟨⟨hcol', fun x y hx => hrow' x y (by rw [hj]; exact fun e => nomatch e) hx⟩, ht', ?_⟩
      refine filter_len n _ _ r hr ?_ ?_ ?_
      · rw [hj]; rfl
      · show (upd m.col r (some c) r).isNone = false
        unfold upd
        rw [if_pos rfl]; rfl
      · intro x hx
        show (upd m.col r (some c) x).isNone = _
        unfold upd
        rw [if_neg hx]
    · rw [hj] at h
      dsimp only at h
      rcases hp : f.parent j with _ | r'
      · rw [hp] at h; cases h
      · rw [hp] at h
        obtain ⟨_, hjn, hjr⟩ := hcol r j hj
        obtain ⟨p1, p2⟩ := hpar j r' hjn hp
        obtain ⟨i1, i2, i3⟩ := ih r' j _ m' p1 hjn p2 ht' (fun x hx => by
            dsimp only [upd] at hx
            by_cases hxr : x = r
            · rw [if_pos hxr] at hx
              cases hx
              exact hno r hj
            · rw [if_neg hxr] at hx
              have := (hcol x j hx).2.2
              rw [hjr] at this
              cases this
              exact hxr rfl) hcol' (fun x y hy hx => hrow' x y (by rw [hj]; exact fun e => hy (Option.some.inj e).symm) hx) h
        refine ⟨i1, i2, ?_⟩
        rw [i3]
        unfold unmatched
        congr 1
        apply List.filter_congr
        intro x _
        show (upd m.col r (some c) x).isNone = _
        unfold upd
        by_cases hxr : x = r
        · rw [if_pos hxr, hxr, hj]; rfl
        · rw [if_neg hxr]

theorem stages_inv {n : Nat} {cost : Nat → Nat → Int} (fuel : Nat) : ∀ u m f m' f', Mat n m → FI n cost m f → u = (unmatched n m).length →
    stages n cost fuel u m f = some (m', f') → Mat n m' ∧ Feas n cost f' ∧ Tight cost m' f' ∧ unmatched n m' = [] := by
  intro u
  induction u with
  | zero =>
    intro m f m' f' hm hf hu h
    cases h
    exact ⟨hm, hf.feas, hf.tight, List.length_eq_zero_iff.1 hu.symm⟩
  | succ u ih =>
    intro m f m' f' hm hf hu h
    rw [stages] at h
    rcases hs : search n cost m fuel f with _ | b
    · rw [hs] at h; cases h
    · rw [hs] at h
      dsimp only at h
      rcases ha : augment b.f.parent fuel b.r b.c m with _ | m1
      · rw [ha] at h; cases h
      · rw [ha] at h
        have hb := search_inv hm fuel f b hf hs
        obtain ⟨a1, a2, a3⟩ := augment_inv hb.par fuel b.r b.c m m1 hb.r hb.c hb.here hb.tight (fun x hx => by
          have := (hm.col x b.c hx).2.2
          rw [hb.free] at this
          cases this) hm.col (fun x y _ => hm.row x y) ha
        have h : stages n cost fuel u m1 { b.f with slack := fun _ => none, parent := fun _ => none, unchosen := unmatched n m1, q := 0 } = some (m', f') := h
        refine ih m1 { b.f with slack := fun _ => none, parent := fun _ => none, unchosen := unmatched n m1, q := 0 } m' f' a1 ⟨hb.feas, a2, fun r hr => List.mem_range.1 (List.mem_filter.1 hr).1, fun c r _ h => (by cases h), fun c _ h => (by cases h), fun x hx c hc => ?_,
          fun c x _ h => (by cases h), fun i r hi => absurd hi (Nat.not_lt_zero _), Nat.zero_le _, List.nodup_range.filter _, fun c _ h => (by cases h)⟩ (by omega) h
        have := (List.mem_filter.1 hx).2
        rw [hc] at this
        cases this

/-- the initial state after `k` rows -/
structure II (n : Nat) (cost : Nat → Nat → Int) (k : Nat) (s : Mates × List Nat) : Prop where
  mat : Mat n s.1
  tight : ∀ r c, s.1.col r = some c → cost r c = rowMin n cost r
  later : ∀ r, k ≤ r → s.1.col r = none
  list : s.2 = (List.range k).filter fun r => (s.1.col r).isNone

theorem initRow_inv {n : Nat} {cost : Nat → Nat → Int} {k : Nat} (hk : k < n) {s : Mates × List Nat} (h : II n cost k s) : II n cost (k + 1) (initRow n cost s k) := by
  have hnone := h.later k (Nat.le_refl _)
  unfold initRow
  rcases hf : (List.range n).find? (fun c => cost k c = rowMin n cost k && (s.1.row c).isNone) with _ | c
  · have e : upd s.1.col k none = s.1.col := by
      funext x
      unfold upd
      by_cases hx : x = k
      · rw [if_pos hx, hx, hnone]
      · rw [if_neg hx]
    dsimp only
    rw [e]
    refine ⟨⟨h.mat.col, h.mat.row⟩, h.tight, fun r hr => h.later r (by omega), ?_⟩
    dsimp only
    rw [List.range_succ, List.filter_append, h.list]
    congr 1
    rw [List.filter_cons, hnone]
    rfl
  · have hc := List.find?_some hf
    have hcn := List.mem_range.1 (List.mem_of_find?_eq_some hf)
    rw [Bool.and_eq_true, Option.isNone_iff_eq_none] at hc
    have hc1 : cost k c = rowMin n cost k := of_decide_eq_true hc.1
    refine ⟨⟨fun x y hx => ?_, fun x y hx => ?_⟩, fun x y hx => ?_, fun x hx => ?_, ?_⟩
    · dsimp only [upd] at hx ⊢
      by_cases hxk : x = k
      · rw [if_pos hxk] at hx
        cases hx
        rw [if_pos rfl, hxk]
        exact ⟨hk, hcn, rfl⟩
      · rw [if_neg hxk] at hx
        obtain ⟨a1, a2, a3⟩ := h.mat.col x y hx
        have hy : y ≠ c := fun e => by rw [e, hc.2] at a3; cases a3
        rw [if_neg hy]
        exact ⟨a1, a2, a3⟩
    · dsimp only [upd] at hx ⊢
      by_cases hyc : y = c
      · rw [if_pos hyc] at hx
        cases hx
        rw [if_pos rfl, hyc]
      · rw [if_neg hyc] at hx
        have := h.mat.row x y hx
        have hxk : x ≠ k := fun e => by rw [e, hnone] at this; cases this
        rw [if_neg hxk]
        exact this
    · dsimp only [upd] at hx
      by_cases hxk : x = k
      · rw [if_pos hxk] at hx
        cases hx
        rw [hxk]; exact hc1
      · rw [if_neg hxk] at hx
        exact h.tight x y hx
    · dsimp only [upd]
      rw [if_neg (by omega)]
      exact h.later x (by omega)
    · dsimp only
      rw [List.range_succ, List.filter_append, h.list]
      have e1 : [k].filter (fun r => (upd s.1.col k (some c) r).isNone) = [] := by
        rw [List.filter_cons]
        unfold upd
        rw [if_pos rfl]
        rfl
      rw [e1, List.append_nil]
      apply List.filter_congr
      intro x hx
      unfold upd
      rw [if_neg (by have := List.mem_range.1 hx; omega)]

theorem init_inv (n : Nat) (cost : Nat → Nat → Int) : ∀ k, k ≤ n → II n cost k ((List.range k).foldl (initRow n cost) (⟨fun _ => none, fun _ => none⟩, [])) := by
  intro k
  induction k with
  | zero => intro _; exact ⟨⟨fun r c h => (by cases h), fun r c h => (by cases h)⟩, fun r c h => (by cases h), fun _ _ => rfl, rfl⟩
  | succ k ih =>
    intro hk
    rw [List.range_succ, List.foldl_append]
    exact initRow_inv (by omega) (ih (by omega))

/-- the invariants in the beginning -/
theorem start_inv (n : Nat) (cost : Nat → Nat → Int) (i : Mates × List Nat) (h : II n cost n i) :
    FI n cost i.1 ⟨rowMin n cost, fun _ => 0, fun _ => none, fun _ => 0, fun _ => none, i.2, 0⟩ := by
  refine ⟨fun r c hr hc => ?_, fun r c hc => ?_, fun r hr => ?_, fun c r _ h => (by cases h), fun c _ h => (by cases h), fun x hx c hc => ?_, fun c x _ h => (by cases h),
    fun i r hi => absurd hi (Nat.not_lt_zero _), Nat.zero_le _, (by dsimp only; rw [h.list]; exact List.nodup_range.filter _), fun c _ h => (by cases h)⟩
  · have := (foldl_min_le (fun c => cost r c) (List.range n) (cost r 0)).2.1 c (List.mem_range.2 hc)
    show rowMin n cost r - 0 ≤ cost r c
    unfold rowMin
    omega
  · have := h.tight r c hc
    show cost r c = rowMin n cost r - 0
    omega
  · dsimp only at hr
    rw [h.list] at hr
    exact List.mem_range.1 (List.mem_filter.1 hr).1
  · dsimp only at hx
    rw [h.list] at hx
    have := (List.mem_filter.1 hx).2
    rw [hc] at this
    cases this

/-- all columns covered: no row is without a mate -/
theorem covered_all {n : Nat} {m : Mates} (hm : Mat n m) (h : ∀ c, c < n → ∃ x, m.row c = some x) (r : Nat) (hr : r < n) : m.col r ≠ none := by
  intro hno
  have hg : ∀ c, c < n → m.row c = some ((m.row c).getD 0) := fun c hc => by
    obtain ⟨x, hx⟩ := h c hc
    rw [hx]; rfl
  have hsub : (Finset.range n).image (fun c => (m.row c).getD 0) ⊆ (Finset.range n).erase r := by
    intro x hx
    obtain ⟨c, hc, rfl⟩ := Finset.mem_image.1 hx
    have hcol := hm.row _ c (hg c (Finset.mem_range.1 hc))
    refine Finset.mem_erase.2 ⟨fun e => ?_, Finset.mem_range.2 (hm.col _ c hcol).1⟩
    rw [e, hno] at hcol
    cases hcol
  have hcard := Finset.card_le_card hsub
  rw [Finset.card_image_of_injOn, Finset.card_erase_of_mem (Finset.mem_range.2 hr), Finset.card_range] at hcard
  · omega
  · intro c hc d hd he
    dsimp only at he
    have h1 := hm.row _ c (hg c (Finset.mem_range.1 hc))
    have h2 := hm.row _ d (hg d (Finset.mem_range.1 hd))
    rw [he, h2] at h1
    cases h1
    rfl

/-- there is a slack to go on with -/
theorem leastSlack_some {n : Nat} {f : Forest} {c : Nat} {x : Int} (hc : c < n) (h : f.slack c = some x) (hx : x ≠ 0) : ∃ s, leastSlack n f = some s := by
  have keep : ∀ (l : List Nat) (a : Option Int), a.isSome → (l.foldl (fun s c =>
      match f.slack c, s with
      | some x, some y => if x ≠ 0 ∧ x < y then some x else some y
      | some x, none => if x ≠ 0 then some x else none
      | none, s => s) a).isSome := by
    intro l
    induction l with
    | nil => intro a h; exact h
    | cons c l ih =>
      intro a h
      rw [List.foldl_cons]
      apply ih
      rcases a with _ | y
      · cases h
      · rcases f.slack c with _ | x
        · rfl
        · dsimp only
          by_cases hx : x ≠ 0 ∧ x < y
          · rw [if_pos hx]; rfl
          · rw [if_neg hx]; rfl
  have key : ∀ (l : List Nat) (a : Option Int), c ∈ l → (l.foldl (fun s c =>
      match f.slack c, s with
      | some x, some y => if x ≠ 0 ∧ x < y then some x else some y
      | some x, none => if x ≠ 0 then some x else none
      | none, s => s) a).isSome := by
    intro l
    induction l with
    | nil => intro a h; exact absurd h List.not_mem_nil
    | cons d l ih =>
      intro a hm
      rw [List.foldl_cons]
      rcases List.mem_cons.1 hm with e | e
      · subst e
        apply keep
        rw [h]
        rcases a with _ | y
        · dsimp only
          rw [if_pos hx]; rfl
        · dsimp only
          by_cases hx : x ≠ 0 ∧ x < y
          · rw [if_pos hx]; rfl
          · rw [if_neg hx]; rfl
      · exact ih _ e
  exact Option.isSome_iff_exists.1 (key (List.range n) none (List.mem_range.2 hc))

theorem search_some {n : Nat} {cost : Nat → Nat → Int} {m : Mates} (hm : Mat n m) {r0 : Nat} (hr0 : r0 < n) (hno : m.col r0 = none) : ∀ fuel f, FI n cost m f →
    r0 ∈ f.unchosen → 2 * n < fuel + f.q + f.unchosen.length → ∃ b, search n cost m fuel f = some b := by
  intro fuel
  induction fuel with
  | zero =>
    intro f hf _ hlt
    have h1 := length_le hf.nodup hf.rows
    have h2 := hf.len
    omega
  | succ fuel ih =>
    intro f hf hmem hlt
    have hle := length_le hf.nodup hf.rows
    rw [search]
    rcases hu : f.unchosen[f.q]? with _ | r
    · dsimp only
      have hall : ∀ c, c < n → Expl cost f r0 c := by
        intro c hcn
        obtain ⟨i, hi, he⟩ := List.getElem_of_mem hmem
        have hle := List.getElem?_eq_none_iff.1 hu
        exact hf.expl i r0 (Nat.lt_of_lt_of_le hi hle) (by rw [List.getElem?_eq_getElem hi, he]) c hcn
      have hex : ∃ c x, c < n ∧ f.slack c = some x ∧ x ≠ 0 := by
        apply Classical.byContradiction
        intro hn
        refine covered_all hm (fun c hc => ?_) r0 hr0 hno
        obtain ⟨x, a1, _⟩ := hall c hc
        have hx : x = 0 := Classical.byContradiction fun hx => hn ⟨c, x, hc, a1, hx⟩
        rw [hx] at a1
        obtain ⟨y, hy, _⟩ := hf.zero c hc a1
        exact ⟨y, hy⟩
      obtain ⟨c1, x1, hc1, hx1, hx10⟩ := hex
      obtain ⟨s, hl⟩ := leastSlack_some hc1 hx1 hx10
      rw [hl]
      dsimp only
      obtain ⟨l1, ⟨c0, l2, l3⟩, l4⟩ := leastSlack_spec hl
      have hpos : 0 < s := by
        have := (hf.pos c0 s l2 l3).1
        omega
      have hz : ZS m f s 0 { f with rowDec := fun r => if r ∈ f.unchosen then f.rowDec r + s else f.rowDec r } :=
        ⟨fun _ => rfl, fun c => by rw [if_neg (by omega)], fun c hc => absurd hc (by omega), fun _ _ => rfl, rfl, fun c hc => absurd hc (by omega), fun _ _ => rfl,
          ⟨[], (List.append_nil _).symm, List.nodup_nil, fun y hy => absurd hy List.not_mem_nil, fun c hc => absurd hc (by omega)⟩, rfl⟩
      obtain ⟨w1, w2⟩ := zero_loop (n := n) hm l1 n 0 _ (by omega) hz
      rw [← List.range_eq_range'] at w1 w2
      rcases hc : cols (zeroCol n m s) (List.range n) { f with rowDec := fun r => if r ∈ f.unchosen then f.rowDec r + s else f.rowDec r } with b' | f'
      · exact ⟨b', rfl⟩
      · have hzs := w2 f' hc
        obtain ⟨ex, u1, _, _, u4⟩ := hzs.unch
        obtain ⟨y, _, hy⟩ := u4 c0 l2 l3
        have hexl : 0 < ex.length := List.length_pos_of_mem hy
        refine ih f' (zero_forest hm hf hu hpos l4 hzs) (by rw [u1]; exact List.mem_append_left _ hmem) ?_
        rw [hzs.q, u1, List.length_append]
        omega
    · dsimp only
      have hql : f.q < f.unchosen.length := (List.getElem?_eq_some_iff.1 hu).1
      obtain ⟨e1, e2⟩ := explore_inv (s := f.rowDec r) hm (List.range n) f [] hf rfl (List.mem_of_getElem? hu) (fun c hc => List.mem_range.1 hc)
        (fun c hc => absurd hc List.not_mem_nil)
      rcases hc : cols (exploreCol cost m r (f.rowDec r)) (List.range n) f with b' | f'
      · exact ⟨b', rfl⟩
      · obtain ⟨g1, g2, g3, ex, g4⟩ := e2 f' hc
        refine ih { f' with q := f'.q + 1 } ⟨g1.feas, g1.tight, g1.rows, g1.par, g1.zero, g1.mate, g1.pos, fun i y hi hy c hcn => ?_, ?_, g1.nodup, g1.chain⟩
          (by show r0 ∈ f'.unchosen; rw [g4]; exact List.mem_append_left _ hmem) ?_
        · by_cases hiq : i < f'.q
          · exact g1.expl i y hiq hy c hcn
          · have hi : i < f'.q + 1 := hi
            have hie : i = f.q := by omega
            have hy : f'.unchosen[i]? = some y := hy
            rw [g4, hie, List.getElem?_append_left hql, hu] at hy
            cases hy
            exact g2 c (List.mem_range.2 hcn)
        · show f'.q + 1 ≤ f'.unchosen.length
          rw [g4, List.length_append]
          omega
        · show 2 * n < fuel + (f'.q + 1) + f'.unchosen.length
          rw [g4, List.length_append]
          omega

theorem augment_some {parent : Nat → Option Nat} {m0 : Mates} {l : List Nat} (hl : ∀ x ∈ l, ∀ c, m0.col x = some c → ∃ r, parent c = some r ∧ r ∈ l ∧ l.idxOf r < l.idxOf x) :
    ∀ fuel r c m, r ∈ l → l.idxOf r < fuel → (∀ x ∈ l, l.idxOf x ≤ l.idxOf r → m.col x = m0.col x) → ∃ m', augment parent fuel r c m = some m' := by
  intro fuel
  induction fuel with
  | zero => intro r c m _ h; omega
  | succ fuel ih =>
    intro r c m hr hlt hag
    rw [augment]
    have hcol := hag r hr (Nat.le_refl _)
    rcases hj : m.col r with _ | j
    · exact ⟨_, rfl⟩
    · dsimp only
      obtain ⟨r', p1, p2, p3⟩ := hl r hr j (hcol.symm.trans hj)
      rw [p1]
      refine ih r' j _ p2 (by omega) (fun x hx hle => ?_)
      show upd m.col r (some c) x = m0.col x
      have : x ≠ r := fun e => by rw [e] at hle; omega
      unfold upd
      rw [if_neg this]
      exact hag x hx (by omega)

theorem stages_some {n : Nat} {cost : Nat → Nat → Int} {fuel : Nat} (hfuel : 2 * n < fuel) : ∀ u m f, Mat n m → FI n cost m f → f.unchosen = unmatched n m → u = (unmatched n m).length →
    ∃ r, stages n cost fuel u m f = some r := by
  intro u
  induction u with
  | zero => intro m f _ _ _ _; exact ⟨_, rfl⟩
  | succ u ih =>
    intro m f hm hf hun hu
    rw [stages]
    obtain ⟨r0, hr0⟩ := List.exists_mem_of_length_pos (show 0 < (unmatched n m).length by omega)
    have hr0n := List.mem_range.1 (List.mem_filter.1 hr0).1
    have hr0c := Option.isNone_iff_eq_none.1 (List.mem_filter.1 hr0).2
    obtain ⟨b, hs⟩ := search_some hm hr0n hr0c fuel f hf (by rw [hun]; exact hr0) (by omega)
    rw [hs]
    dsimp only
    have hb := search_inv hm fuel f b hf hs
    obtain ⟨l, c1, c2, c3⟩ := hb.chain
    obtain ⟨m1, ha⟩ := augment_some c3 fuel b.r b.c m c1 (by
      have := List.idxOf_lt_length_of_mem c1
      omega) (fun _ _ _ => rfl)
    rw [ha]
    obtain ⟨a1, a2, a3⟩ := augment_inv hb.par fuel b.r b.c m m1 hb.r hb.c hb.here hb.tight (fun x hx => by
      have := (hm.col x b.c hx).2.2
      rw [hb.free] at this
      cases this) hm.col (fun x y _ => hm.row x y) ha
    refine ih m1 { b.f with slack := fun _ => none, parent := fun _ => none, unchosen := unmatched n m1, q := 0 } a1 ⟨hb.feas, a2,
      fun r hr => List.mem_range.1 (List.mem_filter.1 hr).1, fun c r _ h => (by cases h), fun c _ h => (by cases h), fun x hx c hc => ?_,
      fun c x _ h => (by cases h), fun i r hi => absurd hi (Nat.not_lt_zero _), Nat.zero_le _, List.nodup_range.filter _, fun c _ h => (by cases h)⟩ rfl (by omega)
    have := (List.mem_filter.1 hx).2
    rw [hc] at this
    cases this

end Verif.Lemmas.Hungarian
