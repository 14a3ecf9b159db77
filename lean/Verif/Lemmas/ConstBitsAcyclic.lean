import Verif.Lemmas.ConstBitsAlg
/-!
# The known-bits analysis of graphs without cycles
-/
namespace Verif.Model.ConstBits
open Verif.Spec Verif.Model.IrOpt

variable {I : IrGraph} {f : State} {r : Key → Nat}

/-- the state of the node has been computed -/
def Done (mem : Mem) (k : Key) : Prop := lookupSt k mem.sts = .valid ∨ lookupSt k mem.sts = .unstable

/-- what has been computed is the state in `f` -/
def Agree (f : State) (mem : Mem) : Prop := ∀ k, Done mem k → mem.s.at k = f.at k

structure Ext (mem mem' : Mem) : Prop where
  fly : ∀ j, lookupSt j mem'.sts = .inFlight ↔ lookupSt j mem.sts = .inFlight
  done : ∀ j, Done mem j → Done mem' j

theorem Ext.refl (mem : Mem) : Ext mem mem := ⟨fun _ => Iff.rfl, fun _ => id⟩
theorem Ext.trans {a b c : Mem} (h1 : Ext a b) (h2 : Ext b c) : Ext a c := ⟨fun j => (h2.fly j).trans (h1.fly j), fun j h => h2.done j (h1.done j h)⟩

/-- the nodes in flight depend on `k` -/
def Above (r : Key → Nat) (mem : Mem) (n : Nat) : Prop := ∀ j, lookupSt j mem.sts = .inFlight → n < r j

theorem Above.ext {mem mem' : Mem} {n : Nat} (h : Above r mem n) (he : Ext mem mem') : Above r mem' n := fun j hj => h j ((he.fly j).1 hj)

/-- what a call of `get_bitinfo_recursive` does -/
def GetEq (f : State) (r : Key → Nat) (get : Key → Mem → Option Mem) : Prop :=
  ∀ k mem mem', Agree f mem → Above r mem (r k) → get k mem = some mem' → Agree f mem' ∧ Ext mem mem' ∧ Done mem' k

section
variable {get : Key → Mem → Option Mem} {n : Nat}

theorem getEq_below (hg : GetEq f r get) {k : Key} (hk : r k < n) {mem mem' : Mem} (ha : Agree f mem) (hb : ∀ j, lookupSt j mem.sts = .inFlight → n ≤ r j)
    (h : get k mem = some mem') : Agree f mem' ∧ Ext mem mem' ∧ Done mem' k ∧ ∀ j, lookupSt j mem'.sts = .inFlight → n ≤ r j := by
  obtain ⟨h1, h2, h3⟩ := hg k mem mem' ha (fun j hj => Nat.lt_of_lt_of_le hk (hb j hj)) h
  exact ⟨h1, h2, h3, fun j hj => hb j ((h2.fly j).1 hj)⟩

theorem blockLoop_eq (hg : GetEq f r get) : ∀ (xs : List Nat) (c : Bool) (mem mem' : Mem) (c' : Bool), (∀ x ∈ xs, r (.x x) < n) → Agree f mem →
    (∀ j, lookupSt j mem.sts = .inFlight → n ≤ r j) → blockLoop get xs c mem = some (mem', c') →
    Agree f mem' ∧ Ext mem mem' ∧ c' = (c || xs.any fun x => decide ((f.x x).z = 1#1))
  | [], c, mem, mem', c', _, ha, _, h => by
    simp only [blockLoop, Option.some.injEq, Prod.mk.injEq] at h
    obtain ⟨rfl, rfl⟩ := h
    exact ⟨ha, Ext.refl _, by simp⟩
  | x :: xs, c, mem, mem', c', hx, ha, hb, h => by
    unfold blockLoop at h
    obtain ⟨m1, h1, h⟩ := bind_some h
    obtain ⟨a1, e1, d1, b1⟩ := getEq_below hg (hx x List.mem_cons_self) ha hb h1
    obtain ⟨a2, e2, hc⟩ := blockLoop_eq hg xs _ _ _ _ (fun y hy => hx y (List.mem_cons_of_mem _ hy)) a1 b1 h
    have hv : m1.s.x x = f.x x := a1 _ d1
    refine ⟨a2, e1.trans e2, ?_⟩
    rw [hc, hv, List.any_cons, Bool.or_assoc]

theorem phiLoop_eq (hg : GetEq f r get) (m : IMode) : ∀ (l : List (Nat × Nat)) (acc : BitInfo m.bits) (mem mem' : Mem) (v : BitInfo m.bits),
    (∀ p ∈ l, r (.x p.1) < n ∧ r (.data m p.2) < n) → Agree f mem → (∀ j, lookupSt j mem.sts = .inFlight → n ≤ r j) → phiLoop get m l acc mem = some (mem', v) →
    Agree f mem' ∧ Ext mem mem' ∧ v = phiFold f m l acc
  | [], acc, mem, mem', v, _, ha, _, h => by
    simp only [phiLoop, Option.some.injEq, Prod.mk.injEq] at h
    obtain ⟨rfl, rfl⟩ := h
    exact ⟨ha, Ext.refl _, rfl⟩
  | (x, a) :: l, acc, mem, mem', v, hx, ha, hb, h => by
    unfold phiLoop at h
    obtain ⟨m1, h1, h⟩ := bind_some h
    obtain ⟨a1, e1, d1, b1⟩ := getEq_below hg (hx _ List.mem_cons_self).1 ha hb h1
    have hv : m1.s.x x = f.x x := a1 _ d1
    rw [phiFold_cons]
    split at h
    · next hz =>
      obtain ⟨m2, h2, h⟩ := bind_some h
      obtain ⟨a2, e2, d2, b2⟩ := getEq_below hg (hx _ List.mem_cons_self).2 a1 b1 h2
      have hv2 : m2.s.data m a = f.data m a := a2 _ d2
      obtain ⟨a3, e3, hr⟩ := phiLoop_eq hg m l _ _ _ _ (fun p hp => hx p (List.mem_cons_of_mem _ hp)) a2 b2 h
      refine ⟨a3, e1.trans (e2.trans e3), ?_⟩
      rw [hv] at hz
      rw [if_pos hz, hr, hv2]
    · next hz =>
      obtain ⟨a3, e3, hr⟩ := phiLoop_eq hg m l _ _ _ _ (fun p hp => hx p (List.mem_cons_of_mem _ hp)) a1 b1 h
      refine ⟨a3, e1.trans e3, ?_⟩
      rw [hv] at hz
      rw [if_neg hz, hr]

theorem phiCheck_eq (hg : GetEq f r get) (m : IMode) : ∀ (l : List (Nat × Nat)) (mem mem' : Mem) (c : Bool),
    (∀ p ∈ l, r (.x p.1) < n ∧ r (.data m p.2) < n) → Agree f mem → (∀ j, lookupSt j mem.sts = .inFlight → n ≤ r j) → phiCheck get m l mem = some (mem', c) →
    Agree f mem' ∧ Ext mem mem'
  | [], mem, mem', c, _, ha, _, h => by
    simp only [phiCheck, Option.some.injEq, Prod.mk.injEq] at h
    obtain ⟨rfl, rfl⟩ := h
    exact ⟨ha, Ext.refl _⟩
  | (x, a) :: l, mem, mem', c, hx, ha, hb, h => by
    unfold phiCheck at h
    obtain ⟨m1, h1, h⟩ := bind_some h
    obtain ⟨a1, e1, d1, b1⟩ := getEq_below hg (hx _ List.mem_cons_self).1 ha hb h1
    split at h
    · cases h; exact ⟨a1, e1⟩
    · obtain ⟨a3, e3⟩ := phiCheck_eq hg m l _ _ _ (fun p hp => hx p (List.mem_cons_of_mem _ hp)) a1 b1 h
      exact ⟨a3, e1.trans e3⟩

theorem transferPhiA_eq (hg : GetEq f r get) (m : IMode) (l : List (Nat × Nat)) (hx : ∀ p ∈ l, r (.x p.1) < n ∧ r (.data m p.2) < n) :
    ∀ (fuel : Nat) (mem mem' : Mem) (v : BitInfo m.bits), Agree f mem → (∀ j, lookupSt j mem.sts = .inFlight → n ≤ r j) →
      transferPhiA get m l fuel mem = some (mem', v) → Agree f mem' ∧ Ext mem mem' ∧ v = phiFold f m l (BitInfo.undefined m.bits)
  | 0, _, _, _, _, _, h => by cases h
  | fuel + 1, mem, mem', v, ha, hb, h => by
    unfold transferPhiA at h
    obtain ⟨⟨m1, v1⟩, h1, h⟩ := bind_some h
    obtain ⟨a1, e1, hv⟩ := phiLoop_eq hg m l _ _ _ _ hx ha hb h1
    have b1 : ∀ j, lookupSt j m1.sts = .inFlight → n ≤ r j := fun j hj => hb j ((e1.fly j).1 hj)
    obtain ⟨⟨m2, c⟩, h2, h⟩ := bind_some h
    obtain ⟨a2, e2⟩ := phiCheck_eq hg m l _ _ _ hx a1 b1 h2
    split at h
    · obtain ⟨a3, e3, hv3⟩ := transferPhiA_eq hg m l hx fuel _ _ _ a2 (fun j hj => b1 j ((e2.fly j).1 hj)) h
      exact ⟨a3, e1.trans (e2.trans e3), hv3⟩
    · cases h
      exact ⟨a2, e1.trans e2, hv⟩

theorem anyUndefined_eq (hg : GetEq f r get) : ∀ (ks : List Key) (mem mem' : Mem) (c : Bool), (∀ k ∈ ks, r k < n) → Agree f mem →
    (∀ j, lookupSt j mem.sts = .inFlight → n ≤ r j) → anyUndefined get ks mem = some (mem', c) →
    Agree f mem' ∧ Ext mem mem' ∧ (c = true → ∃ k ∈ ks, (f.at k).isUndefined = true)
  | [], mem, mem', c, _, ha, _, h => by
    simp only [anyUndefined, Option.some.injEq, Prod.mk.injEq] at h
    obtain ⟨rfl, rfl⟩ := h
    exact ⟨ha, Ext.refl _, by simp⟩
  | k :: ks, mem, mem', c, hx, ha, hb, h => by
    unfold anyUndefined at h
    obtain ⟨m1, h1, h⟩ := bind_some h
    obtain ⟨a1, e1, d1, b1⟩ := getEq_below hg (hx k List.mem_cons_self) ha hb h1
    split at h
    · next hu =>
      cases h
      rw [a1 _ d1] at hu
      exact ⟨a1, e1, fun _ => ⟨k, List.mem_cons_self, hu⟩⟩
    · obtain ⟨a3, e3, hr⟩ := anyUndefined_eq hg ks _ _ _ (fun y hy => hx y (List.mem_cons_of_mem _ hy)) a1 b1 h
      exact ⟨a3, e1.trans e3, fun h => (hr h).imp fun _ h => ⟨List.mem_cons_of_mem _ h.1, h.2⟩⟩

theorem getAll_eq (hg : GetEq f r get) : ∀ (ks : List Key) (mem mem' : Mem), (∀ k ∈ ks, r k < n) → Agree f mem →
    (∀ j, lookupSt j mem.sts = .inFlight → n ≤ r j) → getAll get ks mem = some mem' →
    Agree f mem' ∧ Ext mem mem' ∧ ∀ k ∈ ks, Done mem' k
  | [], mem, mem', _, ha, _, h => by
    simp only [getAll, Option.some.injEq] at h
    subst h
    exact ⟨ha, Ext.refl _, by simp⟩
  | k :: ks, mem, mem', hx, ha, hb, h => by
    unfold getAll at h
    obtain ⟨m1, h1, h⟩ := bind_some h
    obtain ⟨a1, e1, d1, b1⟩ := getEq_below hg (hx k List.mem_cons_self) ha hb h1
    obtain ⟨a3, e3, hr⟩ := getAll_eq hg ks _ _ (fun y hy => hx y (List.mem_cons_of_mem _ hy)) a1 b1 h
    refine ⟨a3, e1.trans e3, fun j hj => ?_⟩
    rcases List.mem_cons.1 hj with rfl | hj
    · exact e3.done _ d1
    · exact hr j hj

theorem transferA_eq (hg : GetEq f r get) {tfuel : Nat} {k : Key} (hd : ∀ j ∈ I.deps k, r j < n) {mem mem' : Mem} {v : BitInfo k.w}
    (ha : Agree f mem) (hb : ∀ j, lookupSt j mem.sts = .inFlight → n ≤ r j) (h : transferA I get tfuel mem k = some (mem', v)) :
    Agree f mem' ∧ Ext mem mem' ∧ v = transfer I.G I.last f k := by
  cases k with
  | block b =>
    simp only [transferA, transferBlockA] at h
    obtain ⟨⟨m1, c⟩, h1, h⟩ := bind_some h
    cases h
    obtain ⟨a1, e1, hc⟩ := blockLoop_eq hg _ _ _ _ _ (fun x hx => hd _ (List.mem_map_of_mem hx)) ha hb h1
    refine ⟨a1, e1, ?_⟩
    simp only [transfer, transferBlock, hc, Bool.false_or]
    rfl
  | x x =>
    simp only [transferA, transferXA] at h
    obtain ⟨m1, h1, h⟩ := bind_some h
    obtain ⟨a1, e1, d1, b1⟩ := getEq_below hg (hd (.block (I.G.xblock x)) (by simp [IrGraph.deps])) ha hb h1
    have hv : m1.s.block (I.G.xblock x) = f.block (I.G.xblock x) := a1 _ d1
    rw [hv] at h
    simp only [transfer, transferX]
    split at h
    · next hz =>
      cases h
      exact ⟨a1, e1, by rw [if_pos hz]⟩
    · next hz =>
      rw [if_neg hz]
      split at h
      · next hx => cases h; exact ⟨a1, e1, by rw [hx]⟩
      · next sel num hx =>
        obtain ⟨m2, h2, h⟩ := bind_some h
        obtain ⟨a2, e2, d2, b2⟩ := getEq_below hg (hd (.data bmode sel) (by simp [IrGraph.deps, hx])) a1 b1 h2
        have hv2 : m2.s.data bmode sel = f.data bmode sel := a2 _ d2
        rw [hv2] at h
        cases h
        exact ⟨a2, e1.trans e2, by rw [hx]⟩
      · next k sel hx =>
        obtain ⟨m2, h2, h⟩ := bind_some h
        obtain ⟨a2, e2, d2, b2⟩ := getEq_below hg (hd (.data k sel) (by simp [IrGraph.deps, hx])) a1 b1 h2
        have hv2 : m2.s.data k sel = f.data k sel := a2 _ d2
        rw [hv2] at h
        cases h
        exact ⟨a2, e1.trans e2, by rw [hx]⟩
      · next hx => cases h; exact ⟨a1, e1, by rw [hx]⟩
      · next hx => cases h; exact ⟨a1, e1, by rw [hx]⟩
  | data m i =>
    simp only [transferA, transferDataA] at h
    simp only [transfer, transferData]
    split at h
    · next args hn =>
      have hp : ∀ p ∈ (I.G.preds (I.G.blockOf m i)).zip args, r (.x p.1) < n ∧ r (.data m p.2) < n := by
        intro p hp
        obtain ⟨h1, h2⟩ := List.of_mem_zip hp
        simp only [IrGraph.deps, hn, List.mem_append, List.mem_map] at hd
        exact ⟨hd _ (Or.inl ⟨_, h1, rfl⟩), hd _ (Or.inr ⟨_, h2, rfl⟩)⟩
      obtain ⟨a1, e1, hv⟩ := transferPhiA_eq hg m _ hp _ _ _ _ ha hb h
      exact ⟨a1, e1, by rw [hn]; exact hv⟩
    · next e hn =>
      have hl : ∀ k ∈ leaves e, r k < n := by simpa only [IrGraph.deps, hn] using hd
      obtain ⟨⟨m1, c⟩, h1, h⟩ := bind_some h
      obtain ⟨a1, e1, hr⟩ := anyUndefined_eq hg _ _ _ _ hl ha hb h1
      split at h
      · next hc =>
        cases h
        obtain ⟨k, hk, hku⟩ := hr hc
        obtain ⟨m', j, rfl⟩ := leaves_data e hk
        exact ⟨a1, e1, by rw [hn]; exact (bitsWith_undefined e ((mem_leaves e).1 hk) hku).symm⟩
      · obtain ⟨m2, h2, h⟩ := bind_some h
        obtain ⟨a2, e2, hd2⟩ := getAll_eq hg _ _ _ hl a1 (fun j hj => hb j ((e1.fly j).1 hj)) h2
        cases h
        exact ⟨a2, e1.trans e2, by rw [hn]; exact bitsWith_congr e fun k j hk => a2 _ (hd2 _ ((mem_leaves e).2 hk))⟩
    · next hn => cases h; exact ⟨ha, Ext.refl _, by rw [hn]⟩

theorem calcInfo_eq (hf : ∀ k, f.at k = transfer I.G I.last f k) (hg : GetEq f r get) {tfuel : Nat} {k : Key} (hd : ∀ j ∈ I.deps k, r j < r k) :
    ∀ (fuel : Nat) (mem mem' : Mem), Agree f mem → Above r mem (r k) → calcInfo I get tfuel fuel k mem = some mem' →
      Agree f mem' ∧ Ext mem mem' ∧ Done mem' k
  | 0, _, _, _, _, h => by cases h
  | fuel + 1, mem, mem', ha, hb, h => by
    have hk0 : lookupSt k mem.sts ≠ .inFlight := fun hh => Nat.lt_irrefl _ (hb k hh)
    have ha0 : Agree f { mem with sts := setSt k .inFlight mem.sts } := by
      intro j hj
      by_cases hjk : j = k
      · subst hjk; simp only [Done, lookup_set_self] at hj; rcases hj with h | h <;> cases h
      · simp only [Done, lookup_set_ne hjk] at hj; exact ha j hj
    have hb0 : ∀ j, lookupSt j (setSt k .inFlight mem.sts) = .inFlight → r k ≤ r j := by
      intro j hj
      by_cases hjk : j = k
      · rw [hjk]
      · rw [lookup_set_ne hjk] at hj; exact Nat.le_of_lt (hb j hj)
    unfold calcInfo at h
    obtain ⟨⟨m1, v⟩, h1, h⟩ := bind_some h
    obtain ⟨a1, e1, hv⟩ := transferA_eq hg hd ha0 hb0 h1
    have hv : v = f.at k := hv.trans (hf k).symm
    have hfly : ∀ j, j ≠ k → (lookupSt j m1.sts = .inFlight ↔ lookupSt j mem.sts = .inFlight) := fun j hj => by
      have := e1.fly j
      simp only [lookup_set_ne hj] at this
      exact this
    have hdone : ∀ j, j ≠ k → Done mem j → Done m1 j := fun j hj hd => by
      refine e1.done j ?_
      simp only [Done, lookup_set_ne hj]
      exact hd
    dsimp only at h
    split at h
    · next hvs =>
      cases h
      refine ⟨fun j hj => ?_, ⟨fun j => ?_, fun j hj => ?_⟩, Or.inl (lookup_set_self _ _ _)⟩
      · by_cases hjk : j = k
        · subst hjk; exact hvs.symm.trans hv
        · simp only [Done, lookup_set_ne hjk] at hj; exact a1 j hj
      · by_cases hjk : j = k
        · subst hjk; simp only [lookup_set_self]; exact ⟨fun h => (by cases h), fun h => absurd h hk0⟩
        · simp only [lookup_set_ne hjk]; exact hfly j hjk
      · by_cases hjk : j = k
        · subst hjk; exact Or.inl (lookup_set_self _ _ _)
        · simp only [Done, lookup_set_ne hjk]; exact hdone j hjk hj
    · have htr := triggerUsers_rel I (setSt k .valid m1.sts) k
      have hdn : ∀ j, Done ⟨I.triggerUsers (setSt k .valid m1.sts) k, m1.s.set k v⟩ j ↔ (j = k ∨ Done m1 j) := by
        intro j
        unfold Done
        rcases htr j with h' | ⟨h'', h'⟩
        · rw [h']
          by_cases hjk : j = k
          · subst hjk; simp [lookup_set_self]
          · rw [lookup_set_ne hjk]; simp [hjk]
        · rw [h']
          by_cases hjk : j = k
          · simp [hjk]
          · rw [lookup_set_ne hjk] at h''; simp [h'']
      have a2 : Agree f ⟨I.triggerUsers (setSt k .valid m1.sts) k, m1.s.set k v⟩ := by
        intro j hj
        by_cases hjk : j = k
        · subst hjk; simp only [at_set_self]; exact hv
        · simp only [at_set_ne _ _ _ hjk]
          exact a1 j (((hdn j).1 hj).resolve_left hjk)
      have e2 : Ext mem ⟨I.triggerUsers (setSt k .valid m1.sts) k, m1.s.set k v⟩ := by
        refine ⟨fun j => ?_, fun j hj => (hdn j).2 ?_⟩
        · by_cases hjk : j = k
          · subst hjk
            constructor
            · intro hh
              rcases htr j with h' | ⟨_, h'⟩
              · rw [lookup_set_self] at h'; simp only [h'] at hh; cases hh
              · simp only [h'] at hh; cases hh
            · exact fun hh => absurd hh hk0
          · rw [← hfly j hjk]
            rcases htr j with h' | ⟨h'', h'⟩
            · rw [lookup_set_ne hjk] at h'; simp only [h']
            · rw [lookup_set_ne hjk] at h''
              simp only [h', h'']
              exact ⟨fun h => (by cases h), fun h => (by cases h)⟩
        · by_cases hjk : j = k
          · exact Or.inl hjk
          · exact Or.inr (hdone j hjk hj)
      split at h
      · next hl => cases h; exact ⟨a2, e2, Or.inl hl⟩
      · obtain ⟨a3, e3, d3⟩ := calcInfo_eq hf hg hd fuel _ _ a2 (hb.ext e2) h
        exact ⟨a3, e2.trans e3, d3⟩

end

theorem get_eq (hf : ∀ k, f.at k = transfer I.G I.last f k) (hr : ∀ k, ∀ j ∈ I.deps k, r j < r k) : ∀ fuel, GetEq f r (I.get fuel)
  | 0 => fun _ _ _ _ _ h => by cases h
  | fuel + 1 => by
    intro k mem mem' ha hb h
    unfold IrGraph.get at h
    split at h
    · next hl =>
      have ha0 : Agree f ⟨mem.sts, mem.s.set k (BitInfo.undefined k.w)⟩ := by
        intro j hj
        have hjk : j ≠ k := by
          rintro rfl
          simp only [Done, hl] at hj
          rcases hj with h | h <;> cases h
        simp only [at_set_ne _ _ _ hjk]
        exact ha j hj
      have hb0 : Above r ⟨mem.sts, mem.s.set k (BitInfo.undefined k.w)⟩ (r k) := hb
      obtain ⟨h1, h2, h3⟩ := calcInfo_eq hf (get_eq hf hr fuel) (hr k) _ _ _ ha0 hb0 h
      exact ⟨h1, ⟨h2.fly, h2.done⟩, h3⟩
    · exact calcInfo_eq hf (get_eq hf hr fuel) (hr k) _ _ _ ha hb h
    · next hl => exact absurd (hb k hl) (Nat.lt_irrefl _)
    · next hl => cases h; exact ⟨ha, Ext.refl _, Or.inl hl⟩

theorem analyzeAll_eq (hf : ∀ k, f.at k = transfer I.G I.last f k) (hr : ∀ k, ∀ j ∈ I.deps k, r j < r k) {fuel : Nat} : ∀ (ks : List Key) (mem mem' : Mem),
    Agree f mem → (∀ j, lookupSt j mem.sts ≠ .inFlight) → I.analyzeAll fuel ks mem = some mem' → Agree f mem' ∧ Ext mem mem' ∧ ∀ k ∈ ks, Done mem' k
  | [], mem, mem', ha, _, h => by
    simp only [IrGraph.analyzeAll, Option.some.injEq] at h
    subst h
    exact ⟨ha, Ext.refl _, by simp⟩
  | k :: ks, mem, mem', ha, hb, h => by
    unfold IrGraph.analyzeAll at h
    obtain ⟨m1, h1, h⟩ := bind_some h
    obtain ⟨a1, e1, d1⟩ := get_eq hf hr fuel k mem m1 ha (fun j hj => absurd hj (hb j)) h1
    obtain ⟨a2, e2, d2⟩ := analyzeAll_eq hf hr ks _ _ a1 (fun j hj => hb j ((e1.fly j).1 hj)) h
    refine ⟨a2, e1.trans e2, fun j hj => ?_⟩
    rcases List.mem_cons.1 hj with rfl | hj
    · exact e2.done _ d1
    · exact d2 j hj

/-! ## The fixpoint -/

/-- `transfer` only looks at the dependencies -/
theorem transfer_congr {s t : State} {k : Key} (h : ∀ j ∈ I.deps k, s.at j = t.at j) : transfer I.G I.last s k = transfer I.G I.last t k := by
  cases k with
  | block b =>
    have hx : ∀ x ∈ I.G.preds b, s.x x = t.x x := fun x hx => h (.x x) (List.mem_map_of_mem hx)
    simp only [transfer, transferBlock]
    congr 3
    rw [Bool.eq_iff_iff]
    simp only [Bool.or_eq_true, List.any_eq_true, decide_eq_true_eq]
    refine or_congr ⟨?_, ?_⟩ Iff.rfl
    · rintro ⟨x, hm, hz⟩; exact ⟨x, hm, by rw [← hx x hm]; exact hz⟩
    · rintro ⟨x, hm, hz⟩; exact ⟨x, hm, by rw [hx x hm]; exact hz⟩
  | x x =>
    have hb : s.block (I.G.xblock x) = t.block (I.G.xblock x) := h (.block _) (by simp [IrGraph.deps])
    simp only [transfer, transferX, hb]
    split
    · rfl
    · cases hx : I.G.xdef x with
      | cond sel num =>
        have : s.data bmode sel = t.data bmode sel := h (.data bmode sel) (by simp [IrGraph.deps, hx])
        simp only [this]
        rfl
      | switch k sel =>
        have : s.data k sel = t.data k sel := h (.data k sel) (by simp [IrGraph.deps, hx])
        simp only [this]
        rfl
      | _ => rfl
  | data m n =>
    simp only [transfer, transferData]
    cases hn : I.G.node m n with
    | phi args =>
      simp only
      congr 1
      refine List.map_congr_left fun p hp => ?_
      obtain ⟨h1, h2⟩ := List.of_mem_zip hp
      simp only [IrGraph.deps, hn, List.mem_append, List.mem_map] at h
      have e1 : s.x p.1 = t.x p.1 := h (.x p.1) (Or.inl ⟨_, h1, rfl⟩)
      have e2 : s.data m p.2 = t.data m p.2 := h (.data m p.2) (Or.inr ⟨_, h2, rfl⟩)
      rw [e1, e2]
    | op e =>
      simp only [IrGraph.deps, hn] at h
      exact bitsWith_congr e fun k i hk => h (.data k i) ((mem_leaves e).2 hk)
    | input => rfl

/-- a state from the states of the nodes -/
def State.of (g : (k : Key) → BitInfo k.w) : State := ⟨fun m n => g (.data m n), fun b => g (.block b), fun x => g (.x x)⟩

theorem State.of_at (g : (k : Key) → BitInfo k.w) (k : Key) : (State.of g).at k = g k := by cases k <;> rfl

/-- all nodes are calculated `n` times -/
def rounds (I : IrGraph) : Nat → State
  | 0 => State.bottom
  | n + 1 => State.of (transfer I.G I.last (rounds I n))

theorem rounds_stable (hr : ∀ k, ∀ j ∈ I.deps k, r j < r k) : ∀ (n : Nat) (k : Key), r k < n → (rounds I n).at k = (rounds I (r k + 1)).at k
  | 0, _, h => absurd h (Nat.not_lt_zero _)
  | n + 1, k, h => by
    simp only [rounds, State.of_at]
    refine transfer_congr fun j hj => ?_
    have hjk := hr k j hj
    rw [rounds_stable hr n j (by omega)]
    have := rounds_stable hr (r k) j hjk
    rw [this]
termination_by n _ _ => n
decreasing_by all_goals omega

/-- graphs without cycles have a fixpoint -/
theorem acyclic_fixpoint (hr : ∀ k, ∀ j ∈ I.deps k, r j < r k) : ∃ f, Fixpoint I.G I.last f := by
  have key : ∀ k, (State.of fun k => (rounds I (r k + 1)).at k).at k = transfer I.G I.last (State.of fun k => (rounds I (r k + 1)).at k) k := by
    intro k
    rw [State.of_at]
    simp only [rounds, State.of_at]
    refine transfer_congr fun j hj => ?_
    rw [State.of_at]
    exact rounds_stable hr (r k) j (hr k j hj)
  exact ⟨_, ⟨fun x => key (.x x), fun b => key (.block b), fun m n => key (.data m n)⟩⟩

end Verif.Model.ConstBits
