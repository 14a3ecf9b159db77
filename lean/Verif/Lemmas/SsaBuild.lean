import Verif.Lemmas.SsaCons
/-!
# The invariant of the calls of a front end
-/
namespace Verif.Model.SsaCons
open Verif.Spec.Ssa

/-- an assignment to the variable in the block -/
def Sets (L : Nat → List Event) (b v : Nat) : Prop := ∃ n, Event.set v n ∈ L b

/-- `r` was read before all assignments to the variable in the block -/
def Early (L : Nat → List Event) (b v r : Nat) : Prop :=
  ∃ pre post, L b = pre ++ Event.get v r :: post ∧ ∀ n, Event.set v n ∉ pre

structure Log (s : St) (L : Nat → List Event) : Prop where
  last : ∀ b v n pre post, L b = pre ++ .set v n :: post → (∀ m, Event.set v m ∉ post) → ∃ r, s.arr b v = some r ∧ s.skip r = s.skip n
  reads : ∀ b v n r pre mid post, L b = pre ++ .set v n :: (mid ++ .get v r :: post) → (∀ m, Event.set v m ∉ mid) → s.skip r = s.skip n
  defs : ∀ b n, Event.define n ∈ L b → s.node n = .front b ∧ n < s.used
  once : ∀ b n pre post, L b = pre ++ .define n :: post → Event.define n ∉ pre
  setLt : ∀ b v n, Event.set v n ∈ L b → n < s.used
  getLt : ∀ b v r, Event.get v r ∈ L b → r < s.used

theorem Log.evolve {s s' : St} {L : Nat → List Event} (h : Log s L) (e : Evolve s s') : Log s' L where
  last b v n pre post h1 h2 := by
    obtain ⟨r, h3, h4⟩ := h.last b v n pre post h1 h2
    obtain ⟨r', h5, h6⟩ := e.arr b v r h3
    exact ⟨r', h5, h6.trans (e.skip_eq h4)⟩
  reads b v n r pre mid post h1 h2 := e.skip_eq (h.reads b v n r pre mid post h1 h2)
  defs b n hn := by
    obtain ⟨h1, h2⟩ := h.defs b n hn
    refine ⟨?_, Nat.lt_of_lt_of_le h2 e.used⟩
    rcases e.kind n h2 with h3 | ⟨_, _, _, _, h3, _⟩
    · exact h3.trans h1
    · rw [h1] at h3; cases h3
  once := h.once
  setLt b v n hn := Nat.lt_of_lt_of_le (h.setLt b v n hn) e.used
  getLt b v n hn := Nat.lt_of_lt_of_le (h.getLt b v n hn) e.used

theorem append_one {α : Type} {pre mid t : List α} {x e : α} (h : t ++ [e] = pre ++ x :: mid) :
    (mid = [] ∧ x = e ∧ pre = t) ∨ ∃ mid', mid = mid' ++ [e] ∧ t = pre ++ x :: mid' := by
  rcases List.eq_nil_or_concat mid with rfl | ⟨mid', y, rfl⟩
  · obtain ⟨h1, h2⟩ := List.append_inj' h rfl
    cases h2
    exact Or.inl ⟨rfl, rfl, h1.symm⟩
  · have h' : t ++ [e] = (pre ++ x :: mid') ++ [y] := by rw [h]; simp
    obtain ⟨h1, h2⟩ := List.append_inj' h' rfl
    cases h2
    exact Or.inr ⟨mid', by simp, h1⟩

theorem record_same (L : Nat → List Event) (b : Nat) (e : Event) : record L b e b = L b ++ [e] := by simp [record]

theorem record_other (L : Nat → List Event) {b b' : Nat} (e : Event) (h : b' ≠ b) : record L b e b' = L b' := by
  simp only [record]; rw [if_neg h]

theorem mem_record {L : Nat → List Event} {b b' : Nat} {e x : Event} : x ∈ record L b e b' ↔ x ∈ L b' ∨ (b' = b ∧ x = e) := by
  by_cases h : b' = b
  · subst h; rw [record_same]; simp
  · rw [record_other L e h]; simp [h]

/-- the invariant only depends on which `S` and `E` hold -/
theorem Inv.mono {S S' : Nat → Nat → Prop} {E E' : Nat → Nat → Nat → Prop} {s : St} {P : List Nat} (h : Inv S E s P)
    (hS : ∀ b v, S b v → S' b v) (hS' : ∀ b v, S' b v → s.arr b v ≠ none)
    (hE : ∀ b v r, E' b v r → E b v r ∨ (¬ S b v ∧ s.arr b v = some r)) : Inv S' E' s P where
  idem := h.idem
  new := h.new
  old := h.old
  moved := h.moved
  arrLt := h.arrLt
  factLt b v r hr := h.fact_lt (by rcases hE b v r hr with h1 | h1; exact Or.inr h1; exact Or.inl h1)
  argLt := h.argLt
  phiBlock := h.phiBlock
  phis := h.phis
  pend := h.pend
  pendNodup := h.pendNodup
  chain := h.chain
  chainNodup := h.chainNodup
  facts b v r hr := by
    refine h.facts b v r ?_
    rcases hr with ⟨h1, h2⟩ | h1
    · exact Or.inl ⟨fun hc => h1 (hS b v hc), h2⟩
    · rcases hE b v r h1 with h1 | h1
      · exact Or.inr h1
      · exact Or.inl h1
  setArr := hS'
  start := h.start

theorem early_record {L : Nat → List Event} {b b' v r : Nat} {e : Event} (h : Early (record L b e) b' v r) :
    Early L b' v r ∨ (b' = b ∧ e = .get v r ∧ ¬ Sets L b v) := by
  obtain ⟨pre, post, h1, h2⟩ := h
  by_cases hb : b' = b
  · subst hb
    rw [record_same] at h1
    rcases append_one h1 with ⟨_, h3, h4⟩ | ⟨post', h3, h4⟩
    · exact Or.inr ⟨rfl, h3.symm, fun ⟨n, hn⟩ => h2 n (h4 ▸ hn)⟩
    · exact Or.inl ⟨pre, post', h4, h2⟩
  · rw [record_other L e hb] at h1
    exact Or.inl ⟨pre, post, h1, h2⟩

theorem split_last {L : List Event} {v : Nat} (h : ∃ n, Event.set v n ∈ L) :
    ∃ pre n post, L = pre ++ .set v n :: post ∧ ∀ m, Event.set v m ∉ post := by
  induction L with
  | nil => obtain ⟨n, hn⟩ := h; cases hn
  | cons x L ih =>
    by_cases h' : ∃ n, Event.set v n ∈ L
    · obtain ⟨pre, n, post, h1, h2⟩ := ih h'
      exact ⟨x :: pre, n, post, by rw [h1]; rfl, h2⟩
    · obtain ⟨n, hn⟩ := h
      rcases List.mem_cons.1 hn with h1 | h1
      · exact ⟨[], n, L, by rw [← h1]; rfl, fun m hm => h' ⟨m, hm⟩⟩
      · exact absurd ⟨n, h1⟩ h'

/-- a value of the table is no new information for a block that is no predecessor -/
theorem inv_set {S : Nat → Nat → Prop} {E : Nat → Nat → Nat → Prop} {s : St} {b v n : Nat} (h : Inv S E s []) (hn : n < s.used)
    (hb : ∀ b', some b ∉ s.preds b') : Inv (fun b' v' => S b' v' ∨ (b' = b ∧ v' = v)) E (s.setArr b v n) [] where
  idem := h.idem
  new := h.new
  old := h.old
  moved := h.moved
  arrLt b' v' r hr := by
    by_cases e : b' = b ∧ v' = v
    · obtain ⟨rfl, rfl⟩ := e
      rw [setArr_same] at hr; cases hr; exact hn
    · rw [setArr_other s n e] at hr; exact h.arrLt _ _ _ hr
  factLt := h.factLt
  argLt := h.argLt
  phiBlock := h.phiBlock
  phis x b' v' args hx e hs := by
    rcases h.phis x b' v' args hx e hs with h1 | ⟨h1, h2, h3⟩
    · exact Or.inl h1
    · refine Or.inr ⟨h1, h2, fun i p hp => ?_⟩
      obtain ⟨a, r, h4, h5, h6⟩ := h3 i p hp
      refine ⟨a, r, h4, ?_, h6⟩
      rw [setArr_other s n (fun (hc : p = b ∧ v' = v) => hb b' (hc.1 ▸ List.mem_of_getElem? hp))]
      exact h5
  pend := h.pend
  pendNodup := h.pendNodup
  chain := h.chain
  chainNodup := h.chainNodup
  facts b' v' r hr := by
    have lift : Begin s b' v' r → Begin (s.setArr b v n) b' v' r := by
      rintro (h1 | ⟨h1, h2, h3⟩ | h1)
      · exact Or.inl h1
      · refine Or.inr (Or.inl ⟨h1, h2, fun p hp => ?_⟩)
        obtain ⟨r', h4, h5⟩ := h3 p hp
        refine ⟨r', ?_, h5⟩
        rw [setArr_other s n (fun (hc : p = b ∧ v' = v) => hb b' (hc.1 ▸ hp))]
        exact h4
      · exact Or.inr (Or.inr h1)
    rcases hr with ⟨h1, h2⟩ | h1
    · have e : ¬ (b' = b ∧ v' = v) := fun hc => h1 (Or.inr hc)
      rw [setArr_other s n e] at h2
      exact lift (h.facts b' v' r (Or.inl ⟨fun hc => h1 (Or.inl hc), h2⟩))
    · exact lift (h.facts b' v' r (Or.inr h1))
  setArr b' v' hS := by
    by_cases e : b' = b ∧ v' = v
    · obtain ⟨rfl, rfl⟩ := e
      rw [setArr_same]; intro hc; cases hc
    · rw [setArr_other s n e]
      rcases hS with hS | hS
      · exact h.setArr b' v' hS
      · exact absurd hS e
  start := h.start

theorem inv_addPred {S : Nat → Nat → Prop} {E : Nat → Nat → Nat → Prop} {s : St} {b : Nat} {p : Option Nat} (h : Inv S E s [])
    (hm : s.matured b = false) : Inv S E (addPred b p s) [] := by
  have pr : ∀ b', s.matured b' = true → (addPred b p s).preds b' = s.preds b' := by
    intro b' hb'
    simp only [addPred]
    rw [if_neg]
    rintro rfl
    rw [hm] at hb'; cases hb'
  exact {
    idem := h.idem
    new := h.new
    old := h.old
    moved := h.moved
    arrLt := h.arrLt
    factLt := h.factLt
    argLt := h.argLt
    phiBlock := h.phiBlock
    phis := fun x b' v' args hx e hs => by
      rcases h.phis x b' v' args hx e hs with h1 | ⟨h1, h2, h3⟩
      · exact Or.inl h1
      · exact Or.inr ⟨h1, by rw [pr b' h1]; exact h2, fun i q hq => h3 i q (by rw [← pr b' h1]; exact hq)⟩
    pend := h.pend
    pendNodup := h.pendNodup
    chain := h.chain
    chainNodup := h.chainNodup
    facts := fun b' v' r hr => by
      rcases h.facts b' v' r hr with h1 | ⟨h1, h2, h3⟩ | h1
      · exact Or.inl h1
      · exact Or.inr (Or.inl ⟨h1, h2, fun q hq => h3 q (by rw [← pr b' h2]; exact hq)⟩)
      · exact Or.inr (Or.inr h1)
    setArr := h.setArr
    start := ⟨h.start.1, by rw [pr 0 h.start.1]; exact h.start.2⟩ }

theorem inv_maturePhis {S : Nat → Nat → Prop} {E : Nat → Nat → Nat → Prop} {fuel b : Nat} {phis : List Nat} {s s' : St} (h : Inv S E s phis)
    (hn : ∀ x ∈ phis, ∃ v, s.node x = .phi b v []) (hm : s.matured b = true) (e : maturePhis fuel b phis s = some s') :
    Inv S E s' [] ∧ Evolve s s' := by
  induction phis generalizing s with
  | nil =>
    simp only [maturePhis, Option.some.injEq] at e
    subst e
    exact ⟨h, Evolve.refl h.idem⟩
  | cons phi phis ih =>
    simp only [maturePhis] at e
    obtain ⟨v, hv⟩ := hn phi List.mem_cons_self
    have hpos : s.pos phi = v := by simp only [St.pos, hv]
    rw [hpos] at e
    cases hq : setPhiArgs (fun p t => getValue fuel p v t) phi b v s with
    | none => rw [hq] at e; cases e
    | some t =>
      rw [hq] at e
      simp only [] at e
      obtain ⟨i1, e1⟩ := inv_setPhiArgs (inv_getValue fuel v) h hv hm hq
      obtain ⟨i2, e2⟩ := ih i1 (fun x hx => by
        obtain ⟨w, hw⟩ := hn x (List.mem_cons_of_mem _ hx)
        have hlt := (h.pend x (List.mem_cons_of_mem _ hx)).1
        obtain ⟨_, _, b', v', h3, _⟩ := i1.pend x hx
        rcases e1.kind x hlt with hk | ⟨b2, v2, a, a', hk, hk'⟩
        · exact ⟨w, hk.trans hw⟩
        · rw [hw] at hk
          cases hk
          rw [h3] at hk'
          cases hk'
          exact ⟨_, h3⟩) (by rw [e1.matured]; exact hm) e
      exact ⟨i2, e1.trans e2⟩

/-- the block is marked as matured -/
def opened (b : Nat) (s : St) : St :=
  { s with matured := fun b' => b' == b || s.matured b',
           preds := fun b' => if b' = b ∧ s.preds b = [] then [none] else s.preds b' }

theorem inv_opened {S : Nat → Nat → Prop} {E : Nat → Nat → Nat → Prop} {s : St} {b : Nat} (h : Inv S E s []) (hm : s.matured b = false) :
    Inv S E (opened b s) (s.phis b) := by
  have pr : ∀ b', s.matured b' = true → (opened b s).preds b' = s.preds b' := by
    intro b' hb'
    simp only [opened]
    rw [if_neg]
    rintro ⟨rfl, -⟩
    rw [hm] at hb'; cases hb'
  have ma : ∀ b', s.matured b' = true → (opened b s).matured b' = true := fun b' hb' => by simp [opened, hb']
  have un : ∀ b', (opened b s).matured b' = false → b' ≠ b ∧ s.matured b' = false := by
    intro b' hb'
    have : (b' == b || s.matured b') = false := hb'
    simp only [Bool.or_eq_false_iff, beq_eq_false_iff_ne] at this
    exact this
  have mb : (opened b s).matured b = true := by simp [opened]
  exact {
    idem := h.idem
    new := h.new
    old := h.old
    moved := h.moved
    arrLt := h.arrLt
    factLt := h.factLt
    argLt := h.argLt
    phiBlock := h.phiBlock
    phis := fun x b' v' args hx e hs => by
      rcases h.phis x b' v' args hx e hs with ⟨h1, h2 | ⟨h2, h3⟩⟩ | ⟨h1, h2, h3⟩
      · exact absurd h2.1 (List.not_mem_nil)
      · by_cases hb : b' = b
        · subst hb; exact Or.inl ⟨h1, Or.inl ⟨h2, mb⟩⟩
        · exact Or.inl ⟨h1, Or.inr ⟨h2, by simp [opened, hb, h3]⟩⟩
      · exact Or.inr ⟨ma b' h1, by rw [pr b' h1]; exact h2, fun i q hq => h3 i q (by rw [← pr b' h1]; exact hq)⟩
    pend := fun x hx => by
      obtain ⟨h1, h2, v, h3⟩ := h.chain b hm x hx
      exact ⟨h1, h2, b, v, h3, mb⟩
    pendNodup := h.chainNodup b hm
    chain := fun b' hb' x hx => h.chain b' (un b' hb').2 x hx
    chainNodup := fun b' hb' => h.chainNodup b' (un b' hb').2
    facts := fun b' v' r hr => by
      rcases h.facts b' v' r hr with h1 | ⟨h1, h2, h3⟩ | h1
      · exact Or.inl h1
      · exact Or.inr (Or.inl ⟨h1, ma b' h2, fun q hq => h3 q (by rw [← pr b' h2]; exact hq)⟩)
      · exact Or.inr (Or.inr h1)
    setArr := h.setArr
    start := ⟨ma 0 h.start.1, by rw [pr 0 h.start.1]; exact h.start.2⟩ }

theorem log_same {s s' : St} {L : Nat → List Event} (h : Log s L) (h1 : s'.arr = s.arr) (h2 : s'.ids = s.ids) (h3 : s'.node = s.node)
    (h4 : s'.used = s.used) : Log s' L := by
  have hs : s'.skip = s.skip := by funext x; simp only [St.skip, h2]
  exact {
    last := by rw [h1, hs]; exact h.last
    reads := by rw [hs]; exact h.reads
    defs := by rw [h3, h4]; exact h.defs
    once := h.once
    setLt := by rw [h4]; exact h.setLt
    getLt := by rw [h4]; exact h.getLt }

theorem inv_mature {S : Nat → Nat → Prop} {E : Nat → Nat → Nat → Prop} {fuel b : Nat} {s s' : St} {L : Nat → List Event} (h : Inv S E s [])
    (hl : Log s L) (e : mature fuel b s = some s') : Inv S E s' [] ∧ Log s' L := by
  unfold mature at e
  cases hm : s.matured b with
  | true => rw [hm, if_pos rfl] at e; cases e; exact ⟨h, hl⟩
  | false =>
    rw [hm] at e
    simp only [Bool.false_eq_true, if_false] at e
    have i1 := inv_opened h hm
    obtain ⟨i2, e2⟩ := inv_maturePhis i1 (fun x hx => (h.chain b hm x hx).2.2) (by simp [opened]) e
    exact ⟨i2, (log_same (s' := opened b s) hl rfl rfl rfl rfl).evolve e2⟩

theorem builds_inv {s : St} {L : Nat → List Event} (h : Builds s L) : Inv (Sets L) (Early L) s [] ∧ Log s L := by
  induction h with
  | init =>
    refine ⟨?_, ?_⟩
    · exact {
        idem := fun _ => rfl
        new := fun _ _ => rfl
        old := fun _ h => h
        moved := fun _ h => absurd rfl h
        arrLt := fun _ _ _ h => (nomatch h)
        factLt := fun _ _ _ h => by obtain ⟨pre, post, h1, _⟩ := h; simp at h1
        argLt := fun _ _ _ _ h => (nomatch h)
        phiBlock := fun _ _ _ _ h => (nomatch h)
        phis := fun _ _ _ _ h => (nomatch h)
        pend := fun _ h => (nomatch h)
        pendNodup := List.nodup_nil
        chain := fun _ _ _ h => (nomatch h)
        chainNodup := fun _ _ => List.nodup_nil
        facts := fun _ _ _ h => by
          rcases h with ⟨_, h⟩ | ⟨pre, post, h1, _⟩
          · exact nomatch h
          · simp at h1
        setArr := fun _ _ h => by obtain ⟨n, h⟩ := h; exact nomatch h
        start := ⟨rfl, rfl⟩ }
    · exact {
        last := fun _ _ _ pre post h => by simp at h
        reads := fun _ _ _ _ pre mid post h => by simp at h
        defs := fun _ _ h => (nomatch h)
        once := fun _ _ pre post h => by simp at h
        setLt := fun _ _ _ h => (nomatch h)
        getLt := fun _ _ _ h => (nomatch h) }
  | @define s L b _ ih =>
    obtain ⟨i, l⟩ := ih
    have l' := l.evolve (evolve_add i (.front b))
    refine ⟨(inv_add i (by intro _ _ _ hc; cases hc)).mono ?_ ?_ ?_, ?_⟩
    · rintro b' v' ⟨n, hn⟩; exact ⟨n, mem_record.2 (Or.inl hn)⟩
    · rintro b' v' ⟨n, hn⟩
      rcases mem_record.1 hn with hn | ⟨_, hn⟩
      · exact i.setArr b' v' ⟨n, hn⟩
      · cases hn
    · intro b' v' r hr
      rcases early_record hr with hr | ⟨_, hr, _⟩
      · exact Or.inl hr
      · cases hr
    · exact {
        last := fun b' v n pre post h1 h2 => by
          by_cases hb : b' = b
          · subst hb
            rw [record_same] at h1
            rcases append_one h1 with ⟨_, h3, _⟩ | ⟨post', rfl, h4⟩
            · cases h3
            · exact l'.last b' v n pre post' h4 (fun m hm => h2 m (List.mem_append_left _ hm))
          · rw [record_other L _ hb] at h1; exact l'.last b' v n pre post h1 h2
        reads := fun b' v n r pre mid post h1 h2 => by
          by_cases hb : b' = b
          · subst hb
            rw [record_same] at h1
            have h1' : L b' ++ [Event.define s.used] = (pre ++ .set v n :: mid) ++ .get v r :: post := by rw [h1]; simp
            rcases append_one h1' with ⟨_, h3, _⟩ | ⟨post', rfl, h4⟩
            · cases h3
            · exact l'.reads b' v n r pre mid post' (by rw [h4]; simp) h2
          · rw [record_other L _ hb] at h1; exact l'.reads b' v n r pre mid post h1 h2
        defs := fun b' n hn => by
          rcases mem_record.1 hn with hn | ⟨rfl, he⟩
          · exact l'.defs b' n hn
          · cases he
            exact ⟨node_add_new s _, Nat.lt_succ_self _⟩
        once := fun b' n pre post h1 => by
          by_cases hb : b' = b
          · subst hb
            rw [record_same] at h1
            rcases append_one h1 with ⟨_, h3, h4⟩ | ⟨post', rfl, h4⟩
            · cases h3
              subst h4
              intro hc
              exact Nat.lt_irrefl _ (l.defs b' _ hc).2
            · exact l.once b' n pre post' h4
          · rw [record_other L _ hb] at h1; exact l.once b' n pre post h1
        setLt := fun b' v n hn => by
          rcases mem_record.1 hn with hn | ⟨_, hn⟩
          · exact l'.setLt b' v n hn
          · cases hn
        getLt := fun b' v n hn => by
          rcases mem_record.1 hn with hn | ⟨_, hn⟩
          · exact l'.getLt b' v n hn
          · cases hn }
  | @set s L b v n _ hn hb ih =>
    obtain ⟨i, l⟩ := ih
    refine ⟨(inv_set (v := v) i hn hb).mono ?_ ?_ ?_, ?_⟩
    · rintro b' v' (⟨m, hm⟩ | ⟨rfl, rfl⟩)
      · exact ⟨m, mem_record.2 (Or.inl hm)⟩
      · exact ⟨n, mem_record.2 (Or.inr ⟨rfl, rfl⟩)⟩
    · rintro b' v' ⟨m, hm⟩
      by_cases e : b' = b ∧ v' = v
      · obtain ⟨rfl, rfl⟩ := e
        rw [setArr_same]; intro hc; cases hc
      · rw [setArr_other s n e]
        rcases mem_record.1 hm with hm | ⟨rfl, he⟩
        · exact i.setArr b' v' ⟨m, hm⟩
        · cases he; exact absurd ⟨rfl, rfl⟩ e
    · intro b' v' r hr
      rcases early_record hr with hr | ⟨_, hr, _⟩
      · exact Or.inl hr
      · cases hr
    · exact {
        last := fun b' v' m pre post h1 h2 => by
          show ∃ r, (s.setArr b v n).arr b' v' = some r ∧ s.skip r = s.skip m
          by_cases hb' : b' = b
          · subst hb'
            rw [record_same] at h1
            rcases append_one h1 with ⟨_, h3, _⟩ | ⟨post', rfl, h4⟩
            · cases h3
              exact ⟨n, setArr_same s _ _ _, rfl⟩
            · have hv : v' ≠ v := by
                rintro rfl
                exact h2 n (List.mem_append_right _ List.mem_cons_self)
              rw [setArr_other s n (fun hc => hv hc.2)]
              exact l.last b' v' m pre post' h4 (fun m hm => h2 m (List.mem_append_left _ hm))
          · rw [record_other L _ hb'] at h1
            rw [setArr_other s n (fun hc => hb' hc.1)]
            exact l.last b' v' m pre post h1 h2
        reads := fun b' v' m r pre mid post h1 h2 => by
          show s.skip r = s.skip m
          by_cases hb' : b' = b
          · subst hb'
            rw [record_same] at h1
            have h1' : L b' ++ [Event.set v n] = (pre ++ .set v' m :: mid) ++ .get v' r :: post := by rw [h1]; simp
            rcases append_one h1' with ⟨_, h3, _⟩ | ⟨post', rfl, h4⟩
            · cases h3
            · exact l.reads b' v' m r pre mid post' (by rw [h4]; simp) h2
          · rw [record_other L _ hb'] at h1; exact l.reads b' v' m r pre mid post h1 h2
        defs := fun b' m hm => by
          rcases mem_record.1 hm with hm | ⟨rfl, he⟩
          · exact l.defs b' m hm
          · cases he
        once := fun b' m pre post h1 => by
          by_cases hb' : b' = b
          · subst hb'
            rw [record_same] at h1
            rcases append_one h1 with ⟨_, h3, h4⟩ | ⟨post', rfl, h4⟩
            · cases h3
            · exact l.once b' m pre post' h4
          · rw [record_other L _ hb'] at h1; exact l.once b' m pre post h1
        setLt := fun b' v' m hm => by
          rcases mem_record.1 hm with hm | ⟨_, hm⟩
          · exact l.setLt b' v' m hm
          · cases hm; exact hn
        getLt := fun b' v' m hm => by
          rcases mem_record.1 hm with hm | ⟨_, hm⟩
          · exact l.getLt b' v' m hm
          · cases hm }
  | @get s L fuel b v r s' _ hg ih =>
    obtain ⟨i, l⟩ := ih
    obtain ⟨i1, e1, a1⟩ := inv_getValue fuel v [] b s r s' i hg
    have l' := l.evolve e1
    have hlt : r < s'.used := i1.arrLt b v r a1
    refine ⟨i1.mono ?_ ?_ ?_, ?_⟩
    · rintro b' v' ⟨m, hm⟩; exact ⟨m, mem_record.2 (Or.inl hm)⟩
    · rintro b' v' ⟨m, hm⟩
      rcases mem_record.1 hm with hm | ⟨_, hm⟩
      · exact i1.setArr b' v' ⟨m, hm⟩
      · cases hm
    · intro b' v' r' hr
      rcases early_record hr with hr | ⟨rfl, hr, h3⟩
      · exact Or.inl hr
      · cases hr; exact Or.inr ⟨h3, a1⟩
    · exact {
        last := fun b' v' m pre post h1 h2 => by
          by_cases hb' : b' = b
          · subst hb'
            rw [record_same] at h1
            rcases append_one h1 with ⟨_, h3, _⟩ | ⟨post', rfl, h4⟩
            · cases h3
            · exact l'.last b' v' m pre post' h4 (fun m hm => h2 m (List.mem_append_left _ hm))
          · rw [record_other L _ hb'] at h1
            exact l'.last b' v' m pre post h1 h2
        reads := fun b' v' m q pre mid post h1 h2 => by
          by_cases hb' : b' = b
          · subst hb'
            rw [record_same] at h1
            have h1' : L b' ++ [Event.get v r] = (pre ++ .set v' m :: mid) ++ .get v' q :: post := by rw [h1]; simp
            rcases append_one h1' with ⟨_, h3, h4⟩ | ⟨post', rfl, h4⟩
            · cases h3
              obtain ⟨r', h5, h6⟩ := l'.last b' v m pre mid h4.symm h2
              rw [a1] at h5
              cases h5
              exact h6
            · exact l'.reads b' v' m q pre mid post' (by rw [h4]; simp) h2
          · rw [record_other L _ hb'] at h1; exact l'.reads b' v' m q pre mid post h1 h2
        defs := fun b' m hm => by
          rcases mem_record.1 hm with hm | ⟨rfl, he⟩
          · exact l'.defs b' m hm
          · cases he
        once := fun b' m pre post h1 => by
          by_cases hb' : b' = b
          · subst hb'
            rw [record_same] at h1
            rcases append_one h1 with ⟨_, h3, h4⟩ | ⟨post', rfl, h4⟩
            · cases h3
            · exact l.once b' m pre post' h4
          · rw [record_other L _ hb'] at h1; exact l.once b' m pre post h1
        setLt := fun b' v' m hm => by
          rcases mem_record.1 hm with hm | ⟨_, hm⟩
          · exact l'.setLt b' v' m hm
          · cases hm
        getLt := fun b' v' m hm => by
          rcases mem_record.1 hm with hm | ⟨_, hm⟩
          · exact l'.getLt b' v' m hm
          · cases hm; exact hlt }
  | @addPred s L b p _ hm ih =>
    obtain ⟨i, l⟩ := ih
    exact ⟨inv_addPred i hm, log_same l rfl rfl rfl rfl⟩
  | @mature s L fuel b s' _ hm ih =>
    obtain ⟨i, l⟩ := ih
    exact inv_mature i l hm

/-! ## The runs -/

/-- `r` is a node for the value of the variable at the begin of the block -/
def Fact (s : St) (L : Nat → List Event) (b v r : Nat) : Prop := (¬ Sets L b v ∧ s.arr b v = some r) ∨ Early L b v r

/-- the invariant of runs; `D`: the blocks that were left -/
structure RunInv {α : Type} (s : St) (L : Nat → List Event) (D : Nat → Prop) (c : Conf α) : Prop where
  posLe : c.pos ≤ (L c.block).length
  assigned : ∀ v n pre mid, (L c.block).take c.pos = pre ++ .set v n :: mid → (∀ m, Event.set v m ∉ mid) → c.env (s.skip n) = c.vars v
  begun : ∀ v, (∀ m, Event.set v m ∉ (L c.block).take c.pos) → ∀ r, Fact s L c.block v r → c.env (s.skip r) = c.vars v
  val : ∀ v, (c.vars v).isSome
  seen : ∀ n, c.seen n → n < s.used ∧ (c.env (s.skip n)).isSome
  front : ∀ b, D b ∨ b = c.block → ∀ v r, Fact s L b v r → s.node (s.skip r) ≠ .front b
  pass : ∀ b, D b ∨ b = c.block → ∀ v r, Fact s L b v r → Pass s b v r → ∀ v' args, s.node (s.skip r) ≠ .phi b v' args
  set : ∀ (b i : Nat), D b ∨ (b = c.block ∧ i < c.pos) → ∀ v m, (L b)[i]? = some (.set v m) → s.node (s.skip m) = .front b →
    ∃ j, j < i ∧ (L b)[j]? = some (.define (s.skip m))
  new : ∀ b, ¬ D b → b ≠ c.block → (∀ n, s.node n = .front b → c.env n = none) ∧ ∀ x v args, s.node x = .phi b v args → c.env x = none
  first : ¬ D c.block → ∀ n, s.node n = .front c.block → (c.env n).isSome → ∃ j, j < c.pos ∧ (L c.block)[j]? = some (.define n)

theorem take_one {β : Type} {l : List β} {k : Nat} {x : β} (h : l[k]? = some x) : l.take (k + 1) = l.take k ++ [x] := by
  rw [List.take_add_one, h]; rfl

theorem get_lt {β : Type} {l : List β} {k : Nat} {x : β} (h : l[k]? = some x) : k < l.length := by
  rcases Nat.lt_or_ge k l.length with h1 | h1
  · exact h1
  · rw [List.getElem?_eq_none h1] at h; cases h

theorem once_pos {s : St} {L : Nat → List Event} (hl : Log s L) {b n i j : Nat} (hi : (L b)[i]? = some (.define n)) (hj : (L b)[j]? = some (.define n)) :
    i = j := by
  have key : ∀ i j : Nat, i < j → (L b)[i]? = some (.define n) → (L b)[j]? = some (.define n) → False := by
    intro i j hij hi hj
    have hlt := get_lt hj
    have hd : L b = (L b).take j ++ .define n :: (L b).drop (j + 1) := by
      conv => lhs; rw [← List.take_append_drop j (L b)]
      rw [List.drop_eq_getElem_cons hlt]
      rw [List.getElem?_eq_getElem hlt] at hj
      rw [Option.some.inj hj]
    refine hl.once b n _ _ hd ?_
    refine List.mem_of_getElem? (i := i) ?_
    rw [List.getElem?_take_of_lt hij]
    exact hi
  rcases Nat.lt_trichotomy i j with h | h | h
  · exact (key i j h hi hj).elim
  · exact h
  · exact (key j i h hj hi).elim

theorem code_phi {s : St} {L : Nat → List Event} {x b v : Nat} {args : List Nat} (hn : s.node x = .phi b v args) (hs : s.skip x = x) :
    (s.code L).phi x = some (b, args.map s.skip) := by
  simp only [St.code, hn, hs, if_true]

theorem code_phi_inv {s : St} {L : Nat → List Event} {x b : Nat} {as : List Nat} (h : (s.code L).phi x = some (b, as)) :
    ∃ v args, s.node x = .phi b v args ∧ s.skip x = x ∧ as = args.map s.skip := by
  simp only [St.code] at h
  split at h
  · next b' v args hn =>
    split at h
    · next hs => cases h; exact ⟨v, args, hn, hs, rfl⟩
    · cases h
  · cases h

/-- a node keeps its value when a block is entered, unless it is a Phi of the block -/
theorem enter_other {α : Type} {s : St} {L : Nat → List Event} {b i x : Nat} (env : Nat → Option α) (h : ∀ v args, s.node x ≠ .phi b v args) :
    (s.code L).enter b i env x = env x := by
  unfold Code.enter
  cases hp : (s.code L).phi x with
  | none => rfl
  | some r =>
    obtain ⟨b', as⟩ := r
    obtain ⟨v, args, hn, _⟩ := code_phi_inv hp
    simp only []
    rw [if_neg]
    rintro rfl
    exact h v args hn

/-- the value of a variable at the end of a block -/
theorem end_value {α : Type} {s : St} {L : Nat → List Event} {D : Nat → Prop} {c : Conf α} (hl : Log s L) (r : RunInv s L D c)
    (hp : c.pos = (L c.block).length) {v x : Nat} (hx : s.arr c.block v = some x) : c.env (s.skip x) = c.vars v := by
  have ht : (L c.block).take c.pos = L c.block := by rw [hp, List.take_length]
  by_cases hS : Sets L c.block v
  · obtain ⟨pre, n, post, h1, h2⟩ := split_last hS
    obtain ⟨y, h3, h4⟩ := hl.last c.block v n pre post h1 h2
    rw [hx] at h3
    cases h3
    rw [h4]
    exact r.assigned v n pre post (ht.trans h1) h2
  · exact r.begun v (fun m hm => hS ⟨m, by rw [← ht]; exact hm⟩) x (Or.inl ⟨hS, hx⟩)

/-- the value of a Phi of the block that is entered -/
theorem enter_phi {α : Type} {s : St} {L : Nat → List Event} {D : Nat → Prop} {c : Conf α} (hi : Inv (Sets L) (Early L) s []) (hl : Log s L)
    (hm : ∀ b, s.preds b ≠ [] → s.matured b = true) (r : RunInv s L D c) (hp : c.pos = (L c.block).length) {b i : Nat}
    (he : (s.preds b)[i]? = some (some c.block)) {x v : Nat} {args : List Nat} (hx : x < s.used) (hn : s.node x = .phi b v args) (hs : s.skip x = x) :
    (s.code L).enter b i c.env x = c.vars v := by
  have hb : s.matured b = true := hm b (List.ne_nil_of_mem (List.mem_of_getElem? he))
  rcases hi.phis x b v args hx hn hs with ⟨_, h2 | h2⟩ | ⟨_, _, h3⟩
  · exact absurd h2.1 (List.not_mem_nil)
  · rw [hb] at h2; cases h2.2
  · obtain ⟨a, q, h4, h5, h6⟩ := h3 i c.block he
    simp only [Code.enter, code_phi (L := L) hn hs, if_true]
    rw [List.getElem?_map, h4]
    simp only [Option.map_some, Option.bind_some]
    rw [h6]
    exact end_value hl r hp h5

theorem run_inv {α : Type} {s : St} {L : Nat → List Event} {init : Nat → α} (hi : Inv (Sets L) (Early L) s []) (hl : Log s L)
    (hm : ∀ b, s.preds b ≠ [] → s.matured b = true) (hst : Strict (s.code L) init) {c : Conf α} (hr : Run (s.code L) init c) :
    ∃ D, RunInv s L D c := by
  have factLt : ∀ b v r, Fact s L b v r → s.skip r < s.used := fun b v r hf => hi.old r (hi.fact_lt hf)
  have begin : ∀ b v r, Fact s L b v r → Begin s b v r := fun b v r hf => hi.facts b v r hf
  induction hr with
  | start =>
    refine ⟨fun _ => False, ?_⟩
    have noinit : ∀ x, (∀ v, s.node x ≠ .unknown v) → ((s.code L).initial x).map init = none := by
      intro x hx
      cases hn : s.node x with
      | unknown v => exact absurd hn (hx v)
      | _ => simp [St.code, hn]
    exact {
      posLe := Nat.zero_le _
      assigned := fun v n pre mid h => by simp at h
      begun := fun v _ r hf => by
        rcases begin 0 v r hf with ⟨args, h1⟩ | h1 | ⟨_, h1⟩
        · exact absurd rfl (hi.phiBlock _ _ _ _ (factLt _ _ _ hf) h1)
        · exact absurd rfl h1.1
        · simp only [St.code, h1, Option.map_some]
      val := fun _ => rfl
      seen := fun _ h => h.elim
      front := fun b hb v r hf hc => by
        rcases hb with hb | rfl
        · exact hb
        · rcases begin _ v r hf with ⟨args, h1⟩ | h1 | ⟨_, h1⟩
          · rw [hc] at h1; cases h1
          · exact h1.1 rfl
          · rw [hc] at h1; cases h1
      pass := fun b hb v r hf hp => by
        rcases hb with hb | rfl
        · exact hb.elim
        · exact absurd rfl hp.1
      set := fun b i hb => by
        rcases hb with hb | ⟨_, hb⟩
        · exact hb.elim
        · exact absurd hb (Nat.not_lt_zero _)
      new := fun b _ _ => ⟨fun n hn => noinit n (by rw [hn]; intro v hc; cases hc), fun x v args hn => noinit x (by rw [hn]; intro v hc; cases hc)⟩
      first := fun _ n hn hs => by
        have hs' : (((s.code L).initial n).map init).isSome := hs
        rw [noinit n (by rw [hn]; intro v hc; cases hc)] at hs'
        cases hs' }
  | @define c n a hrun hev ih =>
    obtain ⟨D, r⟩ := ih
    have hev' : (L c.block)[c.pos]? = some (.define n) := hev
    have htk := take_one hev'
    have hnode := (hl.defs c.block n (List.mem_of_getElem? hev')).1
    have env' : ∀ x, x ≠ n → upd c.env n (some a) x = c.env x := fun x hx => by simp only [upd]; rw [if_neg hx]
    -- the node has no value before, or it did not matter in an earlier visit
    have dead : ∀ i v m, (L c.block)[i]? = some (.set v m) → i < c.pos → s.skip m ≠ n := by
      intro i v m h1 h2 h3
      obtain ⟨j, h4, h5⟩ := r.set c.block i (Or.inr ⟨rfl, h2⟩) v m h1 (by rw [h3]; exact hnode)
      rw [h3] at h5
      have := once_pos hl h5 hev'
      omega
    refine ⟨D, ?_⟩
    exact {
      posLe := get_lt hev'
      assigned := fun v m pre mid h1 h2 => by
        have h1' : (L c.block).take c.pos ++ [.define n] = pre ++ .set v m :: mid := htk.symm.trans h1
        rcases append_one h1' with ⟨_, h3, _⟩ | ⟨mid', rfl, h4⟩
        · cases h3
        · show upd c.env n (some a) (s.skip m) = c.vars v
          rw [env']
          · exact r.assigned v m pre mid' h4 (fun m hm => h2 m (List.mem_append_left _ hm))
          · have hlen : pre.length < c.pos := by
              have : ((L c.block).take c.pos).length ≤ c.pos := List.length_take_le _ _
              rw [h4] at this
              simp at this
              omega
            refine dead pre.length v m ?_ hlen
            rw [← List.getElem?_take_of_lt hlen, h4]
            simp
      begun := fun v h1 q hf => by
        show upd c.env n (some a) (s.skip q) = c.vars v
        rw [env']
        · exact r.begun v (fun m hm => h1 m (by
            show _ ∈ (L c.block).take (c.pos + 1)
            rw [htk]; exact List.mem_append_left _ hm)) q hf
        · intro hc
          exact r.front c.block (Or.inr rfl) v q hf (by rw [hc]; exact hnode)
      val := r.val
      seen := fun x hx => by
        show x < s.used ∧ (upd c.env n (Option.some a) (s.skip x)).isSome
        by_cases hxn : s.skip x = n
        · refine ⟨?_, by simp [upd, hxn]⟩
          rcases hx with hx | rfl
          · exact (r.seen x hx).1
          · exact (hl.defs c.block x (List.mem_of_getElem? hev')).2
        · rw [env' _ hxn]
          rcases hx with hx | rfl
          · exact r.seen x hx
          · exfalso
            apply hxn
            exact Classical.byContradiction fun hc => by
              obtain ⟨_, _, _, h1⟩ := hi.moved x hc
              rw [hnode] at h1; cases h1
      front := r.front
      pass := r.pass
      set := fun b i hb v m h1 h2 => by
        rcases hb with hb | ⟨rfl, hb⟩
        · exact r.set b i (Or.inl hb) v m h1 h2
        · have hb' : i < c.pos + 1 := hb
          by_cases e : i = c.pos
          · subst e
            rw [hev'] at h1; cases h1
          · exact r.set c.block i (Or.inr ⟨rfl, by omega⟩) v m h1 h2
      new := fun b hD hb => by
        obtain ⟨h1, h2⟩ := r.new b hD hb
        have hb' : b ≠ c.block := hb
        refine ⟨fun x hx => ?_, fun x v args hx => ?_⟩
        · show upd c.env n (Option.some a) x = none
          rw [env']
          · exact h1 x hx
          · rintro rfl; rw [hnode] at hx; cases hx; exact hb' rfl
        · show upd c.env n (Option.some a) x = none
          rw [env']
          · exact h2 x v args hx
          · rintro rfl; rw [hnode] at hx; cases hx
      first := fun hD x hx hs => by
        show ∃ j, j < c.pos + 1 ∧ _
        by_cases hxn : x = n
        · subst hxn; exact ⟨c.pos, Nat.lt_succ_self _, hev'⟩
        · have hs' : (upd c.env n (Option.some a) x).isSome := hs
          rw [env' x hxn] at hs'
          obtain ⟨j, h1, h2⟩ := r.first hD x hx hs'
          exact ⟨j, by omega, h2⟩ }
  | @set c v n hrun hev ih =>
    obtain ⟨D, r⟩ := ih
    have hev' : (L c.block)[c.pos]? = some (.set v n) := hev
    have htk := take_one hev'
    have hseen := r.seen n (hst c hrun v n hev)
    refine ⟨D, ?_⟩
    have vars' : ∀ w, w ≠ v → upd c.vars v (c.env (s.skip n)) w = c.vars w := fun w hw => by simp only [upd]; rw [if_neg hw]
    exact {
      posLe := get_lt hev'
      assigned := fun w m pre mid h1 h2 => by
        show c.env (s.skip m) = upd c.vars v (c.env (s.skip n)) w
        have h1' : (L c.block).take c.pos ++ [.set v n] = pre ++ .set w m :: mid := htk.symm.trans h1
        rcases append_one h1' with ⟨_, h3, _⟩ | ⟨mid', rfl, h4⟩
        · cases h3
          simp [upd]
        · rw [vars']
          · exact r.assigned w m pre mid' h4 (fun m hm => h2 m (List.mem_append_left _ hm))
          · rintro rfl
            exact h2 n (List.mem_append_right _ List.mem_cons_self)
      begun := fun w h1 q hf => by
        show c.env (s.skip q) = upd c.vars v (c.env (s.skip n)) w
        have h1' : ∀ m, Event.set w m ∉ (L c.block).take (c.pos + 1) := h1
        rw [htk] at h1'
        rw [vars']
        · exact r.begun w (fun m hm => h1' m (List.mem_append_left _ hm)) q hf
        · rintro rfl
          exact h1' n (List.mem_append_right _ List.mem_cons_self)
      val := fun w => by
        show (upd c.vars v (c.env (s.skip n)) w).isSome
        by_cases hw : w = v
        · subst hw; simp only [upd, if_true]; exact hseen.2
        · rw [vars' w hw]; exact r.val w
      seen := r.seen
      front := r.front
      pass := r.pass
      set := fun b i hb w m h1 h2 => by
        rcases hb with hb | ⟨rfl, hb⟩
        · exact r.set b i (Or.inl hb) w m h1 h2
        · have hb' : i < c.pos + 1 := hb
          by_cases e : i = c.pos
          · subst e
            rw [hev'] at h1
            cases h1
            by_cases hD : D c.block
            · exact r.set c.block c.pos (Or.inl hD) v n hev' h2
            · exact r.first hD _ h2 hseen.2
          · exact r.set c.block i (Or.inr ⟨rfl, by omega⟩) w m h1 h2
      new := r.new
      first := fun hD x hx hs => by
        obtain ⟨j, h1, h2⟩ := r.first hD x hx hs
        exact ⟨j, Nat.lt_succ_of_lt h1, h2⟩ }
  | @get c v q hrun hev ih =>
    obtain ⟨D, r⟩ := ih
    have hev' : (L c.block)[c.pos]? = some (.get v q) := hev
    have htk := take_one hev'
    have hval : c.env (s.skip q) = c.vars v := by
      have hlt := get_lt hev'
      have hd : L c.block = (L c.block).take c.pos ++ .get v q :: (L c.block).drop (c.pos + 1) := by
        conv => lhs; rw [← List.take_append_drop c.pos (L c.block)]
        rw [List.drop_eq_getElem_cons hlt]
        rw [List.getElem?_eq_getElem hlt] at hev'
        rw [Option.some.inj hev']
      by_cases hS : ∃ m, Event.set v m ∈ (L c.block).take c.pos
      · obtain ⟨pre, n, mid, h1, h2⟩ := split_last hS
        rw [h1] at hd
        rw [hl.reads c.block v n q pre mid ((L c.block).drop (c.pos + 1)) (by simpa using hd) h2]
        exact r.assigned v n pre mid h1 h2
      · exact r.begun v (fun m hm => hS ⟨m, hm⟩) q (Or.inr ⟨_, _, hd, fun m hm => hS ⟨m, hm⟩⟩)
    refine ⟨D, ?_⟩
    exact {
      posLe := get_lt hev'
      assigned := fun w m pre mid h1 h2 => by
        have h1' : (L c.block).take c.pos ++ [.get v q] = pre ++ .set w m :: mid := htk.symm.trans h1
        rcases append_one h1' with ⟨_, h3, _⟩ | ⟨mid', rfl, h4⟩
        · cases h3
        · exact r.assigned w m pre mid' h4 (fun m hm => h2 m (List.mem_append_left _ hm))
      begun := fun w h1 q' hf => by
        have h1' : ∀ m, Event.set w m ∉ (L c.block).take (c.pos + 1) := h1
        rw [htk] at h1'
        exact r.begun w (fun m hm => h1' m (List.mem_append_left _ hm)) q' hf
      val := r.val
      seen := fun x hx => by
        rcases hx with hx | rfl
        · exact r.seen x hx
        · refine ⟨hl.getLt c.block v x (List.mem_of_getElem? hev'), ?_⟩
          show (c.env (s.skip x)).isSome
          rw [hval]; exact r.val v
      front := r.front
      pass := r.pass
      set := fun b i hb w m h1 h2 => by
        rcases hb with hb | ⟨rfl, hb⟩
        · exact r.set b i (Or.inl hb) w m h1 h2
        · have hb' : i < c.pos + 1 := hb
          by_cases e : i = c.pos
          · subst e
            rw [hev'] at h1; cases h1
          · exact r.set c.block i (Or.inr ⟨rfl, by omega⟩) w m h1 h2
      new := r.new
      first := fun hD x hx hs => by
        obtain ⟨j, h1, h2⟩ := r.first hD x hx hs
        exact ⟨j, Nat.lt_succ_of_lt h1, h2⟩ }
  | @edge c b i hrun hpos he ih =>
    obtain ⟨D, r⟩ := ih
    have hpos' : c.pos = (L c.block).length := hpos
    have he' : (s.preds b)[i]? = some (some c.block) := he
    have hmem : some c.block ∈ s.preds b := List.mem_of_getElem? he'
    have hb0 : b ≠ 0 := by rintro rfl; rw [hi.start.2] at hmem; cases hmem
    -- a value that passes through has its value before the edge is taken
    have pval : ∀ v q, Pass s b v q → c.env (s.skip q) = c.vars v := by
      intro v q hp
      obtain ⟨y, h1, h2⟩ := hp.2.2 c.block hmem
      rw [← h2]
      exact end_value hl r hpos' h1
    have pself : ∀ v q, Fact s L b v q → Pass s b v q → ∀ v' args, s.node (s.skip q) ≠ .phi b v' args := by
      intro v q hf hp v' args hn
      by_cases hD : D b ∨ b = c.block
      · exact r.pass b hD v q hf hp v' args hn
      · have := (r.new b (fun h => hD (Or.inl h)) (fun h => hD (Or.inr h))).2 _ v' args hn
        rw [pval v q hp] at this
        have hs := r.val v
        rw [this] at hs; cases hs
    have value : ∀ v q, Fact s L b v q → (s.code L).enter b i c.env (s.skip q) = c.vars v := by
      intro v q hf
      rcases begin b v q hf with ⟨args, h1⟩ | h1 | ⟨h1, _⟩
      · exact enter_phi hi hl hm r hpos' he' (factLt b v q hf) h1 (hi.idem q)
      · rw [enter_other c.env (pself v q hf h1)]
        exact pval v q h1
      · exact absurd h1 hb0
    refine ⟨fun b' => D b' ∨ b' = c.block, ?_⟩
    exact {
      posLe := Nat.zero_le _
      assigned := fun v n pre mid h => by simp at h
      begun := fun v _ q hf => value v q hf
      val := r.val
      seen := fun n hn => by
        obtain ⟨h1, h2⟩ := r.seen n hn
        refine ⟨h1, ?_⟩
        show ((s.code L).enter b i c.env (s.skip n)).isSome
        by_cases hp : ∃ v args, s.node (s.skip n) = .phi b v args
        · obtain ⟨v, args, hp⟩ := hp
          rw [enter_phi hi hl hm r hpos' he' (hi.old n h1) hp (hi.idem n)]
          exact r.val v
        · rw [enter_other c.env (fun v args h => hp ⟨v, args, h⟩)]
          exact h2
      front := fun b' hb' v q hf hn => by
        by_cases hD : D b' ∨ b' = c.block
        · exact r.front b' hD v q hf hn
        · rcases hb' with hb' | rfl
          · exact hD hb'
          · have h1 := (r.new _ (fun h => hD (Or.inl h)) (fun h => hD (Or.inr h))).1 _ hn
            have h2 := value v q hf
            rw [enter_other c.env (by rw [hn]; intro _ _ hc; cases hc), h1] at h2
            have hs := r.val v
            rw [← h2] at hs; cases hs
      pass := fun b' hb' v q hf hp => by
        by_cases hD : D b' ∨ b' = c.block
        · exact r.pass b' hD v q hf hp
        · rcases hb' with hb' | rfl
          · exact absurd hb' hD
          · exact pself v q hf hp
      set := fun b' j hb' v m h1 h2 => by
        rcases hb' with hb' | ⟨_, hb'⟩
        · rcases hb' with hb' | rfl
          · exact r.set b' j (Or.inl hb') v m h1 h2
          · exact r.set c.block j (Or.inr ⟨rfl, by rw [hpos']; exact get_lt h1⟩) v m h1 h2
        · exact absurd hb' (Nat.not_lt_zero _)
      new := fun b' hD hb' => by
        obtain ⟨h1, h2⟩ := r.new b' (fun h => hD (Or.inl h)) (fun h => hD (Or.inr h))
        have hne : b' ≠ b := hb'
        refine ⟨fun n hn => ?_, fun x v args hn => ?_⟩
        · show (s.code L).enter b i c.env n = none
          rw [enter_other c.env (by rw [hn]; intro _ _ hc; cases hc)]
          exact h1 n hn
        · show (s.code L).enter b i c.env x = none
          rw [enter_other c.env (by rw [hn]; intro _ _ hc; cases hc; exact hne rfl)]
          exact h2 x v args hn
      first := fun hD n hn hs => by
        have hD' : ¬ (D b ∨ b = c.block) := hD
        have h1 := (r.new b (fun h => hD' (Or.inl h)) (fun h => hD' (Or.inr h))).1 n hn
        have hs' : ((s.code L).enter b i c.env n).isSome := hs
        have hn' : s.node n = .front b := hn
        rw [enter_other c.env (by rw [hn']; intro _ _ hc; cases hc), h1] at hs'
        cases hs' }

end Verif.Model.SsaCons
