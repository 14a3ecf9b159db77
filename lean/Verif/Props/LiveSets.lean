import Verif.Lemmas.LiveMark
import Verif.Props.LiveChk
/-!
# Properties of the liveness sets of the backend (C99)
-/
namespace Verif.Props.LiveSets
open Verif.Model.Dom Verif.Model.LiveChk Verif.Model.LiveSets Verif.Spec

/-- The flags are exactly right at `b`: live at the begin, at the end before the Phis that follow, at the begin of a block that follows -/
def Right (g : Cfg) (d : Nat) (users : List Use) (b : Nat) (s : State) : Prop :=
  (s.inn = true ↔ LiveIn g.Flow d (UsedIn users) b) ∧ (s.end_ = true ↔ LiveEnd g.Flow d (UsedIn users) (PhiAt users) b) ∧
  (s.out = true ↔ LiveOut g.Flow d (UsedIn users) b)

/-- each use belongs to a block of the graph -/
def UsersOk (n : Nat) (users : List Use) : Prop := ∀ u ∈ users, ∃ b, u.block = some b ∧ b < n

theorem insOk {g : Cfg} (h : g.Ok) (hbad : ∀ b, b < g.n → none ∉ g.ins b) : InsOk g.n g.ins := ⟨fun c p hc hp => h.insLt c p hc hp, hbad⟩

theorem liveIn_conv {g : Cfg} (h : g.Ok) {d : Nat} {U : Nat → Prop} (hU : ∀ c, U c → c < g.n) {b : Nat} (hb : b < g.n) :
    LiveIn (fun p c => some p ∈ g.ins c) d U b ↔ LiveIn g.Flow d U b := by
  constructor
  · rintro ⟨l, u, hl, hu, hd⟩
    refine ⟨l, u, ?_, hu, hd⟩
    have : ∀ {v w l}, Path (fun p c => some p ∈ g.ins c) v l w → w < g.n → v < g.n ∧ Path g.Flow v l w := by
      intro v w l hp hw
      induction hp with
      | nil v => exact ⟨hw, .nil v⟩
      | @cons v w z l e hp ih =>
        obtain ⟨i1, i2⟩ := ih hw
        have hv := h.insLt w v i1 e
        exact ⟨hv, .cons ((h.edge v w hv i1).2 e) i2⟩
    exact (this hl (hU u hu)).2
  · rintro ⟨l, u, hl, hu, hd⟩
    refine ⟨l, u, ?_, hu, hd⟩
    have : ∀ {v w l}, Path g.Flow v l w → v < g.n → Path (fun p c => some p ∈ g.ins c) v l w := by
      intro v w l hp hv
      induction hp with
      | nil v => exact .nil v
      | @cons v w z l e hp ih =>
        have hw := h.outsLt v w hv e
        exact .cons ((h.edge v w hv hw).1 e) (ih hw)
    exact this hl hb

theorem liveIn_lt {g : Cfg} (h : g.Ok) {d : Nat} {U : Nat → Prop} (hU : ∀ c, U c → c < g.n) {b : Nat} (hl : LiveIn (fun p c => some p ∈ g.ins c) d U b) :
    b < g.n := by
  obtain ⟨l, u, hp, hu, -⟩ := hl
  induction hp with
  | nil v => exact hU _ hu
  | @cons v w z l e hp ih => exact h.insLt w v (ih hu) e

theorem liveOut_conv {g : Cfg} (h : g.Ok) {d : Nat} {U : Nat → Prop} (hU : ∀ c, U c → c < g.n) {b : Nat} (hb : b < g.n) :
    LiveOut (fun p c => some p ∈ g.ins c) d U b ↔ LiveOut g.Flow d U b := by
  constructor
  · rintro ⟨c, e, hl⟩
    have hc := liveIn_lt h hU hl
    exact ⟨c, (h.edge b c hb hc).2 e, (liveIn_conv h hU hc).1 hl⟩
  · rintro ⟨c, e, hl⟩
    have hc := h.outsLt b c hb e
    exact ⟨c, (h.edge b c hb hc).1 e, (liveIn_conv h hU hc).2 hl⟩

theorem used_lt {n : Nat} {us : List Use} (h : UsersOk n us) : ∀ c, UsedIn us c → c < n := by
  rintro c ⟨u, hu, hc⟩
  obtain ⟨b, h1, h2⟩ := h u hu
  rw [hc] at h1
  cases h1
  exact h2

theorem right_of {g : Cfg} (h : g.Ok) {x d : Nat} {us : List Use} (hu : UsersOk g.n us) {m : Map}
    (he : Exact g.n g.ins x d (UsedIn us) (PhiAt us) m) {b : Nat} (hb : b < g.n) : Right g d us b (val m b x) := by
  obtain ⟨h1, h2, h3⟩ := he b hb
  have hU := used_lt hu
  refine ⟨h1.trans (liveIn_conv h hU hb), h2.trans ?_, h3.trans (liveOut_conv h hU hb)⟩
  unfold LiveEnd
  rw [liveOut_conv h hU hb]

/-- the flags of a value that is visited are right if those from before were not wrong and followed to the predecessors -/
theorem forNode_exact {g : Cfg} (h : g.Ok) (hbad : ∀ b, b < g.n → none ∉ g.ins b) {x d : Nat} (hx : x ≠ 0) {us : List Use} (hu : UsersOk g.n us) {m : Map} (hw : Wf m)
    (hc : Closed g.n g.ins x d m fun _ => False) (hs : Sound g.ins x d (UsedIn us) (PhiAt us) m) :
    ∃ m', forNode g.ins (g.n + 1) ⟨x, d, us⟩ m = some m' ∧ Wf m' ∧ Closed g.n g.ins x d m' (fun _ => False) ∧ Sound g.ins x d (UsedIn us) (PhiAt us) m' ∧
      Exact g.n g.ins x d (UsedIn us) (PhiAt us) m' ∧ ∀ b y, y ≠ 0 → y ≠ x → val m' b y = val m b y := by
  obtain ⟨m', h1, h2, h3, h4⟩ := forNode_ok (d := d) (U := UsedIn us) (P := PhiAt us) (insOk h hbad) hx (fun c ⟨u, a, _, e⟩ => ⟨u, a, e⟩) (Nat.lt_succ_self g.n) us hw
    fun u hum => by
      obtain ⟨b, b1, b2⟩ := hu u hum
      exact ⟨b, b1, b2, ⟨u, hum, b1⟩, fun hp => ⟨u, hum, hp, b1⟩⟩
  have hc' := h2.closed _ hc
  refine ⟨m', h1, h2.wf, hc', h4 hs, exact_of (insOk h hbad) (used_lt hu) hc' (h4 hs) ?_ ?_, h2.other⟩
  · rintro c ⟨u, hum, hc⟩ hcd
    have := h3 u hum c hc
    by_cases hp : u.phi = true
    · rw [if_pos hp] at this; exact Or.inr this
    · rw [if_neg hp] at this; exact Or.inl (this (Ne.symm hcd))
  · rintro c ⟨u, hum, hp, hc⟩
    have := h3 u hum c hc
    rw [if_pos hp] at this
    exact this

/-! ## Changes -/

/-- `be_liveness_introduce`, `be_liveness_remove` and `be_liveness_update` for a value -/
inductive Op
  | introduce (v : Value)
  | remove (v : Value)
  | update (v : Value)

/-- one operation on the sets -/
def step (g : Cfg) : Op → Map → Option Map
  | .introduce v => forNode g.ins (g.n + 1) v
  | .remove v => remove g v
  | .update v => update g (g.n + 1) v

/-- the values that are known: their blocks and users -/
abbrev Table := Nat → Option (Nat × List Use)

/-- what an operation means for the table -/
def Op.table : Op → Table → Table
  | .introduce v, t => fun x => if x = v.node then some (v.block, v.users) else t x
  | .remove v, t => fun x => if x = v.node then none else t x
  | .update v, t => fun x => if x = v.node then some (v.block, v.users) else t x

/-- the users of the value, if it is known, are dominated by its block -/
def Known (g : Cfg) (t : Table) (v : Value) : Prop :=
  ∀ d us, t v.node = some (d, us) → d = v.block ∧ ∀ c, UsedIn us c → Dominates g.Edge g.start d c

/-- A value may be introduced if it is not known, or if it has got more users.  A value may be removed or updated if the block of the definition is
still the one from before, and dominates the users from before. -/
def Op.Ok (g : Cfg) (t : Table) : Op → Prop
  | .introduce v => v.node ≠ 0 ∧ UsersOk g.n v.users ∧ ∀ d us, t v.node = some (d, us) → d = v.block ∧ ∀ u ∈ us, u ∈ v.users
  | .remove v => v.node ≠ 0 ∧ v.block < g.n ∧ Known g t v
  | .update v => v.node ≠ 0 ∧ v.block < g.n ∧ UsersOk g.n v.users ∧ Known g t v

/-- operations one after the other -/
def run (g : Cfg) : List Op → Map → Option Map
  | [], m => some m
  | o :: os, m => (step g o m).bind (run g os)

def tables : List Op → Table → Table
  | [], t => t
  | o :: os, t => tables os (o.table t)

def AllOk (g : Cfg) : List Op → Table → Prop
  | [], _ => True
  | o :: os, t => o.Ok g t ∧ AllOk g os (o.table t)

/-- the sets belong to the table -/
structure Good (g : Cfg) (t : Table) (m : Map) : Prop where
  wf : Wf m
  none : ∀ x, x ≠ 0 → t x = none → ∀ b, val m b x = State.none
  closed : ∀ x d us, x ≠ 0 → t x = some (d, us) → Closed g.n g.ins x d m fun _ => False
  sound : ∀ x d us, x ≠ 0 → t x = some (d, us) → Sound g.ins x d (UsedIn us) (PhiAt us) m
  exact : ∀ x d us, x ≠ 0 → t x = some (d, us) → UsersOk g.n us ∧ Exact g.n g.ins x d (UsedIn us) (PhiAt us) m

theorem sound_more {ins : Nat → List (Option Nat)} {x d : Nat} {us us' : List Use} (hsub : ∀ u ∈ us, u ∈ us') {m : Map} (h : Sound ins x d (UsedIn us) (PhiAt us) m) :
    Sound ins x d (UsedIn us') (PhiAt us') m := by
  have hU : ∀ c, UsedIn us c → UsedIn us' c := fun c ⟨u, a, e⟩ => ⟨u, hsub u a, e⟩
  have hP : ∀ c, PhiAt us c → PhiAt us' c := fun c ⟨u, a, e⟩ => ⟨u, hsub u a, e⟩
  have hi : ∀ c, LiveIn (fun p c => some p ∈ ins c) d (UsedIn us) c → LiveIn (fun p c => some p ∈ ins c) d (UsedIn us') c :=
    fun c ⟨l, u, a, b, e⟩ => ⟨l, u, a, hU u b, e⟩
  have ho : ∀ c, LiveOut (fun p c => some p ∈ ins c) d (UsedIn us) c → LiveOut (fun p c => some p ∈ ins c) d (UsedIn us') c :=
    fun c ⟨b, a, e⟩ => ⟨b, a, hi b e⟩
  intro c
  obtain ⟨s1, s2, s3⟩ := h c
  exact ⟨fun hh => hi c (s1 hh), fun hh => (s2 hh).imp (hP c) (ho c), fun hh => ho c (s3 hh)⟩

theorem congr_val {g : Cfg} {x d : Nat} {U P : Nat → Prop} {m m' : Map} (h : ∀ b, val m' b x = val m b x) :
    (Closed g.n g.ins x d m (fun _ => False) → Closed g.n g.ins x d m' fun _ => False) ∧ (Sound g.ins x d U P m → Sound g.ins x d U P m') ∧
    (Exact g.n g.ins x d U P m → Exact g.n g.ins x d U P m') := by
  refine ⟨fun hc c h1 h2 => ?_, fun hs c => ?_, fun he b hb => ?_⟩
  · rw [h c]
    obtain ⟨a1, a2⟩ := hc c h1 h2
    exact ⟨a1, fun hi p hp => by rw [h p]; exact a2 hi p hp⟩
  · rw [h c]; exact hs c
  · rw [h b]; exact he b hb

/-- `Good` after the flags of a single value have changed -/
theorem good_upd {g : Cfg} {t : Table} {m m' : Map} (hg : Good g t m) {x : Nat} (hx : x ≠ 0) (r : Option (Nat × List Use)) (hw : Wf m')
    (hother : ∀ b y, y ≠ 0 → y ≠ x → val m' b y = val m b y) (h1 : r = none → ∀ b, val m' b x = State.none)
    (h2 : ∀ d us, r = some (d, us) → Closed g.n g.ins x d m' (fun _ => False) ∧ Sound g.ins x d (UsedIn us) (PhiAt us) m' ∧ UsersOk g.n us ∧
      Exact g.n g.ins x d (UsedIn us) (PhiAt us) m') : Good g (fun y => if y = x then r else t y) m' := by
  refine ⟨hw, fun y hy ht b => ?_, fun y d us hy ht => ?_, fun y d us hy ht => ?_, fun y d us hy ht => ?_⟩
  · by_cases e : y = x
    · subst e; rw [if_pos rfl] at ht; exact h1 ht b
    · rw [if_neg e] at ht; rw [hother b y hy e]; exact hg.none y hy ht b
  · by_cases e : y = x
    · subst e; rw [if_pos rfl] at ht; exact (h2 d us ht).1
    · rw [if_neg e] at ht; exact (congr_val (U := UsedIn us) (P := PhiAt us) fun b => hother b y hy e).1 (hg.closed y d us hy ht)
  · by_cases e : y = x
    · subst e; rw [if_pos rfl] at ht; exact (h2 d us ht).2.1
    · rw [if_neg e] at ht; exact (congr_val fun b => hother b y hy e).2.1 (hg.sound y d us hy ht)
  · by_cases e : y = x
    · subst e; rw [if_pos rfl] at ht; exact (h2 d us ht).2.2
    · rw [if_neg e] at ht
      obtain ⟨e1, e2⟩ := hg.exact y d us hy ht
      exact ⟨e1, (congr_val fun b => hother b y hy e).2.2 e2⟩

theorem good_introduce {g : Cfg} (h : g.Ok) (hbad : ∀ b, b < g.n → none ∉ g.ins b) {t : Table} {m : Map} (hg : Good g t m) {v : Value} (hv : Op.Ok g t (.introduce v)) :
    ∃ m', forNode g.ins (g.n + 1) v m = some m' ∧ Good g (Op.table (.introduce v) t) m' := by
  obtain ⟨hx, hu, hold⟩ := hv
  have hpre : Closed g.n g.ins v.node v.block m (fun _ => False) ∧ Sound g.ins v.node v.block (UsedIn v.users) (PhiAt v.users) m := by
    cases ht : t v.node with
    | none => exact ⟨le_none _ _ _ _ _ (hg.none _ hx ht), sound_none _ _ _ _ _ _ (hg.none _ hx ht)⟩
    | some p =>
      obtain ⟨d, us⟩ := p
      obtain ⟨rfl, hsub⟩ := hold d us ht
      exact ⟨hg.closed _ _ _ hx ht, sound_more hsub (hg.sound _ _ _ hx ht)⟩
  obtain ⟨m', h1, h2, h3, h4, h5, h6⟩ := forNode_exact h hbad hx hu hg.wf hpre.1 hpre.2
  refine ⟨m', h1, good_upd hg hx (some (v.block, v.users)) h2 h6 (fun hh => (nomatch hh)) fun d us e => ?_⟩
  cases e
  exact ⟨h3, h4, hu, h5⟩

theorem good_remove {g : Cfg} (h : g.Ok) (hn : g.n ≤ 2 ^ 31) (hreach : ∀ b, b < g.n → Reachable g.Edge g.start b)
    {t : Table} {m : Map} (hg : Good g t m) {v : Value} (hv : Op.Ok g t (.remove v)) :
    ∃ m', remove g v m = some m' ∧ Good g (Op.table (.remove v) t) m' := by
  obtain ⟨hx, hd, hk⟩ := hv
  obtain ⟨m', h1, h2, h3, h4, h5⟩ := remove_ok hx ((List.range g.n).filter (g.dominates v.block)) hg.wf
  refine ⟨m', h1, good_upd hg hx none h2 h5 (fun _ b => ?_) fun _ _ e => (nomatch e)⟩
  by_cases hb : b ∈ (List.range g.n).filter (g.dominates v.block)
  · exact h3 b hb
  · rw [h4 b hb]
    cases ht : t v.node with
    | none => exact hg.none _ hx ht b
    | some p =>
      obtain ⟨d, us⟩ := p
      obtain ⟨rfl, hdom⟩ := hk d us ht
      obtain ⟨e1, e2⟩ := hg.exact _ _ _ hx ht
      have hU := used_lt e1
      have hs := hg.sound _ _ _ hx ht b
      -- a flag means that the block is dominated
      have key : b < g.n ∧ Dominates g.Edge g.start v.block b → False := by
        rintro ⟨hbn, hbd⟩
        refine hb (List.mem_filter.2 ⟨List.mem_range.2 hbn, ?_⟩)
        exact (dominates_block h (by omega) (hreach _ hd) (hreach b hbn)).2 hbd
      have hin : ¬ LiveIn (fun p c => some p ∈ g.ins c) v.block (UsedIn us) b := fun hl => by
        have hbn := liveIn_lt h hU hl
        exact key ⟨hbn, live_dom hdom ((liveIn_conv h hU hbn).1 hl)⟩
      have hne : b ≠ v.block := fun e => by
        subst e
        exact key ⟨hd, dominates_refl _⟩
      rw [liveIn_iff (Ne.symm hne)] at hin
      have hend : ¬ LiveEnd (fun p c => some p ∈ g.ins c) v.block (UsedIn us) (PhiAt us) b := by
        rintro (⟨u, a, _, e⟩ | hl)
        · exact hin (Or.inl ⟨u, a, e⟩)
        · exact hin (Or.inr hl)
      have hi' : ¬ LiveIn (fun p c => some p ∈ g.ins c) v.block (UsedIn us) b := by rw [liveIn_iff (Ne.symm hne)]; exact hin
      have b1 : (val m b v.node).inn = false := by rw [← Bool.not_eq_true]; exact fun hh => hi' (hs.1 hh)
      have b2 : (val m b v.node).end_ = false := by rw [← Bool.not_eq_true]; exact fun hh => hend (hs.2.1 hh)
      have b3 : (val m b v.node).out = false := by rw [← Bool.not_eq_true]; exact fun hh => hin (Or.inr (hs.2.2 hh))
      generalize val m b v.node = s at b1 b2 b3
      obtain ⟨i, e, o⟩ := s
      simp only at b1 b2 b3
      rw [b1, b2, b3]

theorem run_good {g : Cfg} (h : g.Ok) (hn : g.n ≤ 2 ^ 31) (hreach : ∀ b, b < g.n → Reachable g.Edge g.start b) (hbad : ∀ b, b < g.n → none ∉ g.ins b)
    (os : List Op) : ∀ {t : Table} {m : Map}, Good g t m → AllOk g os t → ∃ m', run g os m = some m' ∧ Good g (tables os t) m' := by
  induction os with
  | nil => intro t m hg _; exact ⟨m, rfl, hg⟩
  | cons o os ih =>
    intro t m hg hok
    obtain ⟨ho, hok⟩ := hok
    have : ∃ m1, step g o m = some m1 ∧ Good g (o.table t) m1 := by
      cases o with
      | introduce v => exact good_introduce h hbad hg ho
      | remove v => exact good_remove h hn hreach hg ho
      | update v =>
        obtain ⟨hx, hd, hu, hk⟩ := ho
        obtain ⟨m1, r1, r2⟩ := good_remove h hn hreach hg (v := v) ⟨hx, hd, hk⟩
        obtain ⟨m2, s1, s2⟩ := good_introduce h hbad r2 (v := v) ⟨hx, hu, fun d us ht => by simp [Op.table] at ht⟩
        refine ⟨m2, ?_, ?_⟩
        · show update g (g.n + 1) v m = some m2
          unfold update
          rw [r1]
          exact s1
        · have e : Op.table (.introduce v) (Op.table (.remove v) t) = Op.table (.update v) t := by
            funext y
            simp only [Op.table]
            by_cases hy : y = v.node
            · rw [if_pos hy, if_pos hy]
            · rw [if_neg hy, if_neg hy, if_neg hy]
          rw [← e]
          exact s2
    obtain ⟨m1, r1, r2⟩ := this
    obtain ⟨m2, s1, s2⟩ := ih r2 hok
    exact ⟨m2, by rw [run, r1]; exact s1, s2⟩

theorem good_init (g : Cfg) : Good g (fun _ => none) fun _ => none :=
  ⟨fun _ _ h => (nomatch h), fun _ _ _ _ => rfl, fun _ _ _ _ h => (nomatch h), fun _ _ _ _ h => (nomatch h), fun _ _ _ _ h => (nomatch h)⟩

/-- what the table says about values after all of them have been visited -/
def initial (vs : List Value) : Table := fun x => (vs.find? fun v => v.node == x).map fun v => (v.block, v.users)

theorem compute_good {g : Cfg} (h : g.Ok) (hbad : ∀ b, b < g.n → none ∉ g.ins b) (vs : List Value) (hd : (vs.map (·.node)).Nodup)
    (hv : ∀ v ∈ vs, v.node ≠ 0 ∧ UsersOk g.n v.users) : ∃ m, computeSets g.ins (g.n + 1) vs = some m ∧ Good g (initial vs) m := by
  have : ∀ (vs : List Value) {t : Table} {m : Map}, Good g t m → (vs.map (·.node)).Nodup → (∀ v ∈ vs, v.node ≠ 0 ∧ UsersOk g.n v.users ∧ t v.node = none) →
      ∃ m', each (forNode g.ins (g.n + 1)) vs m = some m' ∧ Good g (fun x => (initial vs x).or (t x)) m' := by
    intro vs
    induction vs with
    | nil =>
      intro t m hg _ _
      exact ⟨m, rfl, by simpa [initial] using hg⟩
    | cons v vs ih =>
      intro t m hg hnd hv
      obtain ⟨v1, v2, v3⟩ := hv v (by simp)
      rw [List.map_cons, List.nodup_cons] at hnd
      obtain ⟨m1, r1, r2⟩ := good_introduce h hbad hg (v := v) ⟨v1, v2, fun d us ht => by rw [v3] at ht; cases ht⟩
      obtain ⟨m2, s1, s2⟩ := ih r2 hnd.2 fun w hw => by
        obtain ⟨w1, w2, w3⟩ := hv w (List.mem_cons_of_mem _ hw)
        refine ⟨w1, w2, ?_⟩
        have : w.node ≠ v.node := fun e => hnd.1 (e ▸ List.mem_map_of_mem hw)
        simp only [Op.table]
        rw [if_neg this, w3]
      refine ⟨m2, by rw [each, r1]; exact s1, ?_⟩
      have e : (fun x => (initial vs x).or (Op.table (.introduce v) t x)) = fun x => (initial (v :: vs) x).or (t x) := by
        funext x
        simp only [initial, Op.table, List.find?_cons]
        by_cases hx : x = v.node
        · subst hx
          have hnone : vs.find? (fun w => w.node == v.node) = none := by
            rw [List.find?_eq_none]
            intro w hw hh
            exact hnd.1 ((beq_iff_eq.1 hh) ▸ List.mem_map_of_mem hw)
          simp [hnone]
        · have hx' : (v.node == x) = false := by simpa using fun e => hx e.symm
          simp [hx, hx']
      rw [← e]
      exact s2
  obtain ⟨m, h1, h2⟩ := this vs (good_init g) hd fun v hvm => ⟨(hv v hvm).1, (hv v hvm).2, rfl⟩
  exact ⟨m, h1, by simpa using h2⟩

/-! ## Theorems -/

/-- `be_liveness_compute_sets` never leaves an array and ends.  Then the flags of each value are exactly right at each block. -/
theorem live_sets_exact {g : Cfg} (h : g.Ok) (hbad : ∀ b, b < g.n → none ∉ g.ins b) (vs : List Value) (hd : (vs.map (·.node)).Nodup)
    (hv : ∀ v ∈ vs, v.node ≠ 0 ∧ UsersOk g.n v.users) :
    ∃ m, computeSets g.ins (g.n + 1) vs = some m ∧ ∀ v ∈ vs, ∀ b, b < g.n → ∃ s, liveState m b v.node = some s ∧ Right g v.block v.users b s := by
  obtain ⟨m, h1, h2⟩ := compute_good h hbad vs hd hv
  refine ⟨m, h1, fun v hvm b hb => ⟨_, get_spec h2.wf (hv v hvm).1, ?_⟩⟩
  have ht : initial vs v.node = some (v.block, v.users) := by
    clear h1 h2 hv
    induction vs with
    | nil => simp at hvm
    | cons w vs ih =>
      rw [List.map_cons, List.nodup_cons] at hd
      rcases List.mem_cons.1 hvm with rfl | hvm
      · simp [initial]
      · have : w.node ≠ v.node := fun e => hd.1 (e ▸ List.mem_map_of_mem hvm)
        have hi := ih hd.2 hvm
        have hx' : (w.node == v.node) = false := by simpa using this
        simp only [initial, List.find?_cons, hx'] at hi ⊢
        exact hi
  obtain ⟨e1, e2⟩ := h2.exact _ _ _ (hv v hvm).1 ht
  exact right_of h e1 e2 hb

/-- After any sequence of changes the sets are those of the users that the values have now: nothing is left of values that were removed. -/
theorem live_sets_changes {g : Cfg} (h : g.Ok) (hn : g.n ≤ 2 ^ 31) (hreach : ∀ b, b < g.n → Reachable g.Edge g.start b) (hbad : ∀ b, b < g.n → none ∉ g.ins b)
    (vs : List Value) (hd : (vs.map (·.node)).Nodup) (hv : ∀ v ∈ vs, v.node ≠ 0 ∧ UsersOk g.n v.users) (os : List Op) (hok : AllOk g os (initial vs)) :
    ∃ m m', computeSets g.ins (g.n + 1) vs = some m ∧ run g os m = some m' ∧ ∀ x, x ≠ 0 → ∀ b, b < g.n → ∃ s, liveState m' b x = some s ∧
      match tables os (initial vs) x with
      | none => s = State.none
      | some (d, users) => Right g d users b s := by
  obtain ⟨m, h1, h2⟩ := compute_good h hbad vs hd hv
  obtain ⟨m', h3, h4⟩ := run_good h hn hreach hbad os h2 hok
  refine ⟨m, m', h1, h3, fun x hx b hb => ⟨_, get_spec h4.wf hx, ?_⟩⟩
  cases ht : tables os (initial vs) x with
  | none => exact h4.none x hx ht b
  | some p =>
    obtain ⟨d, us⟩ := p
    obtain ⟨e1, e2⟩ := h4.exact x d us hx ht
    exact right_of h e1 e2 hb

/-- The sets and the liveness check give the same answer, so `be_live_chk_compare` has nothing to report. -/
theorem live_sets_compare {succ : Nat → List Nat} {g : Cfg} (h : LiveOk succ g) (hbad : ∀ b, b < g.n → none ∉ g.ins b) (vs : List Value) (hd : (vs.map (·.node)).Nodup)
    (hv : ∀ v ∈ vs, v.node ≠ 0 ∧ UsersOk g.n v.users ∧ Reachable g.Edge g.start v.block ∧
      ∀ c, UsedIn v.users c → Reachable g.Flow g.start c ∧ Dominates g.Edge g.start v.block c) :
    ∃ m, computeSets g.ins (g.n + 1) vs = some m ∧ ∀ v ∈ vs, ∀ b, b < g.n → Reachable g.Edge g.start b →
      liveState m b v.node = some (live succ g v.block v.users b) := by
  obtain ⟨m, h1, h2⟩ := live_sets_exact h.ok hbad vs hd fun v hvm => ⟨(hv v hvm).1, (hv v hvm).2.1⟩
  refine ⟨m, h1, fun v hvm b hb hbr => ?_⟩
  obtain ⟨s, e, r1, r2, r3⟩ := h2 v hvm b hb
  obtain ⟨v1, v2, v3, v4⟩ := hv v hvm
  obtain ⟨c1, c2, c3⟩ := live_check_exact h v3 hbr v4 fun _ u hu hh => by
    obtain ⟨c, hc, -⟩ := v2 u hu
    rw [hh] at hc
    cases hc
  rw [e]
  congr 1
  have e1 := Bool.eq_iff_iff.2 (r1.trans c1.symm)
  have e2 := Bool.eq_iff_iff.2 (r2.trans c2.symm)
  have e3 := Bool.eq_iff_iff.2 (r3.trans c3.symm)
  generalize live succ g v.block v.users b = s' at e1 e2 e3
  obtain ⟨a, b, c⟩ := s
  obtain ⟨a', b', c'⟩ := s'
  simp only at e1 e2 e3
  rw [e1, e2, e3]

/-! ## Examples -/

/-- 0 to 1 and 2, both to 3, from there back to 1 or to 4 -/
def smallCfg : Cfg := ⟨5, 0, 4, fun b => [[some 1, some 2], [some 3], [some 3], [some 1, some 4], []].getD b [],
  fun b => [[], [some 0, some 3], [some 0], [some 1, some 2], [some 3]].getD b [], []⟩

theorem smallCfg_ok : smallCfg.Ok where
  start := by decide
  stop := by decide
  outsLt := by
    intro b c hb
    have : b = 0 ∨ b = 1 ∨ b = 2 ∨ b = 3 ∨ b = 4 := by have : b < 5 := hb; omega
    rcases this with rfl | rfl | rfl | rfl | rfl <;> simp [smallCfg] <;> omega
  insLt := by
    intro b c hb
    have : b = 0 ∨ b = 1 ∨ b = 2 ∨ b = 3 ∨ b = 4 := by have : b < 5 := hb; omega
    rcases this with rfl | rfl | rfl | rfl | rfl <;> simp [smallCfg] <;> omega
  keepLt := by intro b h; cases h
  edge := by
    have : ∀ b, b < 5 → ∀ c, c < 5 → (some c ∈ smallCfg.outs b ↔ some b ∈ smallCfg.ins c) := by decide
    exact fun b c hb hc => this b hb c hc
  keep := by decide

theorem smallCfg_bad : ∀ b, b < smallCfg.n → none ∉ smallCfg.ins b := by decide

/-- a value of block 0 that is used in block 4 and one of block 1 that a Phi in block 1 uses -/
def smallValues : List Value := [⟨8, 0, [⟨false, some 4⟩]⟩, ⟨5, 1, [⟨true, some 3⟩]⟩]

example : (smallValues.map (·.node)).Nodup ∧ ∀ v ∈ smallValues, v.node ≠ 0 ∧ UsersOk smallCfg.n v.users := by
  refine ⟨by decide, fun v hv => ?_⟩
  simp only [smallValues, List.mem_cons, List.not_mem_nil, or_false] at hv
  rcases hv with rfl | rfl
  · exact ⟨by decide, fun u hu => by rw [List.mem_singleton] at hu; subst hu; exact ⟨4, rfl, by decide⟩⟩
  · exact ⟨by decide, fun u hu => by rw [List.mem_singleton] at hu; subst hu; exact ⟨3, rfl, by decide⟩⟩

/-- the flags at the blocks 0 to 4; the second value is also live in blocks that its definition does not dominate -/
example : (computeSets smallCfg.ins 6 smallValues).map (fun m => [8, 5].map fun x => (List.range 5).map fun b => liveState m b x) =
    some [[some ⟨false, true, true⟩, some ⟨true, true, true⟩, some ⟨true, true, true⟩, some ⟨true, true, true⟩, some ⟨true, false, false⟩],
      [some ⟨true, true, true⟩, some ⟨false, true, true⟩, some ⟨true, true, true⟩, some ⟨true, true, false⟩, some State.none]] := by decide +kernel

/-- The definition of the second value does not dominate its use.  If it is removed, flags stay at the blocks that block 1 does not dominate, so the
condition of `Op.Ok` is needed. -/
example : ((computeSets smallCfg.ins 6 smallValues).bind (remove smallCfg ⟨5, 1, []⟩)).map (fun m => (List.range 5).map fun b => liveState m b 5) =
    some [some ⟨true, true, true⟩, some State.none, some ⟨true, true, true⟩, some ⟨true, true, false⟩, some State.none] := by decide +kernel

/-- a value of block 3 is introduced and gets another use -/
example : AllOk smallCfg [.introduce ⟨3, 3, [⟨false, some 4⟩]⟩, .introduce ⟨3, 3, [⟨false, some 4⟩, ⟨true, some 3⟩]⟩] (initial smallValues) := by
  refine ⟨⟨by decide, fun u hu => ?_, fun d us h => ?_⟩, ⟨by decide, fun u hu => ?_, fun d us h => ?_⟩, trivial⟩
  · rw [List.mem_singleton] at hu; subst hu; exact ⟨4, rfl, by decide⟩
  · simp [initial, smallValues] at h
  · simp only [List.mem_cons, List.not_mem_nil, or_false] at hu
    rcases hu with rfl | rfl
    · exact ⟨4, rfl, by decide⟩
    · exact ⟨3, rfl, by decide⟩
  · simp only [Op.table, if_pos, Option.some.injEq, Prod.mk.injEq] at h
    obtain ⟨rfl, rfl⟩ := h
    exact ⟨rfl, fun u hu => by rw [List.mem_singleton] at hu; subst hu; simp⟩

end Verif.Props.LiveSets
