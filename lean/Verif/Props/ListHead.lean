import Verif.Model.ListHead
/-!
# Linked lists (C129)
-/
namespace Verif.Props.ListHead

open Verif.Spec.Ring Verif.Model.ListHead

theorem mem_ne {a b : Nat} {l : List Nat} (ha : a ∈ l) (hb : b ∉ l) : a ≠ b := fun e => hb (e ▸ ha)

theorem linked_append (m : Mem) (p q : Nat) (l2 : List Nat) : ∀ l1 : List Nat,
    Linked m (l1 ++ p :: q :: l2) ↔ Linked m (l1 ++ [p]) ∧ (m.next p = q ∧ m.prev q = p) ∧ Linked m (q :: l2) := by
  intro l1
  induction l1 with
  | nil => exact ⟨fun h => ⟨trivial, h⟩, fun h => h.2⟩
  | cons a l1 ih =>
    cases l1 with
    | nil =>
      show (_ ∧ Linked m (p :: q :: l2)) ↔ (_ ∧ True) ∧ _
      exact ⟨fun h => ⟨⟨h.1, trivial⟩, h.2⟩, fun h => ⟨h.1.1, h.2⟩⟩
    | cons b l1 =>
      show (_ ∧ Linked m (b :: l1 ++ p :: q :: l2)) ↔ (_ ∧ Linked m (b :: l1 ++ [p])) ∧ _
      rw [ih]
      exact and_assoc.symm

theorem linked_frame {m m' : Mem} : ∀ {l : List Nat}, Linked m l → (∀ x ∈ l.dropLast, m'.next x = m.next x) → (∀ x ∈ l.tail, m'.prev x = m.prev x) → Linked m' l := by
  intro l
  induction l with
  | nil => intros; trivial
  | cons x l ih =>
    cases l with
    | nil => intros; trivial
    | cons y l =>
      intro h h1 h2
      refine ⟨⟨?_, ?_⟩, ih h.2 (fun z hz => h1 z (List.mem_cons_of_mem _ hz)) fun z hz => h2 z (List.mem_cons_of_mem _ hz)⟩
      · rw [h1 x (List.mem_cons_self ..)]; exact h.1.1
      · rw [h2 y (List.mem_cons_self ..)]; exact h.1.2

/-- a list none of whose nodes is written stays -/
theorem holds_frame {m m' : Mem} {h : Nat} {xs : List Nat} (hm : Holds m h xs) (hs : ∀ x ∈ h :: xs, m'.next x = m.next x ∧ m'.prev x = m.prev x) : Holds m' h xs := by
  refine ⟨linked_frame hm.1 (fun x hx => (hs x ?_).1) (fun x hx => (hs x ?_).2), hm.2⟩
  · rw [List.dropLast_concat] at hx; exact hx
  · rcases List.mem_append.1 hx with h1 | h1
    · exact List.mem_cons_of_mem _ h1
    · rw [List.mem_singleton.1 h1]; exact List.mem_cons_self ..

/-- the places around the gap between `as` and `bs` -/
theorem gap (h : Nat) (as bs : List Nat) : ∃ L1 p q L2, h :: as = L1 ++ [p] ∧ bs ++ [h] = q :: L2 := by
  have h1 : h :: as ≠ [] := List.cons_ne_nil _ _
  refine ⟨(h :: as).dropLast, (h :: as).getLast h1, ?_⟩
  rcases bs with _ | ⟨b, bs⟩
  · exact ⟨h, [], (List.dropLast_concat_getLast h1).symm, rfl⟩
  · exact ⟨b, bs ++ [h], (List.dropLast_concat_getLast h1).symm, rfl⟩

theorem ring_eq {h p q : Nat} {as bs L1 L2 ms : List Nat} (hp : h :: as = L1 ++ [p]) (hq : bs ++ [h] = q :: L2) :
    h :: (as ++ (ms ++ bs)) ++ [h] = L1 ++ p :: (ms ++ q :: L2) := by
  have : h :: (as ++ (ms ++ bs)) ++ [h] = (h :: as) ++ (ms ++ (bs ++ [h])) := by simp
  rw [this, hp, hq]; simp

/-- the parts before and after the gap stay linked if only the gap is written -/
theorem parts {m m' : Mem} {h p q : Nat} {as bs L1 L2 : List Nat} (hp : h :: as = L1 ++ [p]) (hq : bs ++ [h] = q :: L2)
    (hn : (h :: (as ++ bs)).Nodup) (hl : Linked m (L1 ++ [p])) (hr : Linked m (q :: L2))
    (hnx : ∀ x ∈ h :: (as ++ bs), x ≠ p → m'.next x = m.next x) (hpv : ∀ x ∈ h :: (as ++ bs), x ≠ q → m'.prev x = m.prev x) :
    Linked m' (L1 ++ [p]) ∧ Linked m' (q :: L2) := by
  have hn' := hn
  rw [List.nodup_cons, List.nodup_append] at hn
  obtain ⟨hh, ha, hb, hab⟩ := hn
  have hn1 : (L1 ++ [p]).Nodup := by
    rw [← hp, List.nodup_cons]
    exact ⟨fun hm => hh (List.mem_append_left _ hm), ha⟩
  have hn2 : (q :: L2).Nodup := by
    rw [← hq, List.nodup_append]
    refine ⟨hb, List.nodup_cons.2 ⟨List.not_mem_nil, List.nodup_nil⟩, fun x hx y hy e => ?_⟩
    rw [List.mem_singleton.1 hy] at e
    exact hh (List.mem_append_right _ (e ▸ hx))
  have hpm : p ∈ h :: as := by rw [hp]; simp
  have hqm : q ∈ bs ++ [h] := by rw [hq]; simp
  constructor
  · refine linked_frame hl (fun x hx => ?_) fun x hx => ?_
    · rw [List.dropLast_concat] at hx
      refine hnx x ?_ fun e => ?_
      · have : x ∈ h :: as := by rw [hp]; exact List.mem_append_left _ hx
        rcases List.mem_cons.1 this with e | e
        · rw [e]; exact List.mem_cons_self ..
        · exact List.mem_cons_of_mem _ (List.mem_append_left _ e)
      · subst e
        exact (List.nodup_append.1 hn1).2.2 x hx x (List.mem_singleton.2 rfl) rfl
    · rw [← hp, List.tail_cons] at hx
      refine hpv x (List.mem_cons_of_mem _ (List.mem_append_left _ hx)) fun e => ?_
      subst e
      rcases List.mem_append.1 hqm with e | e
      · exact hab x hx x e rfl
      · rw [List.mem_singleton.1 e] at hx
        exact hh (List.mem_append_left _ hx)
  · refine linked_frame hr (fun x hx => ?_) fun x hx => ?_
    · rw [← hq, List.dropLast_concat] at hx
      refine hnx x (List.mem_cons_of_mem _ (List.mem_append_right _ hx)) fun e => ?_
      subst e
      rcases List.mem_cons.1 hpm with e | e
      · exact hh (List.mem_append_right _ (e ▸ hx))
      · exact hab x e x hx rfl
    · rw [List.tail_cons] at hx
      refine hpv x ?_ fun e => ?_
      · have : x ∈ bs ++ [h] := by rw [hq]; exact List.mem_cons_of_mem _ hx
        rcases List.mem_append.1 this with e | e
        · exact List.mem_cons_of_mem _ (List.mem_append_right _ e)
        · rw [List.mem_singleton.1 e]; exact List.mem_cons_self ..
      · subst e
        exact (List.nodup_cons.1 hn2).1 hx

/-- what is known around a gap -/
theorem holds_gap {m : Mem} {h p q : Nat} {as bs L1 L2 : List Nat} (hp : h :: as = L1 ++ [p]) (hq : bs ++ [h] = q :: L2) (hm : Holds m h (as ++ bs)) :
    Linked m (L1 ++ [p]) ∧ (m.next p = q ∧ m.prev q = p) ∧ Linked m (q :: L2) := by
  have e := ring_eq (ms := []) hp hq
  rw [List.nil_append, List.nil_append] at e
  have := hm.1
  rw [e] at this
  exact (linked_append m p q L2 L1).1 this

theorem gap_mem {h p q : Nat} {as bs L1 L2 : List Nat} (hp : h :: as = L1 ++ [p]) (hq : bs ++ [h] = q :: L2) :
    p ∈ h :: (as ++ bs) ∧ q ∈ h :: (as ++ bs) := by
  have hpm : p ∈ h :: as := by rw [hp]; simp
  have hqm : q ∈ bs ++ [h] := by rw [hq]; simp
  simp only [List.mem_cons, List.mem_append, List.mem_nil_iff, or_false] at *
  constructor
  · rcases hpm with e | e
    · exact .inl e
    · exact .inr (.inl e)
  · rcases hqm with e | e
    · exact .inr (.inr e)
    · exact .inl e

theorem nodup_mid {h n : Nat} {as bs : List Nat} : (h :: (as ++ n :: bs)).Nodup ↔ (h :: (as ++ bs)).Nodup ∧ n ∉ h :: (as ++ bs) := by
  have : (h :: (as ++ n :: bs)).Perm (n :: (h :: (as ++ bs))) := (List.Perm.cons h List.perm_middle).trans (List.Perm.swap ..)
  rw [this.nodup_iff, List.nodup_cons, and_comm]

theorem rawAdd_next (m : Mem) (n p q x : Nat) : (rawAdd m n p q).next x = if x = p then n else if x = n then q else m.next x := rfl
theorem rawAdd_prev (m : Mem) (n p q x : Nat) : (rawAdd m n p q).prev x = if x = n then p else if x = q then n else m.prev x := rfl

theorem rawAdd_spec {m : Mem} {h n p q : Nat} {as bs L1 L2 : List Nat} (hp : h :: as = L1 ++ [p]) (hq : bs ++ [h] = q :: L2) (hm : Holds m h (as ++ bs))
    (hn : n ∉ h :: (as ++ bs)) : Holds (rawAdd m n p q) h (as ++ n :: bs) := by
  obtain ⟨h1, h2, h3⟩ := holds_gap hp hq hm
  obtain ⟨hpm, hqm⟩ := gap_mem hp hq
  have hnp : n ≠ p := fun e => hn (e ▸ hpm)
  have hnq : n ≠ q := fun e => hn (e ▸ hqm)
  obtain ⟨g1, g2⟩ := parts (m' := rawAdd m n p q) hp hq hm.2 h1 h3
    (fun x hx he => by rw [rawAdd_next, if_neg he, if_neg (mem_ne hx hn)])
    (fun x hx he => by rw [rawAdd_prev, if_neg (mem_ne hx hn), if_neg he])
  refine ⟨?_, nodup_mid.2 ⟨hm.2, hn⟩⟩
  have e := ring_eq (ms := [n]) hp hq
  rw [List.singleton_append, List.singleton_append] at e
  rw [e, linked_append]
  refine ⟨g1, ⟨?_, ?_⟩, ⟨?_, ?_⟩, g2⟩
  · rw [rawAdd_next, if_pos rfl]
  · rw [rawAdd_prev, if_pos rfl]
  · rw [rawAdd_next, if_neg hnp, if_pos rfl]
  · rw [rawAdd_prev, if_neg (Ne.symm hnq), if_pos rfl]

/-- `INIT_LIST_HEAD` makes an empty list. -/
theorem init_spec (m : Mem) (h : Nat) : Holds (init m h) h [] := by
  refine ⟨⟨⟨?_, ?_⟩, trivial⟩, List.nodup_cons.2 ⟨List.not_mem_nil, List.nodup_nil⟩⟩
  · show (if h = h then h else _) = h
    rw [if_pos rfl]
  · show (if h = h then h else _) = h
    rw [if_pos rfl]

/-- `list_add` puts the new node behind the given one, which is the head or an element. -/
theorem add_spec {m : Mem} {h n p : Nat} {as bs L1 : List Nat} (hp : h :: as = L1 ++ [p]) (hm : Holds m h (as ++ bs)) (hn : n ∉ h :: (as ++ bs)) :
    Holds (add m n p) h (as ++ n :: bs) := by
  obtain ⟨_, _, q, L2, _, hq⟩ := gap h as bs
  have := (holds_gap hp hq hm).2.1.1
  unfold add
  rw [this]
  exact rawAdd_spec hp hq hm hn

/-- `list_add_tail` puts the new node before the given one, which is the head (behind all elements) or an element. -/
theorem addTail_spec {m : Mem} {h n q : Nat} {as bs L2 : List Nat} (hq : bs ++ [h] = q :: L2) (hm : Holds m h (as ++ bs)) (hn : n ∉ h :: (as ++ bs)) :
    Holds (addTail m n q) h (as ++ n :: bs) := by
  obtain ⟨L1, p, _, _, hp, _⟩ := gap h as bs
  have := (holds_gap hp hq hm).2.1.2
  unfold addTail
  rw [this]
  exact rawAdd_spec hp hq hm hn

/-- `__list_del` of the neighbours takes the element out and writes nothing outside of the rest. -/
theorem rawDel_spec {m : Mem} {h x : Nat} {as bs : List Nat} (hm : Holds m h (as ++ x :: bs)) :
    Holds (rawDel m (m.prev x) (m.next x)) h (as ++ bs) ∧
    ∀ y, y ∉ h :: (as ++ bs) → (rawDel m (m.prev x) (m.next x)).next y = m.next y ∧ (rawDel m (m.prev x) (m.next x)).prev y = m.prev y := by
  obtain ⟨L1, p, q, L2, hp, hq⟩ := gap h as bs
  have e := ring_eq (ms := [x]) hp hq
  rw [List.singleton_append, List.singleton_append] at e
  have hl := hm.1
  rw [e, linked_append] at hl
  obtain ⟨h1, h2, ⟨h3, h4⟩, h5⟩ := hl
  obtain ⟨hn, hx⟩ := nodup_mid.1 hm.2
  obtain ⟨hpm, hqm⟩ := gap_mem hp hq
  rw [h2.2, h3]
  have dn : ∀ y, (rawDel m p q).next y = if y = p then q else m.next y := fun _ => rfl
  have dp : ∀ y, (rawDel m p q).prev y = if y = q then p else m.prev y := fun _ => rfl
  constructor
  · obtain ⟨g1, g2⟩ := parts (m' := rawDel m p q) hp hq hn h1 h5 (fun y _ he => by rw [dn, if_neg he]) (fun y _ he => by rw [dp, if_neg he])
    refine ⟨?_, hn⟩
    have e := ring_eq (ms := []) hp hq
    rw [List.nil_append, List.nil_append] at e
    rw [e, linked_append]
    exact ⟨g1, ⟨by rw [dn, if_pos rfl], by rw [dp, if_pos rfl]⟩, g2⟩
  · intro y hy
    exact ⟨by rw [dn, if_neg (mem_ne hpm hy).symm], by rw [dp, if_neg (mem_ne hqm hy).symm]⟩

/-- `list_del` takes out the element and clears its pointers. -/
theorem del_spec {m : Mem} {h x : Nat} {as bs : List Nat} (hm : Holds m h (as ++ x :: bs)) :
    Holds (del m x) h (as ++ bs) ∧ (del m x).next x = 0 ∧ (del m x).prev x = 0 := by
  have hx := (nodup_mid.1 hm.2).2
  refine ⟨holds_frame (rawDel_spec hm).1 fun y hy => ?_, if_pos rfl, if_pos rfl⟩
  have hne : y ≠ x := fun e => hx (e ▸ hy)
  exact ⟨if_neg hne, if_neg hne⟩

/-- `list_del_init` takes out the element and makes it an empty list. -/
theorem delInit_spec {m : Mem} {h x : Nat} {as bs : List Nat} (hm : Holds m h (as ++ x :: bs)) :
    Holds (delInit m x) h (as ++ bs) ∧ Holds (delInit m x) x [] := by
  have hx := (nodup_mid.1 hm.2).2
  refine ⟨holds_frame (rawDel_spec hm).1 fun y hy => ?_, init_spec _ _⟩
  have hne : y ≠ x := fun e => hx (e ▸ hy)
  exact ⟨if_neg hne, if_neg hne⟩

/-- `list_move` within a list -/
theorem move_same {m : Mem} {h x : Nat} {as bs : List Nat} (hm : Holds m h (as ++ x :: bs)) :
    Holds (move m x h) h (x :: (as ++ bs)) ∧ Holds (moveTail m x h) h (as ++ bs ++ [x]) := by
  have hx := (nodup_mid.1 hm.2).2
  have hd := (rawDel_spec hm).1
  constructor
  · exact add_spec (L1 := []) (as := []) rfl hd hx
  · exact addTail_spec (L2 := []) (as := as ++ bs) (bs := []) rfl (by rw [List.append_nil]; exact hd) (by rw [List.append_nil]; exact hx)

/-- adding writes the new node and the list only -/
theorem rawAdd_other {m : Mem} {n p q y : Nat} (hn : y ≠ n) (hp : y ≠ p) (hq : y ≠ q) : (rawAdd m n p q).next y = m.next y ∧ (rawAdd m n p q).prev y = m.prev y := by
  rw [rawAdd_next, rawAdd_prev, if_neg hp, if_neg hn, if_neg hn, if_neg hq]
  exact ⟨rfl, rfl⟩

theorem head_next {m : Mem} {h : Nat} {xs : List Nat} (hm : Holds m h xs) : m.next h ∈ h :: xs ∧ m.prev h ∈ h :: xs := by
  obtain ⟨L1, p, q, L2, hp, hq⟩ := gap h [] xs
  have e1 := (holds_gap (as := []) (L1 := []) rfl hq hm).2.1.1
  obtain ⟨L1', p', q', L2', hp', hq'⟩ := gap h xs []
  have e2 := (holds_gap (bs := []) (L2 := []) hp' rfl (by rw [List.append_nil]; exact hm)).2.1.2
  have h1 := (gap_mem (as := []) hp hq).2
  have h2 := (gap_mem (bs := []) hp' hq').1
  rw [List.nil_append] at h1
  rw [List.append_nil] at h2
  rw [e1, e2]
  exact ⟨h1, h2⟩

/-- `list_move` from one list to another one -/
theorem move_other {m : Mem} {g h x : Nat} {as bs ys : List Nat} (hm : Holds m g (as ++ x :: bs)) (hy : Holds m h ys)
    (hd : ∀ z ∈ h :: ys, z ∉ g :: (as ++ x :: bs)) :
    (Holds (move m x h) g (as ++ bs) ∧ Holds (move m x h) h (x :: ys)) ∧ Holds (moveTail m x h) g (as ++ bs) ∧ Holds (moveTail m x h) h (ys ++ [x]) := by
  have hx := (nodup_mid.1 hm.2).2
  obtain ⟨hdel, hout⟩ := rawDel_spec hm
  have hsub : ∀ z, z ∈ g :: (as ++ bs) → z ∈ g :: (as ++ x :: bs) := by
    intro z hz
    simp only [List.mem_cons, List.mem_append] at *
    rcases hz with e | e | e
    · exact .inl e
    · exact .inr (.inl e)
    · exact .inr (.inr (.inr e))
  have hxg : x ∈ g :: (as ++ x :: bs) := by simp
  have hy' : Holds (rawDel m (m.prev x) (m.next x)) h ys := holds_frame hy fun z hz => hout z fun q => hd z hz (hsub z q)
  have hxy : x ∉ h :: ys := fun q => hd x q hxg
  have hne : ∀ z ∈ g :: (as ++ bs), z ≠ x ∧ z ∉ h :: ys := fun z hz => ⟨fun e => hx (e ▸ hz), fun q => hd z q (hsub z hz)⟩
  obtain ⟨hn1, hn2⟩ := head_next hy'
  refine ⟨⟨?_, add_spec (L1 := []) (as := []) rfl hy' hxy⟩, ?_, addTail_spec (L2 := []) (as := ys) (bs := []) rfl (by rw [List.append_nil]; exact hy') (by rw [List.append_nil]; exact hxy)⟩
  · exact holds_frame hdel fun z hz =>
      rawAdd_other (hne z hz).1 (fun e => (hne z hz).2 (e ▸ List.mem_cons_self ..)) fun e => (hne z hz).2 (e ▸ hn1)
  · exact holds_frame hdel fun z hz =>
      rawAdd_other (hne z hz).1 (fun e => (hne z hz).2 (e ▸ hn2)) fun e => (hne z hz).2 (e ▸ List.mem_cons_self ..)

/-- `list_empty` -/
theorem empty_iff {m : Mem} {h : Nat} {xs : List Nat} (hm : Holds m h xs) : empty m h = true ↔ xs = [] := by
  unfold empty
  rw [beq_iff_eq]
  rcases xs with _ | ⟨x, xs⟩
  · exact ⟨fun _ => rfl, fun _ => hm.1.1.1⟩
  · refine ⟨fun e => ?_, fun e => nomatch e⟩
    have : m.next h = x := hm.1.1.1
    rw [this] at e
    exact absurd (e ▸ List.mem_cons_self ..) (List.nodup_cons.1 hm.2).1

theorem rawSplice_spec {m : Mem} {l h first last q : Nat} {ys xs L1 L2 T : List Nat} (hl : Holds m l ys) (hm : Holds m h xs)
    (hd : ∀ z ∈ h :: xs, z ∉ l :: ys) (hf : ys = first :: T) (hlast : ys = L1 ++ [last]) (hq : xs ++ [h] = q :: L2) :
    Holds (rawSplice m first last q h) h (ys ++ xs) := by
  have sn : ∀ y, (rawSplice m first last q h).next y = if y = last then q else if y = h then first else m.next y := fun _ => rfl
  have sp : ∀ y, (rawSplice m first last q h).prev y = if y = q then last else if y = first then h else m.prev y := fun _ => rfl
  have hfm : first ∈ ys := by rw [hf]; exact List.mem_cons_self ..
  have hlm : last ∈ ys := by rw [hlast]; simp
  have hqm : q ∈ h :: xs := by
    have : q ∈ xs ++ [h] := by rw [hq]; simp
    rcases List.mem_append.1 this with e | e
    · exact List.mem_cons_of_mem _ e
    · rw [List.mem_singleton.1 e]; exact List.mem_cons_self ..
  have hdis : ∀ z ∈ ys, z ∉ h :: xs := fun z hz q => hd z q (List.mem_cons_of_mem _ hz)
  have hny : ys.Nodup := (List.nodup_cons.1 hl.2).2
  have hhx := (List.nodup_cons.1 hm.2).1
  have hnx : xs.Nodup := (List.nodup_cons.1 hm.2).2
  -- inside of the moved elements
  have ly : Linked m ys := by
    have := (holds_gap (bs := []) (L2 := []) (as := ys) (L1 := l :: L1) (p := last) (by rw [hlast]; rfl) rfl (by rw [List.append_nil]; exact hl)).1
    rw [List.cons_append, ← hlast] at this
    rw [hf] at this ⊢
    exact this.2
  have ly' : Linked (rawSplice m first last q h) ys := by
    refine linked_frame ly (fun z hz => ?_) fun z hz => ?_
    · have hzy : z ∈ ys := List.dropLast_subset _ hz
      rw [hlast, List.dropLast_concat] at hz
      rw [hlast] at hny
      rw [sn, if_neg (fun e => (List.nodup_append.1 hny).2.2 z hz last (List.mem_singleton.2 rfl) e),
        if_neg (mem_ne (List.mem_cons_self ..) (hdis z hzy)).symm]
    · rw [hf, List.tail_cons] at hz
      have hzy : z ∈ ys := by rw [hf]; exact List.mem_cons_of_mem _ hz
      rw [hf] at hny
      rw [sp, if_neg (mem_ne hqm (hdis z hzy)).symm, if_neg (mem_ne hz (List.nodup_cons.1 hny).1)]
  have lx : Linked m (q :: L2) := (holds_gap (as := []) (L1 := []) rfl hq hm).2.2
  have lx' : Linked (rawSplice m first last q h) (q :: L2) := by
    refine linked_frame lx (fun z hz => ?_) fun z hz => ?_
    · rw [← hq, List.dropLast_concat] at hz
      rw [sn, if_neg (mem_ne (List.mem_cons_of_mem _ hz) (hdis last hlm)), if_neg (mem_ne hz hhx)]
    · rw [List.tail_cons] at hz
      have hn2 : (q :: L2).Nodup := by
        rw [← hq, List.nodup_append]
        refine ⟨hnx, List.nodup_cons.2 ⟨List.not_mem_nil, List.nodup_nil⟩, fun x hx y hy e => ?_⟩
        rw [List.mem_singleton.1 hy] at e
        exact hhx (e ▸ hx)
      have hzm : z ∈ h :: xs := by
        have : z ∈ xs ++ [h] := by rw [hq]; exact List.mem_cons_of_mem _ hz
        rcases List.mem_append.1 this with e | e
        · exact List.mem_cons_of_mem _ e
        · rw [List.mem_singleton.1 e]; exact List.mem_cons_self ..
      rw [sp, if_neg (mem_ne hz (List.nodup_cons.1 hn2).1), if_neg (mem_ne hzm (hdis first hfm))]
  constructor
  · have e : h :: (ys ++ xs) ++ [h] = (h :: L1) ++ last :: q :: L2 := by
      have : h :: (ys ++ xs) ++ [h] = h :: ys ++ (xs ++ [h]) := by simp
      rw [this, hq, hlast]; simp
    rw [e, linked_append]
    refine ⟨?_, ⟨by rw [sn, if_pos rfl], by rw [sp, if_pos rfl]⟩, lx'⟩
    rw [List.cons_append, ← hlast]
    rw [hf] at ly' ⊢
    refine ⟨⟨?_, ?_⟩, ly'⟩
    · rw [sn, if_neg (mem_ne (List.mem_cons_self ..) (hdis last hlm)), if_pos rfl]
    · rw [sp, if_neg (mem_ne hqm (hdis first hfm)).symm, if_pos rfl]
  · rw [List.nodup_cons, List.nodup_append]
    refine ⟨fun q => ?_, hny, hnx, fun a ha b hb e => hdis a ha (e ▸ List.mem_cons_of_mem _ hb)⟩
    rcases List.mem_append.1 q with e | e
    · exact hdis h e (List.mem_cons_self ..)
    · exact hhx e

/-- `list_splice` and `list_splice_init` put all elements of a list in front of those of another one; the latter leaves an empty list. -/
theorem splice_spec {m : Mem} {l h : Nat} {ys xs : List Nat} (hl : Holds m l ys) (hm : Holds m h xs) (hd : ∀ z ∈ h :: xs, z ∉ l :: ys) :
    Holds (splice m l h) h (ys ++ xs) ∧ Holds (spliceInit m l h) h (ys ++ xs) ∧ Holds (spliceInit m l h) l [] := by
  unfold splice spliceInit
  by_cases he : empty m l = true
  · rw [if_pos he, if_pos he]
    have := (empty_iff hl).1 he
    subst this
    exact ⟨hm, hm, hl⟩
  · rw [if_neg he, if_neg he]
    have hne : ys ≠ [] := fun e => he ((empty_iff hl).2 e)
    obtain ⟨first, T, hf⟩ := List.exists_cons_of_ne_nil hne
    have hlast := (List.dropLast_concat_getLast hne).symm
    obtain ⟨_, _, q, L2, _, hq⟩ := gap h [] xs
    have e1 : m.next l = first := by
      have := hl.1
      rw [hf] at this
      exact this.1.1
    have e2 : m.prev l = ys.getLast hne :=
      (holds_gap (bs := []) (L2 := []) (as := ys) (L1 := l :: ys.dropLast) (p := ys.getLast hne) (by rw [List.cons_append, ← hlast]) rfl
        (by rw [List.append_nil]; exact hl)).2.1.2
    have e3 := (holds_gap (as := []) (L1 := []) rfl hq hm).2.1.1
    rw [e1, e2, e3]
    have key := rawSplice_spec hl hm hd hf hlast hq
    refine ⟨key, holds_frame key fun z hz => ?_, init_spec _ _⟩
    have hzl : z ≠ l := by
      intro e
      subst e
      rcases List.mem_cons.1 hz with e | e
      · exact hd h (List.mem_cons_self ..) (e ▸ List.mem_cons_self ..)
      · rcases List.mem_append.1 e with e | e
        · exact (List.nodup_cons.1 hl.2).1 e
        · exact hd z (List.mem_cons_of_mem _ e) (List.mem_cons_self ..)
    exact ⟨if_neg hzl, if_neg hzl⟩

theorem walk_spec (f : Nat → Nat) (h : Nat) : ∀ (xs : List Nat) (p : Nat) (fuel : Nat), h ∉ xs → xs.length < fuel →
    (∀ m : Mem, m.next = f → Linked m (p :: xs ++ [h]) → walk f h fuel (f p) = some xs) := by
  intro xs
  induction xs with
  | nil =>
    intro p fuel _ hf m hm hl
    obtain ⟨fuel, rfl⟩ : ∃ k, fuel = k + 1 := ⟨fuel - 1, by simp at hf; omega⟩
    have : f p = h := hm ▸ hl.1.1
    rw [walk, if_pos this]
  | cons x xs ih =>
    intro p fuel hn hf m hm hl
    obtain ⟨fuel, rfl⟩ : ∃ k, fuel = k + 1 := ⟨fuel - 1, by simp at hf; omega⟩
    have e : f p = x := hm ▸ hl.1.1
    have hx : x ≠ h := fun q => hn (q ▸ List.mem_cons_self ..)
    rw [walk, e, if_neg hx, ih x fuel (fun q => hn (List.mem_cons_of_mem _ q)) (by simp at hf; omega) m hm hl.2]
    rfl

theorem linked_reverse (m : Mem) : ∀ l : List Nat, Linked m l → Linked ⟨m.prev, m.next⟩ l.reverse := by
  intro l
  induction l with
  | nil => intro _; trivial
  | cons x l ih =>
    cases l with
    | nil => intro _; trivial
    | cons y l =>
      intro h
      have := ih h.2
      rw [List.reverse_cons] at this
      rw [List.reverse_cons, List.reverse_cons, List.append_assoc]
      exact (linked_append _ y x [] l.reverse).2 ⟨this, ⟨h.1.2, h.1.1⟩, trivial⟩

/-- The loops visit the elements in order, or from the last to the first. -/
theorem forEach_spec {m : Mem} {h : Nat} {xs : List Nat} (hm : Holds m h xs) (fuel : Nat) (hf : xs.length < fuel) :
    forEach m fuel h = some xs ∧ forEachPrev m fuel h = some xs.reverse := by
  have hh := (List.nodup_cons.1 hm.2).1
  constructor
  · exact walk_spec m.next h xs h fuel hh hf m rfl hm.1
  · refine walk_spec m.prev h xs.reverse h fuel (by rw [List.mem_reverse]; exact hh) (by rw [List.length_reverse]; exact hf) ⟨m.prev, m.next⟩ rfl ?_
    have := linked_reverse m _ hm.1
    simpa using this

/-! Cases -/

def m0 : Mem := ⟨fun _ => 0, fun _ => 0⟩
/-- the list 1: 3, 5, 4 -/
def m1 : Mem := add (addTail (add (init m0 1) 3 1) 4 1) 5 3
/-- and the list 2: 6 -/
def m2 : Mem := add (init m1 2) 6 2

theorem m1_holds : Holds m1 1 [3, 5, 4] := by
  refine ⟨⟨⟨by decide, by decide⟩, ⟨by decide, by decide⟩, ⟨by decide, by decide⟩, ⟨by decide, by decide⟩, trivial⟩, by decide⟩

theorem m2_holds : Holds m2 1 [3, 5, 4] ∧ Holds m2 2 [6] := by
  refine ⟨⟨⟨⟨by decide, by decide⟩, ⟨by decide, by decide⟩, ⟨by decide, by decide⟩, ⟨by decide, by decide⟩, trivial⟩, by decide⟩,
    ⟨⟨⟨by decide, by decide⟩, ⟨by decide, by decide⟩, trivial⟩, by decide⟩⟩

example : Holds (spliceInit m2 1 2) 2 [3, 5, 4, 6] ∧ Holds (spliceInit m2 1 2) 1 [] := (splice_spec m2_holds.1 m2_holds.2 (by decide)).2
example : Holds (move m2 5 2) 1 [3, 4] ∧ Holds (move m2 5 2) 2 [5, 6] := (move_other (as := [3]) (bs := [4]) m2_holds.1 m2_holds.2 (by decide)).1
example : Holds (del m1 5) 1 [3, 4] := (del_spec (as := [3]) (bs := [4]) m1_holds).1
example : forEachPrev m1 5 1 = some [4, 5, 3] := by decide

end Verif.Props.ListHead
