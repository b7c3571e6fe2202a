import Verif.Fts.Spec
/-! # Full text search: single iterators, sums -/
namespace Verif.Fts

theorem dropWhile_head {α} {p : α → Bool} {l : List α} {x : α} (h : (l.dropWhile p).head? = some x) : p x = false := by
  have := List.head?_dropWhile_not p l
  rw [h] at this
  exact this

/-- Entries that remain after a jump. -/
theorem mem_dropWhile {α} {p : α → Bool} {l : List α} {x : α} (hx : x ∈ l) (hp : p x = false) : x ∈ l.dropWhile p := by
  induction l with
  | nil => cases hx
  | cons a l ih =>
    rw [List.dropWhile_cons]
    cases ha : p a with
    | false => simpa using hx
    | true =>
      simp only [if_true]
      rcases List.mem_cons.1 hx with rfl | h
      · rw [ha] at hp
        cases hp
      · exact ih h

theorem suffix_dropWhile {α} (p : α → Bool) (l : List α) : ∃ pre, l = pre ++ l.dropWhile p := by
  obtain ⟨t, ht⟩ := List.dropWhile_suffix (l := l) p
  exact ⟨t, ht.symm⟩

theorem length_dropWhile_le {α} (p : α → Bool) (l : List α) : (l.dropWhile p).length ≤ l.length := by
  obtain ⟨t, ht⟩ := suffix_dropWhile p l
  have := congrArg List.length ht
  simp only [List.length_append] at this
  omega

/-- The iterator is at a place of its list. -/
def It.ok (it : It) : Prop := ∃ pre, it.p.list = pre ++ it.rest

theorem It.ok_new (mask : Nat → Bool) (p : Posting) : (It.new mask p).ok := suffix_dropWhile _ _

theorem It.ok_next {mask : Nat → Bool} {least : Nat} {it : It} (h : it.ok) : (it.next mask least).ok := by
  obtain ⟨pre, h⟩ := h
  obtain ⟨a, ha⟩ := suffix_dropWhile (fun e : Entry => decide (e.row < least)) it.rest
  obtain ⟨b, hb⟩ := suffix_dropWhile (fun e : Entry => !mask e.row) (it.rest.dropWhile (fun e : Entry => decide (e.row < least)))
  refine ⟨pre ++ a ++ b, ?_⟩
  show it.p.list = pre ++ a ++ b ++ _
  have e : it.rest = a ++ (b ++ (it.next mask least).rest) := by
    show it.rest = a ++ (b ++ (it.rest.dropWhile _).dropWhile _)
    rw [← hb, ← ha]
  rw [h, List.append_assoc, List.append_assoc, ← e]

theorem It.ok_sorted {it : It} (h : it.ok) (hs : (it.p.list.map Entry.row).Pairwise (· < ·)) :
    (it.rest.map Entry.row).Pairwise (· < ·) := by
  obtain ⟨pre, h⟩ := h
  rw [h, List.map_append, List.pairwise_append] at hs
  exact hs.2.1

theorem head_le {l : List Entry} {e x : Entry} (hs : (l.map Entry.row).Pairwise (· < ·)) (he : l.head? = some e) (hx : x ∈ l) :
    e.row ≤ x.row := by
  cases l with
  | nil => cases hx
  | cons a l =>
    simp only [List.head?_cons, Option.some.injEq] at he
    subst he
    rcases List.mem_cons.1 hx with rfl | h
    · exact Nat.le_refl _
    · rw [List.map_cons, List.pairwise_cons] at hs
      exact Nat.le_of_lt (hs.1 _ (List.mem_map.2 ⟨x, h, rfl⟩))

theorem It.next_mem {mask : Nat → Bool} {least : Nat} {it : It} {e : Entry} (h : e ∈ it.rest) (hl : least ≤ e.row) (hm : mask e.row = true) :
    e ∈ (it.next mask least).rest :=
  mem_dropWhile (mem_dropWhile h (by simp; omega)) (by simp [hm])

theorem It.next_sub {mask : Nat → Bool} {least : Nat} {it : It} {e : Entry} (h : e ∈ (it.next mask least).rest) : e ∈ it.rest :=
  (List.dropWhile_sublist _).mem ((List.dropWhile_sublist _).mem h)

theorem It.next_doc {mask : Nat → Bool} {least : Nat} {it : It} {e : Entry} (h : (it.next mask least).doc = some e) : mask e.row = true := by
  have := dropWhile_head (p := fun e : Entry => !mask e.row) h
  simpa using this

theorem It.new_doc {mask : Nat → Bool} {p : Posting} {e : Entry} (h : (It.new mask p).doc = some e) : mask e.row = true := by
  have := dropWhile_head (p := fun e : Entry => !mask e.row) h
  simpa using this

theorem It.next_length {mask : Nat → Bool} {least : Nat} {it : It} {e : Entry} (h : it.doc = some e) (hl : e.row < least) :
    (it.next mask least).rest.length < it.rest.length := by
  cases hr : it.rest with
  | nil => simp [It.doc, hr] at h
  | cons a l =>
    simp only [It.doc, hr, List.head?_cons, Option.some.injEq] at h
    subst h
    show (((it.rest).dropWhile _).dropWhile _).length < _
    rw [hr, List.dropWhile_cons, if_pos (by simpa using hl)]
    have h1 := length_dropWhile_le (fun e : Entry => !mask e.row) (l.dropWhile (fun e => decide (e.row < least)))
    have h2 := length_dropWhile_le (fun e : Entry => decide (e.row < least)) l
    simp only [List.length_cons]
    omega

/-! ## Sums over iterators -/

/-- The bound of an iterator counts for `d` if its document is not past `d`. -/
def hub (d : Nat) (it : It) : Nat :=
  match it.doc with
  | some e => if e.row ≤ d then it.p.ub else 0
  | none => 0

def headSum (d : Nat) (its : List It) : Nat := (its.map (hub d)).sum

theorem headSum_perm {d : Nat} {a b : List It} (h : a.Perm b) : headSum d a = headSum d b := (h.map _).sum_nat

theorem headSum_append (d : Nat) (a b : List It) : headSum d (a ++ b) = headSum d a + headSum d b := by
  simp [headSum, List.sum_append_nat]

theorem headSum_cons (d : Nat) (a : It) (b : List It) : headSum d (a :: b) = hub d a + headSum d b := by simp [headSum]

theorem sum_le_sum {α} {f g : α → Nat} {l : List α} (h : ∀ x ∈ l, f x ≤ g x) : (l.map f).sum ≤ (l.map g).sum := by
  induction l with
  | nil => simp
  | cons a l ih =>
    simp only [List.map_cons, List.sum_cons]
    exact Nat.add_le_add (h a (by simp)) (ih fun x hx => h x (by simp [hx]))

theorem headSum_le_ub (d : Nat) (l : List It) : headSum d l ≤ (l.map (fun it => it.p.ub)).sum := by
  refine sum_le_sum fun it _ => ?_
  unfold hub
  split
  · split
    · exact Nat.le_refl _
    · exact Nat.zero_le _
  · exact Nat.zero_le _

theorem headSum_zero {d : Nat} {l : List It} (h : ∀ it ∈ l, ∀ e, it.doc = some e → d < e.row) : headSum d l = 0 := by
  induction l with
  | nil => rfl
  | cons a l ih =>
    rw [headSum_cons, ih fun it hit => h it (by simp [hit])]
    unfold hub
    cases hd : a.doc with
    | none => rfl
    | some e =>
      have := h a (by simp) e hd
      simp only
      rw [if_neg (by omega)]

/-- Moving an iterator lets it count for less. -/
theorem hub_next {mask : Nat → Bool} {least d : Nat} {it : It} (hok : it.ok) (hs : (it.p.list.map Entry.row).Pairwise (· < ·)) :
    hub d (it.next mask least) ≤ hub d it := by
  unfold hub
  cases hn : (it.next mask least).doc with
  | none => exact Nat.zero_le _
  | some e =>
    have hmem : e ∈ it.rest := It.next_sub (List.mem_of_mem_head? hn)
    cases hd : it.doc with
    | none =>
      simp only [It.doc, List.head?_eq_none_iff] at hd
      rw [hd] at hmem
      cases hmem
    | some e' =>
      have := head_le (It.ok_sorted hok hs) hd hmem
      simp only
      split
      · rw [if_pos (by omega)]
        exact Nat.le_refl _
      · exact Nat.zero_le _

/-- Nothing with document `d` has been passed. -/
def Unsk (d : Nat) (its : List It) : Prop := ∀ it ∈ its, ∀ e ∈ it.p.list, e.row = d → e ∈ it.rest

theorem find_row {l : List Entry} {d : Nat} {e : Entry} (h : l.find? (fun e => e.row == d) = some e) : e ∈ l ∧ e.row = d :=
  ⟨List.mem_of_find?_eq_some h, by simpa using List.find?_some h⟩

theorem part_le_hub {contrib : Nat → Nat → Nat → Nat} {d : Nat} {it : It} (hok : it.ok)
    (hs : (it.p.list.map Entry.row).Pairwise (· < ·)) (hb : ∀ e ∈ it.p.list, contrib it.p.list.length e.row e.freq ≤ it.p.ub)
    (hu : ∀ e ∈ it.p.list, e.row = d → e ∈ it.rest) : part contrib d it.p ≤ hub d it := by
  unfold part
  cases hf : it.p.list.find? (fun e => e.row == d) with
  | none => exact Nat.zero_le _
  | some e =>
    obtain ⟨h1, h2⟩ := find_row hf
    have h3 := hu e h1 h2
    unfold hub
    cases hd : it.doc with
    | none =>
      simp only [It.doc, List.head?_eq_none_iff] at hd
      rw [hd] at h3
      cases h3
    | some e' =>
      have := head_le (It.ok_sorted hok hs) hd h3
      simp only
      rw [if_pos (by omega), ← h2]
      exact hb e h1

theorem docScore_perm {contrib : Nat → Nat → Nat → Nat} {d : Nat} {a b : List Posting} (h : a.Perm b) :
    docScore contrib a d = docScore contrib b d := (h.map _).sum_nat

theorem docScore_le_headSum {contrib : Nat → Nat → Nat → Nat} {d : Nat} {its : List It} (hok : ∀ it ∈ its, it.ok)
    (hg : Good contrib (its.map It.p)) (hu : Unsk d its) : docScore contrib (its.map It.p) d ≤ headSum d its := by
  unfold docScore headSum
  rw [List.map_map]
  refine sum_le_sum fun it hit => ?_
  exact part_le_hub (hok it hit) (hg.sorted _ (List.mem_map.2 ⟨it, hit, rfl⟩)) (hg.bound _ (List.mem_map.2 ⟨it, hit, rfl⟩))
    (hu it hit)

theorem Good.perm {contrib : Nat → Nat → Nat → Nat} {a b : List Posting} (h : a.Perm b) (hg : Good contrib b) : Good contrib a :=
  ⟨fun p hp => hg.sorted p (h.mem_iff.1 hp), fun p hp => hg.bound p (h.mem_iff.1 hp)⟩

/-! ## The pivot -/

theorem findPivot_some {thr : Nat} {its : List It} : ∀ {acc : Nat} {it : It}, findPivot thr acc its = some it →
    ∃ pre post, its = pre ++ it :: post ∧ (pre = [] ∨ acc + (pre.map (fun it => it.p.ub)).sum < thr) ∧
      thr ≤ acc + (pre.map (fun it => it.p.ub)).sum + it.p.ub := by
  induction its with
  | nil => intro acc it h; cases h
  | cons a its ih =>
    intro acc it h
    rw [findPivot] at h
    by_cases hc : thr ≤ acc + a.p.ub
    · rw [if_pos hc] at h
      simp only [Option.some.injEq] at h
      subst h
      exact ⟨[], its, rfl, Or.inl rfl, by simpa using hc⟩
    · rw [if_neg hc] at h
      obtain ⟨pre, post, h1, h2, h3⟩ := ih h
      refine ⟨a :: pre, post, by rw [h1]; rfl, Or.inr ?_, ?_⟩
      · rcases h2 with h2 | h2
        · subst h2
          simp
          omega
        · simp only [List.map_cons, List.sum_cons]
          omega
      · simp only [List.map_cons, List.sum_cons]
        omega

theorem findPivot_none {thr : Nat} {its : List It} : ∀ {acc : Nat}, findPivot thr acc its = none →
    its = [] ∨ acc + (its.map (fun it => it.p.ub)).sum < thr := by
  induction its with
  | nil => intro _ _; exact Or.inl rfl
  | cons a its ih =>
    intro acc h
    rw [findPivot] at h
    by_cases hc : thr ≤ acc + a.p.ub
    · rw [if_pos hc] at h
      cases h
    · rw [if_neg hc] at h
      refine Or.inr ?_
      rcases ih h with h' | h'
      · subst h'
        simp
        omega
      · simp only [List.map_cons, List.sum_cons]
        omega

/-! ## Moving a term -/

theorem pickLoop_spec (least : Nat) (its : List It) : ∀ (pre : List It) (best : Nat) (bl : Option Nat),
    (∃ it e, (pre ++ its)[best]? = some it ∧ it.doc = some e ∧ e.row < least) →
    ∃ it e, (pre ++ its)[pickLoop least pre.length best bl its]? = some it ∧ it.doc = some e ∧ e.row < least := by
  induction its with
  | nil => intro pre best bl h; exact h
  | cons a its ih =>
    intro pre best bl h
    rw [pickLoop]
    cases hd : a.doc with
    | none => exact h
    | some e =>
      simp only
      by_cases hl : least ≤ e.row
      · rw [if_pos hl]
        exact h
      · rw [if_neg hl]
        have e1 : pre ++ a :: its = (pre ++ [a]) ++ its := by simp
        have e2 : pre.length + 1 = (pre ++ [a]).length := by simp
        split
        · rw [e1, e2]
          refine ih (pre ++ [a]) _ _ ⟨a, e, ?_, hd, by omega⟩
          simp
        · rw [e1, e2]
          rw [e1] at h
          exact ih (pre ++ [a]) _ _ h

theorem pick_spec {least : Nat} {its : List It} {it : It} {e : Entry} (h : its.head? = some it) (hd : it.doc = some e) (hl : e.row < least) :
    ∃ a x b e, its = a ++ x :: b ∧ x.doc = some e ∧ e.row < least ∧ pickLoop least 0 0 none its = a.length := by
  cases its with
  | nil => cases h
  | cons y its =>
    simp only [List.head?_cons, Option.some.injEq] at h
    subst h
    obtain ⟨x, e', h1, h2, h3⟩ := pickLoop_spec least (y :: its) [] 0 none ⟨y, e, rfl, hd, hl⟩
    simp only [List.nil_append, List.length_nil] at h1
    generalize pickLoop least 0 0 none (y :: its) = k at h1
    obtain ⟨hk, hx⟩ := List.getElem?_eq_some_iff.1 h1
    refine ⟨(y :: its).take k, x, (y :: its).drop (k + 1), e', ?_, h2, h3, ?_⟩
    · rw [← hx, List.getElem_cons_drop, List.take_append_drop]
    · rw [List.length_take]
      omega

theorem It.doc_isNone {it : It} : it.doc.isNone = true ↔ it.rest = [] := by
  simp [It.doc]

theorem popDone_spec {its : List It} (hs : its.Pairwise It.le) :
    ∃ dead, its = popDone its ++ dead ∧ (∀ it ∈ dead, it.rest = []) ∧ (∀ it ∈ popDone its, it.doc ≠ none) := by
  obtain ⟨t, ht⟩ := suffix_dropWhile (fun it : It => it.doc.isNone) its.reverse
  have hrev : its = popDone its ++ t.reverse := by
    have := congrArg List.reverse ht
    rwa [List.reverse_reverse, List.reverse_append] at this
  refine ⟨t.reverse, hrev, ?_, ?_⟩
  · intro it hit
    rw [List.mem_reverse] at hit
    have ht' : t = its.reverse.takeWhile (fun it : It => it.doc.isNone) := by
      have := List.takeWhile_append_dropWhile (p := fun it : It => it.doc.isNone) (l := its.reverse)
      exact List.append_cancel_right (ht.symm.trans this.symm)
    rw [ht'] at hit
    exact It.doc_isNone.1 (List.all_eq_true.1 (List.all_takeWhile (p := fun it : It => it.doc.isNone) (l := its.reverse)) it hit)
  · intro it hit hn
    have hp : (popDone its).Pairwise It.le := by
      rw [hrev, List.pairwise_append] at hs
      exact hs.1
    cases hd : its.reverse.dropWhile (fun it : It => it.doc.isNone) with
    | nil => simp [popDone, hd] at hit
    | cons x xs =>
      have hx : x.doc.isNone = false := dropWhile_head (p := fun it : It => it.doc.isNone) (by rw [hd]; rfl)
      have e : popDone its = xs.reverse ++ [x] := by simp [popDone, hd]
      rw [e] at hit hp
      rcases List.mem_append.1 hit with h | h
      · rw [List.pairwise_append] at hp
        have := hp.2.2 it h x (by simp)
        cases hxd : x.doc with
        | none => rw [hxd] at hx; cases hx
        | some ex =>
          obtain ⟨e', he', _⟩ := this ex hxd
          rw [hn] at he'
          cases he'
      · simp only [List.mem_singleton] at h
        subst h
        rw [hn] at hx
        cases hx

theorem popDone_sorted {its : List It} (hs : its.Pairwise It.le) : (popDone its).Pairwise It.le := by
  obtain ⟨dead, h, _⟩ := popDone_spec hs
  rw [h, List.pairwise_append] at hs
  exact hs.1

/-- One iterator behind `least` moves on, and those at their end leave. -/
theorem moveTerm_spec (lib : Lib) (mask : Nat → Bool) {least : Nat} {its : List It} {it : It} {e : Entry}
    (h : its.head? = some it) (hd : it.doc = some e) (hl : e.row < least) :
    ∃ a x b dead e, its = a ++ x :: b ∧ x.doc = some e ∧ e.row < least ∧
      (moveTerm lib mask least its ++ dead).Perm (a ++ x.next mask least :: b) ∧
      (∀ it ∈ dead, it.rest = []) ∧ (∀ it ∈ moveTerm lib mask least its, it.doc ≠ none) ∧
      (moveTerm lib mask least its).Pairwise It.le := by
  obtain ⟨a, x, b, e', h1, h2, h3, h4⟩ := pick_spec h hd hl
  have hm : its.modify (pickLoop least 0 0 none its) (It.next mask least) = a ++ x.next mask least :: b := by
    rw [h4, h1, List.modify_eq_take_cons_drop (by simp)]
    simp
  have hsorted := lib.sort_sorted (its.modify (pickLoop least 0 0 none its) (It.next mask least))
  obtain ⟨dead, d1, d2, d3⟩ := popDone_spec hsorted
  refine ⟨a, x, b, dead, e', h1, h2, h3, ?_, d2, d3, popDone_sorted hsorted⟩
  show (popDone (lib.sort _) ++ dead).Perm _
  rw [← d1, ← hm]
  exact lib.sort_perm _

end Verif.Fts
