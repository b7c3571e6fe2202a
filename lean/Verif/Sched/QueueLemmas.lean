import Verif.Sched.Queue

/-!
# The I/O queue: invariants
-/
namespace Verif.Sched

/-! ## Lists -/

def cnt (b : Nat) (l : List Task) : Nat := l.countP (fun t => decide (t.batch = b))
def sumB (b : Nat) (l : List Task) : Nat := sumBytes (l.filter (fun t => decide (t.batch = b)))

@[simp] theorem sumBytes_nil : sumBytes [] = 0 := rfl
@[simp] theorem sumBytes_cons (t : Task) (l : List Task) : sumBytes (t :: l) = t.bytes + sumBytes l := by
  simp [sumBytes]
@[simp] theorem sumBytes_append (a b : List Task) : sumBytes (a ++ b) = sumBytes a + sumBytes b := by
  simp [sumBytes]

theorem sumBytes_perm {a b : List Task} (h : a.Perm b) : sumBytes a = sumBytes b := by
  unfold sumBytes
  exact (h.map _).sum_nat

theorem cnt_perm {a b : List Task} (x : Nat) (h : a.Perm b) : cnt x a = cnt x b := h.countP_eq _

theorem sumB_perm {a b : List Task} (x : Nat) (h : a.Perm b) : sumB x a = sumB x b := sumBytes_perm (h.filter _)

theorem cnt_cons (b : Nat) (t : Task) (l : List Task) : cnt b (t :: l) = cnt b l + if t.batch = b then 1 else 0 := by
  simp [cnt, List.countP_cons]

theorem sumB_cons (b : Nat) (t : Task) (l : List Task) :
    sumB b (t :: l) = sumB b l + if t.batch = b then t.bytes else 0 := by
  unfold sumB
  by_cases h : t.batch = b
  · simp [h]; omega
  · simp [h]

theorem cnt_erase (b : Nat) (t : Task) (l : List Task) (h : t ∈ l) :
    cnt b l = cnt b (l.erase t) + if t.batch = b then 1 else 0 := by
  rw [cnt_perm b (List.perm_cons_erase h), cnt_cons]

theorem sumBytes_erase (t : Task) (l : List Task) (h : t ∈ l) : sumBytes l = t.bytes + sumBytes (l.erase t) := by
  rw [sumBytes_perm (List.perm_cons_erase h), sumBytes_cons]

theorem cnt_zero {b : Nat} {l : List Task} : cnt b l = 0 ↔ ∀ t ∈ l, t.batch ≠ b := by
  simp [cnt, List.countP_eq_zero]

theorem cnt_pos {b : Nat} {l : List Task} (h : 0 < cnt b l) : ∃ t ∈ l, t.batch = b := by
  have := List.countP_pos_iff.mp h
  simpa using this

theorem filter_split (b : Nat) (l : List Task) :
    l.Perm (l.filter (fun t => decide (t.batch = b)) ++ l.filter (fun t => decide (t.batch ≠ b))) := by
  have h := (List.filter_append_perm (fun t : Task => decide (t.batch = b)) l).symm
  have e : l.filter (fun t => !decide (t.batch = b)) = l.filter (fun t => decide (t.batch ≠ b)) := by
    congr 1
    funext t
    simp
  rw [e] at h
  exact h

theorem cnt_filter_ne (x b : Nat) (l : List Task) :
    cnt x (l.filter (fun t => decide (t.batch ≠ b))) = if x = b then 0 else cnt x l := by
  split
  · rename_i h
    subst h
    rw [cnt_zero]
    intro t ht
    simpa using (List.mem_filter.mp ht).2
  · rename_i h
    unfold cnt
    rw [List.countP_filter]
    apply List.countP_congr
    intro t _
    simp only [Bool.and_eq_true, decide_eq_true_eq]
    constructor
    · exact fun h => h.1
    · intro e; exact ⟨e, by omega⟩

theorem sumB_filter_ne (x b : Nat) (l : List Task) (h : x ≠ b) :
    sumB x (l.filter (fun t => decide (t.batch ≠ b))) = sumB x l := by
  unfold sumB
  rw [List.filter_filter]
  congr 1
  apply List.filter_congr
  intro t _
  by_cases e : t.batch = x
  · have : t.batch ≠ b := by omega
    simp [e, h]
  · simp [e]

/-! ## The list of priorities -/

theorem pushPrio_perm (p : Nat) (l : List Nat) : (pushPrio p l).Perm (p :: l) := by
  induction l with
  | nil => exact List.Perm.refl _
  | cons x l ih =>
    unfold pushPrio
    split
    · exact List.Perm.refl _
    · exact (ih.cons x).trans (List.Perm.swap p x l)

theorem pushPrio_sorted (p : Nat) (l : List Nat) (h : l.Pairwise (· ≤ ·)) : (pushPrio p l).Pairwise (· ≤ ·) := by
  induction l with
  | nil => simp [pushPrio]
  | cons x l ih =>
    rw [List.pairwise_cons] at h
    unfold pushPrio
    split
    · rename_i hp
      rw [List.pairwise_cons]
      refine ⟨?_, List.pairwise_cons.mpr h⟩
      intro y hy
      cases hy with
      | head => exact hp
      | tail _ hy => have := h.1 y hy; omega
    · rename_i hp
      rw [List.pairwise_cons]
      refine ⟨?_, ih h.2⟩
      intro y hy
      have := (pushPrio_perm p l).mem_iff.mp hy
      cases this with
      | head => omega
      | tail _ hy => exact h.1 y hy

theorem removePrios_spec (p n : Nat) (l rest : List Nat) (h : l.Perm (List.replicate n p ++ rest))
    (hs : l.Pairwise (· ≤ ·)) :
    ∃ l', removePrios p n l = some l' ∧ l'.Perm rest ∧ l'.Pairwise (· ≤ ·) := by
  induction n generalizing l with
  | zero => exact ⟨l, rfl, by simpa using h, hs⟩
  | succ n ih =>
    have hm : p ∈ l := h.mem_iff.mpr (by simp [List.replicate_succ])
    obtain ⟨l', h1, h2, h3⟩ := ih (l.erase p) (by
      have := h.erase p
      simpa [List.replicate_succ] using this) (hs.sublist List.erase_sublist)
    refine ⟨l', ?_, h2, h3⟩
    simp only [removePrios, removePrio, if_pos hm, Option.bind_some]
    exact h1

theorem minInFlight_le (l : List Nat) (hs : l.Pairwise (· ≤ ·)) (p : Nat) (h : p ∈ l) : minInFlight l ≤ p := by
  cases l with
  | nil => cases h
  | cons x l =>
    rw [List.pairwise_cons] at hs
    show x ≤ p
    cases h with
    | head => exact Nat.le_refl _
    | tail _ h => exact hs.1 p h

theorem minInFlight_mem (l : List Nat) (h : l ≠ []) : minInFlight l ∈ l := by
  cases l with
  | nil => exact absurd rfl h
  | cons x l => exact List.mem_cons_self

/-! ## Tops of the heap -/

theorem isTop_iff (s : QState) (t : Task) :
    isTop s t = true ↔ t ∈ s.pending ∧ ∀ x ∈ s.pending, t.prio ≤ x.prio := by
  simp [isTop]

theorem exists_min (l : List Task) (h : l ≠ []) : ∃ t ∈ l, ∀ x ∈ l, t.prio ≤ x.prio := by
  induction l with
  | nil => exact absurd rfl h
  | cons a l ih =>
    by_cases hl : l = []
    · subst hl
      exact ⟨a, List.mem_cons_self, by intro x hx; simp at hx; subst hx; exact Nat.le_refl _⟩
    · obtain ⟨t, ht, hm⟩ := ih hl
      by_cases hat : a.prio ≤ t.prio
      · refine ⟨a, List.mem_cons_self, ?_⟩
        intro x hx
        cases hx with
        | head => exact Nat.le_refl _
        | tail _ hx => have := hm x hx; omega
      · refine ⟨t, List.mem_cons_of_mem _ ht, ?_⟩
        intro x hx
        cases hx with
        | head => omega
        | tail _ hx => exact hm x hx

/-! ## The invariant -/

structure BInv (s : QState) (b : Nat) (B : Batch) : Prop where
  le : B.pushed ≤ B.total
  prioLe : B.prio ≤ PMAX
  opened : B.phase ≠ .gone →
    B.pushed = cnt b s.pending + cnt b s.running + cnt b s.finishing + B.delivered ∧
    cnt b s.held = B.delivered ∧ sumB b s.held = B.numBytes
  ready : B.phase = .ready → B.delivered = B.total
  gone : B.phase = .gone → B.pushed = B.total ∧ cnt b s.pending = 0 ∧ cnt b s.running = 0 ∧ cnt b s.finishing = 0 ∧
    cnt b s.held = 0

structure Inv (capacity buffer : Nat) (s : QState) : Prop where
  iops : s.iopsAvail + s.running.length = capacity
  sorted : s.inFlight.Pairwise (· ≤ ·)
  flight : s.inFlight.Perm ((unconsumed s).map Task.prio)
  bytes : s.bytesAvail + (sumBytes (unconsumed s) : Int) = (buffer : Int)
  batch : ∀ b B, s.batches[b]? = some B → BInv s b B
  known : ∀ t ∈ s.pending ++ unconsumed s, ∃ B, s.batches[t.batch]? = some B ∧ t.prio = B.prio
  parked : s.loop = .parked → s.permit = false →
    (s.pending = [] ∧ s.doneSched = false) ∨ ∃ t, isTop s t = true ∧ canDeliver s t = false
  stopped : s.loop = .stopped → s.pending = [] ∧ s.doneSched = true
  ids : ((s.pending ++ unconsumed s).map Task.id).Nodup
  idLt : ∀ t ∈ s.pending ++ unconsumed s, t.id < s.nextId
  fine : s.panicked = false

theorem inv_init (capacity buffer : Nat) : Inv capacity buffer (qinit capacity buffer) where
  iops := by simp [qinit]
  sorted := by simp [qinit]
  flight := by simp [qinit, unconsumed]
  bytes := by simp [qinit, unconsumed]
  batch := by simp [qinit]
  known := by simp [qinit, unconsumed]
  parked := by simp [qinit]
  stopped := by simp [qinit]
  ids := by simp [qinit, unconsumed]
  idLt := by simp [qinit, unconsumed]
  fine := rfl

theorem getElem?_set_cases {α : Type} (l : List α) (b : Nat) (x : α) (c : Nat) (y : α) (h : (l.set b x)[c]? = some y) :
    (c = b ∧ y = x ∧ b < l.length) ∨ (c ≠ b ∧ l[c]? = some y) := by
  by_cases e : c = b
  · subst e
    left
    have hl : c < l.length := by
      apply Classical.byContradiction
      intro hc
      rw [List.getElem?_eq_none (by simp; omega)] at h
      cases h
    rw [List.getElem?_set_self hl] at h
    exact ⟨rfl, (Option.some.inj h).symm, hl⟩
  · right
    rw [List.getElem?_set_ne (by omega)] at h
    exact ⟨e, h⟩

theorem getElem?_lt {α : Type} {l : List α} {b : Nat} {x : α} (h : l[b]? = some x) : b < l.length := by
  apply Classical.byContradiction
  intro hc
  rw [List.getElem?_eq_none (by omega)] at h
  cases h

/-- Tasks still find their batch, with the same priority, after a batch was updated. -/
theorem known_set {bs : List Batch} {b : Nat} {B B' : Batch} (hb : bs[b]? = some B) (hp : B'.prio = B.prio) {t : Task}
    (h : ∃ C, bs[t.batch]? = some C ∧ t.prio = C.prio) : ∃ C, (bs.set b B')[t.batch]? = some C ∧ t.prio = C.prio := by
  obtain ⟨C, h1, h2⟩ := h
  by_cases e : t.batch = b
  · subst e
    rw [hb] at h1
    cases h1
    exact ⟨B', List.getElem?_set_self (getElem?_lt hb), by rw [h2, hp]⟩
  · exact ⟨C, by rw [List.getElem?_set_ne (by omega)]; exact h1, h2⟩

section
variable {capacity buffer : Nat} {s s' : QState}

theorem inv_begin {p n : Nat} (h : Inv capacity buffer s) (hs : stepBegin s p n = some s') : Inv capacity buffer s' := by
  unfold stepBegin at hs
  split at hs
  · rename_i hc
    cases hs
    have hno : ∀ t ∈ s.pending ++ unconsumed s, t.batch ≠ s.batches.length := by
      intro t ht e
      obtain ⟨B, hB, _⟩ := h.known t ht
      have := getElem?_lt hB
      omega
    refine ⟨h.iops, h.sorted, h.flight, h.bytes, ?_, ?_, h.parked, h.stopped, h.ids, h.idLt, h.fine⟩
    · intro b B hB
      have hB : (s.batches ++ [⟨p, n, 0, 0, 0, false, .live⟩])[b]? = some B := hB
      by_cases hb : b < s.batches.length
      · rw [List.getElem?_append_left hb] at hB
        have := h.batch b B hB
        exact ⟨this.le, this.prioLe, this.opened, this.ready, this.gone⟩
      · rw [List.getElem?_append_right (by omega)] at hB
        have hb2 : b = s.batches.length := by
          have := getElem?_lt hB
          simp at this
          omega
        subst hb2
        simp at hB
        subst hB
        have z : ∀ l : List Task, (∀ t ∈ l, t ∈ s.pending ++ unconsumed s) → cnt s.batches.length l = 0 := by
          intro l hl
          rw [cnt_zero]
          exact fun t ht => hno t (hl t ht)
        have z1 := z s.pending (by intro t ht; simp [ht])
        have z2 := z s.running (by intro t ht; simp [unconsumed, ht])
        have z3 := z s.finishing (by intro t ht; simp [unconsumed, ht])
        have z4 := z s.held (by intro t ht; simp [unconsumed, ht])
        refine ⟨Nat.zero_le _, hc.2, ?_, ?_, ?_⟩
        · intro _
          refine ⟨?_, z4, ?_⟩
          · show 0 = cnt _ s.pending + cnt _ s.running + cnt _ s.finishing + 0
            omega
          · show sumB _ s.held = 0
            unfold sumB
            rw [List.filter_eq_nil_iff.mpr]
            · rfl
            · intro t ht
              have := cnt_zero.mp z4 t ht
              simpa using this
        · intro e; cases e
        · intro e; cases e
    · intro t ht
      obtain ⟨B, h1, h2⟩ := h.known t ht
      exact ⟨B, by
        show (s.batches ++ _)[t.batch]? = some B
        rw [List.getElem?_append_left (getElem?_lt h1)]; exact h1, h2⟩
  · cases hs

theorem inv_push {b n : Nat} (h : Inv capacity buffer s) (hs : stepPush s b n = some s') : Inv capacity buffer s' := by
  unfold stepPush at hs
  split at hs
  · cases hs
  · rename_i B hB
    split at hs
    · rename_i hc
      cases hs
      have hb := h.batch b B hB
      have hng : B.phase ≠ .gone := by
        intro e
        have := (hb.gone e).1
        omega
      refine ⟨h.iops, h.sorted, h.flight, h.bytes, ?_, ?_, ?_, ?_, ?_, ?_, h.fine⟩
      · intro c C hC
        rcases getElem?_set_cases _ _ _ _ _ hC with ⟨rfl, rfl, _⟩ | ⟨hne, hC⟩
        · have ho := hb.opened hng
          refine ⟨?_, hb.prioLe, ?_, ?_, ?_⟩
          · show B.pushed + 1 ≤ B.total; omega
          · intro _
            refine ⟨?_, ho.2⟩
            show B.pushed + 1 = cnt c (_ :: s.pending) + cnt c s.running + cnt c s.finishing + B.delivered
            rw [cnt_cons, if_pos rfl]
            omega
          · intro e
            have := hb.ready e
            show B.delivered = B.total
            exact this
          · intro e; exact absurd e hng
        · have hc2 := h.batch c C hC
          have hcn : cnt c (⟨s.nextId, b, B.prio, n⟩ :: s.pending) = cnt c s.pending := by
            rw [cnt_cons, if_neg (by show ¬ b = c; omega)]; rfl
          refine ⟨hc2.le, hc2.prioLe, ?_, hc2.ready, ?_⟩
          · intro e
            have := hc2.opened e
            refine ⟨?_, this.2⟩
            show C.pushed = cnt c (_ :: s.pending) + _ + _ + _
            rw [hcn]; exact this.1
          · intro e
            have := hc2.gone e
            refine ⟨this.1, ?_, this.2.2⟩
            show cnt c (_ :: s.pending) = 0
            rw [hcn]; exact this.2.1
      · intro t ht
        apply known_set hB (by rfl)
        have ht : t ∈ (⟨s.nextId, b, B.prio, n⟩ :: s.pending) ++ unconsumed s := ht
        rw [List.cons_append] at ht
        cases ht with
        | head => exact ⟨B, hB, rfl⟩
        | tail _ ht => exact h.known t ht
      · intro _ e; cases e
      · intro e
        have := (h.stopped e).2
        rw [hc.1] at this
        cases this
      · show (((⟨s.nextId, b, B.prio, n⟩ :: s.pending) ++ unconsumed s).map Task.id).Nodup
        rw [List.cons_append, List.map_cons, List.nodup_cons]
        refine ⟨?_, h.ids⟩
        intro hm
        obtain ⟨t, ht, he⟩ := List.mem_map.mp hm
        have := h.idLt t ht
        have he : t.id = s.nextId := he
        omega
      · intro t ht
        have ht : t ∈ (⟨s.nextId, b, B.prio, n⟩ :: s.pending) ++ unconsumed s := ht
        rw [List.cons_append] at ht
        show t.id < s.nextId + 1
        cases ht with
        | head => show s.nextId < s.nextId + 1; omega
        | tail _ ht => have := h.idLt t ht; omega
    · cases hs

theorem unconsumed_start (s : QState) (t : Task) : unconsumed (startTask s t) = t :: unconsumed s := rfl

theorem inv_start {t : Task} (h : Inv capacity buffer s) (hl : s.loop = .checking) (ht : t ∈ s.pending)
    (hc : canDeliver s t = true) : Inv capacity buffer (startTask s t) := by
  have hi : s.iopsAvail ≠ 0 := by
    intro e
    rw [canDeliver, if_pos e] at hc
    cases hc
  have hperm : (s.pending ++ unconsumed s).Perm (s.pending.erase t ++ t :: unconsumed s) :=
    ((List.perm_cons_erase ht).append_right _).trans (by
      rw [List.cons_append]; exact List.perm_middle.symm)
  refine ⟨?_, pushPrio_sorted _ _ h.sorted, ?_, ?_, ?_, ?_, ?_, ?_, ?_, ?_, h.fine⟩
  · show s.iopsAvail - 1 + (s.running.length + 1) = capacity
    have := h.iops
    omega
  · rw [unconsumed_start, List.map_cons]
    exact (pushPrio_perm _ _).trans (h.flight.cons _)
  · rw [unconsumed_start, sumBytes_cons]
    show s.bytesAvail - t.bytes + ((t.bytes + sumBytes (unconsumed s) : Nat) : Int) = buffer
    have := h.bytes
    omega
  · intro b B hB
    have hb := h.batch b B hB
    have he := cnt_erase b t s.pending ht
    have hcons := cnt_cons b t s.running
    refine ⟨hb.le, hb.prioLe, ?_, hb.ready, ?_⟩
    · intro e
      have := hb.opened e
      refine ⟨?_, this.2⟩
      show B.pushed = cnt b (s.pending.erase t) + cnt b (t :: s.running) + cnt b s.finishing + B.delivered
      omega
    · intro e
      have := hb.gone e
      have hne : ¬ t.batch = b := cnt_zero.mp this.2.1 t ht
      rw [if_neg hne] at he hcons
      refine ⟨this.1, ?_, ?_, this.2.2.2⟩
      · show cnt b (s.pending.erase t) = 0; omega
      · show cnt b (t :: s.running) = 0; omega
  · intro x hx
    exact h.known x (hperm.mem_iff.mpr hx)
  · intro e
    have e : s.loop = .parked := e
    rw [hl] at e; cases e
  · intro e
    have e : s.loop = .stopped := e
    rw [hl] at e; cases e
  · exact ((hperm.map Task.id).nodup_iff).mp h.ids
  · intro x hx
    exact h.idLt x (hperm.mem_iff.mpr hx)

theorem inv_check {top : Option Task} (h : Inv capacity buffer s) (hs : stepCheck s top = some s') :
    Inv capacity buffer s' := by
  unfold stepCheck at hs
  split at hs
  · rename_i hl
    have stop : finished s = true → Inv capacity buffer { s with loop := .stopped } := by
      intro hf
      simp only [finished, Bool.and_eq_true, List.isEmpty_iff] at hf
      exact ⟨h.iops, h.sorted, h.flight, h.bytes, fun b B hB => ⟨(h.batch b B hB).le, (h.batch b B hB).prioLe,
        (h.batch b B hB).opened, (h.batch b B hB).ready, (h.batch b B hB).gone⟩, h.known, (fun e => nomatch e),
        fun _ => ⟨hf.2, hf.1⟩, h.ids, h.idLt, h.fine⟩
    have park : ((s.pending = [] ∧ s.doneSched = false) ∨ ∃ t, isTop s t = true ∧ canDeliver s t = false) →
        Inv capacity buffer { s with loop := .parked } := by
      intro hp
      exact ⟨h.iops, h.sorted, h.flight, h.bytes, fun b B hB => ⟨(h.batch b B hB).le, (h.batch b B hB).prioLe,
        (h.batch b B hB).opened, (h.batch b B hB).ready, (h.batch b B hB).gone⟩, h.known, fun _ _ => hp,
        (fun e => nomatch e), h.ids, h.idLt, h.fine⟩
    split at hs
    · split at hs
      · rename_i hp
        split at hs
        · rename_i hf
          cases hs
          exact stop hf
        · rename_i hf
          cases hs
          refine park (Or.inl ⟨hp, ?_⟩)
          simp only [finished, hp, List.isEmpty_nil, Bool.and_true] at hf
          simpa using hf
      · cases hs
    · rename_i t
      split at hs
      · rename_i ht
        split at hs
        · rename_i hc
          cases hs
          exact inv_start h hl ((isTop_iff s t).mp ht).1 hc
        · rename_i hc
          split at hs
          · rename_i hf
            cases hs
            exact stop hf
          · cases hs
            exact park (Or.inr ⟨t, ht, by simpa using hc⟩)
      · cases hs
  · cases hs

theorem inv_wake (h : Inv capacity buffer s) (hs : stepWake s = some s') : Inv capacity buffer s' := by
  unfold stepWake at hs
  split at hs
  · cases hs
    exact ⟨h.iops, h.sorted, h.flight, h.bytes, fun b B hB => ⟨(h.batch b B hB).le, (h.batch b B hB).prioLe,
      (h.batch b B hB).opened, (h.batch b B hB).ready, (h.batch b B hB).gone⟩, h.known, (fun e => nomatch e),
      (fun e => nomatch e), h.ids, h.idLt, h.fine⟩
  · cases hs

theorem inv_iopDone {t : Task} (h : Inv capacity buffer s) (hs : stepIopDone s t = some s') :
    Inv capacity buffer s' := by
  unfold stepIopDone at hs
  split at hs
  · rename_i ht
    cases hs
    have hperm : (unconsumed s).Perm (s.running.erase t ++ (t :: s.finishing) ++ s.held ++ s.leaked) := by
      unfold unconsumed
      apply List.Perm.append_right
      apply List.Perm.append_right
      exact ((List.perm_cons_erase ht).append_right _).trans (by
        rw [List.cons_append]; exact List.perm_middle.symm)
    refine ⟨?_, h.sorted, h.flight.trans (hperm.map _), ?_, ?_, ?_, ?_, h.stopped, ?_, ?_, h.fine⟩
    · show s.iopsAvail + 1 + (s.running.erase t).length = capacity
      have := h.iops
      have h1 := List.length_erase_of_mem ht
      have h2 := List.length_pos_of_mem ht
      omega
    · have := h.bytes
      rw [sumBytes_perm hperm] at this
      exact this
    · intro b B hB
      have hb := h.batch b B hB
      have he := cnt_erase b t s.running ht
      have hcons := cnt_cons b t s.finishing
      refine ⟨hb.le, hb.prioLe, ?_, hb.ready, ?_⟩
      · intro e
        have := hb.opened e
        refine ⟨?_, this.2⟩
        show B.pushed = cnt b s.pending + cnt b (s.running.erase t) + cnt b (t :: s.finishing) + B.delivered
        omega
      · intro e
        have := hb.gone e
        have hne : ¬ t.batch = b := cnt_zero.mp this.2.2.1 t ht
        rw [if_neg hne] at he hcons
        refine ⟨this.1, this.2.1, ?_, ?_, this.2.2.2.2⟩
        · show cnt b (s.running.erase t) = 0; omega
        · show cnt b (t :: s.finishing) = 0; omega
    · intro x hx
      exact h.known x ((hperm.append_left _).mem_iff.mpr hx)
    · intro _ e; cases e
    · exact (((hperm.append_left _).map Task.id).nodup_iff).mp h.ids
    · intro x hx
      exact h.idLt x ((hperm.append_left _).mem_iff.mpr hx)
  · cases hs

theorem inv_deliver {t : Task} (h : Inv capacity buffer s) (hs : stepDeliver s t = some s') :
    Inv capacity buffer s' := by
  unfold stepDeliver at hs
  split at hs
  · rename_i ht
    split at hs
    · cases hs
    · rename_i B hB
      cases hs
      have hperm : (unconsumed s).Perm (s.running ++ s.finishing.erase t ++ (t :: s.held) ++ s.leaked) := by
        unfold unconsumed
        apply List.Perm.append_right
        rw [List.append_assoc, List.append_assoc]
        apply List.Perm.append_left
        exact ((List.perm_cons_erase ht).append_right _).trans (by
          rw [List.cons_append]; exact List.perm_middle.symm)
      have hb := h.batch t.batch B hB
      have hng : B.phase ≠ .gone := by
        intro e
        exact cnt_zero.mp (hb.gone e).2.2.2.1 t ht rfl
      have ho := hb.opened hng
      refine ⟨h.iops, h.sorted, h.flight.trans (hperm.map _), ?_, ?_, ?_, h.parked, h.stopped, ?_, ?_, h.fine⟩
      · have := h.bytes
        rw [sumBytes_perm hperm] at this
        exact this
      · intro c C hC
        have he := cnt_erase c t s.finishing ht
        have hcons := cnt_cons c t s.held
        have hsum := sumB_cons c t s.held
        rcases getElem?_set_cases _ _ _ _ _ hC with ⟨rfl, rfl, _⟩ | ⟨hne, hC⟩
        · rw [if_pos rfl] at he hcons hsum
          have hr : B.phase ≠ .ready := by
            intro e
            have := hb.ready e
            have := hb.le
            omega
          refine ⟨hb.le, hb.prioLe, ?_, ?_, ?_⟩
          · intro _
            refine ⟨?_, ?_, ?_⟩
            · show B.pushed = cnt _ s.pending + cnt _ s.running + cnt _ (s.finishing.erase t) + (B.delivered + 1)
              omega
            · show cnt _ (t :: s.held) = B.delivered + 1
              omega
            · show sumB _ (t :: s.held) = B.numBytes + t.bytes
              omega
          · intro e; exact absurd e hr
          · intro e; exact absurd e hng
        · have hc2 := h.batch c C hC
          rw [if_neg (by omega)] at he hcons hsum
          refine ⟨hc2.le, hc2.prioLe, ?_, hc2.ready, ?_⟩
          · intro e
            have := hc2.opened e
            refine ⟨?_, ?_, ?_⟩
            · show C.pushed = cnt _ s.pending + cnt _ s.running + cnt _ (s.finishing.erase t) + C.delivered
              omega
            · show cnt _ (t :: s.held) = C.delivered
              omega
            · show sumB _ (t :: s.held) = C.numBytes
              omega
          · intro e
            have := hc2.gone e
            refine ⟨this.1, this.2.1, this.2.2.1, ?_, ?_⟩
            · show cnt _ (s.finishing.erase t) = 0; omega
            · show cnt _ (t :: s.held) = 0; omega
      · intro x hx
        exact known_set hB (by rfl) (h.known x ((hperm.append_left _).mem_iff.mpr hx))
      · exact (((hperm.append_left _).map Task.id).nodup_iff).mp h.ids
      · intro x hx
        exact h.idLt x ((hperm.append_left _).mem_iff.mpr hx)
  · cases hs

/-- The counts of a request whose reads have all arrived. -/
theorem complete_counts {b : Nat} {B : Batch} (hb : BInv s b B) (hg : B.phase ≠ .gone) (hd : B.delivered = B.total) :
    B.pushed = B.total ∧ cnt b s.pending = 0 ∧ cnt b s.running = 0 ∧ cnt b s.finishing = 0 := by
  have := hb.opened hg
  have := hb.le
  omega

theorem throwAway_perm (s : QState) (b : Nat) (B : Batch) : (unconsumed s).Perm (unconsumed (throwAway s b B)) := by
  show (s.running ++ s.finishing ++ s.held ++ s.leaked).Perm
    (s.running ++ s.finishing ++ s.held.filter (fun t => decide (t.batch ≠ b)) ++
      (s.held.filter (fun t => decide (t.batch = b)) ++ s.leaked))
  rw [List.append_assoc (s.running ++ s.finishing), List.append_assoc (s.running ++ s.finishing)]
  apply List.Perm.append_left
  rw [← List.append_assoc]
  apply List.Perm.append_right
  exact (filter_split b s.held).trans List.perm_append_comm

theorem inv_throwAway {b : Nat} {B : Batch} (h : Inv capacity buffer s) (hB : s.batches[b]? = some B)
    (hg : B.phase ≠ .gone) (hd : B.delivered = B.total) : Inv capacity buffer (throwAway s b B) := by
  have hb := h.batch b B hB
  have hcc := complete_counts hb hg hd
  have hperm := throwAway_perm s b B
  refine ⟨h.iops, h.sorted, h.flight.trans (hperm.map _), ?_, ?_, ?_, h.parked, h.stopped, ?_, ?_, h.fine⟩
  · have := h.bytes
    rw [sumBytes_perm hperm] at this
    exact this
  · intro c C hC
    rcases getElem?_set_cases _ _ _ _ _ hC with ⟨rfl, rfl, _⟩ | ⟨hne, hC⟩
    · refine ⟨hb.le, hb.prioLe, fun e => absurd rfl e, (fun e => nomatch e), fun _ => ⟨hcc.1, hcc.2.1, hcc.2.2.1, hcc.2.2.2, ?_⟩⟩
      show cnt c (s.held.filter _) = 0
      rw [cnt_filter_ne, if_pos rfl]
    · have hc2 := h.batch c C hC
      refine ⟨hc2.le, hc2.prioLe, ?_, hc2.ready, ?_⟩
      · intro e
        have := hc2.opened e
        refine ⟨this.1, ?_, ?_⟩
        · show cnt c (s.held.filter _) = _
          rw [cnt_filter_ne, if_neg hne]; exact this.2.1
        · show sumB c (s.held.filter _) = _
          rw [sumB_filter_ne _ _ _ hne]; exact this.2.2
      · intro e
        have := hc2.gone e
        refine ⟨this.1, this.2.1, this.2.2.1, this.2.2.2.1, ?_⟩
        show cnt c (s.held.filter _) = _
        rw [cnt_filter_ne, if_neg hne]; exact this.2.2.2.2
  · intro x hx
    exact known_set hB (by rfl) (h.known x ((hperm.append_left _).mem_iff.mpr hx))
  · exact (((hperm.append_left s.pending).map Task.id).nodup_iff).mp h.ids
  · intro x hx
    exact h.idLt x ((hperm.append_left _).mem_iff.mpr hx)

/-- A batch gets a new phase or flag but keeps its counters, and nothing else changes. -/
theorem inv_rebatch {b : Nat} {B B' : Batch} (h : Inv capacity buffer s) (hB : s.batches[b]? = some B)
    (hp : B'.prio = B.prio) (hB' : BInv s b B') : Inv capacity buffer { s with batches := s.batches.set b B' } := by
  refine ⟨h.iops, h.sorted, h.flight, h.bytes, ?_, ?_, h.parked, h.stopped, h.ids, h.idLt, h.fine⟩
  · intro c C hC
    rcases getElem?_set_cases _ _ _ _ _ hC with ⟨rfl, rfl, _⟩ | ⟨hne, hC⟩
    · exact ⟨hB'.le, hB'.prioLe, hB'.opened, hB'.ready, hB'.gone⟩
    · have := h.batch c C hC
      exact ⟨this.le, this.prioLe, this.opened, this.ready, this.gone⟩
  · intro x hx
    exact known_set hB hp (h.known x hx)

theorem inv_respond {b : Nat} (h : Inv capacity buffer s) (hs : stepRespond s b = some s') :
    Inv capacity buffer s' := by
  unfold stepRespond at hs
  split at hs
  · cases hs
  · rename_i B hB
    split at hs
    · rename_i hc
      have hg : B.phase ≠ .gone := by rw [hc.1]; exact (fun e => nomatch e)
      have hb := h.batch b B hB
      split at hs
      · cases hs
        exact inv_throwAway h hB hg hc.2
      · cases hs
        exact inv_rebatch h hB rfl ⟨hb.le, hb.prioLe, fun _ => hb.opened hg, fun _ => hc.2, (fun e => nomatch e)⟩
    · cases hs

theorem inv_drop {b : Nat} (h : Inv capacity buffer s) (hs : stepDrop s b = some s') : Inv capacity buffer s' := by
  unfold stepDrop at hs
  split at hs
  · cases hs
  · rename_i B hB
    have hb := h.batch b B hB
    split at hs
    · rename_i hph
      split at hs
      · cases hs
      · cases hs
        exact inv_rebatch h hB rfl ⟨hb.le, hb.prioLe, hb.opened, hb.ready, hb.gone⟩
    · rename_i hph
      cases hs
      exact inv_throwAway h hB (by rw [hph]; exact (fun e => nomatch e)) (hb.ready hph)
    · cases hs

theorem inv_close (h : Inv capacity buffer s) (hs : stepClose s = some s') : Inv capacity buffer s' := by
  unfold stepClose at hs
  split at hs
  · cases hs
  · cases hs
    refine ⟨h.iops, h.sorted, h.flight, h.bytes, fun b B hB => ⟨(h.batch b B hB).le, (h.batch b B hB).prioLe,
      (h.batch b B hB).opened, (h.batch b B hB).ready, (h.batch b B hB).gone⟩, h.known, ?_, ?_, h.ids, h.idLt, h.fine⟩
    · intro _ e; cases e
    · intro e; exact ⟨(h.stopped e).1, rfl⟩

/-- The request's tasks among the unconsumed ones, when all its data has arrived. -/
theorem consume_split {b : Nat} {B : Batch} (h : Inv capacity buffer s) (hB : s.batches[b]? = some B)
    (hr : B.phase = .ready) :
    (unconsumed s).Perm (s.held.filter (fun t => decide (t.batch = b)) ++
      (s.running ++ s.finishing ++ s.held.filter (fun t => decide (t.batch ≠ b)) ++ s.leaked)) ∧
    (s.held.filter (fun t => decide (t.batch = b))).map Task.prio = List.replicate B.total B.prio := by
  have hb := h.batch b B hB
  have hg : B.phase ≠ .gone := by rw [hr]; exact (fun e => nomatch e)
  constructor
  · unfold unconsumed
    rw [← List.append_assoc]
    apply List.Perm.append_right
    have h1 : (s.running ++ s.finishing ++ s.held).Perm (s.running ++ s.finishing ++
        (s.held.filter (fun t => decide (t.batch = b)) ++ s.held.filter (fun t => decide (t.batch ≠ b)))) :=
      (filter_split b s.held).append_left _
    refine h1.trans ?_
    rw [← List.append_assoc, ← List.append_assoc]
    exact List.Perm.append_right _ List.perm_append_comm
  · rw [List.eq_replicate_iff]
    constructor
    · rw [List.length_map, ← List.countP_eq_length_filter]
      have := (hb.opened hg).2.1
      rw [show s.held.countP (fun t => decide (t.batch = b)) = cnt b s.held from rfl, this, hb.ready hr]
    · intro p hp
      obtain ⟨t, ht, rfl⟩ := List.mem_map.mp hp
      have hm := List.mem_filter.mp ht
      have htb : t.batch = b := by simpa using hm.2
      obtain ⟨C, h1, h2⟩ := h.known t (by simp [unconsumed, hm.1])
      rw [htb, hB] at h1
      cases h1
      exact h2

theorem inv_consume {b : Nat} (h : Inv capacity buffer s) (hs : stepConsume s b = some s') :
    Inv capacity buffer s' := by
  unfold stepConsume at hs
  split at hs
  · cases hs
  · rename_i B hB
    split at hs
    · rename_i hr
      have hb := h.batch b B hB
      have hg : B.phase ≠ .gone := by rw [hr]; exact (fun e => nomatch e)
      have hcc := complete_counts hb hg (hb.ready hr)
      obtain ⟨hperm, hrep⟩ := consume_split h hB hr
      have hfl : s.inFlight.Perm (List.replicate B.total B.prio ++
          (s.running ++ s.finishing ++ s.held.filter (fun t => decide (t.batch ≠ b)) ++ s.leaked).map Task.prio) := by
        refine h.flight.trans ((hperm.map _).trans ?_)
        rw [List.map_append, hrep]
      obtain ⟨l, e1, e2, e3⟩ := removePrios_spec _ _ _ _ hfl h.sorted
      rw [e1] at hs
      cases hs
      have hsub : ∀ x, x ∈ s.pending ++ (s.running ++ s.finishing ++ s.held.filter (fun t => decide (t.batch ≠ b)) ++ s.leaked) →
          x ∈ s.pending ++ unconsumed s := by
        intro x hx
        rcases List.mem_append.mp hx with hx | hx
        · exact List.mem_append_left _ hx
        · exact List.mem_append_right _ (hperm.mem_iff.mpr (List.mem_append_right _ hx))
      refine ⟨h.iops, e3, e2, ?_, ?_, ?_, ?_, h.stopped, ?_, ?_, h.fine⟩
      · have h1 := h.bytes
        rw [sumBytes_perm hperm, sumBytes_append] at h1
        have h2 : sumBytes (s.held.filter (fun t => decide (t.batch = b))) = B.numBytes := (hb.opened hg).2.2
        show s.bytesAvail + (B.numBytes : Int) + (sumBytes (s.running ++ s.finishing ++
          s.held.filter (fun t => decide (t.batch ≠ b)) ++ s.leaked) : Int) = buffer
        omega
      · intro c C hC
        rcases getElem?_set_cases _ _ _ _ _ hC with ⟨rfl, rfl, _⟩ | ⟨hne, hC⟩
        · refine ⟨hb.le, hb.prioLe, fun e => absurd rfl e, (fun e => nomatch e),
            fun _ => ⟨hcc.1, hcc.2.1, hcc.2.2.1, hcc.2.2.2, ?_⟩⟩
          show cnt c (s.held.filter _) = 0
          rw [cnt_filter_ne, if_pos rfl]
        · have hc2 := h.batch c C hC
          refine ⟨hc2.le, hc2.prioLe, ?_, hc2.ready, ?_⟩
          · intro e
            have := hc2.opened e
            refine ⟨this.1, ?_, ?_⟩
            · show cnt c (s.held.filter _) = _
              rw [cnt_filter_ne, if_neg hne]; exact this.2.1
            · show sumB c (s.held.filter _) = _
              rw [sumB_filter_ne _ _ _ hne]; exact this.2.2
          · intro e
            have := hc2.gone e
            refine ⟨this.1, this.2.1, this.2.2.1, this.2.2.2.1, ?_⟩
            show cnt c (s.held.filter _) = _
            rw [cnt_filter_ne, if_neg hne]; exact this.2.2.2.2
      · intro x hx
        exact known_set hB (by rfl) (h.known x (hsub x hx))
      · intro _ e; cases e
      · have h1 : ((s.pending ++ unconsumed s).map Task.id).Perm ((s.held.filter (fun t => decide (t.batch = b)) ++
            (s.pending ++ (s.running ++ s.finishing ++ s.held.filter (fun t => decide (t.batch ≠ b)) ++ s.leaked))).map Task.id) := by
          apply List.Perm.map
          refine (hperm.append_left _).trans ?_
          generalize s.running ++ s.finishing ++ s.held.filter (fun t => decide (t.batch ≠ b)) ++ s.leaked = z
          rw [← List.append_assoc, ← List.append_assoc]
          exact List.Perm.append_right _ List.perm_append_comm
        have h2 := h1.nodup_iff.mp h.ids
        rw [List.map_append] at h2
        exact (List.nodup_append.mp h2).2.1
      · intro x hx
        exact h.idLt x (hsub x hx)
    · cases hs

theorem inv_step {e : QEvent} (h : Inv capacity buffer s) (hs : qstep s e = some s') : Inv capacity buffer s' := by
  cases e with
  | begin p n => exact inv_begin h hs
  | push b n => exact inv_push h hs
  | check t => exact inv_check h hs
  | wake => exact inv_wake h hs
  | iopDone t => exact inv_iopDone h hs
  | deliver t => exact inv_deliver h hs
  | respond b => exact inv_respond h hs
  | consume b => exact inv_consume h hs
  | dropFuture b => exact inv_drop h hs
  | close => exact inv_close h hs

theorem inv_run {es : List QEvent} (h : Inv capacity buffer s) (hs : qrun s es = some s') : Inv capacity buffer s' := by
  induction es generalizing s with
  | nil => cases hs; exact h
  | cons e es ih =>
    simp only [qrun] at hs
    cases he : qstep s e with
    | none => rw [he] at hs; cases hs
    | some m =>
      rw [he] at hs
      exact ih (inv_step h he) hs

theorem inv_reachable (h : Reachable capacity buffer s) : Inv capacity buffer s := by
  obtain ⟨es, h⟩ := h
  exact inv_run (inv_init _ _) h

end

end Verif.Sched
