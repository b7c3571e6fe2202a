import Verif.Join.Model
import Verif.Read.PropsScan

/-!
# Lemmas about the deletion restorer and the updater loop
-/
namespace Verif.Join
open Verif Verif.Read Verif.Deletion

/-- The `j`-th offset is at most `n + j`. -/
def Fits : List Nat → Nat → Prop
  | [], _ => True
  | o :: os, n => o ≤ n ∧ Fits os (n + 1)

theorem Fits.lt {os : List Nat} {n : Nat} (h : Fits os n) : ∀ o ∈ os, o < n + os.length := by
  induction os generalizing n with
  | nil => intro o ho; cases ho
  | cons a os ih =>
    intro o ho
    have h1 : a ≤ n := h.1
    cases ho with
    | head => simp; omega
    | tail _ ho => have := ih h.2 o ho; simp; omega

structure OffsetsSpec (legacy : Option Nat) (first n : Nat) (ds : List Nat) (r : List Nat × List Nat × Bool) :
    Prop where
  app : r.1.map (· + first) ++ r.2.1 = ds
  fits : Fits r.1 n
  rest : ∀ d ∈ r.2.1, first + n + r.1.length ≤ d
  full : ∀ d ∈ r.2.1, d = first + n + r.1.length → isFull legacy (n + r.1.length) = true
  done : r.2.2 = r.2.1.isEmpty

theorem offsetsLoop_spec (legacy : Option Nat) (first : Nat) (ds : List Nat) (n : Nat)
    (hs : ds.Pairwise (· < ·)) (hge : ∀ d ∈ ds, first ≤ d) :
    OffsetsSpec legacy first n ds (offsetsLoop legacy first ds n) := by
  induction ds generalizing n with
  | nil => exact ⟨rfl, trivial, (fun d h => nomatch h), (fun d h => nomatch h), rfl⟩
  | cons d ds ih =>
    unfold offsetsLoop
    rw [List.pairwise_cons] at hs
    by_cases hc : d > first + n ∨ (d = first + n ∧ isFull legacy n = true)
    · rw [if_pos hc]
      refine ⟨rfl, trivial, ?_, ?_, rfl⟩
      · intro x hx
        simp only [List.length_nil] at *
        cases hx with
        | head => omega
        | tail _ hx => have := hs.1 x hx; omega
      · intro x hx he
        simp only [List.length_nil, Nat.add_zero] at *
        cases hx with
        | head =>
          rcases hc with h | h
          · omega
          · exact h.2
        | tail _ hx => have := hs.1 x hx; omega
    · rw [if_neg hc]
      have h := ih (n + 1) hs.2 (fun x hx => hge x (List.mem_cons_of_mem _ hx))
      have hd : first ≤ d := hge d List.mem_cons_self
      refine ⟨?_, ?_, ?_, ?_, h.done⟩
      · simp only [List.map_cons, List.cons_append, List.cons.injEq]
        exact ⟨by omega, h.app⟩
      · exact ⟨by omega, h.fits⟩
      · intro x hx
        have := h.rest x hx
        simp only [List.length_cons]; omega
      · intro x hx he
        have := h.full x hx (by simp only [List.length_cons] at he; omega)
        simp only [List.length_cons]
        rw [show n + ((offsetsLoop legacy first ds (n + 1)).1.length + 1) =
          n + 1 + (offsetsLoop legacy first ds (n + 1)).1.length from by omega]
        exact this

theorem selection_length (len : Nat) (os : List Nat) (next pos : Nat) (hp : pos ≤ len)
    (hf : Fits os (next + (len - pos))) (hs : os.Pairwise (· < ·)) (hn : ∀ o ∈ os, next ≤ o) :
    (selection len os next pos).length = len - pos + os.length := by
  induction os generalizing next pos with
  | nil => simp [selection]
  | cons o os ih =>
    rw [List.pairwise_cons] at hs
    have h1 : o ≤ next + (len - pos) := hf.1
    have h2 : next ≤ o := hn o List.mem_cons_self
    have h3 := ih (o + 1) (pos + (o - next)) (by omega) (by
      rw [show o + 1 + (len - (pos + (o - next))) = next + (len - pos) + 1 from by omega]; exact hf.2) hs.2
      (fun x hx => hs.1 x hx)
    simp only [selection, List.length_append, List.length_range', List.length_cons, h3]
    omega

theorem selection_bound (len : Nat) (os : List Nat) (next pos : Nat) (hl : 0 < len) (hp : pos ≤ len)
    (hf : Fits os (next + (len - pos))) (hs : os.Pairwise (· < ·)) (hn : ∀ o ∈ os, next ≤ o) :
    ∀ i ∈ selection len os next pos, i < len := by
  induction os generalizing next pos with
  | nil =>
    intro i hi
    simp only [selection, List.mem_range'_1] at hi
    omega
  | cons o os ih =>
    rw [List.pairwise_cons] at hs
    have h1 : o ≤ next + (len - pos) := hf.1
    have h2 : next ≤ o := hn o List.mem_cons_self
    have h3 := ih (o + 1) (pos + (o - next)) (by omega) (by
      rw [show o + 1 + (len - (pos + (o - next))) = next + (len - pos) + 1 from by omega]; exact hf.2) hs.2
      (fun x hx => hs.1 x hx)
    intro i hi
    simp only [selection, List.mem_append, List.mem_range'_1, List.mem_cons] at hi
    rcases hi with hi | hi | hi
    · omega
    · omega
    · exact h3 i hi

/-- Pair the rows with their positions, drop the positions to be filled: the batch is left, in order. -/
theorem selection_kept (len : Nat) (os : List Nat) (next pos : Nat) (hp : pos ≤ len)
    (hf : Fits os (next + (len - pos))) (hs : os.Pairwise (· < ·)) (hn : ∀ o ∈ os, next ≤ o) :
    (((List.range' next (len - pos + os.length)).zip (selection len os next pos)).filter
      (fun x => !os.contains x.1)).map (·.2) = List.range' pos (len - pos) := by
  induction os generalizing next pos with
  | nil =>
    simp only [selection, List.length_nil, Nat.add_zero]
    rw [List.filter_eq_self.mpr (by intro x _; simp)]
    rw [List.map_snd_zip (by simp)]
  | cons o os ih =>
    rw [List.pairwise_cons] at hs
    have h1 : o ≤ next + (len - pos) := hf.1
    have h2 : next ≤ o := hn o List.mem_cons_self
    have h3 := ih (o + 1) (pos + (o - next)) (by omega) (by
      rw [show o + 1 + (len - (pos + (o - next))) = next + (len - pos) + 1 from by omega]; exact hf.2) hs.2
      (fun x hx => hs.1 x hx)
    have e1 : List.range' next (len - pos + (o :: os).length) =
        List.range' next (o - next) ++ o :: List.range' (o + 1) (len - (pos + (o - next)) + os.length) := by
      rw [show len - pos + (o :: os).length = (o - next) + (1 + (len - (pos + (o - next)) + os.length)) from by
        simp only [List.length_cons]; omega]
      rw [← List.range'_append_1, show next + (o - next) = o from by omega, Nat.add_comm 1, List.range'_succ]
    rw [e1]
    simp only [selection]
    rw [List.zip_append (by simp), List.zip_cons_cons, List.filter_append, List.map_append]
    rw [List.filter_eq_self.mpr, List.map_snd_zip (by simp)]
    · rw [List.filter_cons_of_neg (by simp)]
      rw [List.filter_congr (q := fun x => !os.contains x.1), h3]
      · rw [show len - pos = (o - next) + (len - (pos + (o - next))) from by omega, ← List.range'_append_1]
      · intro x hx
        have := (List.of_mem_zip hx).1
        simp only [List.mem_range'_1] at this
        simp only [List.contains_cons]
        rw [show (x.1 == o) = false from by simp; omega]
        rfl
    · intro x hx
      have := (List.of_mem_zip hx).1
      simp only [List.mem_range'_1] at this
      simp only [Bool.not_eq_eq_eq_not, Bool.not_true, List.contains_eq_mem, decide_eq_false_iff_not]
      intro hm
      cases hm with
      | head => omega
      | tail _ hm => have := hs.1 _ hm; omega

theorem mapM_getElem? {β : Type} (batch : List β) (sel : List Nat) (h : ∀ i ∈ sel, i < batch.length) :
    ∃ out, sel.mapM (fun i => batch[i]?) = some out ∧ out.length = sel.length ∧
      out.map some = sel.map (fun i => batch[i]?) := by
  induction sel with
  | nil => exact ⟨[], rfl, rfl, rfl⟩
  | cons i sel ih =>
    obtain ⟨out, h1, h2, h3⟩ := ih (fun x hx => h x (List.mem_cons_of_mem _ hx))
    have hi := h i List.mem_cons_self
    refine ⟨batch[i] :: out, ?_, by simp [h2], ?_⟩
    · rw [List.mapM_cons, h1, List.getElem?_eq_getElem hi]; rfl
    · simp only [List.map_cons, List.getElem?_eq_getElem hi]
      rw [h3]

theorem range'_map_getElem? {β : Type} (batch : List β) :
    (List.range' 0 batch.length).map (fun i => batch[i]?) = batch.map some := by
  apply List.ext_getElem?
  intro i
  rw [List.getElem?_map, List.getElem?_map]
  by_cases h : i < batch.length
  · rw [List.getElem?_range' h]
    simp [h]
  · rw [List.getElem?_eq_none (by simp; omega), List.getElem?_eq_none (by omega)]
    rfl

theorem map_some_inj {β : Type} {l m : List β} (h : l.map some = m.map some) : l = m := by
  have := congrArg (List.filterMap id) h
  simpa [List.filterMap_map] using this

/-- `add_blanks`: succeeds unless an empty batch needs blanks; the result pairs up with its positions. -/
theorem addBlanks_spec {β : Type} (batch : List β) (offs : List Nat) (hf : Fits offs batch.length)
    (hs : offs.Pairwise (· < ·)) (he : offs = [] ∨ batch ≠ []) :
    ∃ out, addBlanks batch offs = .ok out ∧ out.length = batch.length + offs.length ∧
      (((List.range' 0 out.length).zip out).filter (fun x => !offs.contains x.1)).map (·.2) = batch := by
  unfold addBlanks
  cases offs with
  | nil =>
    refine ⟨batch, rfl, rfl, ?_⟩
    rw [List.filter_eq_self.mpr (by intro x _; simp)]
    rw [List.map_snd_zip (by simp)]
  | cons o os =>
    have hb : batch ≠ [] := by
      rcases he with h | h
      · cases h
      · exact h
    have hl : 0 < batch.length := List.length_pos_iff.mpr hb
    rw [if_neg (by simp), if_neg (by simpa using hb)]
    have hf' : Fits (o :: os) (0 + (batch.length - 0)) := by simpa using hf
    obtain ⟨out, h1, h2, h3⟩ := mapM_getElem? batch _
      (selection_bound batch.length (o :: os) 0 0 hl (by omega) hf' hs (by intro x _; omega))
    have hlen := selection_length batch.length (o :: os) 0 0 (by omega) hf' hs (by intro x _; omega)
    have hk := selection_kept batch.length (o :: os) 0 0 (by omega) hf' hs (by intro x _; omega)
    rw [h1]
    refine ⟨out, rfl, by rw [h2, hlen]; rfl, ?_⟩
    have hol : out.length = batch.length - 0 + (o :: os).length := by rw [h2, hlen]
    apply map_some_inj
    rw [← range'_map_getElem? batch]
    simp only [Nat.sub_zero] at hk
    rw [← hk, hol]
    simp only [Nat.sub_zero]
    rw [List.map_map, List.map_map]
    have e : ∀ (g : Nat × Nat → Option β) (ps : List Nat) (sel : List Nat) (o' : List β),
        o'.map some = sel.map (fun i => batch[i]?) →
        ((ps.zip o').filter (fun x => !(o :: os).contains x.1)).map (fun x => some x.2) =
        ((ps.zip sel).filter (fun x => !(o :: os).contains x.1)).map (fun x => batch[x.2]?) := by
      intro _ ps
      induction ps with
      | nil => intro sel o' _; simp
      | cons p ps ih =>
        intro sel o' h
        cases sel with
        | nil => cases o' with
          | nil => simp
          | cons _ _ => simp at h
        | cons s sel =>
          cases o' with
          | nil => simp at h
          | cons v o' =>
            simp only [List.map_cons, List.cons.injEq] at h
            simp only [List.zip_cons_cons]
            by_cases hp : (!(o :: os).contains p) = true
            · rw [List.filter_cons_of_pos (by exact hp), List.filter_cons_of_pos (by exact hp)]
              simp only [List.map_cons, List.cons.injEq]
              exact ⟨h.1, ih sel o' h.2⟩
            · rw [List.filter_cons_of_neg (by exact hp), List.filter_cons_of_neg (by exact hp)]
              exact ih sel o' h.2
    exact e (fun _ => none) _ _ _ h3

theorem offsets_upto (legacy first : Nat) (ds : List Nat) (n : Nat) (hge : ∀ d ∈ ds, first ≤ d)
    (hcnt : n + (ds.filter (fun d => decide (d < first + legacy))).length ≤ legacy) :
    n + (offsetsLoop (some legacy) first ds n).1.length ≤ legacy := by
  induction ds generalizing n with
  | nil => simp only [offsetsLoop, List.length_nil]; simp at hcnt; omega
  | cons d ds ih =>
    unfold offsetsLoop
    by_cases hc : d > first + n ∨ (d = first + n ∧ isFull (some legacy) n = true)
    · rw [if_pos hc]; simp only [List.length_nil]; omega
    · rw [if_neg hc]
      have hd : first ≤ d := hge d List.mem_cons_self
      have hlt : d < first + legacy := by
        have : n ≤ legacy := by omega
        by_cases hn : n = legacy
        · have : ¬ (d = first + n) := by
            intro e; exact hc (Or.inr ⟨e, by simp [isFull, hn]⟩)
          omega
        · omega
      rw [List.filter_cons_of_pos (by simpa using hlt), List.length_cons] at hcnt
      have := ih (n + 1) (fun x hx => hge x (List.mem_cons_of_mem _ hx)) (by omega)
      simp only [List.length_cons]
      omega

/-! ## One batch -/

/-- The restorer has handed out the deleted ids below its current row. -/
structure At (del : List Nat) (r : Restorer) : Prop where
  pend : r.pending = del.filter (fun d => decide (r.current ≤ d))
  exh : r.exhausted = true → r.pending = []

theorem deletedOffsets_eq (r : Restorer) (n : Nat) (he : r.exhausted = true → r.pending = []) :
    deletedOffsets r n =
      ((offsetsLoop r.legacy r.current r.pending n).1,
        { r with pending := (offsetsLoop r.legacy r.current r.pending n).2.1,
                 exhausted := (offsetsLoop r.legacy r.current r.pending n).2.2 }) := by
  unfold deletedOffsets
  cases hx : r.exhausted with
  | false => rfl
  | true =>
    have hp := he hx
    rw [if_pos rfl, hp]
    cases r
    simp only at hx hp
    subst hx; subst hp
    rfl

/-- The state after a batch that got `k` rows. -/
def Restorer.after (r : Restorer) (pending : List Nat) (k : Nat) : Restorer :=
  { r with current := r.current + k, pending := pending, exhausted := pending.isEmpty }

structure StepSpec {β : Type} (del : List Nat) (r : Restorer) (batch : List β) (ds rest : List Nat) : Prop where
  split : r.pending = ds.map (· + r.current) ++ rest
  fits : Fits ds batch.length
  bound : ∀ d ∈ rest, r.current + (batch.length + ds.length) ≤ d
  full : ∀ d ∈ rest, d = r.current + (batch.length + ds.length) →
    isFull r.legacy (batch.length + ds.length) = true
  upto : ∀ l, r.legacy = some l →
    batch.length + (r.pending.filter (fun d => decide (d < r.current + l))).length ≤ l → batch.length + ds.length ≤ l
  filt : rest = del.filter (fun d => decide (r.current + (batch.length + ds.length) ≤ d))
  err : ds ≠ [] → batch = [] → restore r batch = .error .tooManyMissing
  ok : ds = [] ∨ batch ≠ [] → ∃ out, out.length = batch.length + ds.length ∧
    (((List.range' r.current out.length).zip out).filter (fun x => !del.contains x.1)).map (·.2) = batch ∧
    restore r batch = if sizeOk (r.after rest out.length) out.length then .ok (out, r.after rest out.length)
      else .error .batchSize

theorem zip_shift {β : Type} (c : Nat) (l : List β) :
    (List.range' c l.length).zip l = ((List.range' 0 l.length).zip l).map (fun x => (x.1 + c, x.2)) := by
  apply List.ext_getElem?
  intro i
  rw [List.getElem?_map]
  by_cases h : i < l.length
  · simp [List.getElem?_zip_eq_some, List.getElem?_range' h, h, List.zip, List.getElem?_zipWith, Nat.add_comm]
  · rw [List.getElem?_eq_none (by simp; omega), List.getElem?_eq_none (by simp; omega)]
    rfl

theorem filter_map_snd {β : Type} (c : Nat) (p : Nat → Bool) (l : List (Nat × β)) :
    ((l.map (fun x => (x.1 + c, x.2))).filter (fun x => p x.1)).map (·.2) =
      (l.filter (fun x => p (x.1 + c))).map (·.2) := by
  rw [List.filter_map, List.map_map]
  rfl

theorem restore_spec {β : Type} (del : List Nat) (hdel : del.Pairwise (· < ·)) (r : Restorer) (hr : At del r)
    (batch : List β) : ∃ ds rest, StepSpec del r batch ds rest := by
  have hs : r.pending.Pairwise (· < ·) := by rw [hr.pend]; exact hdel.filter _
  have hge : ∀ d ∈ r.pending, r.current ≤ d := by
    intro d hd; rw [hr.pend] at hd; simpa using (List.mem_filter.mp hd).2
  have hsp := offsetsLoop_spec r.legacy r.current r.pending batch.length hs hge
  have hdo := deletedOffsets_eq r batch.length hr.exh
  have hup := fun l (hl : r.legacy = some l) => offsets_upto l r.current r.pending batch.length hge
  have hup : ∀ l, r.legacy = some l →
      batch.length + (r.pending.filter (fun d => decide (d < r.current + l))).length ≤ l →
      batch.length + (offsetsLoop r.legacy r.current r.pending batch.length).1.length ≤ l := by
    intro l hl h
    rw [hl]; exact hup l hl h
  generalize offsetsLoop r.legacy r.current r.pending batch.length = x at hsp hdo hup
  obtain ⟨ds, rest, b⟩ := x
  have happ : ds.map (· + r.current) ++ rest = r.pending := hsp.app
  have hfits : Fits ds batch.length := hsp.fits
  have hb : b = rest.isEmpty := hsp.done
  have hrest : ∀ d ∈ rest, r.current + (batch.length + ds.length) ≤ d := by
    intro d hd
    have := hsp.rest d hd
    simp only at this; omega
  have hdss : ds.Pairwise (· < ·) := by
    have h1 : (ds.map (· + r.current)).Pairwise (· < ·) := by
      rw [← happ] at hs; exact (List.pairwise_append.mp hs).1
    rw [List.pairwise_map] at h1
    exact h1.imp (by intro a b h; omega)
  have hfilt : rest = del.filter (fun d => decide (r.current + (batch.length + ds.length) ≤ d)) := by
    have e1 : del.filter (fun d => decide (r.current + (batch.length + ds.length) ≤ d)) =
        r.pending.filter (fun d => decide (r.current + (batch.length + ds.length) ≤ d)) := by
      rw [hr.pend, List.filter_filter]
      apply List.filter_congr
      intro d _
      rw [Bool.eq_iff_iff]
      simp only [decide_eq_true_eq, Bool.and_eq_true]
      omega
    rw [e1, ← happ, List.filter_append]
    rw [List.filter_eq_nil_iff.mpr, List.filter_eq_self.mpr]
    · rfl
    · intro d hd; simpa using hrest d hd
    · intro d hd
      obtain ⟨o, ho, rfl⟩ := List.mem_map.mp hd
      have := hfits.lt o ho
      simp only [decide_eq_true_eq]; omega
  refine ⟨ds, rest, happ.symm, hfits, hrest, ?_, hup, hfilt, ?_, ?_⟩
  · intro d hd he
    exact hsp.full d hd (by simp only; omega)
  · intro h1 h2
    have hab : addBlanks batch ds = .error .tooManyMissing := by
      unfold addBlanks
      rw [if_neg (by simpa using h1), if_pos (by simp [h2])]
    unfold restore
    rw [hdo]
    simp only [hab]
  · intro hcase
    obtain ⟨out, h1, h2, h3⟩ := addBlanks_spec batch ds hfits hdss hcase
    refine ⟨out, h2, ?_, ?_⟩
    · rw [zip_shift, filter_map_snd r.current (fun d => !del.contains d)]
      refine Eq.trans ?_ h3
      congr 1
      apply List.filter_congr
      intro x hx
      have hx1 := (List.of_mem_zip hx).1
      simp only [List.mem_range'_1] at hx1
      congr 1
      rw [Bool.eq_iff_iff]
      simp only [List.contains_eq_mem, decide_eq_true_eq]
      constructor
      · intro hm
        have hp : x.1 + r.current ∈ r.pending := by
          rw [hr.pend]; exact List.mem_filter.mpr ⟨hm, by simp⟩
        rw [← happ] at hp
        rcases List.mem_append.mp hp with h | h
        · obtain ⟨o, ho, e⟩ := List.mem_map.mp h
          have : o = x.1 := by omega
          exact this ▸ ho
        · have := hrest _ h; omega
      · intro hm
        have hp : x.1 + r.current ∈ r.pending := by
          rw [← happ]; exact List.mem_append_left _ (List.mem_map.mpr ⟨x.1, hm, rfl⟩)
        rw [hr.pend] at hp
        exact (List.mem_filter.mp hp).1
    · unfold restore
      rw [hdo]
      simp only [h1, hb]
      rfl

theorem At.after {β : Type} {del : List Nat} {r : Restorer} {batch : List β} {ds rest : List Nat}
    (h : StepSpec del r batch ds rest) (k : Nat) (hk : k = batch.length + ds.length) :
    At del (r.after rest k) := by
  subst hk
  refine ⟨h.filt, ?_⟩
  intro he
  simpa [Restorer.after] using he

theorem At.new (del : List Nat) (legacy : Option Nat) : At del (Restorer.new del legacy) := by
  refine ⟨?_, by simp [Restorer.new]⟩
  simp only [Restorer.new]
  rw [List.filter_eq_self.mpr (by intro a _; simp)]

/-! ## A whole run -/

/-- What is left of rows at positions from `c` on without the deleted positions. -/
def kept {β : Type} (del : List Nat) (c : Nat) (out : List β) : List β :=
  (((List.range' c out.length).zip out).filter (fun x => !del.contains x.1)).map (·.2)

theorem kept_append {β : Type} (del : List Nat) (c : Nat) (a b : List β) :
    kept del c (a ++ b) = kept del c a ++ kept del (c + a.length) b := by
  unfold kept
  rw [List.length_append, ← List.range'_append_1, List.zip_append (by simp), List.filter_append, List.map_append]

/-- A successful run keeps the computed values in order and uses up the deleted ids. -/
theorem updateLoop_sound {α β : Type} (del : List Nat) (hdel : del.Pairwise (· < ·))
    (compute : List α → Except Err (List β)) (g : α → β)
    (hg : ∀ b v, compute b = .ok v → v = b.map g) (bs : List (List α)) (r : Restorer) (hr : At del r)
    (out : List β) (h : updateLoop compute r bs = .ok out) :
    kept del r.current out = bs.flatten.map g ∧ ∀ d ∈ del, d < r.current + out.length := by
  induction bs generalizing r out with
  | nil =>
    unfold updateLoop at h
    cases he : r.exhausted with
    | false => rw [he] at h; cases h
    | true =>
      rw [he] at h
      cases h
      refine ⟨rfl, ?_⟩
      have hp := hr.exh he
      rw [hr.pend, List.filter_eq_nil_iff] at hp
      intro d hd
      have := hp d hd
      simp at this
      simpa using this
  | cons b bs ih =>
    unfold updateLoop at h
    cases hc : compute b with
    | error e => rw [hc] at h; cases h
    | ok v =>
      rw [hc] at h
      simp only at h
      by_cases hl : b.length ≠ v.length
      · rw [if_pos hl] at h; cases h
      · rw [if_neg hl] at h
        obtain ⟨ds, rest, hst⟩ := restore_spec del hdel r hr v
        by_cases hcase : ds = [] ∨ v ≠ []
        · obtain ⟨o, ho1, ho2, ho3⟩ := hst.ok hcase
          rw [ho3] at h
          by_cases hsz : sizeOk (r.after rest o.length) o.length = true
          · rw [if_pos hsz] at h
            simp only at h
            cases hu : updateLoop compute (r.after rest o.length) bs with
            | error e => rw [hu] at h; cases h
            | ok tl =>
              rw [hu] at h
              cases h
              obtain ⟨h1, h2⟩ := ih (r.after rest o.length) (At.after hst o.length ho1) tl hu
              have hcur : (r.after rest o.length).current = r.current + o.length := rfl
              rw [hcur] at h1 h2
              refine ⟨?_, ?_⟩
              · rw [kept_append, h1, List.flatten_cons, List.map_append, ← hg b v hc]
                congr 1
              · intro d hd
                have := h2 d hd
                rw [List.length_append]; omega
          · rw [if_neg hsz] at h; cases h
        · have h1 : ds ≠ [] := fun e => hcase (Or.inl e)
          have h2 : v = [] := Classical.byContradiction (fun e => hcase (Or.inr e))
          rw [hst.err h1 h2] at h; cases h

theorem mem_pair_of_map_eq {β γ : Type} (k : γ → Nat) (v : γ → β) (g : Nat → β) (l : List γ)
    (h : l.map v = (l.map k).map g) : ∀ x ∈ l, v x = g (k x) := by
  induction l with
  | nil => intro x hx; cases hx
  | cons a l ih =>
    simp only [List.map_cons, List.cons.injEq] at h
    intro x hx
    cases hx with
    | head => exact h.1
    | tail _ hx => exact ih h.2 x hx

theorem filter_fst_zip {β : Type} (p : Nat → Bool) (a : List Nat) (b : List β) (h : a.length = b.length) :
    ((a.zip b).filter (fun x => p x.1)).map (·.1) = a.filter p := by
  induction a generalizing b with
  | nil => simp
  | cons x a ih =>
    cases b with
    | nil => simp at h
    | cons y b =>
      simp only [List.zip_cons_cons]
      by_cases hx : p x = true
      · rw [List.filter_cons_of_pos (by exact hx), List.filter_cons_of_pos hx, List.map_cons,
          ih b (by simpa using h)]
      · rw [List.filter_cons_of_neg (by exact hx), List.filter_cons_of_neg hx, ih b (by simpa using h)]

/-- The number of positions below `n` that are not deleted. -/
theorem length_live (del : List Nat) (hdel : del.Pairwise (· < ·)) (n : Nat) (h : ∀ d ∈ del, d < n) :
    ((List.range n).filter (fun o => !del.contains o)).length + del.length = n := by
  have h1 := (List.filter_append_perm (fun o => !del.contains o) (List.range n)).length_eq
  rw [List.length_append, List.length_range] at h1
  have h2 : ((List.range n).filter (fun o => !(!del.contains o))).Perm del := by
    rw [List.perm_ext_iff_of_nodup (List.nodup_range.filter _)
      (hdel.imp (by intro a b h; omega))]
    intro o
    simp only [Bool.not_not, List.mem_filter, List.mem_range, List.contains_eq_mem, decide_eq_true_eq]
    exact ⟨fun x => x.2, fun x => ⟨h o x, x⟩⟩
  have h3 := h2.length_eq
  omega

/-- Read off the rows from the list of kept values. -/
theorem kept_rows {β : Type} (del : List Nat) (hdel : del.Pairwise (· < ·)) (rows : Nat) (g : Nat → β)
    (out : List β) (hb : ∀ d ∈ del, d < rows) (hb' : ∀ d ∈ del, d < out.length)
    (h : kept del 0 out = ((List.range rows).filter (fun o => !del.contains o)).map g) :
    out.length = rows ∧ ∀ o, o < rows → del.contains o = false → out[o]? = some (g o) := by
  have hfst := filter_fst_zip (fun o => !del.contains o) (List.range' 0 out.length) out (by simp)
  have hlen : out.length = rows := by
    have h1 := congrArg List.length hfst
    have h2 := congrArg List.length h
    unfold kept at h2
    rw [List.length_map] at h1 h2
    rw [List.length_map] at h2
    rw [← List.range_eq_range'] at h1 h2
    have h3 := length_live del hdel rows hb
    have h4 := length_live del hdel out.length hb'
    omega
  refine ⟨hlen, ?_⟩
  intro o ho hd
  have hlt : o < out.length := by omega
  have hm : (o, out[o]) ∈ ((List.range' 0 out.length).zip out).filter (fun x => !del.contains x.1) := by
    rw [List.mem_filter]
    refine ⟨?_, by simp only [hd]; rfl⟩
    rw [List.mem_iff_getElem?]
    refine ⟨o, ?_⟩
    rw [List.getElem?_zip_eq_some]
    refine ⟨?_, List.getElem?_eq_getElem hlt⟩
    rw [List.getElem?_range' hlt]; simp
  have hv := mem_pair_of_map_eq (fun x : Nat × β => x.1) (fun x => x.2) g _ (by
    rw [hfst]
    refine Eq.trans h ?_
    rw [← hlen, List.range_eq_range']) _ hm
  rw [List.getElem?_eq_getElem hlt]
  exact congrArg some hv

/-! ## Which runs succeed -/

/-- The number of rows among `s` rows from `c` on that are not deleted. -/
def nd (del : List Nat) (c s : Nat) : Nat := ((List.range' c s).filter (fun o => !del.contains o)).length

theorem nd_add (del : List Nat) (c s t : Nat) : nd del c (s + t) = nd del c s + nd del (c + s) t := by
  unfold nd
  rw [← List.range'_append_1, List.filter_append, List.length_append]

theorem nd_le (del : List Nat) (c s : Nat) : nd del c s ≤ s := by
  unfold nd
  have := List.length_filter_le (fun o => !del.contains o) (List.range' c s)
  simpa using this

theorem nd_beyond (del : List Nat) (total c s : Nat) (h : ∀ d ∈ del, d < total) (hc : total ≤ c) :
    nd del c s = s := by
  unfold nd
  rw [List.filter_eq_self.mpr, List.length_range']
  intro o ho
  simp only [List.mem_range'_1] at ho
  simp only [Bool.not_eq_eq_eq_not, Bool.not_true, List.contains_eq_mem, decide_eq_false_iff_not]
  intro hm
  have := h o hm
  omega

theorem nd_one (del : List Nat) (c : Nat) : nd del c 1 = if c ∈ del then 0 else 1 := by
  unfold nd
  by_cases h : c ∈ del
  · simp [h]
  · simp [h]

theorem nd_kept {β : Type} (del : List Nat) (c : Nat) (out batch : List β) (h : kept del c out = batch) :
    nd del c out.length = batch.length := by
  have h1 := filter_fst_zip (fun o => !del.contains o) (List.range' c out.length) out (by simp)
  unfold nd
  rw [← h1, ← h, kept, List.length_map, List.length_map]

/-- A batch of at most the remaining live rows does not run past the end. -/
theorem step_le (del : List Nat) (total c n k : Nat) (hb : ∀ d ∈ del, d < total) (hc : c ≤ total)
    (hn : nd del c k = n) (hle : n ≤ nd del c (total - c)) : c + k ≤ total := by
  by_cases h : c + k ≤ total
  · exact h
  · exfalso
    have h1 : k = (total - c) + (c + k - total) := by omega
    rw [h1, nd_add, nd_beyond del total (c + (total - c)) _ hb (by omega)] at hn
    omega

/-- v2 files: every run succeeds whose first batch has a row or does not start at a deleted row. -/
theorem updateLoop_v2 {α β : Type} (del : List Nat) (hdel : del.Pairwise (· < ·)) (total : Nat)
    (hb : ∀ d ∈ del, d < total) (compute : List α → Except Err (List β)) (bs : List (List α))
    (hg : ∀ b ∈ bs, ∃ v, compute b = .ok v ∧ v.length = b.length) (r : Restorer) (hr : At del r)
    (hl : r.legacy = none) (hc : r.current ≤ total) (hn : bs.flatten.length = nd del r.current (total - r.current))
    (hstart : r.current ∉ del ∨ ∃ b bs', bs = b :: bs' ∧ b ≠ [])
    (hex : bs = [] → r.exhausted = r.pending.isEmpty) :
    ∃ out, updateLoop compute r bs = .ok out := by
  induction bs generalizing r with
  | nil =>
    unfold updateLoop
    have hcd : r.current ∉ del := by
      rcases hstart with h | ⟨b, bs', h, _⟩
      · exact h
      · cases h
    have hp : r.pending = [] := by
      by_cases h : r.current < total
      · exfalso
        have h1 : total - r.current = 1 + (total - r.current - 1) := by omega
        rw [h1, nd_add, nd_one, if_neg hcd] at hn
        simp at hn
        omega
      · rw [hr.pend, List.filter_eq_nil_iff]
        intro d hd
        have := hb d hd
        simp only [decide_eq_true_eq]; omega
    rw [hex rfl, hp]
    exact ⟨[], rfl⟩
  | cons b bs ih =>
    unfold updateLoop
    obtain ⟨v, hv, hvl⟩ := hg b List.mem_cons_self
    rw [hv]
    simp only
    rw [if_neg (by omega)]
    obtain ⟨ds, rest, hst⟩ := restore_spec del hdel r hr v
    have hcase : ds = [] ∨ v ≠ [] := by
      by_cases hv0 : v = []
      · left
        rcases hstart with h | ⟨b', bs', h, hne⟩
        · cases hds : ds with
          | nil => rfl
          | cons d ds' =>
            exfalso
            have hf := hst.fits
            rw [hds, hv0] at hf
            have h0 : d ≤ 0 := hf.1
            apply h
            have hm : r.current ∈ r.pending := by
              rw [hst.split, hds]
              apply List.mem_append_left
              rw [List.map_cons, show d + r.current = r.current from by omega]
              exact List.mem_cons_self
            rw [hr.pend] at hm
            exact (List.mem_filter.mp hm).1
        · cases h
          rw [hv0] at hvl
          exact absurd (List.length_eq_zero_iff.mp hvl.symm) hne
      · exact Or.inr hv0
    obtain ⟨o, ho1, ho2, ho3⟩ := hst.ok hcase
    have hsz : sizeOk (r.after rest o.length) o.length = true := by
      unfold sizeOk
      simp only [Restorer.after, hl]
    rw [ho3, if_pos hsz]
    simp only
    have hnk : nd del r.current o.length = v.length := nd_kept del r.current o v ho2
    rw [List.flatten_cons, List.length_append] at hn
    have hle := step_le del total r.current v.length o.length hb hc hnk (by omega)
    obtain ⟨tl, htl⟩ := ih (fun x hx => hg x (List.mem_cons_of_mem _ hx)) (r.after rest o.length) (At.after hst o.length ho1) hl hle (by
      have h1 : total - r.current = o.length + (total - (r.current + o.length)) := by omega
      rw [h1, nd_add, hnk] at hn
      show bs.flatten.length = nd del (r.current + o.length) (total - (r.current + o.length))
      omega) (by
      left
      intro hm
      have hmr : r.current + o.length ∈ rest := by
        rw [hst.filt]
        exact List.mem_filter.mpr ⟨hm, by rw [ho1]; simp⟩
      have := hst.full _ hmr (by rw [ho1])
      rw [hl] at this
      cases this) (fun _ => rfl)
    rw [htl]
    exact ⟨_, rfl⟩

/-- An empty first batch that starts at a deleted row fails. -/
theorem updateLoop_empty {α β : Type} (del : List Nat) (hdel : del.Pairwise (· < ·))
    (compute : List α → Except Err (List β)) (hg : compute [] = .ok []) (bs : List (List α)) (r : Restorer)
    (hr : At del r) (hfull : isFull r.legacy 0 = false) (hm : r.current ∈ del) :
    updateLoop compute r ([] :: bs) = .error .tooManyMissing := by
  unfold updateLoop
  rw [hg]
  simp only
  rw [if_neg (by simp)]
  obtain ⟨ds, rest, hst⟩ := restore_spec del hdel r hr ([] : List β)
  have hds : ds ≠ [] := by
    intro h
    have hmr : r.current ∈ rest := by
      rw [hst.filt, h]
      exact List.mem_filter.mpr ⟨hm, by simp⟩
    have := hst.full _ hmr (by simp [h])
    rw [h] at this
    simp [hfull] at this
  rw [hst.err hds rfl]

/-- The lengths of the batches read from groups of the given sizes. -/
def liveLens (del : List Nat) : Nat → List Nat → List Nat
  | _, [] => []
  | c, s :: ss => nd del c s :: liveLens del (c + s) ss

/-- The row groups of a v1 file: all of one size but the last, which may be shorter. -/
def RowGroups (l : Nat) : List Nat → Prop
  | [] => True
  | [s] => 0 < s ∧ s ≤ l
  | s :: ss => s = l ∧ RowGroups l ss

theorem RowGroups.head {l s : Nat} {ss : List Nat} (h : RowGroups l (s :: ss)) (hl : 0 < l) : 0 < s ∧ s ≤ l := by
  cases ss with
  | nil => exact h
  | cons t ss => have := h.1; omega

theorem RowGroups.tail {l s : Nat} {ss : List Nat} (h : RowGroups l (s :: ss)) : RowGroups l ss := by
  cases ss with
  | nil => trivial
  | cons t ss => exact h.2

theorem nd_del (del : List Nat) (hdel : del.Pairwise (· < ·)) (c s : Nat) :
    nd del c s + ((del.filter (fun d => decide (c ≤ d))).filter (fun d => decide (d < c + s))).length = s := by
  have h1 := (List.filter_append_perm (fun o => !del.contains o) (List.range' c s)).length_eq
  rw [List.length_append, List.length_range'] at h1
  have h2 : ((List.range' c s).filter (fun o => !(!del.contains o))).Perm
      ((del.filter (fun d => decide (c ≤ d))).filter (fun d => decide (d < c + s))) := by
    rw [List.perm_ext_iff_of_nodup ((List.nodup_range' (step := 1)).filter _)
      (((hdel.imp (by intro a b h; omega) : del.Nodup).filter _).filter _)]
    intro o
    simp only [Bool.not_not, List.mem_filter, List.mem_range'_1, List.contains_eq_mem, decide_eq_true_eq]
    exact ⟨fun x => ⟨⟨x.2, x.1.1⟩, x.1.2⟩, fun x => ⟨⟨x.1.2, x.2⟩, x.1.1⟩⟩
  have h3 := h2.length_eq
  unfold nd
  omega

/-- v1 files: a run succeeds if and only if every row group has a row that is not deleted. -/
theorem updateLoop_v1 {α β : Type} (del : List Nat) (hdel : del.Pairwise (· < ·)) (total l : Nat) (hl0 : 0 < l)
    (hb : ∀ d ∈ del, d < total) (compute : List α → Except Err (List β))
    (sizes : List Nat) (bs : List (List α)) (hg : ∀ b ∈ bs, ∃ v, compute b = .ok v ∧ v.length = b.length) (r : Restorer)
    (hr : At del r) (hl : r.legacy = some l) (hc : r.current + sizes.sum = total) (hrg : RowGroups l sizes)
    (hlen : bs.map List.length = liveLens del r.current sizes)
    (hex : bs = [] → r.exhausted = r.pending.isEmpty) :
    ((∀ b ∈ bs, b ≠ []) → ∃ out, updateLoop compute r bs = .ok out) ∧
    ([] ∈ bs → updateLoop compute r bs = .error .tooManyMissing) := by
  induction sizes generalizing bs r with
  | nil =>
    cases bs with
    | cons b bs => simp [liveLens] at hlen
    | nil =>
      refine ⟨fun _ => ⟨[], ?_⟩, fun h => nomatch h⟩
      unfold updateLoop
      have hp : r.pending = [] := by
        rw [hr.pend, List.filter_eq_nil_iff]
        intro d hd
        have := hb d hd
        simp only [List.sum_nil, Nat.add_zero] at hc
        simp only [decide_eq_true_eq]; omega
      rw [hex rfl, hp]
      rfl
  | cons s ss ih =>
    cases bs with
    | nil => simp [liveLens] at hlen
    | cons b bs =>
      simp only [List.map_cons, liveLens, List.cons.injEq] at hlen
      obtain ⟨hbl, hlen⟩ := hlen
      obtain ⟨hs0, hsl⟩ := hrg.head hl0
      rw [List.sum_cons] at hc
      by_cases hbe : b = []
      · refine ⟨fun h => absurd hbe (h b List.mem_cons_self), fun _ => ?_⟩
        subst hbe
        obtain ⟨v, hv, hvl⟩ := hg [] List.mem_cons_self
        have hv0 : v = [] := List.length_eq_zero_iff.mp (by simpa using hvl)
        subst hv0
        apply updateLoop_empty del hdel compute hv bs r hr
        · rw [hl]; simp only [isFull, beq_eq_false_iff_ne, ne_eq]; omega
        · apply Classical.byContradiction
          intro hm
          rw [show s = 1 + (s - 1) from by omega, nd_add, nd_one, if_neg hm] at hbl
          simp at hbl
          omega
      · unfold updateLoop
        obtain ⟨v, hv, hvl⟩ := hg b List.mem_cons_self
        have hv0 : v ≠ [] := by
          intro h; rw [h] at hvl; exact hbe (List.length_eq_zero_iff.mp hvl.symm)
        obtain ⟨ds, rest, hst⟩ := restore_spec del hdel r hr v
        obtain ⟨o, ho1, ho2, ho3⟩ := hst.ok (Or.inr hv0)
        have hnk : nd del r.current o.length = v.length := nd_kept del r.current o v ho2
        have hns : nd del r.current s = v.length := by omega
        have hlast : s = l ∨ ss = [] := by
          cases ss with
          | nil => exact Or.inr rfl
          | cons t ss => exact Or.inl hrg.1
        have hcnt : v.length + (r.pending.filter (fun d => decide (d < r.current + l))).length ≤ l := by
          have h1 := nd_del del hdel r.current s
          rw [← hr.pend] at h1
          have h2 : r.pending.filter (fun d => decide (d < r.current + l)) =
              r.pending.filter (fun d => decide (d < r.current + s)) := by
            rcases hlast with h | h
            · rw [h]
            · apply List.filter_congr
              intro d hd
              rw [hr.pend] at hd
              have := hb d (List.mem_filter.mp hd).1
              rw [h] at hc
              simp only [List.sum_nil, Nat.add_zero] at hc
              rw [Bool.eq_iff_iff]
              simp only [decide_eq_true_eq]; omega
          rw [h2]; omega
        have hkl := hst.upto l hl hcnt
        have hks : o.length ≤ s := by
          rcases hlast with h | h
          · omega
          · rw [h] at hc
            simp only [List.sum_nil, Nat.add_zero] at hc
            have := step_le del total r.current v.length o.length hb (by omega) hnk (by
              rw [show total - r.current = s from by omega]; omega)
            omega
        have hsk : s ≤ o.length := by
          apply Classical.byContradiction
          intro hlt
          by_cases hm : r.current + o.length ∈ del
          · have hmr : r.current + o.length ∈ rest := by
              rw [hst.filt]
              exact List.mem_filter.mpr ⟨hm, by rw [ho1]; simp⟩
            have := hst.full _ hmr (by rw [ho1])
            rw [hl] at this
            simp only [isFull, beq_iff_eq] at this
            omega
          · have h1 : s = o.length + (1 + (s - o.length - 1)) := by omega
            rw [h1, nd_add, nd_add, nd_one, if_neg hm] at hns
            omega
        have hk : o.length = s := by omega
        have hsz : sizeOk (r.after rest o.length) o.length = true := by
          unfold sizeOk
          simp only [Restorer.after, hl, Bool.or_eq_true, beq_iff_eq, List.isEmpty_iff]
          rcases hlast with h | h
          · left; omega
          · right
            rw [hst.filt, List.filter_eq_nil_iff]
            intro d hd
            have := hb d hd
            rw [h] at hc
            simp only [List.sum_nil, Nat.add_zero] at hc
            simp only [decide_eq_true_eq]; omega
        rw [hv]
        simp only
        rw [if_neg (by omega), ho3, if_pos hsz]
        simp only
        have hih := ih bs (fun x hx => hg x (List.mem_cons_of_mem _ hx)) (r.after rest o.length) (At.after hst o.length ho1) hl (by
          show r.current + o.length + ss.sum = total; omega) hrg.tail (by
          show _ = liveLens del (r.current + o.length) ss; rw [hk]; exact hlen) (fun _ => rfl)
        refine ⟨fun h => ?_, fun h => ?_⟩
        · obtain ⟨tl, htl⟩ := hih.1 (fun x hx => h x (List.mem_cons_of_mem _ hx))
          rw [htl]
          exact ⟨_, rfl⟩
        · have : [] ∈ bs := by
            cases h with
            | head => exact absurd rfl hbe
            | tail _ h => exact h
          rw [hih.2 this]

/-! ## The batches of a fragment -/

theorem deletedOf_sorted {α : Type} (f : Frag α) (hf : f.OK) : (deletedOf f.dv).Pairwise (· < ·) := by
  unfold deletedOf
  cases h : f.dv with
  | none => exact List.Pairwise.nil
  | some d => exact sorted_sortedIter d (hf.dv d h).1

theorem deletedOf_lt {α : Type} (f : Frag α) (hf : f.OK) : ∀ d ∈ deletedOf f.dv, d < f.rows := by
  unfold deletedOf
  cases h : f.dv with
  | none => intro d hd; cases hd
  | some v => intro d hd; exact (hf.dv v h).2 d ((mem_sortedIter v d).mp hd)

theorem live_eq (dv : Option DV) (o : Nat) : live dv o = !(deletedOf dv).contains o := by
  unfold live deletedOf
  cases dv with
  | none => rfl
  | some d =>
    show (!d.contains o) = !d.sortedIter.contains o
    congr 1
    rw [Bool.eq_iff_iff, ← mem_sortedIter]
    simp

theorem liveLens_pairs {β : Type} (del : List Nat) (k : β → Nat) (pbs : List (List β)) (c n : Nat)
    (h : pbs.flatten.map k = List.range' c n) :
    (pbs.map (fun b => b.filter (fun x => !del.contains (k x)))).map List.length =
      liveLens del c (pbs.map List.length) := by
  induction pbs generalizing c n with
  | nil => rfl
  | cons b pbs ih =>
    rw [List.flatten_cons, List.map_append] at h
    have hlen := congrArg List.length h
    rw [List.length_append, List.length_map, List.length_range'] at hlen
    have hn : n = b.length + (n - b.length) := by omega
    rw [hn, ← List.range'_append_1] at h
    obtain ⟨h1, h2⟩ := List.append_inj h (by simp)
    simp only [List.map_cons, liveLens, List.cons.injEq]
    refine ⟨?_, ih _ _ h2⟩
    unfold nd
    rw [← h1, List.filter_map, List.length_map]
    rfl

/-- The sizes of the physical batches of a fragment. -/
def batchSizes {α : Type} (split : List α → List (List α)) (f : Frag α) : List Nat :=
  (split ((List.range f.rows).map f.file)).map List.length

theorem readAll_batches {α : Type} (split : List α → List (List α)) (hsp : Splits split) (f : Frag α) (hf : f.OK)
    (o : Opts) (hn : o.nulls = false) :
    ∃ bs, readAll split f o = some bs ∧ bs.flatten = ((List.range f.rows).filter (live f.dv)).map (rowAt f o) ∧
      bs.map List.length = liveLens (deletedOf f.dv) 0 (batchSizes split f) := by
  have hid : IdsRight f o .full := Or.inr (Or.inr (Or.inl rfl))
  have hl := seqLen_ok f hf o .full rfl hid
  obtain ⟨pbs, h1, h2, h3⟩ := readImpl_batches split hsp f hf o .full rfl trivial hl
  refine ⟨_, h2, ?_, ?_⟩
  · rw [flatten_out (mkCfg f o .full) hn, h1]
    exact filter_map_pairs _ _ _ _ _ _ (pairsOf_right f hf o .full rfl hid).2
  · have hfst : pbs.flatten.map (·.1) = List.range' 0 f.rows := by
      rw [h1, pairsOf_fst f o .full hl, ← List.range_eq_range']; rfl
    have h4 := liveLens_pairs (deletedOf f.dv) (·.1) pbs 0 f.rows hfst
    have h5 : batchSizes split f = pbs.map List.length := by
      unfold batchSizes
      have : toOffsetsTotal .full f.rows = List.range f.rows := C30_offsets .full f.rows hf.rows rfl trivial
      rw [this] at h3
      rw [h3, List.map_map]
      apply List.map_congr_left
      intro b _
      simp
    rw [h5, ← h4, List.map_map, List.map_map]
    apply List.map_congr_left
    intro b _
    simp only [Function.comp_def, outBatch, mkCfg, hn, Bool.false_eq_true, if_false, List.length_map]
    congr 1
    apply List.filter_congr
    intro x _
    exact live_eq f.dv x.1

theorem batchSizes_sum {α : Type} (split : List α → List (List α)) (hsp : Splits split) (f : Frag α) :
    (batchSizes split f).sum = f.rows := by
  unfold batchSizes
  have h := congrArg List.length (hsp ((List.range f.rows).map f.file))
  rw [List.length_flatten] at h
  simpa using h

theorem nd_pos {α : Type} (f : Frag α) (c s : Nat) :
    0 < nd (deletedOf f.dv) c s ↔ ∃ o, c ≤ o ∧ o < c + s ∧ live f.dv o = true := by
  unfold nd
  rw [List.length_pos_iff_exists_mem]
  constructor
  · rintro ⟨o, ho⟩
    rw [List.mem_filter, List.mem_range'_1] at ho
    exact ⟨o, ho.1.1, ho.1.2, by rw [live_eq]; exact ho.2⟩
  · rintro ⟨o, h1, h2, h3⟩
    refine ⟨o, ?_⟩
    rw [List.mem_filter, List.mem_range'_1]
    exact ⟨⟨h1, h2⟩, by rw [live_eq] at h3; exact h3⟩

end Verif.Join
