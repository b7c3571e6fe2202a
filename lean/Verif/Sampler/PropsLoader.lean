import Verif.Sampler.Loader
import Verif.Sampler.PropsShard
/-!
# C99: passes over TensorFlow batches, and the sharded iterator
-/
namespace Verif.Sampler
open Verif

theorem tfBatches_mem {total bs skip : Nat} {sh : List Nat → List Nat} (hb : 0 < bs) (hsh : ∀ l, (sh l).Perm l)
    {r : Nat × Nat} (h : r ∈ tfBatches total bs skip sh) : r.1 < r.2 ∧ r.2 ≤ total ∧ r.2 - r.1 ≤ bs := by
  unfold tfBatches at h
  obtain ⟨i, hi, hr⟩ := List.mem_map.1 h
  have h1 := List.mem_range.1 ((hsh _).mem_iff.1 ((List.drop_sublist _ _).subset hi))
  have h2 : (i + 1) * bs ≤ total + (bs - 1) := (Nat.le_div_iff_mul_le hb).1 h1
  rw [Nat.succ_mul] at h2
  rw [← hr]
  simp only [ithBatch]
  omega

theorem range_batches {total bs : Nat} (hb : 0 < bs) : ∀ n, (List.range n).flatMap (fun i =>
    List.range' (ithBatch bs total i).1 ((ithBatch bs total i).2 - (ithBatch bs total i).1)) = List.range (min (n * bs) total)
  | 0 => by simp
  | n + 1 => by
    rw [List.range_succ, List.flatMap_append, range_batches hb n]
    simp only [List.flatMap_cons, List.flatMap_nil, List.append_nil, ithBatch]
    rw [Nat.succ_mul]
    rcases Nat.lt_or_ge (n * bs) total with h | h
    · rw [Nat.min_eq_left (by omega), List.range_eq_range', List.range_eq_range']
      have := List.range'_append_1 (s := 0) (m := n * bs) (n := min (n * bs + bs) total - n * bs)
      rw [Nat.zero_add] at this
      rw [this]
      congr 1
      omega
    · rw [Nat.min_eq_right h, Nat.min_eq_right (by omega)]
      have : total - n * bs = 0 := by omega
      rw [this]
      simp

theorem tf_positions {total bs skip : Nat} (hb : 0 < bs) {sh : List Nat → List Nat} (hsh : ∀ l, (sh l).Perm l) :
    (positions (tfBatches total bs skip sh ++ ((sh (List.range ((total + (bs - 1)) / bs))).take skip).map (ithBatch bs total))).Perm
      (List.range total) := by
  unfold positions tfBatches
  simp only
  rw [← List.map_append, List.flatMap_map]
  have hp : (List.drop skip (sh (List.range ((total + (bs - 1)) / bs))) ++
      List.take skip (sh (List.range ((total + (bs - 1)) / bs)))).Perm (List.range ((total + (bs - 1)) / bs)) := by
    refine List.perm_append_comm.trans ?_
    rw [List.take_append_drop]
    exact hsh _
  refine (List.Perm.flatMap_right _ hp).trans ?_
  rw [range_batches hb]
  have : total ≤ (total + (bs - 1)) / bs * bs := by
    have h1 := Nat.div_add_mod (total + (bs - 1)) bs
    have h2 := Nat.mod_lt (total + (bs - 1)) hb
    rw [Nat.mul_comm] at h1
    omega
  rw [Nat.min_eq_right this]

/-- One pass over all batches of a dataset. -/
theorem pass_rows {α : Type} (split : List α → List (List α)) (hsp : Read.Splits split) (frags : List (Read.Frag α))
    (hd : Take.DatasetOK frags) {bs : Nat} (hb : 0 < bs) {sh : List Nat → List Nat} (hsh : ∀ l, (sh l).Perm l) :
    ∃ out, takeScan split frags (tfBatches (Take.total frags) bs 0 sh) = .ok out ∧
      out.flatten.Perm (Take.liveData frags) ∧ ∀ b ∈ out, b.length ≤ bs ∧ b ≠ [] := by
  have hm : ∀ r ∈ tfBatches (Take.total frags) bs 0 sh, r.1 < r.2 ∧ r.2 ≤ Take.total frags ∧ r.2 - r.1 ≤ bs :=
    fun r hr => tfBatches_mem hb hsh hr
  refine ⟨_, takeScan_eq split hsp frags hd _ (fun r hr => ⟨by have := hm r hr; omega, (hm r hr).2.1⟩), ?_, ?_⟩
  · rw [← List.flatMap_def, flatMap_filterMap]
    have h := tf_positions (total := Take.total frags) (skip := 0) hb hsh
    simp only [List.take_zero, List.map_nil, List.append_nil] at h
    refine (List.Perm.filterMap _ h).trans ?_
    rw [← Take.length_liveData, filterMap_range]
  · intro b hbm
    obtain ⟨r, hr, hrb⟩ := List.mem_map.1 hbm
    have h1 := hm r hr
    have hsome : ∀ o ∈ List.range' r.1 (r.2 - r.1), ((Take.liveData frags)[o]?).isSome := by
      intro o ho
      rw [List.mem_range'_1] at ho
      rw [List.getElem?_eq_getElem (by rw [Take.length_liveData]; omega)]
      rfl
    have hlen : b.length = r.2 - r.1 := by
      rw [← hrb]
      have : ∀ l : List Nat, (∀ o ∈ l, ((Take.liveData frags)[o]?).isSome) →
          (l.filterMap (fun o => (Take.liveData frags)[o]?)).length = l.length := by
        intro l
        induction l with
        | nil => intro _; rfl
        | cons a l ih =>
          intro hl
          obtain ⟨x, hx⟩ := Option.isSome_iff_exists.1 (hl a List.mem_cons_self)
          rw [List.filterMap_cons, hx]
          simp [ih (fun o ho => hl o (List.mem_cons_of_mem _ ho))]
      rw [this _ hsome, List.length_range']
    refine ⟨by omega, fun h => ?_⟩
    rw [h] at hlen
    simp at hlen
    omega

/-- Full claim: whatever iterable of the batches of the dataset is given, every pass over the resulting
dataset delivers every live row once. -/
def C99_statement : Prop :=
  ∀ (α : Type) (split : List α → List (List α)) (frags : List (Read.Frag α)) (bs n : Nat) (sh : Nat → List Nat → List Nat)
    (src : Source), Read.Splits split → Take.DatasetOK frags → 0 < bs → (∀ k l, (sh k l).Perm l) →
    (src = .again (fun k => tfBatches (Take.total frags) bs 0 (sh k)) 0 ∨
      src = .once (tfBatches (Take.total frags) bs 0 (sh 0))) →
    ∃ out, tfPasses split frags n src = .ok out ∧ out.length = n ∧
      ∀ p ∈ out, p.flatten.Perm (Take.liveData frags) ∧ ∀ b ∈ p, b.length ≤ bs ∧ b ≠ []

/-- For every dataset and batch size, and any shuffle in each pass: every pass over the batches of an
iterable that can be gone through again has every live row once, in batches that are not empty and have at
most the number of rows asked for; an iterator gives all this in the first pass.

Missing: later passes with an iterator, which deliver nothing (`C99_violated`). -/
theorem C99_passes_partial {α : Type} (split : List α → List (List α)) (hsp : Read.Splits split)
    (frags : List (Read.Frag α)) (hd : Take.DatasetOK frags) {bs : Nat} (hb : 0 < bs) (sh : Nat → List Nat → List Nat)
    (hsh : ∀ k l, (sh k l).Perm l) (n : Nat) (src : Source)
    (hsrc : src = .again (fun k => tfBatches (Take.total frags) bs 0 (sh k)) 0 ∨
      (n ≤ 1 ∧ src = .once (tfBatches (Take.total frags) bs 0 (sh 0)))) :
    ∃ out, tfPasses split frags n src = .ok out ∧ out.length = n ∧
      ∀ p ∈ out, p.flatten.Perm (Take.liveData frags) ∧ ∀ b ∈ p, b.length ≤ bs ∧ b ≠ [] := by
  rcases hsrc with hsrc | ⟨hn, hsrc⟩
  · subst hsrc
    have key : ∀ n k, ∃ out, tfPasses split frags n (.again (fun k => tfBatches (Take.total frags) bs 0 (sh k)) k) = .ok out ∧
        out.length = n ∧ ∀ p ∈ out, p.flatten.Perm (Take.liveData frags) ∧ ∀ b ∈ p, b.length ≤ bs ∧ b ≠ [] := by
      intro n
      induction n with
      | zero => intro k; exact ⟨[], rfl, rfl, fun p hp => (nomatch hp)⟩
      | succ n ih =>
        intro k
        obtain ⟨p, h1, h2⟩ := pass_rows split hsp frags hd hb (hsh k)
        obtain ⟨out, h3, h4, h5⟩ := ih (k + 1)
        refine ⟨p :: out, ?_, by simp [h4], ?_⟩
        · simp only [tfPasses, Source.run]
          rw [h1, h3]
        · intro q hq
          rcases List.mem_cons.1 hq with h | h
          · subst h; exact h2
          · exact h5 q h
    exact key n 0
  · subst hsrc
    match n, hn with
    | 0, _ => exact ⟨[], rfl, rfl, fun p hp => (nomatch hp)⟩
    | 1, _ =>
      obtain ⟨p, h1, h2⟩ := pass_rows split hsp frags hd hb (hsh 0)
      refine ⟨[p], ?_, rfl, ?_⟩
      · simp only [tfPasses, Source.run]
        rw [h1]
      · intro q hq
        rw [List.mem_singleton.1 hq]
        exact h2

/-- The composition in the documentation of `lance_take_batches` hands over an iterator: the second pass over
the dataset has no rows. -/
theorem C99_violated : ¬ C99_statement := by
  intro h
  obtain ⟨out, h1, h2, h3⟩ := h Nat Take.one Take.sample 2 2 (fun _ l => l)
    (.once (tfBatches (Take.total Take.sample) 2 0 (fun l => l))) Take.one_splits Take.sample_ok (by decide)
    (fun _ _ => List.Perm.refl _) (.inr rfl)
  have hex : (match tfPasses Take.one Take.sample 2 (.once (tfBatches (Take.total Take.sample) 2 0 (fun l => l))) with
    | .ok o => decide (o = [[[51, 52], [54, 70], [71, 72]], []])
    | .error _ => false) = true := by decide +kernel
  rw [h1] at hex
  have ho := of_decide_eq_true hex
  subst ho
  have := (h3 [] (by simp)).1.length_eq
  rw [Take.length_liveData] at this
  exact absurd this (by decide)

/-- Without shuffling, `skip` leaves out exactly the first batches: the rows of the pass are the live rows
from row `skip * batch_size` on, in order. -/
theorem C99_skip {α : Type} (split : List α → List (List α)) (hsp : Read.Splits split) (frags : List (Read.Frag α))
    (hd : Take.DatasetOK frags) {bs : Nat} (hb : 0 < bs) (skip : Nat) :
    ∃ out, takeScan split frags (tfBatches (Take.total frags) bs skip (fun l => l)) = .ok out ∧
      out.flatten = (Take.liveData frags).drop (skip * bs) := by
  have hm : ∀ r ∈ tfBatches (Take.total frags) bs skip (fun l => l), r.1 < r.2 ∧ r.2 ≤ Take.total frags ∧ r.2 - r.1 ≤ bs :=
    fun r hr => tfBatches_mem hb (fun _ => List.Perm.refl _) hr
  refine ⟨_, takeScan_eq split hsp frags hd _ (fun r hr => ⟨by have := hm r hr; omega, (hm r hr).2.1⟩), ?_⟩
  rw [← List.flatMap_def, flatMap_filterMap]
  generalize hn : (Take.total frags + (bs - 1)) / bs = n
  have hall := range_batches (total := Take.total frags) hb n
  have hfirst := range_batches (total := Take.total frags) hb (min skip n)
  have hsplit : List.range n = List.range (min skip n) ++ (List.range n).drop skip := by
    have := List.take_append_drop skip (List.range n)
    rw [List.take_range] at this
    exact this.symm
  rw [hsplit, List.flatMap_append, hfirst] at hall
  have hcov : Take.total frags ≤ n * bs := by
    have h1 := Nat.div_add_mod (Take.total frags + (bs - 1)) bs
    have h2 := Nat.mod_lt (Take.total frags + (bs - 1)) hb
    rw [hn, Nat.mul_comm] at h1
    omega
  rw [Nat.min_eq_right hcov] at hall
  have hpos : (tfBatches (Take.total frags) bs skip (fun l => l)).flatMap (fun r => List.range' r.1 (r.2 - r.1)) =
      (List.range (Take.total frags)).drop (skip * bs) := by
    unfold tfBatches
    simp only
    rw [hn, List.flatMap_map]
    have hd2 := congrArg (List.drop (min (min skip n * bs) (Take.total frags))) hall
    rw [List.drop_append_of_le_length (by simp)] at hd2
    rw [List.drop_of_length_le (by simp), List.nil_append] at hd2
    rw [hd2]
    rcases Nat.le_total skip n with h | h
    · rw [Nat.min_eq_left h]
      rcases Nat.le_total (skip * bs) (Take.total frags) with h' | h'
      · rw [Nat.min_eq_left h']
      · rw [Nat.min_eq_right h', List.drop_of_length_le (by simp), List.drop_of_length_le (by simpa using h')]
    · have : n * bs ≤ skip * bs := Nat.mul_le_mul_right _ h
      rw [Nat.min_eq_right h, Nat.min_eq_right hcov, List.drop_of_length_le (by simp),
        List.drop_of_length_le (by simp; omega)]
  rw [hpos]
  have : ∀ (l : List α) (k : Nat), ((List.range l.length).drop k).filterMap (fun o => l[o]?) = l.drop k := by
    intro l k
    rw [List.range_eq_range', List.drop_range']
    have hf := filterMap_range (l.drop k)
    rw [List.length_drop] at hf
    rw [← hf]
    have hr : List.range' (0 + k * 1) (l.length - k) = (List.range (l.length - k)).map (k + ·) := by
      rw [List.range_eq_range', List.map_add_range']
      simp
    rw [hr, List.filterMap_map]
    have hfun : ((fun o => l[o]?) ∘ fun x => k + x) = fun o => (l.drop k)[o]? := by
      funext o
      simp
    rw [hfun]
  rw [← Take.length_liveData]
  exact this _ _

example : rowsOf (takeScan Take.one Take.sample (tfBatches (Take.total Take.sample) 2 1 (fun l => l))) =
    some [[54, 70], [71, 72]] := by decide +kernel

/-- Two passes over a dataset with deletions, the second in another order. -/
theorem C99_nonvacuous :
    ∃ (frags : List (Read.Frag Nat)) (src : Source), Take.DatasetOK frags ∧ 2 < Take.total frags ∧
      (match tfPasses Take.one frags 2 src with
        | .ok o => decide (o = [[[51, 52], [54, 70], [71, 72]], [[71, 72], [54, 70], [51, 52]]])
        | .error _ => false) = true :=
  ⟨Take.sample, .again (fun k => tfBatches (Take.total Take.sample) 2 0 (if k = 0 then id else List.reverse)) 0,
    Take.sample_ok, by decide, by decide +kernel⟩

/-! ## The sharded iterator -/

/-- `ShardedBatchIterator`, both granularities: all ranks together deliver the live rows, each once. -/
theorem C99_sharded_iterator {α : Type} (split : List α → List (List α)) (hsp : Read.Splits split)
    (frags : List (Read.Frag α)) (hd : Take.DatasetOK frags) (scan : Read.Frag α → List (List α))
    (hscan : ∀ f, (scan f).flatten = (Read.liveOffsets f).map f.file) (bs size : Nat) (hb : 0 < bs) (hs : 0 < size) :
    ((List.range size).flatMap (fun rank => (shardFragments scan frags rank size).flatten)).Perm (Take.liveData frags) ∧
    ∃ out : Nat → List (List α), (∀ rank, shardBatches split frags bs rank size = .ok (out rank)) ∧
      ((List.range size).flatMap (fun rank => (out rank).flatten)).Perm (Take.liveData frags) := by
  constructor
  · have hp := C40_fragments false id (fun _ => List.Perm.refl _) frags size hs
    have h1 : ∀ rank, (shardFragments scan frags rank size).flatten =
        (iterFragments false id frags rank size).flatMap (fun f => (Read.liveOffsets f).map f.file) := by
      intro rank
      have : ∀ l : List (Read.Frag α), (l.flatMap scan).flatten = l.flatMap (fun f => (Read.liveOffsets f).map f.file) := by
        intro l
        induction l with
        | nil => rfl
        | cons f l ih => rw [List.flatMap_cons, List.flatten_append, ih, hscan, List.flatMap_cons]
      exact this _
    simp only [h1]
    have h2 := List.Perm.flatMap_right (fun f => (Read.liveOffsets f).map f.file) hp
    rw [List.flatMap_assoc] at h2
    exact h2
  · exact C40_rows split hsp frags hd false id (fun _ => List.Perm.refl _) bs size hb hs

example : (List.range 2).map (fun r => rowsOf (shardBatches Take.one Take.sample 2 r 2)) =
    [some [[51, 52], [71, 72]], some [[54, 70]]] := by decide +kernel

end Verif.Sampler
