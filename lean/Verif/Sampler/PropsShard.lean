import Verif.Sampler.Lemmas
import Verif.Take.PropsOffset

/-!
# C40: the sharded samplers split the data
-/
namespace Verif.Sampler
open Verif

/-! ## Fragments -/

/-- **C40 (fragments).** For every number of ranks, the fragments yielded by all ranks together are the fragments of
the dataset, each once; also if they are shuffled (all ranks with the same seed, so with the same shuffle). -/
theorem C40_fragments {β : Type} (randomize : Bool) (shuffle : List β → List β) (hsh : ∀ l, (shuffle l).Perm l)
    (frags : List β) (size : Nat) (hs : 0 < size) :
    ((List.range size).flatMap (fun rank => iterFragments randomize shuffle frags rank size)).Perm frags := by
  generalize hfs : (if randomize then shuffle frags else frags) = fs
  have hp : fs.Perm frags := by
    rw [← hfs]
    split
    · exact hsh frags
    · exact List.Perm.refl _
  have e : (List.range size).flatMap (fun rank => iterFragments randomize shuffle frags rank size) =
      ((List.range size).flatMap (fun rank => pyRange rank fs.length size)).filterMap (fun i => fs[i]?) := by
    rw [← flatMap_filterMap]
    simp only [iterFragments, hfs]
  rw [e]
  refine List.Perm.trans ?_ hp
  refine List.Perm.trans (List.Perm.filterMap _ (owners_perm fs.length size (· % size) _ ?_ ?_ ?_)) ?_
  · intro p _; exact Nat.mod_lt _ hs
  · intro r _; exact pyRange_nodup _ _ _ hs
  · intro r hr p
    rw [mem_pyRange _ _ _ _ hs]
    constructor
    · rintro ⟨h1, h2, h3⟩
      refine ⟨h2, ?_⟩
      have : p = (p - r) / size * size + r := by
        rw [Nat.div_mul_cancel (Nat.dvd_of_mod_eq_zero h3)]; omega
      rw [this, Nat.mul_add_mod_self_right, Nat.mod_eq_of_lt hr]
    · rintro ⟨h1, h2⟩
      subst h2
      refine ⟨Nat.mod_le _ _, h1, ?_⟩
      rw [show p - p % size = size * (p / size) by have := Nat.div_add_mod p size; omega]
      exact Nat.mul_mod_right _ _
  · rw [filterMap_range]

example : (List.range 3).map (fun r => iterFragments false id [10, 20, 30, 40, 50] r 3) = [[10, 40], [20, 50], [30]] := by
  decide
example : (List.range 2).map (fun r => iterFragments true List.reverse [10, 20, 30] r 2) = [[30, 10], [20]] := by
  decide

/-- **C40 (balance).** The numbers of fragments of two ranks differ by at most one. -/
theorem C40_balanced {β : Type} (randomize : Bool) (shuffle : List β → List β) (frags : List β) (size : Nat) (r r' : Nat) (hr : r < size) (hr' : r' < size) :
    (iterFragments randomize shuffle frags r size).length ≤
      (iterFragments randomize shuffle frags r' size).length + 1 := by
  generalize hfs : (if randomize then shuffle frags else frags) = fs
  have hl : ∀ rank, (iterFragments randomize shuffle frags rank size).length =
      (fs.length - rank + (size - 1)) / size := by
    intro rank
    simp only [iterFragments, hfs]
    rw [← length_pyRange]
    have : ∀ i ∈ pyRange rank fs.length size, (fs[i]?).isSome := by
      intro i hi
      have := ((mem_pyRange _ _ _ _ (by omega)).mp hi).2.1
      simp [this]
    generalize pyRange rank fs.length size = l at this
    induction l with
    | nil => rfl
    | cons a l ih =>
      have h1 := this a List.mem_cons_self
      rw [List.filterMap_cons]
      cases hc : fs[a]? with
      | none => rw [hc] at h1; cases h1
      | some x => simp [ih (fun i hi => this i (List.mem_cons_of_mem _ hi))]
  rw [hl, hl]
  have h1 : (fs.length - r + (size - 1)) / size ≤ (fs.length - r' + (size - 1) + size) / size :=
    Nat.div_le_div_right (by omega)
  rw [Nat.add_div_right _ (by omega)] at h1
  exact h1

example : iterFragments false id [10, 20, 30, 40, 50] 0 3 = [10, 40] ∧ iterFragments false id [10, 20, 30, 40, 50] 2 3 = [30] := by
  decide

/-- **C40 (ranks of workers).** Every worker of every process has its own global rank below the global size, and
every such rank belongs to a worker. -/
theorem C40_global_rank (distSize workers : Nat) :
    ((List.range distSize).flatMap (fun d => (List.range workers).map (fun w => globalRank d workers w))) =
      List.range (globalSize distSize workers) := by
  unfold globalSize globalRank
  induction distSize with
  | zero => simp
  | succ n ih =>
    rw [List.range_succ, List.flatMap_append, ih, Nat.add_mul, Nat.one_mul]
    simp [List.range_add]

example : globalRank 1 3 2 = 5 ∧ globalSize 2 3 = 6 := by decide

/-! ## Row ranges -/

/-- Positions in the ranges. -/
def positions (ranges : List (Nat × Nat)) : List Nat := ranges.flatMap (fun r => List.range' r.1 (r.2 - r.1))

theorem mem_positions (total bs rank size : Nat) (hb : 0 < bs) (hr : rank < size) (p : Nat) :
    p ∈ positions (genRanges total bs rank size) ↔ p < total ∧ (p / bs) % size = rank := by
  have hpos : 0 < size * bs := Nat.mul_pos (by omega) hb
  unfold positions genRanges
  rw [List.flatMap_map, List.mem_flatMap]
  simp only [mem_pyRange _ _ _ _ hpos, List.mem_range'_1]
  constructor
  · rintro ⟨s, ⟨h1, h2, h3⟩, h4, h5⟩
    have hp : p < total ∧ p < s + bs := by omega
    refine ⟨hp.1, ?_⟩
    obtain ⟨k, hk⟩ := Nat.dvd_of_mod_eq_zero h3
    have hs : s = (rank + size * k) * bs := by
      rw [Nat.add_mul, show size * k * bs = size * bs * k by rw [Nat.mul_assoc, Nat.mul_comm k, ← Nat.mul_assoc]]
      omega
    have : p / bs = rank + size * k := by
      apply Nat.div_eq_of_lt_le
      · rw [← hs]; exact h4
      · rw [Nat.add_mul, ← hs]; omega
    rw [this, Nat.add_mul_mod_self_left, Nat.mod_eq_of_lt hr]
  · rintro ⟨h1, h2⟩
    have e1 := Nat.div_add_mod p bs
    have e2 := Nat.mod_lt p hb
    have e3 := Nat.div_add_mod (p / bs) size
    rw [Nat.mul_comm bs] at e1
    refine ⟨p / bs * bs, ⟨?_, by omega, ?_⟩, by omega, by omega⟩
    · apply Nat.mul_le_mul_right
      omega
    · rw [← Nat.sub_mul, show p / bs - rank = size * (p / bs / size) by omega,
        Nat.mul_assoc, Nat.mul_comm (p / bs / size), ← Nat.mul_assoc]
      exact Nat.mul_mod_right _ _

theorem nodup_positions (total bs rank size : Nat) (hb : 0 < bs) (hr : rank < size) :
    (positions (genRanges total bs rank size)).Nodup := by
  have hpos : 0 < size * bs := Nat.mul_pos (by omega) hb
  unfold positions genRanges List.Nodup
  rw [List.flatMap_map, List.pairwise_flatMap]
  constructor
  · intro s _
    exact (List.pairwise_lt_range' : (List.range' s _).Pairwise (· < ·)).imp (by intro a b h; omega)
  · refine List.Pairwise.imp_of_mem ?_ (pyRange_sorted _ _ _ hpos)
    intro a b ha hb' hab x hx y hy
    rw [mem_pyRange _ _ _ _ hpos] at ha hb'
    simp only [List.mem_range'_1] at hx hy
    have : a + bs ≤ b := by
      obtain ⟨k1, hk1⟩ := Nat.dvd_of_mod_eq_zero ha.2.2
      obtain ⟨k2, hk2⟩ := Nat.dvd_of_mod_eq_zero hb'.2.2
      have h1 : size * bs * k1 < size * bs * k2 := by omega
      have h2 : k1 < k2 := Nat.lt_of_mul_lt_mul_left h1
      have h3 : size * bs * (k1 + 1) ≤ size * bs * k2 := Nat.mul_le_mul_left _ h2
      rw [Nat.mul_add, Nat.mul_one] at h3
      have h4 : bs ≤ size * bs := Nat.le_mul_of_pos_left _ (by omega)
      omega
    omega

/-- **C40 (row ranges).** For every number of ranks, batch size and length, the positions in the ranges of all ranks
are all positions, each once; every range is not empty and not longer than a batch, and all but the last are full. -/
theorem C40_ranges (total bs size : Nat) (hb : 0 < bs) (hs : 0 < size) :
    ((List.range size).flatMap (fun rank => positions (genRanges total bs rank size))).Perm (List.range total) ∧
    ∀ rank, ∀ r ∈ genRanges total bs rank size, r.1 < r.2 ∧ r.2 ≤ total ∧ r.2 - r.1 ≤ bs ∧
      (r.2 < total → r.2 - r.1 = bs) := by
  constructor
  · refine owners_perm total size (fun p => (p / bs) % size) _ ?_ ?_ ?_
    · intro p _; exact Nat.mod_lt _ hs
    · intro r hr; exact nodup_positions total bs r size hb hr
    · intro r hr p; exact mem_positions total bs r size hb hr p
  · intro rank r hr
    unfold genRanges at hr
    obtain ⟨s, h1, rfl⟩ := List.mem_map.mp hr
    have := (mem_pyRange _ _ _ _ (Nat.mul_pos hs hb)).mp h1
    simp only
    omega

example : (List.range 2).map (fun r => genRanges 11 3 r 2) = [[(0, 3), (6, 9)], [(3, 6), (9, 11)]] := by decide

/-! ## Rows without a filter -/

theorem take_eq {α : Type} (split : List α → List (List α)) (hsp : Read.Splits split) (frags : List (Read.Frag α))
    (hd : Take.DatasetOK frags) (offsets : List Nat) (hlt : ∀ o ∈ offsets, o < Take.total frags) :
    Take.take split frags offsets = .ok (offsets.filterMap (fun o => (Take.liveData frags)[o]?)) := by
  obtain ⟨rows, h1, h2, h3⟩ := Take.C31_take split hsp frags hd offsets hlt
  rw [h1]
  congr 1
  clear h1
  induction offsets generalizing rows with
  | nil => cases rows with
    | nil => rfl
    | cons a l => simp at h2
  | cons o os ih => cases rows with
    | nil => simp at h2
    | cons a l =>
      have h4 := h3 0 o rfl
      simp only [List.getElem?_cons_zero] at h4
      rw [List.filterMap_cons, ← h4]
      show a :: l = a :: _
      rw [ih (fun p hp => hlt p (List.mem_cons_of_mem _ hp)) l (by simpa using h2)
        (fun k p hk => h3 (k + 1) p (by simpa using hk))]

theorem takeScan_eq {α : Type} (split : List α → List (List α)) (hsp : Read.Splits split) (frags : List (Read.Frag α))
    (hd : Take.DatasetOK frags) (ranges : List (Nat × Nat)) (hlt : ∀ r ∈ ranges, r.1 ≤ r.2 ∧ r.2 ≤ Take.total frags) :
    takeScan split frags ranges = .ok (ranges.map (fun r =>
      (List.range' r.1 (r.2 - r.1)).filterMap (fun o => (Take.liveData frags)[o]?))) := by
  induction ranges with
  | nil => rfl
  | cons r rs ih =>
    have hr := hlt r List.mem_cons_self
    unfold takeScan
    rw [take_eq split hsp frags hd _ (by intro o ho; rw [List.mem_range'_1] at ho; omega),
      ih (fun q hq => hlt q (List.mem_cons_of_mem _ hq))]
    rfl

theorem countRows_total {α : Type} (frags : List (Read.Frag α)) (hd : ∀ f ∈ frags, f.OK) :
    (frags.map Read.countRows).sum = Take.total frags := by
  unfold Take.total
  congr 1
  apply List.map_congr_left
  intro f hf
  exact Read.countRows_eq f (hd f hf)

/-- **C40 (rows, no filter).** For every dataset, number of ranks, batch size and shuffle, `ShardedBatchSampler`
succeeds on every rank, and all ranks together deliver the live rows of the dataset, each once. -/
theorem C40_rows {α : Type} (split : List α → List (List α)) (hsp : Read.Splits split) (frags : List (Read.Frag α))
    (hd : Take.DatasetOK frags) (randomize : Bool) (shuffle : List (Nat × Nat) → List (Nat × Nat))
    (hsh : ∀ l, (shuffle l).Perm l) (bs size : Nat) (hb : 0 < bs) (hs : 0 < size) :
    ∃ out : Nat → List (List α),
      (∀ rank, sampleAll split frags randomize shuffle bs rank size = .ok (out rank)) ∧
      ((List.range size).flatMap (fun rank => (out rank).flatten)).Perm (Take.liveData frags) := by
  have hc := countRows_total frags hd.1
  refine ⟨fun rank => (if randomize then shuffle (genRanges (Take.total frags) bs rank size)
      else genRanges (Take.total frags) bs rank size).map (fun r =>
      (List.range' r.1 (r.2 - r.1)).filterMap (fun o => (Take.liveData frags)[o]?)), ?_, ?_⟩
  · intro rank
    unfold sampleAll
    rw [hc]
    apply takeScan_eq split hsp frags hd
    intro r hr
    have hr' : r ∈ genRanges (Take.total frags) bs rank size := by
      split at hr
      · exact (hsh _).mem_iff.mp hr
      · exact hr
    have := (C40_ranges (Take.total frags) bs size hb hs).2 rank r hr'
    omega
  · have e : ∀ rank, (((if randomize then shuffle (genRanges (Take.total frags) bs rank size)
        else genRanges (Take.total frags) bs rank size).map (fun r =>
        (List.range' r.1 (r.2 - r.1)).filterMap (fun o => (Take.liveData frags)[o]?))).flatten).Perm
        ((positions (genRanges (Take.total frags) bs rank size)).filterMap (fun o => (Take.liveData frags)[o]?)) := by
      intro rank
      rw [← List.flatMap_def, flatMap_filterMap]
      apply List.Perm.filterMap
      unfold positions
      apply List.Perm.flatMap_right
      split
      · exact hsh _
      · exact List.Perm.refl _
    have h2 : ∀ l : List Nat, (l.flatMap (fun rank => (((if randomize then shuffle (genRanges (Take.total frags) bs rank size)
        else genRanges (Take.total frags) bs rank size).map (fun r =>
        (List.range' r.1 (r.2 - r.1)).filterMap (fun o => (Take.liveData frags)[o]?))).flatten))).Perm
        (l.flatMap (fun rank => (positions (genRanges (Take.total frags) bs rank size)).filterMap
          (fun o => (Take.liveData frags)[o]?))) := by
      intro l
      induction l with
      | nil => exact List.Perm.refl _
      | cons a l ih => rw [List.flatMap_cons, List.flatMap_cons]; exact (e a).append ih
    refine (h2 _).trans ?_
    rw [flatMap_filterMap]
    refine (List.Perm.filterMap _ (C40_ranges (Take.total frags) bs size hb hs).1).trans ?_
    rw [← Take.length_liveData, filterMap_range]

/-- The output, for examples. -/
def rowsOf {β : Type} (r : Except Take.Fault (List (List β))) : Option (List (List β)) :=
  match r with | .ok l => some l | .error _ => none

example : (List.range 2).map (fun r => rowsOf (sampleAll Take.one Take.sample true List.reverse 2 r 2)) =
    [some [[71, 72], [51, 52]], some [[54, 70]]] := by decide +kernel

end Verif.Sampler
