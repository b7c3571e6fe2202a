import Verif.Take.PropsAddr

/-!
# C31: taking rows by position
-/
namespace Verif.Take
open Verif
open Verif.Read (Frag Row Opts Cell readImpl takeRange countRows live rowAt expected requested validLen Proper
  Splits liveOffsets)
open Verif.Deletion (DV Mapper mapOffset Outcome IsNthLive liveBelow)

variable {α : Type}

/-- Addresses of the live rows of the dataset, in scan order. -/
def liveAddrs (frags : List (Frag α)) : List Nat := frags.flatMap (fun f => (liveOffsets f).map (f.id * U32 + ·))

/-- Values of the live rows of the dataset, in scan order. -/
def liveData (frags : List (Frag α)) : List α := frags.flatMap (fun f => (liveOffsets f).map f.file)

/-- Number of live rows. -/
def total (frags : List (Frag α)) : Nat := (frags.map (fun f => (liveOffsets f).length)).sum

theorem length_liveAddrs (frags : List (Frag α)) : (liveAddrs frags).length = total frags := by
  induction frags with
  | nil => rfl
  | cons f fs ih => simp [liveAddrs, total] at *

theorem length_liveData (frags : List (Frag α)) : (liveData frags).length = total frags := by
  induction frags with
  | nil => rfl
  | cons f fs ih => simp [liveData, total] at *

/-! ## The mapper with a state -/

/-- The state cannot skip live row `o` or any later one. -/
def MapOK (d : DV) (m : Mapper) (o : Nat) : Prop :=
  ∀ o' a, o ≤ o' → IsNthLive d.contains o' a → m.left ≤ a ∧ o' + m.lastDiff ≤ a ∧ m.left ≤ o' + m.lastDiff

theorem mapOK_init (d : DV) (o : Nat) : MapOK d {} o := by
  intro o' a _ ha
  have := Deletion.deleted_live d.contains a
  rw [ha.2] at this
  refine ⟨Nat.zero_le _, ?_, Nat.zero_le _⟩
  show o' + 0 ≤ a
  omega

/-- Live rows of a fragment by their number. -/
theorem liveOffsets_nth (f : Frag α) (d : DV) (hd : f.dv = some d) (l a : Nat) (h : (liveOffsets f)[l]? = some a) :
    IsNthLive d.contains l a := by
  have hf : liveOffsets f = (List.range f.rows).filter (fun i => !d.contains i) := by
    unfold liveOffsets; rw [hd]; rfl
  rw [hf] at h
  obtain ⟨h1, h2⟩ := Read.map_liveBelow d.contains f.rows
  have hlt := (List.getElem?_eq_some_iff.mp h).1
  have hmem := List.mem_of_getElem? h
  rw [List.mem_filter] at hmem
  refine ⟨by simpa using hmem.2, ?_⟩
  have : (((List.range f.rows).filter (fun i => !d.contains i)).map (liveBelow d.contains))[l]? =
      some (liveBelow d.contains a) := by rw [List.getElem?_map, h]; rfl
  rw [h1, List.getElem?_range' (by simpa using hlt)] at this
  simp at this
  exact this.symm

theorem mapOffset_ok (f : Frag α) (hf : f.OK) (d : DV) (hd : f.dv = some d) (m : Mapper) (l a : Nat)
    (ha : (liveOffsets f)[l]? = some a) (hm : MapOK d m l) :
    ∃ m', mapOffset d (2 ^ 34) m l = .ok a m' ∧ MapOK d m' l := by
  obtain ⟨hw, hb⟩ := hf.dv d hd
  have hn := liveOffsets_nth f d hd l a ha
  obtain ⟨k1, k2, k3⟩ := hm l a (Nat.le_refl _) hn
  have hl : l + d.len < f.rows := by
    have h1 := (List.getElem?_eq_some_iff.mp ha).1
    have h2 := Read.countRows_eq f hf
    have h3 := Deletion.len_eq_countBelow d hw f.rows hb
    have h4 := Deletion.countBelow_le d.contains f.rows
    unfold countRows at h2
    rw [hd] at h2
    simp only at h2
    omega
  have hrows := hf.rows
  have e1 := Deletion.deleted_live d.contains a
  have l1 := Deletion.countBelow_le_len d hw a
  rw [hn.2] at e1
  obtain ⟨left, h1, h2⟩ := Deletion.mapLoop_correct d hw l a hn (2 ^ 34) m.left (l + d.len) (l + m.lastDiff)
    k1 (by omega) k3 (by omega) (by omega) (by omega) (by split <;> omega)
  refine ⟨⟨left, a - l⟩, ?_, ?_⟩
  · unfold mapOffset
    rw [if_neg (by omega), if_neg (by omega), h1]
  · intro o' a' ho' ha'
    have e2 := Deletion.deleted_live d.contains a'
    rw [ha'.2] at e2
    have hle : a ≤ a' := by
      false_or_by_contra
      have h3 := Deletion.liveBelow_mono d.contains (a := a' + 1) (b := a) (by omega)
      rw [Deletion.liveBelow_succ, ha'.1, ha'.2, hn.2] at h3
      simp at h3; omega
    have m1 := Deletion.countBelow_mono d.contains hle
    refine ⟨?_, ?_, ?_⟩
    · show left ≤ a'; omega
    · show o' + (a - l) ≤ a'; omega
    · show left ≤ o' + (a - l); omega

/-! ## The walk -/

/-- State of the walk: rows of the fragments already passed, the mapper fits the next offsets. -/
def WalkOK (frags : List (Frag α)) (m : Mapper) (l : Nat) : Prop :=
  match frags with
  | [] => True
  | f :: _ => ∀ d, f.dv = some d → MapOK d m l

theorem seek_spec (frags : List (Frag α)) (hok : ∀ f ∈ frags, f.OK) (fo : Nat) (m : Mapper) (o : Nat) (ho : fo ≤ o)
    (hw : WalkOK frags m (o - fo)) :
    let r := seek frags fo m o
    (∃ pre, frags = pre ++ r.1 ∧ r.2.1 = fo + total pre) ∧ r.2.1 ≤ o ∧
    WalkOK r.1 r.2.2 (o - r.2.1) ∧ (∀ f fs, r.1 = f :: fs → o - r.2.1 < (liveOffsets f).length) := by
  induction frags generalizing fo m with
  | nil => exact ⟨⟨[], rfl, rfl⟩, ho, trivial, by intro f fs h; cases h⟩
  | cons f fs ih =>
    simp only
    unfold seek
    split
    · rename_i hge
      have hc := Read.countRows_eq f (hok f List.mem_cons_self)
      have hw' : WalkOK fs {} (o - (fo + countRows f)) := by
        cases fs with
        | nil => trivial
        | cons g gs => intro d _; exact mapOK_init d _
      obtain ⟨⟨pre, h1, h2⟩, h3, h4, h5⟩ := ih (fun g hg => hok g (List.mem_cons_of_mem _ hg)) (fo + countRows f) {} hge hw'
      refine ⟨⟨f :: pre, by rw [List.cons_append, ← h1], ?_⟩, h3, h4, h5⟩
      rw [h2, hc]
      simp only [total, List.map_cons, List.sum_cons]
      omega
    · rename_i hlt
      have hc := Read.countRows_eq f (hok f List.mem_cons_self)
      refine ⟨⟨[], rfl, by simp [total]⟩, ho, hw, ?_⟩
      intro g gs h
      cases h
      show o - fo < _
      omega

theorem liveAddrs_append (a b : List (Frag α)) : liveAddrs (a ++ b) = liveAddrs a ++ liveAddrs b := by
  simp [liveAddrs]

theorem walk_spec (all : List (Frag α)) (hok : ∀ f ∈ all, f.OK) (hid : ∀ f ∈ all, f.id < U32) (os : List Nat)
    (frags pre : List (Frag α)) (hall : all = pre ++ frags) (m : Mapper) (hs : os.Pairwise (· ≤ ·))
    (hge : ∀ o ∈ os, total pre ≤ o)
    (hw : ∀ o os', os = o :: os' → WalkOK frags m (o - total pre)) :
    walk (2 ^ 34) frags (total pre) m os = some (os.map (fun o => (liveAddrs all)[o]?.getD tombstone)) := by
  induction os generalizing frags pre m with
  | nil => cases frags <;> rfl
  | cons o os ih =>
    have hsub : ∀ f ∈ frags, f ∈ all := by intro f hf; rw [hall]; exact List.mem_append_right _ hf
    obtain ⟨⟨mid, h1, h2⟩, h3, h4, h5⟩ := seek_spec frags (fun f hf => hok f (hsub f hf)) (total pre) m o
      (hge o List.mem_cons_self) (hw o os rfl)
    have hpre : total (pre ++ mid) = total pre + total mid := by simp [total]
    have hs' := (List.pairwise_cons.1 hs).2
    have hle := (List.pairwise_cons.1 hs).1
    rw [walk]
    cases hr : seek frags (total pre) m o with
    | mk rest r2 =>
      obtain ⟨fo', m'⟩ := r2
      rw [hr] at h1 h2 h3 h4 h5
      simp only at h1 h2 h3 h4 h5
      have hfo : fo' = total (pre ++ mid) := by rw [h2, hpre]
      have hall' : all = (pre ++ mid) ++ rest := by rw [hall, h1, List.append_assoc]
      cases rest with
      | nil =>
        simp only
        rw [hfo, ih [] (pre ++ mid) hall' m' hs' (by
          intro x hx; have := hle x hx; omega) (by intro x xs _; trivial)]
        simp only [Option.map_some, List.map_cons, Option.some.injEq, List.cons.injEq, and_true]
        rw [List.getElem?_eq_none]
        · rfl
        · rw [length_liveAddrs, hall', List.append_nil]; omega
      | cons f fs =>
        simp only
        have hfall : f ∈ all := by rw [hall']; simp
        have hfok := hok f hfall
        have hlt := h5 f fs rfl
        have hlen : (liveOffsets f).length ≤ f.rows := by
          unfold liveOffsets
          have := List.length_filter_le (live f.dv) (List.range f.rows)
          simpa using this
        have hrows := hfok.rows
        have hmod : (o - fo') % U32 = o - fo' := Nat.mod_eq_of_lt (by omega)
        have haddr : (liveAddrs all)[o]? = some (f.id * U32 + (liveOffsets f)[o - fo']'hlt) := by
          have hla : (liveAddrs (pre ++ mid)).length = fo' := by rw [length_liveAddrs, hfo]
          rw [hall', liveAddrs_append, List.getElem?_append_right (by rw [hla]; exact h3), hla]
          show (((liveOffsets f).map (f.id * U32 + ·)) ++ liveAddrs fs)[o - fo']? = _
          rw [List.getElem?_append_left (by simpa using hlt), List.getElem?_map, List.getElem?_eq_getElem hlt]
          rfl
        -- one step
        have hstep : ∃ m'', localOffset (2 ^ 34) f m' (o - fo') = .ok ((liveOffsets f)[o - fo']'hlt) m'' ∧
            ∀ x, o ≤ x → WalkOK (f :: fs) m'' (x - fo') := by
          unfold localOffset
          cases hdv : f.dv with
          | none =>
            refine ⟨m', ?_, ?_⟩
            · have : liveOffsets f = List.range f.rows := by
                unfold liveOffsets
                rw [hdv]
                exact List.filter_eq_self.mpr (by simp [live])
              simp only [hmod, this, List.getElem_range]
            · intro x _ d hd; rw [hdv] at hd; cases hd
          | some d =>
            obtain ⟨m'', e1, e2⟩ := mapOffset_ok f hfok d hdv m' (o - fo') _ (List.getElem?_eq_getElem hlt) (h4 d hdv)
            refine ⟨m'', by simp only [hmod]; exact e1, ?_⟩
            intro x hx d' hd'
            rw [hdv] at hd'; cases hd'
            intro o' a ho' ha
            exact e2 o' a (by omega) ha
        obtain ⟨m'', e1, e2⟩ := hstep
        rw [e1]
        simp only
        have hrec := ih (f :: fs) (pre ++ mid) hall' m'' hs' (by
            intro x hx; have := hle x hx; omega) (by
            intro x xs hx
            rw [← hfo]
            exact e2 x (hle x (by rw [hx]; exact List.mem_cons_self)))
        rw [← hfo] at hrec
        rw [hrec]
        simp only [Option.map_some, List.map_cons, haddr, Option.getD_some, Nat.mod_eq_of_lt (hid f hfall)]

theorem offsetsToAddrs_eq (frags : List (Frag α)) (hd : DatasetOK frags) (offsets : List Nat) :
    offsetsToAddrs (2 ^ 34) frags offsets = some (offsets.map (fun o => (liveAddrs frags)[o]?.getD tombstone)) := by
  unfold offsetsToAddrs
  simp only
  have hs : ((sortBy (·.1) offsets.zipIdx).map (·.1)).Pairwise (· ≤ ·) := by
    rw [List.pairwise_map]
    exact sortBy_sorted (fun x : Nat × Nat => x.1) offsets.zipIdx
  have hw := walk_spec frags hd.ok hd.ids ((sortBy (·.1) offsets.zipIdx).map (·.1)) frags [] rfl {} hs
    (by intro o _; exact Nat.zero_le _)
    (by
      intro o os' _
      cases frags with
      | nil => trivial
      | cons f fs => intro d _; exact mapOK_init d _)
  rw [show total ([] : List (Frag α)) = 0 from rfl] at hw
  rw [hw]
  simp only [Option.map_some, Option.some.injEq]
  -- undo the permutation
  generalize hg : (fun o : Nat => (liveAddrs frags)[o]?.getD tombstone) = g
  rw [List.map_map]
  have hzip : ((sortBy (·.1) offsets.zipIdx).map (g ∘ (·.1))).zip ((sortBy (·.1) offsets.zipIdx).map (·.2)) =
      (sortBy (·.1) offsets.zipIdx).map (fun x => (g x.1, x.2)) := by
    rw [List.zip_map']; rfl
  rw [hzip]
  have hperm : ((sortBy (fun x : Nat × Nat => x.1) offsets.zipIdx).map (fun x => (g x.1, x.2))).Perm
      (offsets.zipIdx.map (fun x => (g x.1, x.2))) := (sortBy_perm _ _).map _
  have hsorted : (offsets.zipIdx.map (fun x => (g x.1, x.2))).Pairwise (fun a b => a.2 ≤ b.2 ∧ a.2 ≠ b.2) := by
    rw [List.pairwise_map]
    have : (offsets.zipIdx.map (·.2)).Pairwise (· < ·) := by
      rw [List.zipIdx_map_snd]; exact List.pairwise_lt_range'
    rw [List.pairwise_map] at this
    exact this.imp (fun {a b} h => by omega)
  have heq : sortBy (fun x : Nat × Nat => x.2) ((sortBy (fun x : Nat × Nat => x.1) offsets.zipIdx).map (fun x => (g x.1, x.2))) =
      offsets.zipIdx.map (fun x => (g x.1, x.2)) := by
    have hp2 := (sortBy_perm (fun x : Nat × Nat => x.2) _).trans hperm
    have hnd : (offsets.zipIdx.map (fun x => (g x.1, x.2))).Pairwise (fun a b => a.2 ≠ b.2) := hsorted.imp (fun h => h.2)
    have hs2 := sortBy_sorted (fun x : Nat × Nat => x.2) ((sortBy (fun x : Nat × Nat => x.1) offsets.zipIdx).map (fun x => (g x.1, x.2)))
    have hnd2 : (sortBy (fun x : Nat × Nat => x.2) ((sortBy (fun x : Nat × Nat => x.1) offsets.zipIdx).map (fun x => (g x.1, x.2)))).Pairwise
        (fun a b => a.2 ≠ b.2) := hp2.symm.pairwise hnd (fun {a b} h => h.symm)
    apply List.Perm.eq_of_pairwise (le := fun a b : Nat × Nat => a.2 < b.2) _ _ _ hp2
    · intro a b _ _ h1 h2; omega
    · exact (hs2.and hnd2).imp (fun {a b} h => by omega)
    · exact hsorted.imp (fun {a b} h => by omega)
  rw [heq, List.map_map]
  have : offsets.map g = (offsets.zipIdx.map (·.1)).map g := by rw [List.zipIdx_map_fst]
  rw [this, List.map_map]
  rfl

/-- A position of the dataset, its address and its value. -/
theorem position (frags : List (Frag α)) (hd : DatasetOK frags) (o a : Nat) (h : (liveAddrs frags)[o]? = some a) :
    ∃ f ∈ frags, f.id = a / U32 ∧ a % U32 < f.rows ∧ live f.dv (a % U32) = true ∧
      (liveData frags)[o]? = some (f.file (a % U32)) := by
  have key : ∀ (fs : List (Frag α)) (o : Nat), (∀ f ∈ fs, f.rows < U32) → (liveAddrs fs)[o]? = some a →
      ∃ f ∈ fs, f.id = a / U32 ∧ a % U32 < f.rows ∧ live f.dv (a % U32) = true ∧
        (liveData fs)[o]? = some (f.file (a % U32)) := by
    intro fs
    induction fs with
    | nil => intro o _ h; simp [liveAddrs] at h
    | cons f fs ih =>
      intro o hr h
      have hlen : ((liveOffsets f).map (f.id * U32 + ·)).length = (liveOffsets f).length := by simp
      have e1 : liveAddrs (f :: fs) = (liveOffsets f).map (f.id * U32 + ·) ++ liveAddrs fs := rfl
      have e2 : liveData (f :: fs) = (liveOffsets f).map f.file ++ liveData fs := rfl
      rw [e1] at h
      by_cases hlt : o < (liveOffsets f).length
      · rw [List.getElem?_append_left (by rw [hlen]; exact hlt), List.getElem?_map, List.getElem?_eq_getElem hlt] at h
        simp only [Option.map_some, Option.some.injEq] at h
        have hmem : (liveOffsets f)[o] ∈ liveOffsets f := List.getElem_mem _
        unfold liveOffsets at hmem
        rw [List.mem_filter, List.mem_range] at hmem
        have hm : (liveOffsets f)[o] < f.rows := hmem.1
        have := hr f List.mem_cons_self
        obtain ⟨d1, d2⟩ := mod_div_addr (f := f.id) (o := (liveOffsets f)[o]) (by omega)
        rw [h] at d1 d2
        refine ⟨f, List.mem_cons_self, d1.symm, by rw [d2]; exact hm, by rw [d2]; exact hmem.2, ?_⟩
        rw [e2, List.getElem?_append_left (by simpa using hlt), List.getElem?_map, List.getElem?_eq_getElem hlt, d2]
        rfl
      · rw [List.getElem?_append_right (by rw [hlen]; omega), hlen] at h
        obtain ⟨g, hg, h1, h2, h3, h4⟩ := ih (o - (liveOffsets f).length) (fun x hx => hr x (List.mem_cons_of_mem _ hx)) h
        refine ⟨g, List.mem_cons_of_mem _ hg, h1, h2, h3, ?_⟩
        rw [e2, List.getElem?_append_right (by simp; omega), List.length_map]
        exact h4
  exact key frags o (fun f hf => (hd.ok f hf).rows) h

/-- C31: `take` with positions of the dataset returns the live rows at these positions in scan order, in
the order of the request and with duplicates. -/
theorem C31_take (split : List α → List (List α)) (hsp : Splits split) (frags : List (Frag α)) (hd : DatasetOK frags)
    (offsets : List Nat) (hlt : ∀ o ∈ offsets, o < total frags) :
    ∃ rows, take split frags offsets = .ok rows ∧ rows.length = offsets.length ∧
      ∀ k o : Nat, offsets[k]? = some o → rows[k]? = (liveData frags)[o]? := by
  unfold take
  split
  · rename_i he
    rw [List.isEmpty_iff] at he
    subst he
    exact ⟨[], rfl, rfl, by intro k o h; cases h⟩
  · rw [offsetsToAddrs_eq frags hd]
    simp only
    have hval : ∀ o ∈ offsets, ∃ a, (liveAddrs frags)[o]? = some a := by
      intro o ho
      have := hlt o ho
      rw [← length_liveAddrs] at this
      exact ⟨_, List.getElem?_eq_getElem this⟩
    obtain ⟨rows, h1, h2, h3⟩ := C31_take_live split hsp frags hd
      (offsets.map (fun o => (liveAddrs frags)[o]?.getD tombstone)) (by
        intro a ha
        obtain ⟨o, ho, rfl⟩ := List.mem_map.mp ha
        obtain ⟨a, hoa⟩ := hval o ho
        rw [hoa]
        obtain ⟨f, hf, e1, e2, e3, _⟩ := position frags hd o a hoa
        exact ⟨f, hf, e1, e2, e3⟩)
    refine ⟨rows, h1, by rw [h2, List.length_map], ?_⟩
    intro k o hk
    obtain ⟨a, hoa⟩ := hval o (List.mem_of_getElem? hk)
    obtain ⟨f, hf, e1, _, _, e4⟩ := position frags hd o a hoa
    rw [e4]
    apply h3 k a f _ hf e1
    rw [List.getElem?_map, hk]
    simp [hoa]

example : liveData sample = [51, 52, 54, 70, 71, 72] := by decide
example : dataOf (take one sample [4, 0, 5, 4, 2]) = some [71, 51, 72, 71, 54] := by decide +kernel

/-! ## Positions beyond the end -/

/-- C31, full statement: a position beyond the last row is reported. -/
def C31_range_statement : Prop :=
  ∀ (split : List Nat → List (List Nat)) (frags : List (Frag Nat)) (offsets : List Nat), Splits split → DatasetOK frags →
    (∃ o ∈ offsets, total frags ≤ o) → take split frags offsets = .error .error

/-- It fails: if the request is not strictly increasing, such positions are left out silently. -/
theorem C31_range_violated : ¬ C31_range_statement := by
  intro h
  have := h one sample [100, 0] one_splits sample_ok ⟨100, by decide, by decide⟩
  have e : dataOf (take one sample [100, 0]) = some [51] := by decide +kernel
  rw [this] at e
  cases e

/-- And if all positions are beyond the end, and there are two of them, the process panics. -/
theorem C31_range_panic :
    (match take one sample [100, 101] with | .error .panic => true | _ => false) = true := by decide +kernel

theorem sorted_liveAddrs (frags : List (Frag α)) (hok : ∀ f ∈ frags, f.rows < U32)
    (hs : (frags.map (·.id)).Pairwise (· < ·)) : (liveAddrs frags).Pairwise (· < ·) := by
  induction frags with
  | nil => exact List.Pairwise.nil
  | cons f fs ih =>
    simp only [List.map_cons, List.pairwise_cons] at hs
    have e1 : liveAddrs (f :: fs) = (liveOffsets f).map (f.id * U32 + ·) ++ liveAddrs fs := rfl
    rw [e1, List.pairwise_append]
    refine ⟨?_, ih (fun g hg => hok g (List.mem_cons_of_mem _ hg)) hs.2, ?_⟩
    · rw [List.pairwise_map]
      have : (liveOffsets f).Pairwise (· < ·) := by
        unfold liveOffsets
        exact List.Pairwise.filter _ List.pairwise_lt_range
      exact this.imp (fun {a b} h => by omega)
    · intro a ha b hb
      rw [List.mem_map] at ha
      obtain ⟨o, ho, rfl⟩ := ha
      have hof : o < f.rows := by
        unfold liveOffsets at ho
        rw [List.mem_filter, List.mem_range] at ho
        exact ho.1
      unfold liveAddrs at hb
      rw [List.mem_flatMap] at hb
      obtain ⟨g, hg, hb⟩ := hb
      rw [List.mem_map] at hb
      obtain ⟨o', _, rfl⟩ := hb
      have h1 := hs.1 g.id (List.mem_map_of_mem hg)
      have h2 := hok f List.mem_cons_self
      omega

/-- C31: what holds of positions beyond the end, for fragments in the order of their ids with fewer than
2^32 - 1 ids: a strictly increasing request fails; any other one returns the rows that exist, or panics if
there are none. -/
theorem C31_range_partial (split : List α → List (List α)) (hsp : Splits split) (frags : List (Frag α))
    (hd : DatasetOK frags) (hs : (frags.map (·.id)).Pairwise (· < ·)) (hid : ∀ f ∈ frags, f.id + 1 < U32)
    (offsets : List Nat) (hbad : ∃ o ∈ offsets, total frags ≤ o) :
    (offsets.Pairwise (· < ·) ∧ (offsets.filter (fun o => decide (total frags ≤ o))).length = 1 →
      take split frags offsets = .error .error) ∧
    (¬ offsets.Pairwise (· < ·) ∨ 1 < (offsets.filter (fun o => decide (total frags ≤ o))).length →
      take split frags offsets = if ∀ o ∈ offsets, total frags ≤ o then .error .panic
        else .ok (offsets.filterMap (fun o => (liveData frags)[o]?))) := by
  generalize hg : (fun o : Nat => (liveAddrs frags)[o]?.getD tombstone) = g
  have hgt : ∀ o, total frags ≤ o → g o = tombstone := by
    intro o ho
    rw [← hg]
    simp only
    rw [List.getElem?_eq_none (by rw [length_liveAddrs]; exact ho)]
    rfl
  have hgl : ∀ o, o < total frags → ∃ a, (liveAddrs frags)[o]? = some a ∧ g o = a ∧
      ∃ f ∈ frags, f.id = a / U32 ∧ a % U32 < f.rows ∧ live f.dv (a % U32) = true ∧
        (liveData frags)[o]? = some (f.file (a % U32)) := by
    intro o ho
    have hlt : o < (liveAddrs frags).length := by rw [length_liveAddrs]; exact ho
    refine ⟨_, List.getElem?_eq_getElem hlt, ?_, position frags hd o _ (List.getElem?_eq_getElem hlt)⟩
    rw [← hg]
    simp [List.getElem?_eq_getElem hlt]
  have htomb : ∀ f ∈ frags, f.id ≠ tombstone / U32 := by
    intro f hf
    have := hid f hf
    show f.id ≠ 18446744073709551615 / 4294967296
    omega
  have hlow : ∀ o, o < total frags → g o < tombstone := by
    intro o ho
    obtain ⟨a, _, e, f, hf, h1, _⟩ := hgl o ho
    have := hid f hf
    rw [e]
    show a < 18446744073709551615
    omega
  have hsorted := sorted_liveAddrs frags (fun f hf => (hd.ok f hf).rows) hs
  have hmono : ∀ o p, o < total frags → p < total frags → (g o < g p ↔ o < p) := by
    intro o p ho hp
    rw [← length_liveAddrs] at ho hp
    rw [← hg]
    simp only [List.getElem?_eq_getElem ho, List.getElem?_eq_getElem hp, Option.getD_some]
    rw [List.pairwise_iff_getElem] at hsorted
    constructor
    · intro h
      rcases Nat.lt_trichotomy o p with h' | h' | h'
      · exact h'
      · subst h'; omega
      · have := hsorted p o hp ho h'; omega
    · intro h
      exact hsorted o p ho hp h
  -- order of the addresses
  have hord : (offsets.map g).Pairwise (· < ·) ↔
      offsets.Pairwise (· < ·) ∧ (offsets.filter (fun o => decide (total frags ≤ o))).length ≤ 1 := by
    rw [List.pairwise_map]
    clear hbad
    induction offsets with
    | nil => simp
    | cons o os ih =>
      rw [List.pairwise_cons, List.pairwise_cons, ih, List.filter_cons]
      constructor
      · rintro ⟨h1, h2, h3⟩
        have hall : ∀ p ∈ os, o < p := by
          intro p hp
          have hlt := h1 p hp
          rcases Nat.lt_or_ge o (total frags) with ho | ho
          · rcases Nat.lt_or_ge p (total frags) with hp' | hp'
            · exact (hmono o p ho hp').mp hlt
            · omega
          · rw [hgt o ho] at hlt
            rcases Nat.lt_or_ge p (total frags) with hp' | hp'
            · have := hlow p hp'; omega
            · rw [hgt p hp'] at hlt; omega
        refine ⟨⟨hall, h2⟩, ?_⟩
        split
        · rename_i ho
          simp only [decide_eq_true_eq] at ho
          cases os with
          | nil => simp
          | cons p ps =>
            exfalso
            have hlt := h1 p List.mem_cons_self
            have := hall p List.mem_cons_self
            rw [hgt o ho, hgt p (by omega)] at hlt
            omega
        · exact h3
      · rintro ⟨⟨h1, h2⟩, h3⟩
        refine ⟨?_, h2, ?_⟩
        · intro p hp
          have hop := h1 p hp
          rcases Nat.lt_or_ge o (total frags) with ho | ho
          · rcases Nat.lt_or_ge p (total frags) with hp' | hp'
            · exact (hmono o p ho hp').mpr hop
            · rw [hgt p hp']; exact hlow o ho
          · exfalso
            rw [if_pos (by simpa using ho)] at h3
            have hne : p ∈ os.filter (fun o => decide (total frags ≤ o)) := by
              rw [List.mem_filter]
              exact ⟨hp, by simp; omega⟩
            simp only [List.length_cons] at h3
            have := List.length_pos_of_mem hne
            omega
        · split at h3
          · simp only [List.length_cons] at h3; omega
          · exact h3
  have hbad' : ∃ a ∈ offsets.map g, ∀ f ∈ frags, f.id ≠ a / U32 := by
    obtain ⟨o, ho, hge⟩ := hbad
    refine ⟨g o, List.mem_map_of_mem ho, ?_⟩
    rw [hgt o hge]
    exact htomb
  have hpos : 1 ≤ (offsets.filter (fun o => decide (total frags ≤ o))).length := by
    obtain ⟨o, ho, hge⟩ := hbad
    have : o ∈ offsets.filter (fun o => decide (total frags ≤ o)) := by
      rw [List.mem_filter]; exact ⟨ho, by simpa using hge⟩
    exact List.length_pos_of_mem this
  have hcases : ∀ a ∈ offsets.map g, a = tombstone ∨ ∃ f ∈ frags, f.id = a / U32 ∧ a % U32 < f.rows := by
    intro a ha
    obtain ⟨o, _, rfl⟩ := List.mem_map.mp ha
    rcases Nat.lt_or_ge o (total frags) with h | h
    · obtain ⟨a, _, e, f, hf, h1, h2, _⟩ := hgl o h
      right; rw [e]; exact ⟨f, hf, h1, h2⟩
    · left; exact hgt o h
  obtain ⟨p1, p2⟩ := C31_missing_partial split hsp frags hd (offsets.map g)
    (by
      intro a ha
      rcases hcases a ha with rfl | h
      · decide
      · exact Physical.lt hd h)
    (by
      intro a ha f hf he
      rcases hcases a ha with rfl | h
      · exact absurd he (htomb f hf)
      · exact hin_of_physical hd h f hf he) hbad'
  have htake : take split frags offsets = doTakeRows split frags (offsets.map g) := by
    unfold take
    have : offsets.isEmpty = false := by
      obtain ⟨o, ho, _⟩ := hbad
      cases offsets with
      | nil => cases ho
      | cons a l => rfl
    rw [this, offsetsToAddrs_eq frags hd, ← hg]
    rfl
  have hdata : (offsets.map g).filterMap (rowAt? frags) = offsets.filterMap (fun o => (liveData frags)[o]?) := by
    rw [List.filterMap_map]
    congr 1
    funext o
    show rowAt? frags (g o) = _
    rcases Nat.lt_or_ge o (total frags) with h | h
    · obtain ⟨a, _, e, f, hf, h1, h2, h3, h4⟩ := hgl o h
      rw [e, h4, rowAt?_of hd.distinct hf h1 h2, if_pos h3]
    · rw [hgt o h, rowAt?_missing htomb, List.getElem?_eq_none (by rw [length_liveData]; exact h)]
  have hall : (∀ a ∈ offsets.map g, ∀ f ∈ frags, f.id ≠ a / U32) ↔ ∀ o ∈ offsets, total frags ≤ o := by
    constructor
    · intro h o ho
      rcases Nat.lt_or_ge o (total frags) with h' | h'
      · obtain ⟨a, _, e, f, hf, h1, _⟩ := hgl o h'
        exact absurd (by rw [e]; exact h1) (h (g o) (List.mem_map_of_mem ho) f hf)
      · exact h'
    · intro h a ha
      obtain ⟨o, ho, rfl⟩ := List.mem_map.mp ha
      rw [hgt o (h o ho)]
      exact htomb
  constructor
  · rintro ⟨h1, h2⟩
    rw [htake]
    exact p1 (hord.mpr ⟨h1, by omega⟩)
  · intro h
    rw [htake, p2 (fun hp => by
      have := hord.mp hp
      rcases h with h | h
      · exact h this.1
      · omega), hdata]
    by_cases hc : ∀ o ∈ offsets, total frags ≤ o
    · rw [if_pos (hall.mpr hc), if_pos hc]
    · rw [if_neg (fun h => hc (hall.mp h)), if_neg hc]

example : take one sample [3, 100] = .error .error := by
  refine (C31_range_partial one one_splits sample sample_ok (by decide) (by decide) [3, 100] ⟨100, by decide, by decide⟩).1 ?_
  decide

end Verif.Take
