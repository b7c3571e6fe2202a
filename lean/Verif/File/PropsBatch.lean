import Verif.File.LemmasBatch
import Verif.File.PropsFile

/-!
# C95: batches that are encoded in memory are read back

`encode_batch`, `try_to_self_described_lance` or `try_to_mini_lance`, and back.
-/
namespace Verif.File

variable {A S C T : Type}

/-- What the page table of a batch shows of each column: the pages and the buffers, with their bytes. -/
def EncBatch.show (b : EncBatch T A S C) :
    List (List (PageEnc A S × Nat × Nat × List (Except Fail Bytes)) × List (Except Fail Bytes) × C) :=
  b.table.map (fun c => (c.pages.map (PageInfo.show b.data), c.bufs.map (bufAt b.data), c.enc))

/-- The page table of an encoded batch: every column has all its pages, in order, with the bytes the encoders made, and
its buffers and encoding. -/
theorem C95_page_table (sch : T) (rows : Nat) (gs : List (MemGroup A S C)) (hf : Fits 0 gs) :
    let b := encodeBatch sch rows gs
    let fs := gs.flatMap MemGroup.cols
    b.sch = sch ∧ b.rows = rows ∧ b.table.map (·.index) = List.range fs.length ∧
      b.table.map (fun c => c.pages.map (PageInfo.show b.data)) = (List.range fs.length).map (fun i =>
        ((gs.flatMap MemGroup.all).filter (fun p => p.col == i)).map EncPage.show) ∧
      b.table.map (fun c => c.bufs.map (bufAt b.data)) = fs.map (fun c => c.buffers.map .ok) ∧
      b.table.map (·.enc) = fs.map (·.enc) := by
  obtain ⟨s, k, hd, ht, _⟩ := addGroups_inv gs (MInv.empty (A := A) (S := S) (C := C)) rfl hf
  simp only [List.nil_append] at k
  simp only [encodeBatch, ← hd, ← ht]
  have hn := k.num
  refine ⟨trivial, trivial, ?_, ?_, ?_, ?_⟩
  all_goals
    refine List.ext_getElem? (fun i => ?_)
    simp only [List.getElem?_map]
    cases hc : s.table[i]? with
    | none =>
      have : s.table.length ≤ i := List.getElem?_eq_none_iff.mp hc
      first
        | rw [List.getElem?_eq_none (by rw [List.length_range]; omega)]
          rfl
        | rw [List.getElem?_eq_none (by omega)]
          rfl
    | some c =>
      have hi : i < (gs.flatMap MemGroup.cols).length := by
        have := (List.getElem?_eq_some_iff.mp hc).1
        omega
      have hf' : (gs.flatMap MemGroup.cols)[i]? = some ((gs.flatMap MemGroup.cols)[i]) := List.getElem?_eq_getElem hi
      first
        | rw [List.getElem?_range hi]
          simp only [Option.map_some, Option.some.injEq]
          first
            | exact (k.done i c hc).1
            | exact (Both.map_eq (fun p e hs => by simp only [PageInfo.show, EncPage.show, hs.enc, hs.rows, hs.priority,
                hs.bufs]) (k.done i c hc).2)
            | exact (Both.map_eq (fun p e hs => by simp only [PageInfo.show, EncPage.show, hs.enc, hs.rows, hs.priority,
                hs.bufs]) (k.done i c hc).2).symm
        | rw [hf']
          simp only [Option.map_some, Option.some.injEq]
          first
            | exact (k.fin i c _ hc hf').2
            | exact (k.fin i c _ hc hf').1

/-- A batch of 2.0 pages, turned into bytes with its schema, is read back: the schema, the page table, the bytes of all
buffers, and the number of rows of the first column. -/
theorem C95_self_described_partial (cd : Codec (T × Nat)) (cm : Codec (ColMeta A S C))
    (hcd : ∀ d, cd.dec (cd.enc d) = some d) (hcm : ∀ m, cm.dec (cm.enc m) = some m) (b : EncBatch T A S C)
    (hlen : (concatFooter cd cm true b).length < 2 ^ 64) (hcols : b.table.length ≤ 2 ^ 28)
    (hk : ∀ c ∈ b.table, ∀ p ∈ c.pages, Kind .v20 p.enc) (hi : ∀ (i : Nat) (c : ColInfo A S C), b.table[i]? = some c → c.index = i) :
    fromSelf cd cm (concatFooter cd cm true b) =
      .ok ⟨concatFooter cd cm true b, b.table, b.sch, firstRows b.table⟩ := by
  obtain ⟨cms, cmo, gbo, mb, gbos, hg, h1, h2, h3, ⟨r, h4⟩, h5, h6, h7, _⟩ := concat_parts cd cm hcm true b hlen hcols
  simp only [if_true] at hg
  unfold fromSelf
  rw [h1]
  simp only [show verOf 2 0 = .ok .v20 from rfl]
  rw [h4]
  simp only
  rw [gboTable_table .v20 gbos r (by
    rw [hg]
    intro e he
    rw [List.mem_singleton.mp he]
    simp only [if_true, Nat.add_zero] at h7
    exact ⟨h6, h7⟩) (fun h => nomatch h), hg]
  simp only
  rw [h5 rfl]
  simp only [hcd]
  rw [h2]
  simp only
  rw [← hg, h3]
  simp only
  rw [toMeta_infos b.table 0 hk (fun i c hc => by rw [hi i c hc, Nat.zero_add])]

/-- The same without the schema, which the reader is given. -/
theorem C95_mini_partial (cd : Codec (T × Nat)) (cm : Codec (ColMeta A S C)) (hcm : ∀ m, cm.dec (cm.enc m) = some m)
    (b : EncBatch T A S C) (hlen : (concatFooter cd cm false b).length < 2 ^ 64) (hcols : b.table.length ≤ 2 ^ 28)
    (hk : ∀ c ∈ b.table, ∀ p ∈ c.pages, Kind .v20 p.enc) (hi : ∀ (i : Nat) (c : ColInfo A S C), b.table[i]? = some c → c.index = i) :
    fromMini cm b.sch (concatFooter cd cm false b) =
      .ok ⟨concatFooter cd cm false b, b.table, b.sch, firstRows b.table⟩ := by
  obtain ⟨cms, cmo, gbo, mb, gbos, hg, h1, h2, h3, _⟩ := concat_parts cd cm hcm false b hlen hcols
  unfold fromMini
  rw [h1]
  simp only
  rw [h2]
  simp only
  rw [h3]
  simp only [show verOf 2 0 = .ok .v20 from rfl]
  rw [toMeta_infos b.table 0 hk (fun i c hc => by rw [hi i c hc, Nat.zero_add])]

/-- From the encoders to a batch that was read back, with and without the schema. -/
theorem C95_round_trip_partial (cd : Codec (T × Nat)) (cm : Codec (ColMeta A S C))
    (hcd : ∀ d, cd.dec (cd.enc d) = some d) (hcm : ∀ m, cm.dec (cm.enc m) = some m) (sch : T) (rows : Nat)
    (gs : List (MemGroup A S C)) (hf : Fits 0 gs) (hk : ∀ p ∈ gs.flatMap MemGroup.all, Kind .v20 p.desc)
    (hlen : ∀ ws, (concatFooter cd cm ws (encodeBatch sch rows gs)).length < 2 ^ 64)
    (hcols : (gs.flatMap MemGroup.cols).length ≤ 2 ^ 28) (ws : Bool) :
    ∃ b, (if ws then fromSelf cd cm (concatFooter cd cm true (encodeBatch sch rows gs))
        else fromMini cm sch (concatFooter cd cm false (encodeBatch sch rows gs))) = .ok b ∧ b.sch = sch ∧
      b.table.map (fun c => c.pages.map (PageInfo.show b.data)) = (List.range (gs.flatMap MemGroup.cols).length).map (fun i =>
        ((gs.flatMap MemGroup.all).filter (fun p => p.col == i)).map EncPage.show) ∧
      b.table.map (fun c => c.bufs.map (bufAt b.data)) = (gs.flatMap MemGroup.cols).map (fun c => c.buffers.map .ok) ∧
      b.table.map (·.enc) = (gs.flatMap MemGroup.cols).map (·.enc) ∧
      b.rows = if gs.flatMap MemGroup.cols = [] then 0
        else (((gs.flatMap MemGroup.all).filter (fun p => p.col == 0)).map (·.rows)).sum := by
  obtain ⟨s, k, hd, ht, _⟩ := addGroups_inv gs (MInv.empty (A := A) (S := S) (C := C)) rfl hf
  simp only [List.nil_append] at k
  obtain ⟨p1, p2, p3, p4, p5, p6⟩ := C95_page_table sch rows gs hf
  have htab : (encodeBatch sch rows gs).table = s.table := ht.symm
  have hdat : (encodeBatch sch rows gs).data = s.data := hd.symm
  have hkinds : ∀ c ∈ (encodeBatch sch rows gs).table, ∀ p ∈ c.pages, Kind .v20 p.enc := by
    intro c hc p hp
    rw [htab] at hc
    obtain ⟨i, hi⟩ := List.mem_iff_getElem?.mp hc
    obtain ⟨e, he, hs⟩ := (k.done i c hi).2.exists_right p hp
    rw [hs.enc]
    exact hk e (List.mem_filter.mp he).1
  have hidx : ∀ (i : Nat) (c : ColInfo A S C), (encodeBatch sch rows gs).table[i]? = some c → c.index = i := by
    intro i c hc
    rw [htab] at hc
    exact (k.done i c hc).1
  have hnum : (encodeBatch sch rows gs).table.length ≤ 2 ^ 28 := by rw [htab, k.num]; exact hcols
  have hrows : firstRows (encodeBatch sch rows gs).table = if gs.flatMap MemGroup.cols = [] then 0
      else (((gs.flatMap MemGroup.all).filter (fun p => p.col == 0)).map (·.rows)).sum := by
    rw [htab]
    cases hc : s.table with
    | nil =>
      have := k.num
      rw [hc] at this
      rw [if_pos (List.length_eq_zero_iff.mp this.symm)]
      rfl
    | cons c t =>
      have hn := k.num
      rw [hc] at hn
      rw [if_neg (by
        intro h0
        rw [h0] at hn
        simp at hn)]
      have hb := (k.done 0 c (by rw [hc]; rfl)).2
      simp only [firstRows]
      congr 1
      exact Both.map_eq (fun p e hs => hs.rows) hb
  have hmain : ∀ (bytes : Bytes) (y : Bytes), bytes = (encodeBatch sch rows gs).data ++ y →
      (encodeBatch sch rows gs).table.map (fun c => c.pages.map (PageInfo.show bytes)) =
        (List.range (gs.flatMap MemGroup.cols).length).map (fun i =>
          ((gs.flatMap MemGroup.all).filter (fun p => p.col == i)).map EncPage.show) ∧
      (encodeBatch sch rows gs).table.map (fun c => c.bufs.map (bufAt bytes)) =
        (gs.flatMap MemGroup.cols).map (fun c => c.buffers.map .ok) := by
    intro bytes y hy
    rw [hdat] at hy
    rw [htab, hy]
    refine ⟨?_, ?_⟩
    · refine List.ext_getElem? (fun i => ?_)
      simp only [List.getElem?_map]
      cases hc : s.table[i]? with
      | none =>
        have := k.num
        have : s.table.length ≤ i := List.getElem?_eq_none_iff.mp hc
        rw [List.getElem?_eq_none (by rw [List.length_range]; omega)]
        rfl
      | some c =>
        have hi : i < (gs.flatMap MemGroup.cols).length := by
          have := (List.getElem?_eq_some_iff.mp hc).1
          have := k.num
          omega
        rw [List.getElem?_range hi]
        simp only [Option.map_some, Option.some.injEq]
        refine Both.map_eq (fun p e hs => ?_) ((k.done i c hc).2.imp (fun _ _ q => q.append y))
        simp only [PageInfo.show, EncPage.show, hs.enc, hs.rows, hs.priority, hs.bufs]
    · refine List.ext_getElem? (fun i => ?_)
      simp only [List.getElem?_map]
      cases hc : s.table[i]? with
      | none =>
        have := k.num
        have : s.table.length ≤ i := List.getElem?_eq_none_iff.mp hc
        rw [List.getElem?_eq_none (by omega)]
        rfl
      | some c =>
        have hi : i < (gs.flatMap MemGroup.cols).length := by
          have := (List.getElem?_eq_some_iff.mp hc).1
          have := k.num
          omega
        have hf' : (gs.flatMap MemGroup.cols)[i]? = some ((gs.flatMap MemGroup.cols)[i]) := List.getElem?_eq_getElem hi
        rw [hf']
        simp only [Option.map_some, Option.some.injEq]
        exact map_bufAt_append (k.fin i c _ hc hf').2 y
  cases ws with
  | true =>
    obtain ⟨_, _, _, _, _, _, _, _, _, _, _, _, _, y, hy⟩ := concat_parts cd cm hcm true _ (hlen true) hnum
    obtain ⟨q1, q2⟩ := hmain _ y hy
    exact ⟨_, C95_self_described_partial cd cm hcd hcm _ (hlen true) hnum hkinds hidx, rfl, q1, q2, p6, hrows⟩
  | false =>
    obtain ⟨_, _, _, _, _, _, _, _, _, _, _, _, _, y, hy⟩ := concat_parts cd cm hcm false _ (hlen false) hnum
    obtain ⟨q1, q2⟩ := hmain _ y hy
    exact ⟨_, C95_mini_partial cd cm hcm _ (hlen false) hnum hkinds hidx, rfl, q1, q2, p6, hrows⟩

/-! ### What does not hold -/

/-- A batch is read back with its rows, also if its pages are of version 2.1. -/
def C95_round_trip_statement : Prop :=
  ∀ (b : EncBatch Unit Unit Unit Unit), (∀ (i : Nat) (c : ColInfo Unit Unit Unit), b.table[i]? = some c → c.index = i) →
    ∃ b', fromSelf unitCd unitCm (concatFooter unitCd unitCm true b) = .ok b' ∧ b'.table = b.table ∧ b'.rows = b.rows

/-- The bytes are marked as a 2.0 file: reading a batch with 2.1 pages panics. -/
theorem C95_round_trip_violated : ¬ C95_round_trip_statement := by
  intro h
  let b : EncBatch Unit Unit Unit Unit :=
    encodeBatch () 1 [⟨[], [⟨[[1]], .structural (), 1, 0, 0⟩], [], [⟨[], [], ()⟩]⟩]
  have hb : fromSelf unitCd unitCm (concatFooter unitCd unitCm true b) = .error .panic := by decide +kernel
  obtain ⟨b', h1, _⟩ := h b (by
    intro i c hc
    cases i with
    | zero => cases hc; rfl
    | succ i => simp [b, encodeBatch, addGroup, addCol, addPage] at hc)
  rw [hb] at h1
  cases h1

/-- A batch of three rows without columns is read back as a batch of no rows, although the descriptor has the number. -/
theorem C95_rows_violated : ∃ b b' : EncBatch Unit Unit Unit Unit, b = encodeBatch () 3 [] ∧
    fromSelf unitCd unitCm (concatFooter unitCd unitCm true b) = .ok b' ∧ b.rows = 3 ∧ b'.rows = 0 := by
  have hd : okAnd (fromSelf unitCd unitCm (concatFooter unitCd unitCm true
      (encodeBatch () 3 [] : EncBatch Unit Unit Unit Unit))) (fun b' => decide (b'.rows = 0)) = true := by decide +kernel
  obtain ⟨b', h1, h2⟩ := okAnd_true hd
  exact ⟨_, b', rfl, h1, rfl, of_decide_eq_true h2⟩

/-- Buffers outside of pages are where the encoders were told. -/
def C95_external_statement : Prop :=
  ∀ (g : MemGroup Unit Unit Unit), Fits 0 [g] →
    ((extPositions 0 g.ext).zip (g.ext.map List.length)).map (bufAt (encodeBatch () 1 [g]).data) = g.ext.map .ok

/-- Two blobs of one byte: the second is at byte 1, and its encoder was told 64. -/
theorem C95_external_violated : ¬ C95_external_statement := fun h =>
  absurd (h ⟨[[1], [2]], [⟨[[9]], .legacy (), 1, 0, 0⟩], [], [⟨[], [], ()⟩]⟩
    ⟨by intro p hp; rw [List.mem_singleton.mp hp]; decide, ⟨fun p hp => (nomatch hp), True.intro⟩, True.intro⟩) (by decide +kernel)

/-- They are for the first field if all but the last are multiples of 64 bytes. -/
theorem C95_external_partial (sch : T) (rows : Nat) (g : MemGroup A S C) (gs : List (MemGroup A S C))
    (hf : Fits 0 (g :: gs)) (ha : ∀ x ∈ g.ext.dropLast, x.length % 64 = 0) :
    ((extPositions 0 g.ext).zip (g.ext.map List.length)).map (bufAt (encodeBatch sch rows (g :: gs)).data) =
      g.ext.map .ok := by
  have hfit : Fits 0 [g] := ⟨hf.1, hf.2.1, True.intro⟩
  have hpre : ∃ y, (encodeBatch sch rows (g :: gs)).data = [] ++ g.ext.flatten ++ y := by
    obtain ⟨k1, k2, ⟨y1, k3⟩, k4⟩ := addPages_inv g.pages ((MInv.empty (A := A) (S := S) (C := C)).more g.ext.flatten)
      (fun q _ => Nat.zero_le _)
    obtain ⟨j1, ⟨y2, j2⟩, j3⟩ := addCols_inv (0 + g.cols.length) g.cols (k1.more g.ext2.flatten)
      (by
        show ColsFit (g.pages.foldl addPage _).table.length _ _
        rw [k2]
        exact hf.2.1)
      (fun x hx => by
        rcases k4 x hx with h' | ⟨q, hq, h'⟩
        · cases h'
        · rw [h']
          exact (hf.1 q hq).2)
    obtain ⟨s', i1, i2, i3, _⟩ := addGroups_inv [g] (MInv.empty (A := A) (S := S) (C := C)) rfl hfit
    have hl : (addGroup (⟨[], [], []⟩ : Mem A S C) g).table.length = 0 + g.cols.length := by
      have := j1.num
      simp only [List.nil_append, Nat.zero_add] at this ⊢
      exact this
    have hpe : (addGroup (⟨[], [], []⟩ : Mem A S C) g).pend = [] := by
      cases hx : (addGroup (⟨[], [], []⟩ : Mem A S C) g).pend with
      | nil => rfl
      | cons x l =>
        have h1 := j1.early x (by
          show x ∈ (addGroup (⟨[], [], []⟩ : Mem A S C) g).pend
          rw [hx]
          exact List.mem_cons_self)
        have h2 := j3 x (by
          show x ∈ (addGroup (⟨[], [], []⟩ : Mem A S C) g).pend
          rw [hx]
          exact List.mem_cons_self)
        have h3 : (addGroup (⟨[], [], []⟩ : Mem A S C) g).table.length ≤ x.1 := h1
        omega
    obtain ⟨_, _, _, _, y3, i4⟩ := addGroups_inv gs (s := addGroup ⟨[], [], []⟩ g) j1 hpe (by rw [hl]; exact hf.2.2)
    have e1 : (encodeBatch sch rows (g :: gs)).data = (addGroup (⟨[], [], []⟩ : Mem A S C) g).data ++ y3 := i4
    have e2 : (addGroup (⟨[], [], []⟩ : Mem A S C) g).data =
        (g.pages.foldl addPage (⟨[] ++ g.ext.flatten, [], []⟩ : Mem A S C)).data ++ g.ext2.flatten ++ y2 := j2
    have e3 : (g.pages.foldl addPage (⟨[] ++ g.ext.flatten, [], []⟩ : Mem A S C)).data = [] ++ g.ext.flatten ++ y1 := k3
    rw [e1, e2, e3]
    exact ⟨y1 ++ g.ext2.flatten ++ y2 ++ y3, by simp⟩
  obtain ⟨y, hy⟩ := hpre
  rw [hy]
  exact map_bufAt_append (extPositions_flat [] g.ext ha) y

/-! ### A case -/

/-- Two fields; the first has two columns, with a page of the flush, and a page of the end of its second column. -/
def caseGroups : List (MemGroup Unit Unit Unit) :=
  [⟨[], [⟨[[1, 2], [3]], .legacy (), 2, 0, 0⟩, ⟨[[4]], .legacy (), 1, 0, 1⟩], [],
    [⟨[], [[40], [41]], ()⟩, ⟨[⟨[[5]], .legacy (), 1, 1, 1⟩], [], ()⟩]⟩,
   ⟨[[50]], [⟨[[6, 7]], .legacy (), 2, 0, 2⟩], [[51]], [⟨[], [], ()⟩]⟩]

theorem C95_nonvacuous : Fits 0 caseGroups ∧ (∀ p ∈ caseGroups.flatMap MemGroup.all, Kind .v20 p.desc) ∧
    (∀ ws, (concatFooter unitCd unitCm ws (encodeBatch () 2 caseGroups)).length < 2 ^ 64) ∧
    okAnd (fromMini unitCm () (concatFooter unitCd unitCm false (encodeBatch () 2 caseGroups))) (fun b =>
      decide (b.rows = 2 ∧ b.table.map (fun c => c.pages.map (fun p => p.bufs.map (bufAt b.data))) =
        [[[.ok [1, 2], .ok [3]]], [[.ok [4]], [.ok [5]]], [[.ok [6, 7]]]] ∧
        b.table.map (fun c => c.bufs.map (bufAt b.data)) = [[.ok [40], .ok [41]], [], []])) = true := by
  refine ⟨?_, ?_, by decide +kernel, by decide +kernel⟩
  · refine ⟨by decide, ⟨by decide, by decide, True.intro⟩, by decide, ⟨by decide, True.intro⟩, True.intro⟩
  · intro p hp
    simp only [caseGroups, MemGroup.all, List.flatMap_cons, List.flatMap_nil] at hp
    simp at hp
    rcases hp with rfl | rfl | rfl | rfl <;> exact True.intro

end Verif.File
