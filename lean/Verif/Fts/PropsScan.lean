import Verif.Fts.LemmasScan
/-!
# C76: full text search of a dataset, with several columns, rows without index, limit and offset

The claim does not hold with an offset (the search returns as many rows as the limit says, the offset is then taken from those), not with a
filter applied after the search (the limit is applied before the filter), not with a filter applied before the search while there are rows
without index (the plan reads a column of the filter as row id), and not for a phrase while there are rows without index (they are searched
for single tokens).
-/
namespace Verif.Fts

/-- A weight that is never zero for a token that is there. -/
def PosWt (wt : Nat → Nat → Nat → Nat → Nat → Nat) : Prop := ∀ n t l dl f, 0 < f → 0 < wt n t l dl f

section
variable {wt : Nat → Nat → Nat → Nat → Nat → Nat}

theorem sum_pos_of_mem : ∀ {l : List Nat} {a : Nat}, a ∈ l → 0 < a → 0 < l.sum := by
  intro l
  induction l with
  | nil => intro a h; cases h
  | cons b l ih =>
    intro a h hp
    rw [List.sum_cons]
    rcases List.mem_cons.1 h with rfl | h
    · omega
    · have := ih h hp
      omega

/-- A row without index is kept if and only if it has a token of the query. -/
theorem C76_flat_rows (hw : PosWt wt) (x : Index) (query : List Tok) (u : URow) : 0 < flatScore wt x query u.toks ↔ u.matches query := by
  unfold flatScore URow.matches
  cases u.toks with
  | none => simp
  | some ts =>
    simp only [Option.some.injEq, exists_eq_left']
    constructor
    · intro h
      apply Classical.byContradiction
      intro hn
      refine absurd h (Nat.not_lt.2 (Nat.le_of_eq ?_))
      refine List.sum_eq_zero_iff_forall_eq_nat.2 ?_
      intro y hy
      obtain ⟨t, ht, rfl⟩ := List.mem_map.1 hy
      rw [if_pos]
      rw [List.length_eq_zero_iff, List.filter_eq_nil_iff]
      intro a ha
      simp only [beq_iff_eq]
      rintro rfl
      exact hn ⟨a, List.mem_eraseDups.1 ht, (List.mem_filter.1 ha).1⟩
    · rintro ⟨t, ht, hts⟩
      refine sum_pos_of_mem (List.mem_map.2 ⟨t, List.mem_eraseDups.2 ht, rfl⟩) ?_
      have hne : ((ts.filter (fun t => query.contains t)).filter (fun y => y == t)).length ≠ 0 := by
        rw [Ne, List.length_eq_zero_iff, List.filter_eq_nil_iff]
        intro hall
        exact hall t (List.mem_filter.2 ⟨hts, by simpa using ht⟩) (by simp)
      rw [if_neg hne]
      exact hw _ _ _ _ _ (Nat.pos_of_ne_zero hne)

theorem find_urow {l : List URow} (hnd : (l.map URow.row).Nodup) {u : URow} (hu : u ∈ l) : l.find? (fun v => v.row == u.row) = some u := by
  induction l with
  | nil => cases hu
  | cons a l ih =>
    rw [List.map_cons, List.nodup_cons] at hnd
    rw [List.find?_cons]
    rcases List.mem_cons.1 hu with h | h
    · subst h
      simp
    · have hne : a.row ≠ u.row := fun e => hnd.1 (e ▸ List.mem_map.2 ⟨u, h, rfl⟩)
      rw [show (a.row == u.row) = false from by simpa using hne]
      exact ih hnd.2 h

theorem readRows_flat (query : List Tok) (x : Index) : ∀ (l : List URow), (∀ u ∈ l, u.filterCols = []) →
    readRows ((l.map (fun u => (u, flatScore wt x query u.toks))).filterMap (fun us =>
      if 0 < us.2 then some (us.1.filterCols ++ [.u64 us.1.row, .f32 us.2]) else none)) =
    some ((l.filter (fun u => 0 < flatScore wt x query u.toks)).map (fun u => (u.row, flatScore wt x query u.toks))) := by
  intro l
  induction l with
  | nil => intro _; rfl
  | cons u l ih =>
    intro h
    have ih' := ih fun v hv => h v (List.mem_cons_of_mem _ hv)
    rw [List.map_cons, List.filterMap_cons, List.filter_cons]
    by_cases hp : 0 < flatScore wt x query u.toks
    · simp only [hp, if_true, decide_true]
      rw [h u (List.mem_cons_self ..)]
      simp only [List.nil_append, readRows, readRow, ih', List.map_cons]
    · simp only [hp, if_false, decide_false, Bool.false_eq_true]
      exact ih'

/-- What is required of a column: its index has a history, the rows without index are distinct, and there is no filter on them. -/
structure ColOk (wt : Nat → Nat → Nat → Nat → Nat → Nat) (col : ColIn) (c : List Doc) : Prop where
  reach : Reach wt col.withPos col.index c
  rows : (col.rest.map URow.row).Nodup
  noFilter : ∀ u ∈ col.rest, u.filterCols = []

theorem colRows_covers (hmono : Mono wt) (hw : PosWt wt) (lib : Lib) (k : Nat) (scale : Nat → Nat) (query : List Tok)
    (hscale : ∀ y, scale y ≤ y) (hsm : ∀ a b, a ≤ b → scale a ≤ scale b) {col : ColIn} {c : List Doc} (hc : ColOk wt col c) :
    ∃ u, colRows wt lib false k scale query col = some u ∧ Covers (col.srcs wt query c) k u ∧ u.length ≤ c.length + col.rest.length := by
  obtain ⟨r, h1, h2⟩ := C73_search hmono hc.reach lib col.mask k scale query hscale hsm
  have hflat := readRows_flat (wt := wt) query col.index col.rest hc.noFilter
  refine ⟨r ++ (col.rest.filter (fun u => 0 < flatScore wt col.index query u.toks)).map (fun u => (u.row, flatScore wt col.index query u.toks)), ?_, ?_, ?_⟩
  · unfold colRows flatBatch
    rw [h1, hflat]
    rfl
  · refine Covers.append (Covers.topK h2) ⟨?_, ?_⟩
    · intro y hy
      obtain ⟨u, hu, rfl⟩ := List.mem_map.1 hy
      have hu' := List.mem_filter.1 hu
      refine ⟨_, List.mem_singleton.2 rfl, ⟨u, hu'.1, rfl, ?_⟩, ?_⟩
      · exact (C76_flat_rows hw col.index query u).1 (by simpa using hu'.2)
      · simp only
        rw [find_urow hc.rows hu'.1]
    · intro s hs d hd
      rw [List.mem_singleton] at hs
      subst hs
      obtain ⟨u, hu, rfl, hm⟩ := hd
      refine Or.inl (List.mem_map.2 ⟨u, List.mem_filter.2 ⟨hu, ?_⟩, ?_⟩)
      · simpa using (C76_flat_rows hw col.index query u).2 hm
      · simp only
        rw [find_urow hc.rows hu]
  · rw [List.length_append, List.length_map]
    have h3 := List.length_filter_le (fun u => decide (0 < flatScore wt col.index query u.toks)) col.rest
    have hsub : ∀ a ∈ r.map Prod.fst, a ∈ c.map Doc.row := by
      intro a ha
      obtain ⟨y, hy, rfl⟩ := List.mem_map.1 ha
      obtain ⟨⟨_, d, hd, hrow, _⟩, _⟩ := h2.sound y hy
      exact List.mem_map.2 ⟨d, hd, hrow⟩
    have h4 := Verif.Deletion.nodup_length_le (h2.sorted.imp fun h => Nat.ne_of_lt h) hsub
    simp only [List.length_map] at h4
    omega

theorem unionRows_covers (hmono : Mono wt) (hw : PosWt wt) (lib : Lib) (k : Nat) (scale : Nat → Nat) (query : List Tok)
    (hscale : ∀ y, scale y ≤ y) (hsm : ∀ a b, a ≤ b → scale a ≤ scale b) : ∀ (cols : List (ColIn × List Doc)),
    (∀ cc ∈ cols, ColOk wt cc.1 cc.2) →
    ∃ u, unionRows wt lib false k scale query (cols.map (·.1)) = some u ∧ Covers (cols.flatMap (fun cc => cc.1.srcs wt query cc.2)) k u ∧
      u.length ≤ (cols.map (fun cc => cc.2.length + cc.1.rest.length)).sum := by
  intro cols
  induction cols with
  | nil => intro _; exact ⟨[], rfl, Covers.nil k, Nat.le_refl _⟩
  | cons cc cols ih =>
    intro h
    obtain ⟨u, hu, hcu, hlu⟩ := colRows_covers hmono hw lib k scale query hscale hsm (h cc (List.mem_cons_self ..))
    obtain ⟨v, hv, hcv, hlv⟩ := ih fun x hx => h x (List.mem_cons_of_mem _ hx)
    refine ⟨u ++ v, ?_, hcu.append hcv, ?_⟩
    · rw [List.map_cons, unionRows, hu, hv]
    · rw [List.length_append, List.map_cons, List.sum_cons]
      omega

/-- What holds: without offset and filters, the scan returns the best rows of all columns, indexed or not, best first, each once and with
its greatest score.  Without a limit all rows (`big` is `usize::MAX`, more than there are rows).  Missing: offset, filters before and
after the search, phrases. -/
theorem C76_ranking_partial (hmono : Mono wt) (hw : PosWt wt) (lib : Lib) (srt : SortLib) (big : Nat) (limit offset : Option Nat)
    (scale : Nat → Nat) (query : List Tok) (hscale : ∀ y, scale y ≤ y) (hsm : ∀ a b, a ≤ b → scale a ≤ scale b)
    (cols : List (ColIn × List Doc)) (hcols : ∀ cc ∈ cols, ColOk wt cc.1 cc.2)
    (hbig : (cols.map (fun cc => cc.2.length + cc.1.rest.length)).sum < big) (hoff : offset.getD 0 = 0) :
    ∃ r, ftsScan wt lib srt big false limit offset scale query (fun _ => true) (cols.map (·.1)) = some r ∧
      Ranked (cols.flatMap (fun cc => cc.1.srcs wt query cc.2)) (limit.getD big) r := by
  obtain ⟨u, hu, hc, hl⟩ := unionRows_covers hmono hw lib (limit.getD big) scale query hscale hsm cols hcols
  have hr := ranked_of_covers srt hc
  refine ⟨_, ?_, hr⟩
  unfold ftsScan
  rw [hu, Option.map_some, Option.some.injEq]
  have hf : ∀ l : List (Nat × Nat), l.filter (fun _ => true) = l := fun l => List.filter_eq_self.2 (fun _ _ => rfl)
  simp only [hf, hoff, List.drop_zero]
  cases limit with
  | none =>
    simp only [Option.getD_none]
    have hlen : (srt.sort (groupMax u)).length ≤ big := by
      rw [(srt.perm _).length_eq]
      have := groupMax_length u
      omega
    rw [List.take_of_length_le hlen]
    split <;> rfl
  | some k =>
    simp only [Option.getD_some, List.take_take, Nat.min_self]
    split <;> rfl

end

/-! ## What does not hold -/

/-- One way for `SortExec` to sort. -/
def insDesc (x : Nat × Nat) : List (Nat × Nat) → List (Nat × Nat)
  | [] => [x]
  | y :: ys => if y.2 ≤ x.2 then x :: y :: ys else y :: insDesc x ys

def sortDesc : List (Nat × Nat) → List (Nat × Nat)
  | [] => []
  | x :: xs => insDesc x (sortDesc xs)

theorem insDesc_perm (x : Nat × Nat) (l : List (Nat × Nat)) : (insDesc x l).Perm (x :: l) := by
  induction l with
  | nil => exact List.Perm.refl _
  | cons y ys ih =>
    unfold insDesc
    split
    · exact List.Perm.refl _
    · exact (List.Perm.cons y ih).trans (List.Perm.swap x y ys)

def stdSortLib : SortLib where
  sort := sortDesc
  perm l := by
    induction l with
    | nil => exact List.Perm.refl _
    | cons x xs ih => exact (insDesc_perm x _).trans (ih.cons x)
  desc l := by
    induction l with
    | nil => exact List.Pairwise.nil
    | cons x xs ih =>
      show (insDesc x (sortDesc xs)).Pairwise _
      generalize sortDesc xs = l at ih
      induction l with
      | nil => exact List.pairwise_singleton _ _
      | cons y ys ih2 =>
        obtain ⟨h1, h2⟩ := List.pairwise_cons.1 ih
        unfold insDesc
        split
        · rename_i hle
          refine List.Pairwise.cons ?_ ih
          intro a ha
          rcases List.mem_cons.1 ha with rfl | ha
          · exact hle
          · exact Nat.le_trans (h1 a ha) hle
        · rename_i hgt
          refine List.Pairwise.cons ?_ (ih2 h2)
          intro a ha
          rcases List.mem_cons.1 ((insDesc_perm x ys).mem_iff.1 ha) with rfl | ha
          · omega
          · exact h1 a ha

theorem exWt_pos : PosWt exWt := by
  intro n t l dl f _
  unfold exWt
  exact Nat.succ_pos _

def exIndex : Index := update exWt true exSched emptyIndex

/-- The two documents of the index, and a row "7 9" without index. -/
def exCol : ColIn := ⟨exIndex, true, fun _ => true, [⟨[], 50, some [7, 9]⟩]⟩

theorem exCol_ok : ColOk exWt exCol exDocs := ⟨exReach, by decide, by decide⟩

/-- The example: rows 10 and 50 have token 7, row 11 does not; 9 is in 11 and 50. -/
theorem C76_nonvacuous :
    ColOk exWt exCol exDocs ∧ Mono exWt ∧ PosWt exWt ∧
    ftsScan exWt stdLib stdSortLib 100 false (some 5) none id [7] (fun _ => true) [exCol] = some [(10, 13), (50, 13)] ∧
    (ftsScan exWt stdLib stdSortLib 100 false none none id [7, 9] (fun _ => true) [exCol, exCol]).map (·.map Prod.fst) = some [50, 10, 11] :=
  ⟨exCol_ok, exWt_mono, exWt_pos, by decide +kernel, by decide +kernel⟩

/-- The full claim for pages: with a limit and an offset, as many rows as there are after the offset, up to the limit. -/
def C76_offset_statement : Prop :=
  ∀ (wt : Nat → Nat → Nat → Nat → Nat → Nat) (lib : Lib) (srt : SortLib) (big limit offset : Nat) (query : List Tok)
    (cols : List (ColIn × List Doc)), Mono wt → PosWt wt → (∀ cc ∈ cols, ColOk wt cc.1 cc.2) →
    (cols.map (fun cc => cc.2.length + cc.1.rest.length)).sum < big →
    ∀ all r, ftsScan wt lib srt big false none none id query (fun _ => true) (cols.map (·.1)) = some all →
      ftsScan wt lib srt big false (some limit) (some offset) id query (fun _ => true) (cols.map (·.1)) = some r →
      r.length = min limit (all.length - offset)

/-- Two rows, the second one asked for: nothing is returned. -/
theorem C76_offset_violated : ¬ C76_offset_statement := by
  intro h
  have := h exWt stdLib stdSortLib 100 1 1 [7] [(exCol, exDocs)] exWt_mono exWt_pos (by intro cc hcc; cases List.mem_singleton.1 hcc; exact exCol_ok)
    (by decide) [(10, 13), (50, 13)] [] (by decide +kernel) (by decide +kernel)
  revert this
  decide

/-- The full claim with a filter after the search: the limit counts rows that pass the filter. -/
def C76_postfilter_statement : Prop :=
  ∀ (wt : Nat → Nat → Nat → Nat → Nat → Nat) (lib : Lib) (srt : SortLib) (big limit : Nat) (query : List Tok) (post : Nat → Bool)
    (cols : List (ColIn × List Doc)), Mono wt → PosWt wt → (∀ cc ∈ cols, ColOk wt cc.1 cc.2) →
    (cols.map (fun cc => cc.2.length + cc.1.rest.length)).sum < big →
    ∀ all r, ftsScan wt lib srt big false none none id query post (cols.map (·.1)) = some all →
      ftsScan wt lib srt big false (some limit) none id query post (cols.map (·.1)) = some r →
      r.length = min limit all.length

/-- The best row does not pass the filter, the second one does; the limit is one: nothing is returned. -/
theorem C76_postfilter_violated : ¬ C76_postfilter_statement := by
  intro h
  have := h exWt stdLib stdSortLib 100 1 [7] (fun r => r == 50) [(exCol, exDocs)] exWt_mono exWt_pos
    (by intro cc hcc; cases List.mem_singleton.1 hcc; exact exCol_ok) (by decide) [(50, 13)] [] (by decide +kernel) (by decide +kernel)
  revert this
  decide

/-- The full claim with a filter before the search: the scan does not fail. -/
def C76_prefilter_statement : Prop :=
  ∀ (wt : Nat → Nat → Nat → Nat → Nat → Nat) (lib : Lib) (srt : SortLib) (big : Nat) (limit : Option Nat) (query : List Tok)
    (col : ColIn) (c : List Doc), Mono wt → PosWt wt → Reach wt col.withPos col.index c → (col.rest.map URow.row).Nodup →
    (ftsScan wt lib srt big false limit none id query (fun _ => true) [col]).isSome

/-- A filter on a column of integers, and a row without index that passes it: the column of the filter is read as the row id. -/
theorem C76_prefilter_violated : ¬ C76_prefilter_statement := by
  intro h
  have := h exWt stdLib stdSortLib 100 none [7] ⟨exIndex, true, fun _ => true, [⟨[.other 3], 50, some [7, 9]⟩]⟩ exDocs exWt_mono exWt_pos exReach (by decide)
  revert this
  decide +kernel

/-- Every row without index with columns of the filter and a token of the query makes the scan fail, except that the columns begin with an
unsigned and a float column, which are then taken for row id and score. -/
theorem C76_prefilter_always_fails {wt : Nat → Nat → Nat → Nat → Nat → Nat} (hw : PosWt wt) (lib : Lib) (srt : SortLib) (big : Nat)
    (phrase : Bool) (limit offset : Option Nat) (scale : Nat → Nat) (query : List Tok) (post : Nat → Bool) (col : ColIn) (cols : List ColIn)
    (u : URow) (hu : u ∈ col.rest) (hf : u.filterCols ≠ []) (ht : ∀ n m l, u.filterCols ≠ .u64 n :: .f32 m :: l) (hm : u.matches query) (hcol : col ∈ cols) :
    ftsScan wt lib srt big phrase limit offset scale query post cols = none := by
  have hread : ∀ (l : List (List Val)) (v : List Val), v ∈ l → readRow v = none → readRows l = none := by
    intro l
    induction l with
    | nil => intro v h; cases h
    | cons a l ih =>
      intro v hv hn
      rw [readRows]
      rcases List.mem_cons.1 hv with rfl | hv
      · rw [hn]
      · rw [ih v hv hn]
        cases readRow a <;> rfl
  have hrow : readRow (u.filterCols ++ [.u64 u.row, .f32 (flatScore wt col.index query u.toks)]) = none := by
    obtain ⟨a, l, hl⟩ := List.exists_cons_of_ne_nil hf
    rw [hl, List.cons_append]
    cases a with
    | u64 n =>
      cases l with
      | nil => rfl
      | cons b l =>
        cases b with
        | u64 m => rfl
        | f32 m => exact absurd hl (ht n m l)
        | other m => rfl
    | f32 n => rfl
    | other n => rfl
  have hcolN : colRows wt lib phrase (limit.getD big) scale query col = none := by
    have : readRows (flatBatch wt query col) = none := by
      refine hread _ _ (List.mem_filterMap.2 ⟨(u, flatScore wt col.index query u.toks), List.mem_map.2 ⟨u, hu, rfl⟩, ?_⟩) hrow
      rw [if_pos ((C76_flat_rows hw col.index query u).2 hm)]
    unfold colRows
    rw [this]
    split <;> rfl
  have hun : unionRows wt lib phrase (limit.getD big) scale query cols = none := by
    induction cols with
    | nil => cases hcol
    | cons a cols ih =>
      rw [unionRows]
      rcases List.mem_cons.1 hcol with rfl | h
      · rw [hcolN]
      · rw [ih h]
        cases colRows wt lib phrase (limit.getD big) scale query a <;> rfl
  unfold ftsScan
  rw [hun]
  rfl

/-- The full claim for phrases: every row returned has the phrase. -/
def C76_phrase_statement : Prop :=
  ∀ (wt : Nat → Nat → Nat → Nat → Nat → Nat) (lib : Lib) (srt : SortLib) (big : Nat) (limit : Option Nat) (query : List Tok)
    (col : ColIn) (c : List Doc), Mono wt → PosWt wt → ColOk wt col c →
    ∀ r, ftsScan wt lib srt big true limit none id query (fun _ => true) [col] = some r →
      ∀ x ∈ r, ∀ u ∈ col.rest, u.row = x.1 → ∃ ts a b, u.toks = some ts ∧ ts = a ++ query ++ b

/-- The phrase "7 8": the row "7 9" without index is returned. -/
theorem C76_phrase_violated : ¬ C76_phrase_statement := by
  intro h
  obtain ⟨ts, a, b, h1, h2⟩ := h exWt stdLib stdSortLib 100 none [7, 8] exCol exDocs exWt_mono exWt_pos exCol_ok [(10, 18), (50, 13)] (by decide +kernel)
    (50, 13) (by decide) ⟨[], 50, some [7, 9]⟩ (by simp [exCol]) rfl
  simp only [Option.some.injEq] at h1
  subst h1
  have : (8 : Nat) ∈ [7, 9] := by
    rw [h2]
    simp
  revert this
  decide

end Verif.Fts
