import Verif.Pq.LemmasSearch
import Verif.Pq.Spec
/-!
# C106 and C107: maintenance of product-quantized indices

C106: compaction, which gives rows new ids and removes deleted rows from an index, leaves the partitions as they were if built of the remaining rows.
C107: so does an optimization of indices, which merges partitions and new rows.
-/
namespace Verif.Pq

/-- C106, for both formats: remapping a partition gives the partition of the rows that are left. -/
def C106_statement : Prop :=
  ∀ (q : Quantizer) (rows : List (Nat × List Int)) (m : Mapping), Valid q → Sized q rows →
    (Storage.build q rows).bind (fun s => s.remap m) = Storage.build q (survivors m rows) ∧
    (q.bits = 8 → (Page.build q rows).bind (fun p => p.rewrite m) = Page.build q (survivors m rows))

/-- The first format: any number of compactions, one after the other. -/
theorem C106_first_format (q : Quantizer) (rows : List (Nat × List Int)) (ms : List Mapping) (hq : Valid q) (hb : q.bits = 8) (h : Sized q rows) :
    (Page.build q rows).bind (fun p => ms.foldlM Page.rewrite p) = Page.build q (ms.foldl (fun r m => survivors m r) rows) ∧
    (Page.build q rows).isSome := by
  rw [page_build hq hb h]
  refine ⟨?_, rfl⟩
  simp only [Option.bind_some]
  induction ms generalizing rows with
  | nil => simp only [List.foldlM_nil, List.foldl_nil]; exact (page_build hq hb h).symm
  | cons m ms ih =>
    simp only [List.foldlM_cons, List.foldl_cons]
    rw [page_rewrite hq hb h m]
    exact ih _ (survivors_sized h)

/-- The first format: what `to_batch_stream` gives out are the row ids and, for every row, a code of the vector that it is quantized to. -/
theorem C106_batch (q : Quantizer) (rows : List (Nat × List Int)) (hq : Valid q) (hb : q.bits = 8) (h : Sized q rows) :
    ∃ p codes, Page.build q rows = some p ∧ p.toBatch = some ((rows.map Prod.fst).zip codes) ∧ codes.length = rows.length ∧
      ∀ (j : Nat) (r : Nat × List Int) (c : List Nat), rows[j]? = some r → codes[j]? = some c → Quantized q r.2 (reconstruct q c) := by
  refine ⟨_, coded q rows, page_build hq hb h, ?_, coded_length q rows, ?_⟩
  · rw [page_toBatch hq hb h]
    congr 1
    unfold coded
    clear h
    induction rows with
    | nil => rfl
    | cons r rows ih => simp only [List.map_cons, List.zip_cons_cons, ih]
  · intro j r c hr hc
    unfold coded at hc
    rw [List.getElem?_map, hr] at hc
    simp only [Option.map_some, Option.some.injEq] at hc
    subst hc
    have hc := codeD_spec hq (h r (List.mem_of_getElem? hr))
    have hu : unpack q.bits (codeD q r.2) = codeD q r.2 := by unfold unpack; rw [if_neg (by omega)]
    have h1 := hc.choice
    have h2 := hc.best
    rw [hu] at h1 h2
    exact ⟨_, h1, rfl, h2⟩

/-- The rows that are left are the rows that were there and are not mapped to nothing, in their order; their vectors are the same. -/
theorem C106_survivors (m : Mapping) (rows : List (Nat × List Int)) :
    survivors m rows = rows.filterMap (fun r => match m r.1 with | some none => none | some (some id) => some (id, r.2) | none => some r) := by
  induction rows with
  | nil => rfl
  | cons r rows ih =>
    obtain ⟨id, v⟩ := r
    unfold survivors
    rw [List.filterMap_cons]
    cases hm : m id with
    | none => simp only [hm]; rw [ih]
    | some o => cases o <;> (simp only [hm]; rw [ih])

/-- C106 in part: in the third format, if no row of the partition is removed. -/
theorem C106_remap_partial (q : Quantizer) (rows : List (Nat × List Int)) (m : Mapping) (hq : Valid q) (h : Sized q rows) (hm : ∀ r ∈ rows, m r.1 ≠ some none) :
    (Storage.build q rows).bind (fun s => s.remap m) = Storage.build q (survivors m rows) ∧ (Storage.build q rows).isSome := by
  rw [storage_build hq h, storage_build hq (survivors_sized h)]
  exact ⟨storage_remap hq h m hm, rfl⟩

/-- C106 in part: in the third format, also if rows are removed, if the code of a row is one byte. -/
theorem C106_byte_partial (q : Quantizer) (rows : List (Nat × List Int)) (m : Mapping) (hq : Valid q) (hc : q.codeLen = 1) (h : Sized q rows) :
    (Storage.build q rows).bind (fun s => s.remap m) = Storage.build q (survivors m rows) ∧ (Storage.build q rows).isSome := by
  have hlen : ∀ {l : List (Nat × List Int)}, Sized q l → ∀ r ∈ coded q l, r.length = 1 := fun hl r hr => by rw [coded_mem_length hq hl hr, hc]
  rw [storage_build hq h, storage_build hq (survivors_sized h)]
  refine ⟨?_, rfl⟩
  obtain ⟨k1, k2⟩ := pick_kept (codeD q) m (coded q rows) rows [] rfl
  simp only [List.length_nil] at k1 k2
  simp only [Option.bind_some]
  unfold Storage.remap fsl
  simp only [hc]
  rw [columns_one (hlen h), columns_one (hlen (survivors_sized h)), chunks_one (hlen h), if_neg (by decide), if_pos (Nat.mod_one _)]
  simp only
  rw [k1]
  simp only [k2]
  unfold Storage.new
  rfl

/-- Four sub-vectors of one number, 4 bits, the centroids 0 to 15. -/
def grid (m : Metric) : Quantizer := ⟨4, 4, 4, ((List.replicate 4 ((List.range 16).map Int.ofNat)).flatten), m⟩

theorem grid_valid (m : Metric) : Valid (grid m) where
  bits := Or.inr ⟨rfl, show 4 % 2 = 0 by decide⟩
  subs := show 0 < 4 by decide
  width := show 0 < 4 / 4 by decide
  dim := show 4 = 4 * (4 / 4) by decide
  codebook := by simp [grid, Quantizer.width]

def exRows : List (Nat × List Int) := [(7, [1, 2, 3, 4]), (8, [5, 6, 7, 8])]

theorem exRows_sized (m : Metric) : Sized (grid m) exRows := by
  intro r hr
  simp only [exRows, List.mem_cons, List.not_mem_nil, or_false] at hr
  rcases hr with rfl | rfl <;> rfl

/-- In the third format, the codes are mixed up if a row is removed: after the second row is removed, the first, which is at distance 0 of the query, is reported
at distance 8, which is that of a vector of the first half of the first row and the first half of the second. -/
theorem C106_mixed_violated : (Storage.build (grid .l2) exRows).bind (fun s => s.distance [1, 2, 3, 4] 0) = some 0 ∧
    ((Storage.build (grid .l2) exRows).bind (fun s => s.remap (fun id => if id = 8 then some none else none))).map (fun s => (s.rowIds, s.distance [1, 2, 3, 4] 0)) =
      some ([7], some (unit * 8)) := by
  constructor <;> decide +kernel

theorem C106_violated : ¬C106_statement := by
  intro h
  have h1 := (h (grid .l2) exRows (fun id => if id = 8 then some none else none) (grid_valid _) (exRows_sized _)).1
  have h2 := C106_mixed_violated.2
  rw [h1] at h2
  have h3 : (Storage.build (grid .l2) (survivors (fun id => if id = 8 then some none else none) exRows)).map (fun s => (s.rowIds, s.distance [1, 2, 3, 4] 0)) =
      some ([7], some 0) := by decide +kernel
  rw [h3] at h2
  exact absurd h2 (by decide)

/-! ## Merging -/

/-- The index of a partition's rows in the dataset: all are there. -/
def Live (dataset : Nat → Option (List Int)) (rows : List (Nat × List Int)) : Prop := ∀ r ∈ rows, dataset r.1 = some r.2

/-- C107, for both formats: merging partitions and new rows gives the partition of all rows, less those that were deleted. -/
def C107_statement : Prop :=
  (∀ (q : Quantizer) (R : List (List (Nat × List Int))) (rows : List (Nat × List Int)) (pages : List Page), Valid q → q.bits = 8 → (∀ l ∈ R, Sized q l) → Sized q rows →
    R.mapM (Page.build q) = some pages → Page.merge q pages rows = Page.build q (R.flatten ++ rows)) ∧
  ∀ (q : Quantizer) (c : List Int) (dataset : Nat → Option (List Int)) (R : List (List (Nat × List Int))) (rows : List (Nat × List Int)) (olds : List Storage),
    Valid q → c.length = q.dim → (∀ l ∈ R, Sized q l) → Sized q rows → (∀ l ∈ R, ∀ r ∈ l, dataset r.1 = some r.2 ∨ dataset r.1 = none) →
    R.mapM (buildPart q c) = some olds → mergePart q dataset c olds rows = buildPart q c (R.flatten.filter (fun r => (dataset r.1).isSome) ++ rows)

theorem mapM_page {q : Quantizer} (hq : Valid q) (hb : q.bits = 8) : ∀ (R : List (List (Nat × List Int))), (∀ l ∈ R, Sized q l) → R.mapM (Page.build q) = some (R.map (pageOf q))
  | [], _ => rfl
  | l :: R, h => by
    rw [List.mapM_cons, page_build hq hb (h l List.mem_cons_self), mapM_page hq hb R (fun x hx => h x (List.mem_cons_of_mem _ hx))]
    rfl

/-- C107 in the first format. -/
theorem C107_first_format (q : Quantizer) (R : List (List (Nat × List Int))) (rows : List (Nat × List Int)) (hq : Valid q) (hb : q.bits = 8) (hR : ∀ l ∈ R, Sized q l)
    (h : Sized q rows) : ∃ pages, R.mapM (Page.build q) = some pages ∧ Page.merge q pages rows = Page.build q (R.flatten ++ rows) ∧
      (Page.build q (R.flatten ++ rows)).isSome := by
  refine ⟨_, mapM_page hq hb R hR, ?_⟩
  have hs : Sized q (R.flatten ++ rows) := by
    intro r hr
    rcases List.mem_append.1 hr with hr | hr
    · obtain ⟨l, hl, hr⟩ := List.mem_flatten.1 hr
      exact hR l hl r hr
    · exact h r hr
  rw [page_merge hq hb R hR h, page_build hq hb hs]
  exact ⟨rfl, rfl⟩

theorem takeVectors_live {dataset : Nat → Option (List Int)} : ∀ {rows : List (Nat × List Int)}, Live dataset rows → (rows.map Prod.fst).filterMap dataset = rows.map Prod.snd
  | [], _ => rfl
  | r :: rows, h => by
    simp only [List.map_cons]
    rw [List.filterMap_cons, h r List.mem_cons_self]
    simp only
    rw [takeVectors_live (fun x hx => h x (List.mem_cons_of_mem _ hx))]

theorem takeVectors_eq {dataset : Nat → Option (List Int)} {rows : List (Nat × List Int)} (h : Live dataset rows) : takeVectors dataset (rows.map Prod.fst) = some rows := by
  unfold takeVectors
  rw [takeVectors_live h]
  simp only [List.length_map, if_true]
  congr 1
  clear h
  induction rows with
  | nil => rfl
  | cons r rows ih => simp only [List.map_cons, List.zip_cons_cons, ih]

theorem minus_length {q : Quantizer} {c v : List Int} (hc : c.length = q.dim) (hv : v.length = q.dim) : (prepare q.metric c v).length = q.dim := by
  unfold prepare minus
  split <;> simp [hc, hv]

theorem prepared_sized {q : Quantizer} {c : List Int} (hc : c.length = q.dim) {rows : List (Nat × List Int)} (h : Sized q rows) :
    Sized q (rows.map (fun r => (r.1, prepare q.metric c r.2))) := by
  intro r hr
  obtain ⟨r', hr', rfl⟩ := List.mem_map.1 hr
  exact minus_length hc (h r' hr')

theorem buildPart_ids {q : Quantizer} {c : List Int} (hq : Valid q) (hc : c.length = q.dim) {rows : List (Nat × List Int)} (h : Sized q rows) :
    ∃ s, buildPart q c rows = some s ∧ s.rowIds = rows.map Prod.fst := by
  refine ⟨_, storage_build hq (prepared_sized hc h), ?_⟩
  simp only [List.map_map]
  rfl

theorem oldRows_eq {q : Quantizer} {c : List Int} (hq : Valid q) (hc : c.length = q.dim) {dataset : Nat → Option (List Int)} : ∀ (R : List (List (Nat × List Int))),
    (∀ l ∈ R, Sized q l) → (∀ l ∈ R, Live dataset l) → ∃ olds, R.mapM (buildPart q c) = some olds ∧ oldRows dataset olds = some R.flatten
  | [], _, _ => ⟨[], rfl, rfl⟩
  | l :: R, h, hl => by
    obtain ⟨s, s1, s2⟩ := buildPart_ids hq hc (h l List.mem_cons_self)
    obtain ⟨olds, o1, o2⟩ := oldRows_eq hq hc R (fun x hx => h x (List.mem_cons_of_mem _ hx)) (fun x hx => hl x (List.mem_cons_of_mem _ hx))
    refine ⟨s :: olds, ?_, ?_⟩
    · rw [List.mapM_cons, s1, o1]; rfl
    · unfold oldRows
      rw [s2, takeVectors_eq (hl l List.mem_cons_self), o2]
      rfl

/-- C107 in part: in the third format, for the dot metric and if no row was deleted. -/
theorem C107_merge_partial (q : Quantizer) (c : List Int) (dataset : Nat → Option (List Int)) (R : List (List (Nat × List Int))) (rows : List (Nat × List Int))
    (hq : Valid q) (hm : q.metric = .dot) (hc : c.length = q.dim) (hR : ∀ l ∈ R, Sized q l) (h : Sized q rows) (hl : ∀ l ∈ R, Live dataset l) :
    ∃ olds, R.mapM (buildPart q c) = some olds ∧ mergePart q dataset c olds rows = buildPart q c (R.flatten ++ rows) ∧ (buildPart q c (R.flatten ++ rows)).isSome := by
  obtain ⟨olds, o1, o2⟩ := oldRows_eq hq hc R hR hl
  refine ⟨olds, o1, ?_⟩
  have hp : ∀ l : List (Nat × List Int), l.map (fun r => (r.1, prepare q.metric c r.2)) = l := by
    intro l
    rw [hm]
    exact List.map_id l
  have hs : Sized q (R.flatten ++ rows) := by
    intro r hr
    rcases List.mem_append.1 hr with hr | hr
    · obtain ⟨l, hl, hr⟩ := List.mem_flatten.1 hr
      exact hR l hl r hr
    · exact h r hr
  unfold mergePart buildPart
  rw [o2]
  simp only [hp]
  exact ⟨trivial, by rw [storage_build hq hs]; rfl⟩

/-- C107 in part: in the third format, whatever the metric, new rows that are merged are as in a partition that is built of them alone. -/
theorem C107_new_partial (q : Quantizer) (c : List Int) (dataset : Nat → Option (List Int)) (R : List (List (Nat × List Int))) (rows : List (Nat × List Int))
    (hq : Valid q) (hc : c.length = q.dim) (hR : ∀ l ∈ R, Sized q l) (h : Sized q rows) (hl : ∀ l ∈ R, Live dataset l) :
    ∃ olds s s', R.mapM (buildPart q c) = some olds ∧ mergePart q dataset c olds rows = some s ∧ buildPart q c rows = some s' ∧
      s.rowIds = R.flatten.map Prod.fst ++ s'.rowIds ∧
      ∀ (query : List Int) (j : Nat), query.length = q.dim → j < rows.length →
        s.distance query (R.flatten.length + j) = s'.distance query j ∧ (s'.distance query j).isSome := by
  obtain ⟨olds, o1, o2⟩ := oldRows_eq hq hc R hR hl
  have hf : Sized q R.flatten := by
    intro r hr
    obtain ⟨l, hl, hr⟩ := List.mem_flatten.1 hr
    exact hR l hl r hr
  have hs : Sized q (R.flatten ++ rows.map (fun r => (r.1, prepare q.metric c r.2))) := by
    intro r hr
    rcases List.mem_append.1 hr with hr | hr
    · exact hf r hr
    · exact prepared_sized hc h r hr
  have hb := storage_build hq hs
  refine ⟨olds, ⟨q, (columns q.codeLen (coded q (R.flatten ++ rows.map (fun r => (r.1, prepare q.metric c r.2))))).flatten,
    (R.flatten ++ rows.map (fun r => (r.1, prepare q.metric c r.2))).map Prod.fst⟩, _, o1, ?_, storage_build hq (prepared_sized hc h), ?_, ?_⟩
  · unfold mergePart
    rw [o2]
    exact storage_build hq hs
  · simp only [List.map_append]
  · intro query j hq1 hj
    have hj' : (rows.map (fun r => (r.1, prepare q.metric c r.2)))[j]? = some (rows[j].1, prepare q.metric c rows[j].2) := by
      rw [List.getElem?_map, List.getElem?_eq_getElem hj]; rfl
    rw [storage_distance hq hs hq1 (r := (rows[j].1, prepare q.metric c rows[j].2)) (by rw [List.getElem?_append_right (by omega)]; rw [← hj']; congr 1; omega),
      storage_distance hq (prepared_sized hc h) hq1 hj']
    exact ⟨rfl, rfl⟩
/-- In the third format with L2, merging quantizes the vectors of rows that were in the index and not what they are less the centroid of the partition,
as the search expects: a row that equals the query was reported at distance 0, and after the merge, without any new row, at distance 4. -/
theorem C107_residual_violated : ∃ (c : List Int) (dataset : Nat → Option (List Int)), Live dataset exRows ∧ c.length = 4 ∧
    (buildPart (grid .l2) c exRows).bind (fun s => s.distance (prepare .l2 c [5, 6, 7, 8]) 1) = some 0 ∧
    ((buildPart (grid .l2) c exRows).bind (fun s => mergePart (grid .l2) dataset c [s] [])).bind (fun s => s.distance (prepare .l2 c [5, 6, 7, 8]) 1) = some (unit * 4) ∧
    (buildPart (grid .l2) c exRows).bind (fun s => mergePart (grid .l2) dataset c [s] []) ≠ buildPart (grid .l2) c exRows := by
  refine ⟨[1, 1, 1, 1], fun id => if id = 7 then some [1, 2, 3, 4] else if id = 8 then some [5, 6, 7, 8] else none, ?_, rfl, by decide +kernel, by decide +kernel, by decide +kernel⟩
  intro r hr
  simp only [exRows, List.mem_cons, List.not_mem_nil, or_false] at hr
  rcases hr with rfl | rfl <;> rfl

/-- In the third format, merging fails if a row of the index was deleted. -/
theorem C107_deleted_violated (q : Quantizer) (c : List Int) (dataset : Nat → Option (List Int)) (l rows : List (Nat × List Int)) (hq : Valid q) (hc : c.length = q.dim)
    (h : Sized q l) (r : Nat × List Int) (hr : r ∈ l) (hd : dataset r.1 = none) :
    ∃ s, buildPart q c l = some s ∧ mergePart q dataset c [s] rows = none := by
  obtain ⟨s, s1, s2⟩ := buildPart_ids hq hc h
  refine ⟨s, s1, ?_⟩
  have hlt : ∀ (ids : List Nat), r.1 ∈ ids → (ids.filterMap dataset).length < ids.length := by
    intro ids
    induction ids with
    | nil => intro h; simp at h
    | cons i ids ih =>
      intro hm
      rw [List.filterMap_cons]
      by_cases hi : r.1 = i
      · subst hi
        rw [hd]
        have := List.length_filterMap_le dataset ids
        simp only [List.length_cons]
        omega
      · rcases List.mem_cons.1 hm with h | h
        · exact absurd h hi
        · have := ih h
          split <;> simp only [List.length_cons] <;> omega
  have := hlt s.rowIds (by rw [s2]; exact List.mem_map.2 ⟨r, hr, rfl⟩)
  unfold mergePart oldRows takeVectors
  simp only
  rw [if_neg (by omega)]

theorem C107_violated : ¬C107_statement := by
  intro h
  obtain ⟨s, s1, s2⟩ := C107_deleted_violated (grid .dot) [1, 1, 1, 1] (fun _ => none) exRows [] (grid_valid _) rfl (exRows_sized _) (7, [1, 2, 3, 4])
    (by simp [exRows]) rfl
  have h1 := h.2 (grid .dot) [1, 1, 1, 1] (fun _ => none) [exRows] [] [s] (grid_valid _) rfl
    (by intro l hl; simp at hl; subst hl; exact exRows_sized _) (by intro r hr; simp at hr) (by intro l _ r _; exact Or.inr rfl)
    (by rw [List.mapM_cons, s1]; rfl)
  rw [s2] at h1
  exact absurd h1 (by decide +kernel)

/-- The hypotheses hold: two rows that are kept with new ids, and partitions that are merged. -/
theorem C106_nonvacuous : Valid (grid .l2) ∧ Sized (grid .l2) exRows ∧ (∀ r ∈ exRows, (fun id => if id = 8 then some (some 9) else none : Mapping) r.1 ≠ some none) ∧
    survivors (fun id => if id = 8 then some (some 9) else if id = 7 then some none else none) exRows = [(9, [5, 6, 7, 8])] := by
  refine ⟨grid_valid _, exRows_sized _, ?_, by decide⟩
  intro r hr
  simp only [exRows, List.mem_cons, List.not_mem_nil, or_false] at hr
  rcases hr with rfl | rfl <;> simp

/-- Two sub-vectors of one number, 4 bits: the code of a row is one byte; a row is removed. -/
theorem C106_byte_nonvacuous : ∃ q : Quantizer, Valid q ∧ q.codeLen = 1 ∧ Sized q [(7, [1, 2]), (8, [5, 6])] ∧
    survivors (fun id => if id = 7 then some none else none) [(7, [1, 2]), (8, [5, 6])] = [(8, [5, 6])] := by
  refine ⟨⟨4, 2, 2, ((List.replicate 2 ((List.range 16).map Int.ofNat)).flatten), .l2⟩, ?_, by decide, ?_, by decide⟩
  · exact
      { bits := Or.inr ⟨rfl, show 2 % 2 = 0 by decide⟩
        subs := show 0 < 2 by decide
        width := show 0 < 2 / 2 by decide
        dim := show 2 = 2 * (2 / 2) by decide
        codebook := by simp [Quantizer.width] }
  · intro r hr
    simp only [List.mem_cons, List.not_mem_nil, or_false] at hr
    rcases hr with rfl | rfl <;> rfl

theorem C107_nonvacuous : Valid (grid .dot) ∧ (∀ l ∈ [exRows, exRows], Sized (grid .dot) l) ∧
    (∀ l ∈ [exRows, exRows], Live (fun id => if id = 7 then some [1, 2, 3, 4] else if id = 8 then some [5, 6, 7, 8] else none) l) := by
  refine ⟨grid_valid _, ?_, ?_⟩
  · intro l hl
    simp at hl
    subst hl
    exact exRows_sized _
  · intro l hl
    simp at hl
    subst hl
    intro r hr
    simp only [exRows, List.mem_cons, List.not_mem_nil, or_false] at hr
    rcases hr with rfl | rfl <;> rfl

end Verif.Pq
