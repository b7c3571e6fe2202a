import Verif.Scalar.LemmasLabels

/-! Helper lemmas for remapping and updating indices. -/
namespace Verif.Scalar
open Verif
open Verif.RowSet (TreeMap)

variable {V : Type} [LinOrd V] [DecidableEq V]

/-- The files of the index hold these pages. -/
structure Form (b : BTree V) (pages : List (List (Row V))) : Prop where
  file : b.file = pages.flatten
  lookup : b.lookup = analyzeAll 0 pages
  read : ∀ k p, pages[k]? = some p → readPage b.bs b.file k = p ∧ p ≠ []
  ordered : Ordered pages.flatten

theorem form_train (bs : Nat) (hb : 0 < bs) (stream : List (List (Row V))) (h : Ordered stream.flatten) :
    Form (trainBTree bs stream) (Chunk.chunkConcatStream stream bs) := by
  obtain ⟨h1, h2⟩ := chunk_pages stream bs hb
  refine ⟨rfl, rfl, ?_, by rw [h1]; exact h⟩
  intro k p hk
  have hf : (trainBTree bs stream).file = stream.flatten := h1
  rw [hf]
  exact h2 k p hk

theorem covers_form {b : BTree V} {pages : List (List (Row V))} (h : Form b pages) : Covers b b.file := by
  refine covers_of h.lookup (pOrd_of _ h.ordered) ?_ ?_
  · intro k _ r hr
    exact List.mem_of_mem_drop (List.mem_of_mem_take hr)
  · intro r hr
    rw [h.file, List.mem_flatten] at hr
    obtain ⟨p, hp, hrp⟩ := hr
    obtain ⟨k, hk⟩ := List.getElem?_of_mem hp
    exact ⟨k, p, hk, by rw [(h.read k p hk).1]; exact hrp, r, hrp, rfl⟩

theorem covers_perm {b : BTree V} {rows rows' : List (Row V)} (h : Covers b rows) (hp : rows.Perm rows') :
    Covers b rows' :=
  ⟨fun s hs r hr => hp.mem_iff.1 (h.sound s hs r hr), fun x i hx => h.value x i (hp.mem_iff.2 hx),
    fun i hi => h.null i (hp.mem_iff.2 hi)⟩

/-! ### Remapping -/

/-- The row with its new id, if it stays. -/
def newRow (f : Mapping) (r : Row V) : Row V := (r.1, ((f r.2).getD (some r.2)).getD r.2)

omit [LinOrd V] [DecidableEq V] in
theorem remapBatch_map (f : Mapping) (rows : List (Row V)) (h : ∀ r ∈ rows, f r.2 ≠ some none) :
    remapBatch f rows = rows.map (newRow f) := by
  unfold remapBatch
  induction rows with
  | nil => rfl
  | cons r rows ih =>
    have h0 : remapRow f r = some (newRow f r) := by
      unfold remapRow newRow
      cases hf : f r.2 with
      | none => rfl
      | some o =>
        cases o with
        | none => exact absurd hf (h r (List.mem_cons_self ..))
        | some n => rfl
    rw [List.filterMap_cons, h0, List.map_cons, ih (fun r' hr => h r' (List.mem_cons_of_mem _ hr))]

omit [LinOrd V] [DecidableEq V] in
theorem mem_remapBatch (f : Mapping) (rows : List (Row V)) (v : Option V) (j : Nat) :
    (v, j) ∈ remapBatch f rows ↔ ∃ i, (v, i) ∈ rows ∧ Moved f i j := by
  unfold remapBatch Moved
  rw [List.mem_filterMap]
  constructor
  · rintro ⟨⟨w, i⟩, h1, h2⟩
    unfold remapRow at h2
    simp only at h2
    cases hf : f i with
    | none =>
      rw [hf] at h2; simp at h2
      obtain ⟨rfl, rfl⟩ := h2
      exact ⟨i, h1, Or.inr ⟨hf, rfl⟩⟩
    | some o =>
      cases o with
      | none => rw [hf] at h2; simp at h2
      | some n =>
        rw [hf] at h2; simp at h2
        obtain ⟨rfl, rfl⟩ := h2
        exact ⟨i, h1, Or.inl hf⟩
  · rintro ⟨i, h1, h2 | ⟨h2, rfl⟩⟩
    · exact ⟨(v, i), h1, by simp [remapRow, h2]⟩
    · exact ⟨(v, j), h1, by simp [remapRow, h2]⟩

omit [LinOrd V] [DecidableEq V] in
theorem flatMap_remapBatch (f : Mapping) (pages : List (List (Row V))) :
    pages.flatMap (remapBatch f) = remapBatch f pages.flatten := by
  induction pages with
  | nil => rfl
  | cons p pages ih =>
    rw [List.flatMap_cons, ih, List.flatten_cons]
    unfold remapBatch
    rw [List.filterMap_append]

omit [LinOrd V] [DecidableEq V] in
theorem readPage_append (bs : Nat) (l t : List (Row V)) (k : Nat) (r : Row V) (h : r ∈ readPage bs l k) :
    r ∈ readPage bs (l ++ t) k := by
  unfold readPage at h ⊢
  rw [List.drop_append, List.take_append, List.mem_append]
  exact Or.inl h

/-- All pages have a value: this is so if the first page has one. -/
theorem all_values {b : BTree V} {pages : List (List (Row V))} (h : Form b pages) {p0 : List (Row V)}
    (h0 : pages[0]? = some p0) (hv : ∃ x i, (some x, i) ∈ p0) : ∀ p ∈ pages, ∃ x i, (some x, i) ∈ p := by
  intro p hp
  obtain ⟨k, hk⟩ := List.getElem?_of_mem hp
  cases k with
  | zero => rw [h0] at hk; cases hk; exact hv
  | succ k =>
    have hne := (h.read _ _ hk).2
    have hl := value_later (pOrd_of _ h.ordered) h0 hv hk (by omega)
    cases p with
    | nil => exact absurd rfl hne
    | cons r p =>
      obtain ⟨v, i⟩ := r
      cases v with
      | none => exact absurd rfl (hl _ (List.mem_cons_self ..))
      | some x => exact ⟨x, i, List.mem_cons_self ..⟩

/-- The file after `remap` if every page has a value: the remapped rows, then possibly those of page 0 again. -/
theorem remap_file {b : BTree V} {pages : List (List (Row V))} (h : Form b pages)
    (hval : ∀ p ∈ pages, ∃ x i, (some x, i) ∈ p) (f : Mapping) :
    ∃ tail, (remapBTree f b).file = remapBatch f b.file ++ tail ∧ (∀ r ∈ tail, r ∈ remapBatch f b.file) ∧
      ((∀ r ∈ b.file, r.1 ≠ none) → tail = []) := by
  have hread : (List.range pages.length).flatMap (fun p => remapBatch f (readPage b.bs b.file p)) =
      remapBatch f b.file := by
    have := readAll (fun k p hk => (h.read k p hk).1)
    rw [h.file, ← flatMap_remapBatch, ← h.file]
    conv => rhs; rw [← this, List.flatMap_map]
  unfold remapBTree
  simp only [h.lookup]
  rcases allPageIds_spec (pOrd_of _ h.ordered) hval with he | ⟨he, _, hnp⟩
  · rw [he, hread]
    exact ⟨[], by simp, by simp, fun _ => rfl⟩
  · rw [he, List.flatMap_append, hread]
    refine ⟨_, rfl, ?_, ?_⟩
    · intro r hr
      simp only [List.flatMap_cons, List.flatMap_nil, List.append_nil] at hr
      obtain ⟨v, j⟩ := r
      rw [mem_remapBatch] at hr ⊢
      obtain ⟨i, h1, h2⟩ := hr
      exact ⟨i, List.mem_of_mem_drop (List.mem_of_mem_take h1), h2⟩
    · intro hnn
      exfalso
      have : 0 ∈ (loadLookup (analyzeAll 0 pages)).nullPages := by rw [hnp]; simp
      obtain ⟨s, hs, hpos, _⟩ := (null_pages _ _).1 this
      obtain ⟨k, p, hk, rfl⟩ := (mem_analyzeAll _ _ _).1 hs
      simp only [analyze] at hpos
      obtain ⟨r, hr⟩ := List.exists_mem_of_length_pos hpos
      rw [List.mem_filter] at hr
      have hm : r ∈ b.file := by
        rw [h.file, List.mem_flatten]; exact ⟨p, List.mem_of_getElem? hk, hr.1⟩
      exact hnn r hm (by simpa using hr.2)

theorem covers_remap_kept {b : BTree V} {pages : List (List (Row V))} (h : Form b pages)
    (hval : ∀ p ∈ pages, ∃ x i, (some x, i) ∈ p) (f : Mapping) (hf : ∀ r ∈ b.file, f r.2 ≠ some none) :
    Covers (remapBTree f b) (remapBatch f b.file) := by
  obtain ⟨tail, h1, h2, _⟩ := remap_file h hval f
  have hb : (remapBTree f b).bs = b.bs := rfl
  refine covers_of (b := remapBTree f b) (pages := pages) h.lookup (pOrd_of _ h.ordered) ?_ ?_
  · intro k _ r hr
    rw [h1] at hr
    have := List.mem_of_mem_drop (List.mem_of_mem_take hr)
    rcases List.mem_append.1 this with h3 | h3
    · exact h3
    · exact h2 r h3
  · intro r hr
    have hr' := hr
    rw [remapBatch_map f _ hf, List.mem_map] at hr'
    obtain ⟨r0, h3, rfl⟩ := hr'
    have h3' := h3
    rw [h.file, List.mem_flatten] at h3'
    obtain ⟨p, hp, hrp⟩ := h3'
    obtain ⟨k, hk⟩ := List.getElem?_of_mem hp
    refine ⟨k, p, hk, ?_, r0, hrp, rfl⟩
    rw [h1, hb]
    apply readPage_append
    rw [remapBatch_map f _ hf]
    unfold readPage
    rw [← List.map_drop, ← List.map_take]
    apply List.mem_map_of_mem
    have := (h.read k p hk).1
    unfold readPage at this
    rw [this]; exact hrp

theorem covers_remap_single {b : BTree V} {p : List (Row V)} (h : Form b [p]) (hb : p.length ≤ b.bs) (f : Mapping) :
    Covers (remapBTree f b) (remapBatch f b.file) := by
  have hp : b.file = p := by rw [h.file]; simp
  have hr0 := h.read 0 p rfl
  have hfile : (remapBTree f b).file = remapBatch f b.file := by
    unfold remapBTree
    simp only [h.lookup]
    rw [allPageIds_single p hr0.2]
    simp only [List.flatMap_cons, List.flatMap_nil, List.append_nil]
    rw [hr0.1, hp]
  have hlen : (remapBatch f b.file).length ≤ b.bs := by
    unfold remapBatch
    rw [hp]
    exact Nat.le_trans (List.length_filterMap_le ..) hb
  have hread : readPage (remapBTree f b).bs (remapBTree f b).file 0 = remapBatch f b.file := by
    rw [hfile]
    unfold readPage
    simp only [Nat.mul_zero, List.drop_zero]
    exact List.take_of_length_le hlen
  refine covers_of (b := remapBTree f b) (pages := [p]) h.lookup (pOrd_of _ h.ordered) ?_ ?_
  · intro k hk r hr
    have : k = 0 := by simpa using hk
    subst this
    rw [hread] at hr
    exact hr
  · rintro ⟨v, j⟩ hr
    refine ⟨0, p, rfl, by rw [hread]; exact hr, ?_⟩
    obtain ⟨i, h1, _⟩ := (mem_remapBatch _ _ _ _).1 hr
    exact ⟨(v, i), by rw [← hp]; exact h1, rfl⟩

/-- Pages of rows that fit on one page. -/
theorem single_page {b : BTree V} {pages : List (List (Row V))} (h : Form b pages) (hb : b.file.length ≤ b.bs) :
    pages = [] ∨ ∃ p, pages = [p] ∧ p.length ≤ b.bs := by
  rcases pages with _ | ⟨p, _ | ⟨q, pages⟩⟩
  · exact Or.inl rfl
  · refine Or.inr ⟨p, rfl, ?_⟩
    have := h.file
    simp at this
    rw [← this]; exact hb
  · exfalso
    have := h.read 1 q rfl
    unfold readPage at this
    rw [Nat.mul_one, List.drop_of_length_le hb, List.take_nil] at this
    exact this.2 this.1.symm

/-- The first page of more rows than fit on it is full, so it has a value if there are fewer NULLs than this. -/
theorem first_value {b : BTree V} {pages : List (List (Row V))} (h : Form b pages) (hb : b.bs < b.file.length)
    (hn : (b.file.filter (fun r => r.1 == none)).length < b.bs) : ∃ p0, pages[0]? = some p0 ∧ ∃ x i, (some x, i) ∈ p0 := by
  rcases pages with _ | ⟨p, pages⟩
  · have := h.file
    simp at this
    rw [this] at hb
    simp at hb
  · refine ⟨p, rfl, ?_⟩
    have hp := (h.read 0 p rfl).1
    unfold readPage at hp
    simp only [Nat.mul_zero, List.drop_zero] at hp
    have hlen : p.length = b.bs := by
      rw [← hp, List.length_take]; omega
    by_cases hc : ∃ x i, (some x, i) ∈ p
    · exact hc
    · exfalso
      have hall : p.filter (fun r => r.1 == none) = p := by
        rw [List.filter_eq_self]
        rintro ⟨v, i⟩ hr
        cases v with
        | none => rfl
        | some x => exact absurd ⟨x, i, hr⟩ hc
      have hsub : (p.filter (fun r => r.1 == none)).length ≤ (b.file.filter (fun r => r.1 == none)).length := by
        rw [← hp]
        exact ((List.take_sublist b.bs b.file).filter _).length_le
      rw [hall, hlen] at hsub
      omega

theorem covers_remap {b : BTree V} {pages : List (List (Row V))} (h : Form b pages) (f : Mapping)
    (hc : b.file.length ≤ b.bs ∨
      ((∀ r ∈ b.file, f r.2 ≠ some none) ∧ (b.file.filter (fun r => r.1 == none)).length < b.bs)) :
    Covers (remapBTree f b) (remapBatch f b.file) := by
  by_cases hlen : b.file.length ≤ b.bs
  · rcases single_page h hlen with rfl | ⟨p, rfl, hp⟩
    · have hf : b.file = [] := by rw [h.file]; rfl
      have hl : (remapBTree f b).lookup = [] := h.lookup
      rw [hf]
      refine ⟨?_, ?_, ?_⟩
      · intro s hs; rw [hl] at hs; cases hs
      · intro x i hx; cases hx
      · intro i hx; cases hx
    · exact covers_remap_single h hp f
  · rcases hc with hc | ⟨h1, h2⟩
    · exact absurd hc hlen
    · obtain ⟨p0, h3, h4⟩ := first_value h (by omega) h2
      exact covers_remap_kept h (all_values h h3 h4) f h1

/-- Without NULLs and removed rows the index keeps its form. -/
theorem form_remap {b : BTree V} {pages : List (List (Row V))} (h : Form b pages) (f : Mapping)
    (hnn : ∀ r ∈ b.file, r.1 ≠ none) (hf : ∀ r ∈ b.file, f r.2 ≠ some none) :
    Form (remapBTree f b) (pages.map (List.map (newRow f))) := by
  have hval : ∀ p ∈ pages, ∃ x i, (some x, i) ∈ p := by
    intro p hp
    obtain ⟨k, hk⟩ := List.getElem?_of_mem hp
    have hne := (h.read k p hk).2
    cases p with
    | nil => exact absurd rfl hne
    | cons r p =>
      obtain ⟨v, i⟩ := r
      cases v with
      | none =>
        exact absurd rfl (hnn (none, i) (by rw [h.file, List.mem_flatten]; exact ⟨_, hp, List.mem_cons_self ..⟩))
      | some x => exact ⟨x, i, List.mem_cons_self ..⟩
  obtain ⟨tail, h1, _, h3⟩ := remap_file h hval f
  rw [h3 hnn, List.append_nil, remapBatch_map f _ hf] at h1
  have hflat : (pages.map (List.map (newRow f))).flatten = pages.flatten.map (newRow f) := by
    rw [List.map_flatten]
  have hlook : ∀ n (ps : List (List (Row V))), analyzeAll n (ps.map (List.map (newRow f))) = analyzeAll n ps := by
    intro n ps
    induction ps generalizing n with
    | nil => rfl
    | cons p ps ih =>
      simp only [List.map_cons, analyzeAll, ih]
      have hv : (p.map (newRow f)).map (·.1) = p.map (·.1) := by rw [List.map_map]; rfl
      have hnl : ((p.map (newRow f)).filter (fun r => r.1 == none)).length =
          (p.filter (fun r => r.1 == none)).length := by
        rw [List.filter_map, List.length_map]; rfl
      simp only [analyze, hv, hnl]
  refine ⟨?_, ?_, ?_, ?_⟩
  · rw [h1, hflat, h.file]
  · rw [hlook]; exact h.lookup
  · intro k p hk
    rw [List.getElem?_map, Option.map_eq_some_iff] at hk
    obtain ⟨q, hq, rfl⟩ := hk
    obtain ⟨h4, h5⟩ := h.read k q hq
    rw [h1]
    show readPage b.bs _ k = _ ∧ _
    unfold readPage at h4 ⊢
    rw [← List.map_drop, ← List.map_take, h4]
    exact ⟨rfl, by simpa using h5⟩
  · rw [hflat]
    unfold Ordered
    rw [List.pairwise_map]
    exact h.ordered

/-! ### Updating -/

/-- What `update` reads from an index: its rows in order, if no page is read twice. -/
theorem stream_rows {b : BTree V} {pages : List (List (Row V))} (h : Form b pages)
    (hc : b.file.length ≤ b.bs ∨ ∀ r ∈ b.file, r.1 ≠ none) : (dataStream b.bs b).flatten = b.file := by
  unfold dataStream
  rw [h.lookup]
  have hrange : allPageIds (loadLookup (analyzeAll 0 pages)) = List.range pages.length → 
      ((allPageIds (loadLookup (analyzeAll 0 pages))).map (readPage b.bs b.file)).flatten = b.file := by
    intro he
    rw [he, readAll (fun k p hk => (h.read k p hk).1), ← h.file]
  by_cases hlen : b.file.length ≤ b.bs
  · rcases single_page h hlen with rfl | ⟨p, rfl, hp⟩
    · exact hrange rfl
    · exact hrange (allPageIds_single p (h.read 0 p rfl).2)
  · rcases hc with hc | hnn
    · exact absurd hc hlen
    · have hval : ∀ p ∈ pages, ∃ x i, (some x, i) ∈ p := by
        intro p hp
        obtain ⟨k, hk⟩ := List.getElem?_of_mem hp
        have hne := (h.read k p hk).2
        cases p with
        | nil => exact absurd rfl hne
        | cons r p =>
          obtain ⟨v, i⟩ := r
          cases v with
          | none =>
            exact absurd rfl (hnn (none, i) (by rw [h.file, List.mem_flatten]; exact ⟨_, hp, List.mem_cons_self ..⟩))
          | some x => exact ⟨x, i, List.mem_cons_self ..⟩
      rcases allPageIds_spec (pOrd_of _ h.ordered) hval with he | ⟨_, _, hnp⟩
      · exact hrange he
      · exfalso
        have : 0 ∈ (loadLookup (analyzeAll 0 pages)).nullPages := by rw [hnp]; simp
        obtain ⟨s, hs, hpos, _⟩ := (null_pages _ _).1 this
        obtain ⟨k, p, hk, rfl⟩ := (mem_analyzeAll _ _ _).1 hs
        simp only [analyze] at hpos
        obtain ⟨r, hr⟩ := List.exists_mem_of_length_pos hpos
        rw [List.mem_filter] at hr
        have hm : r ∈ b.file := by
          rw [h.file, List.mem_flatten]; exact ⟨p, List.mem_of_getElem? hk, hr.1⟩
        exact hnn r hm (by simpa using hr.2)

theorem form_update {b : BTree V} {pages : List (List (Row V))} (h : Form b pages) (hb : 0 < b.bs)
    (hc : b.file.length ≤ b.bs ∨ ∀ r ∈ b.file, r.1 ≠ none) (tie : Nat → Nat → Bool)
    (batches : List (Row V) → List (List (Row V))) (hbat : ∀ l, (batches l).flatten = l) (new : List (Row V))
    (hnew : Ordered new) :
    ∃ pages', Form (updateBTree b.bs tie batches b new) pages' ∧
      (updateBTree b.bs tie batches b new).file.Perm (b.file ++ new) := by
  have hs := stream_rows h hc
  have hord : Ordered b.file := by rw [h.file]; exact h.ordered
  obtain ⟨h1, h2⟩ := merge_spec tie b.file new hord hnew
  have hf := form_train b.bs hb (batches (merge tie b.file new)) (by rw [hbat]; exact h2)
  unfold updateBTree
  rw [hs]
  refine ⟨_, hf, ?_⟩
  have : (trainBTree b.bs (batches (merge tie b.file new))).file = merge tie b.file new := by
    have := (chunk_pages (batches (merge tie b.file new)) b.bs hb).1
    rw [hbat] at this
    exact this
  rw [this]
  exact h1

end Verif.Scalar
