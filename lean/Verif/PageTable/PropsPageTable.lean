import Verif.PageTable.Lemmas
/-!
# C114: columns of legacy files are read at the pages that were written of them

A data file is written (`writeTable`), the manifest lists its fields (`newFields`), and later writes replace some of its columns (`replaced`, in merge_insert).
-/
namespace Verif.PageTable
open Verif.Zip (leBytes)

/-- The fields that the manifest lists of a file after some newer files of the same fragment replaced columns of it. -/
def fieldsAfter (schema : List Fld) (newer : List (List Int)) : List Int := newer.foldl (fun fs u => replaced u fs) (newFields schema)

/-- A schema that a dataset can have: ids are not negative and the field with the largest id has pages (it is not a struct without fields). -/
structure Good (schema : List Fld) : Prop where
  nonneg : ∀ f ∈ schema, 0 ≤ f.id
  last : ∃ f ∈ schema, f.paged = true ∧ ∀ g ∈ schema, g.id ≤ f.id

/-- The pages are in a file of less than 2^64 bytes, and the table has no more than 2^30 entries. -/
structure Small (schema : List Fld) (batches : List (Int → Page)) : Prop where
  pages : ∀ p ∈ batches, ∀ x, (p x).position < 2 ^ 64 ∧ (p x).length < 2 ^ 64
  entries : ∀ f ∈ schema, (f.id + 3).toNat * batches.length * 2 ≤ 2 ^ 31

/-- The full claim: after any history of replacements, the page of each column that is still in the file is found. -/
def C114_statement : Prop :=
  ∀ (schema : List Fld) (batches : List (Int → Page)) (tbl pre post : List Nat) (newer : List (List Int)), Good schema → Small schema batches →
    writeTable schema batches = some tbl → ∀ f ∈ schema, f.paged = true → f.id ∈ fieldsAfter schema newer → ∀ (b : Nat) (p : Int → Page), batches[b]? = some p →
      ∃ t, openTable none (pre ++ tbl ++ post) pre.length batches.length (fieldsAfter schema newer) = some t ∧ t.get f.id b = some (p f.id)

theorem mem_fieldsAfter (newer : List (List Int)) (fs : List Int) (y : Int) (h : y ∈ newer.foldl (fun fs u => replaced u fs) fs) : y = -2 ∨ y ∈ fs := by
  induction newer generalizing fs with
  | nil => exact Or.inr h
  | cons u us ih =>
    rw [List.foldl_cons] at h
    rcases ih _ h with h | h
    · exact Or.inl h
    · unfold replaced at h
      obtain ⟨x, hx, hy⟩ := List.mem_map.mp h
      split at hy
      · exact Or.inl hy.symm
      · exact Or.inr (hy ▸ hx)

theorem head_kept (newer : List (List Int)) (fs : List Int) (m : Int) (hm : fs.head? = some m) (h : ∀ u ∈ newer, m ∉ u) :
    (newer.foldl (fun fs u => replaced u fs) fs).head? = some m := by
  induction newer generalizing fs with
  | nil => exact hm
  | cons u us ih =>
    rw [List.foldl_cons]
    refine ih _ ?_ (fun v hv => h v (by simp [hv]))
    unfold replaced
    rw [List.head?_map, hm]
    have : u.contains m = false := by
      rw [Bool.eq_false_iff]
      intro hc
      exact h u (by simp) (List.contains_iff_mem.mp hc)
    simp [h u (by simp)]

theorem head_gone (newer : List (List Int)) (fs : List Int) (hm : fs.head? = some (-2)) :
    (newer.foldl (fun fs u => replaced u fs) fs).head? = some (-2) := by
  induction newer generalizing fs with
  | nil => exact hm
  | cons u us ih =>
    rw [List.foldl_cons]
    refine ih _ ?_
    unfold replaced
    rw [List.head?_map, hm]
    simp

theorem head_replaced (newer : List (List Int)) (fs : List Int) (m : Int) (hm : fs.head? = some m) (h : ∃ u ∈ newer, m ∈ u) :
    (newer.foldl (fun fs u => replaced u fs) fs).head? = some (-2) := by
  induction newer generalizing fs with
  | nil => obtain ⟨u, hu, _⟩ := h; simp at hu
  | cons u us ih =>
    rw [List.foldl_cons]
    by_cases hu : m ∈ u
    · refine head_gone us _ ?_
      unfold replaced
      rw [List.head?_map, hm]
      simp [hu]
    · refine ih _ ?_ ?_
      · unfold replaced
        rw [List.head?_map, hm]
        simp [hu]
      · obtain ⟨v, hv, hmv⟩ := h
        rcases List.mem_cons.mp hv with rfl | hv
        · exact absurd hmv hu
        · exact ⟨v, hv, hmv⟩

/-- What is found if the fields of the file start with any id `x` that is not above the smallest one of the schema: the entry that is as far from the start. -/
theorem open_spec {schema : List Fld} {batches : List (Int → Page)} {tbl : List Nat} (pre post : List Nat) {newer : List (List Int)} (hg : Good schema)
    (hs : Small schema batches) (hw : writeTable schema batches = some tbl) {lo x : Int} (hlo : minimum? (schema.map (·.id)) = some lo)
    (hx : (fieldsAfter schema newer).head? = some x) (hx2 : -2 ≤ x)
    (hfit : ∀ f ∈ schema, 8 * ((f.id + 1 - x).toNat * batches.length * 2) ≤ tbl.length + post.length)
    {f g : Fld} (hf : f ∈ schema) (hin : f.id ∈ fieldsAfter schema newer) (hxf : x ≤ f.id) (hgm : g ∈ schema) (hgp : g.paged = true)
    (hfg : g.id = f.id - x + lo) {b : Nat} {p : Int → Page} (hb : batches[b]? = some p) :
    ∃ t, openTable none (pre ++ tbl ++ post) pre.length batches.length (fieldsAfter schema newer) = some t ∧ t.get f.id b = some (p g.id) := by
  have hlt := (List.getElem?_eq_some_iff.mp hb).1
  have hne : batches ≠ [] := by rintro rfl; simp at hlt
  have hbt := written_batches schema batches g hgm hgp
  unfold writeTable at hw
  rw [hlo] at hw
  simp only at hw
  obtain ⟨hi, hhi⟩ := maximum?_some hin
  obtain ⟨hm1, hm2⟩ := maximum?_spec hhi
  have hfi := hm2 _ hin
  have hoff : fieldIdOffset (fieldsAfter schema newer) = x := by unfold fieldIdOffset; rw [hx]; rfl
  obtain ⟨h, hhs, hhe⟩ : ∃ h ∈ schema, hi ≤ h.id := by
    rcases mem_fieldsAfter _ _ _ hm1 with h | h
    · exact ⟨f, hf, by have := hg.nonneg f hf; omega⟩
    · obtain ⟨h, hh, hid⟩ := List.mem_map.mp ((mem_sortIds _ _).mp h)
      exact ⟨h, hh, by omega⟩
  have hmono : (hi + 1 - x).toNat * batches.length * 2 ≤ (h.id + 3).toNat * batches.length * 2 :=
    Nat.mul_le_mul_right _ (Nat.mul_le_mul_right _ (by omega))
  have hmono2 : (hi + 1 - x).toNat * batches.length * 2 ≤ (h.id + 1 - x).toNat * batches.length * 2 :=
    Nat.mul_le_mul_right _ (Nat.mul_le_mul_right _ (by omega))
  have hent := hs.entries h hhs
  have hft := hfit h hhs
  obtain ⟨t, ht, hget, _⟩ := load_write _ lo x hi tbl pre post hw
    (by
      intro f b q hq
      obtain ⟨p, hp, rfl⟩ := written_get_some _ _ _ _ _ hq
      exact hs.pages p (List.mem_of_getElem? hp) f)
    (by omega) (by rw [hbt]; omega) (by rw [hbt]; omega)
  refine ⟨t, ?_, ?_⟩
  · unfold openTable
    rw [hhi]
    simp only
    rw [hoff, ← hbt]
    exact ht
  · have hgf : g.id ∈ (addBatches schema [] 0 batches).map (·.1.1) := (written_fields ..).mpr ⟨hne, g, hgm, hgp, rfl⟩
    rw [hget f.id b hxf hfi (by rw [hbt]; exact hlt) ⟨g.id, hgf, by omega⟩, ← hfg, written_get schema batches g hgm hgp b p hb]
    rfl

/-- What holds of the claim: as long as the column with the smallest id is not replaced, whatever else is replaced, the page of each column that is still in the file
is found. -/
theorem C114_first_kept_partial (schema : List Fld) (batches : List (Int → Page)) (tbl pre post : List Nat) (newer : List (List Int)) (hg : Good schema)
    (hs : Small schema batches) (hw : writeTable schema batches = some tbl) (first : Fld) (hfirst : first ∈ schema) (hmin : ∀ g ∈ schema, first.id ≤ g.id)
    (hkept : ∀ u ∈ newer, first.id ∉ u) (f : Fld) (hf : f ∈ schema) (hp : f.paged = true) (hin : f.id ∈ fieldsAfter schema newer) (b : Nat) (p : Int → Page)
    (hb : batches[b]? = some p) :
    ∃ t, openTable none (pre ++ tbl ++ post) pre.length batches.length (fieldsAfter schema newer) = some t ∧ t.get f.id b = some (p f.id) := by
  have hmem : first.id ∈ schema.map (·.id) := List.mem_map.mpr ⟨first, hfirst, rfl⟩
  obtain ⟨lo, hlo⟩ := minimum?_some hmem
  have hlo1 := minimum?_spec hlo
  have hlo2 : lo = first.id := by
    obtain ⟨g, hgm, hge⟩ := List.mem_map.mp hlo1.1
    have := hmin g hgm
    have := hlo1.2 _ hmem
    omega
  subst hlo2
  have hlt := (List.getElem?_eq_some_iff.mp hb).1
  have hne : batches ≠ [] := by rintro rfl; simp at hlt
  have h0 := hg.nonneg first hfirst
  refine open_spec pre post hg hs hw hlo (head_kept _ _ _ (sortIds_head _ _ hlo) hkept) (by omega) ?_ hf hin (hmin f hf) hf hp (by omega) hb
  obtain ⟨l, hl, hlp, hlm⟩ := hg.last
  unfold writeTable at hw
  rw [hlo] at hw
  have hlen := write_length _ _ _ hw l.id ((written_fields ..).mpr ⟨hne, l, hl, hlp, rfl⟩)
  rw [written_batches schema batches l hl hlp] at hlen
  intro g hgm
  have : (g.id + 1 - first.id).toNat * batches.length * 2 ≤ (l.id + 1 - first.id).toNat * batches.length * 2 :=
    Nat.mul_le_mul_right _ (Nat.mul_le_mul_right _ (by have := hlm g hgm; omega))
  omega

/-- The writing itself never fails: a schema with a column that has pages gives a table for any batches. -/
theorem C114_written (schema : List Fld) (batches : List (Int → Page)) (hne : batches ≠ []) (f : Fld) (hf : f ∈ schema) (hp : f.paged = true) :
    ∃ tbl, writeTable schema batches = some tbl := by
  obtain ⟨lo, hlo⟩ := minimum?_some (List.mem_map.mpr ⟨f, hf, rfl⟩ : f.id ∈ schema.map (·.id))
  have hmem : f.id ∈ (addBatches schema [] 0 batches).map (·.1.1) := (written_fields ..).mpr ⟨hne, f, hf, hp, rfl⟩
  obtain ⟨a, ha⟩ := minimum?_some hmem
  obtain ⟨c, hc⟩ := maximum?_some hmem
  unfold writeTable
  rw [hlo]
  simp only [Table.write, ha, hc]
  obtain ⟨_, g, hg, _, hga⟩ := (written_fields ..).mp (minimum?_spec ha).1
  have := (minimum?_spec hlo).2 g.id (List.mem_map.mpr ⟨g, hg, rfl⟩)
  rw [if_neg (by omega)]
  exact ⟨_, rfl⟩

/-- What happens once the column with the smallest id (`lo`) is replaced, for all files: a column `f` that is still in the file is read at the page of the column whose
id is larger by `lo + 2`. -/
theorem C114_first_replaced_shifts_violated (schema : List Fld) (batches : List (Int → Page)) (tbl pre post : List Nat) (newer : List (List Int)) (hg : Good schema)
    (hs : Small schema batches) (hw : writeTable schema batches = some tbl) (first : Fld) (hfirst : first ∈ schema) (hmin : ∀ g ∈ schema, first.id ≤ g.id)
    (hgone : ∃ u ∈ newer, first.id ∈ u) (hpost : ∀ f ∈ schema, 8 * ((f.id + 3).toNat * batches.length * 2) ≤ tbl.length + post.length)
    (f g : Fld) (hf : f ∈ schema) (hin : f.id ∈ fieldsAfter schema newer) (hgm : g ∈ schema) (hgp : g.paged = true) (hfg : g.id = f.id + 2 + first.id)
    (b : Nat) (p : Int → Page) (hb : batches[b]? = some p) :
    ∃ t, openTable none (pre ++ tbl ++ post) pre.length batches.length (fieldsAfter schema newer) = some t ∧ t.get f.id b = some (p g.id) := by
  have hmem : first.id ∈ schema.map (·.id) := List.mem_map.mpr ⟨first, hfirst, rfl⟩
  obtain ⟨lo, hlo⟩ := minimum?_some hmem
  have hlo1 := minimum?_spec hlo
  have hlo2 : lo = first.id := by
    obtain ⟨g, hgm, hge⟩ := List.mem_map.mp hlo1.1
    have := hmin g hgm
    have := hlo1.2 _ hmem
    omega
  subst hlo2
  have h0 := hg.nonneg f hf
  refine open_spec pre post hg hs hw hlo (head_replaced _ _ _ (sortIds_head _ _ hlo) hgone) (by omega) ?_ hf hin (by omega) hgm hgp (by omega) hb
  intro h hh
  have := hpost h hh
  have e : h.id + 1 - -2 = h.id + 3 := by omega
  rw [e]
  exact this

/-- Five columns, one batch. -/
def five : List Fld := [⟨0, true⟩, ⟨1, true⟩, ⟨2, true⟩, ⟨3, true⟩, ⟨4, true⟩]

theorem five_good : Good five := ⟨by decide, ⟨4, true⟩, by decide, rfl, by decide⟩

/-- The page of the column with id `x` (below 100) is at `1000 * (x + 1)` and has 10 rows. -/
def tensMod : Int → Page := fun x => ⟨1000 * (x.toNat % 100 + 1), 10⟩

theorem five_small : Small five [tensMod] := by
  refine ⟨?_, ?_⟩
  · intro p hp x
    simp only [List.mem_singleton] at hp
    subst hp
    have : x.toNat % 100 < 100 := Nat.mod_lt _ (by decide)
    simp only [tensMod]
    omega
  · decide

/-- A dataset of legacy files with columns 0 to 4: `merge_insert` of the columns 0 and 1 leaves fields -2, -2, 2, 3, 4 of the old file; then column 2 is read at the page
of column 4, if the bytes after the table (of statistics and metadata) are at least 64. -/
theorem C114_violated : ¬ C114_statement := by
  intro h
  obtain ⟨tbl, htbl⟩ := C114_written five [tensMod] (by simp) ⟨0, true⟩ (by decide) rfl
  obtain ⟨t, ht, hg⟩ := h five [tensMod] tbl [] (List.replicate 64 0) [[0, 1]] five_good five_small htbl ⟨2, true⟩ (by decide) rfl (by decide) 0 tensMod rfl
  have hlen : tbl.length = 80 := by
    have h2 : writeTable five [tensMod] = some ((addBatches five [] 0 [tensMod]).words (fieldRange 0 4) 1 |>.flatMap (leBytes 8)) := rfl
    rw [htbl, Option.some.injEq] at h2
    rw [h2, bytes_length, words_length, fieldRange_length]
    rfl
  obtain ⟨t', ht', hg'⟩ := C114_first_replaced_shifts_violated five [tensMod] tbl [] (List.replicate 64 0) [[0, 1]] five_good five_small htbl ⟨0, true⟩ (by decide)
    (by decide) ⟨[0, 1], by simp, by decide⟩ (by
      intro f hf
      rw [hlen]
      revert hf
      revert f
      decide) ⟨2, true⟩ ⟨4, true⟩ (by decide) (by decide) (by decide) rfl rfl 0 tensMod rfl
  rw [ht, Option.some.injEq] at ht'
  subst ht'
  rw [hg] at hg'
  revert hg'
  decide

/-- A session that opened the file before columns of it were replaced has its page table in the cache, and finds the right pages whatever is replaced: what is read
of a file depends on the cache (see `C114_first_replaced_shifts_violated`). -/
theorem C114_cached_partial (schema : List Fld) (batches : List (Int → Page)) (tbl pre post : List Nat) (newer : List (List Int)) (hg : Good schema)
    (hs : Small schema batches) (hw : writeTable schema batches = some tbl) (t : Table)
    (hopen : openTable none (pre ++ tbl ++ post) pre.length batches.length (newFields schema) = some t)
    (f : Fld) (hf : f ∈ schema) (hp : f.paged = true) (hin : f.id ∈ fieldsAfter schema newer) (b : Nat) (p : Int → Page) (hb : batches[b]? = some p) :
    ∃ t', openTable (some t) (pre ++ tbl ++ post) pre.length batches.length (fieldsAfter schema newer) = some t' ∧ t'.get f.id b = some (p f.id) := by
  obtain ⟨lo, hlo⟩ := minimum?_some (List.mem_map.mpr ⟨f, hf, rfl⟩ : f.id ∈ schema.map (·.id))
  obtain ⟨hl1, hl2⟩ := minimum?_spec hlo
  obtain ⟨first, hfirst, rfl⟩ := List.mem_map.mp hl1
  obtain ⟨t', ht', hget⟩ := C114_first_kept_partial schema batches tbl pre post [] hg hs hw first hfirst
    (fun g hgm => hl2 g.id (List.mem_map.mpr ⟨g, hgm, rfl⟩)) (by simp) f hf hp
    ((mem_sortIds _ _).mpr (List.mem_map.mpr ⟨f, hf, rfl⟩)) b p hb
  have : t' = t := by
    have h2 : openTable none (pre ++ tbl ++ post) pre.length batches.length (newFields schema) = some t' := ht'
    rw [hopen, Option.some.injEq] at h2
    exact h2.symm
  subst this
  obtain ⟨m, hm⟩ := maximum?_some hin
  refine ⟨t', ?_, hget⟩
  unfold openTable
  rw [hm]

/-- If nothing was replaced, a session with the table in its cache and a session without it read the same table. -/
theorem C114_cache_partial (schema : List Fld) (file : List Nat) (position batches : Nat) (t : Table)
    (h : openTable none file position batches (newFields schema) = some t) : openTable (some t) file position batches (newFields schema) = some t := by
  unfold openTable at h ⊢
  cases hm : maximum? (newFields schema) with
  | none => rw [hm] at h; cases h
  | some m => rfl

/-- A file whose largest field id is a struct without fields: the table that is read is longer than the one that was written; if too few bytes follow, the file
cannot be opened. -/
theorem C114_empty_struct_violated : ∃ (schema : List Fld) (batches : List (Int → Page)) (tbl post : List Nat), Small schema batches ∧
    writeTable schema batches = some tbl ∧ (∃ f ∈ schema, f.paged = true) ∧ post.length = 15 ∧ openTable none (tbl ++ post) 0 batches.length (newFields schema) = none := by
  refine ⟨[⟨0, true⟩, ⟨1, false⟩], [fun _ => ⟨8, 2⟩], _, List.replicate 15 1, ⟨?_, by decide⟩, rfl, ⟨⟨0, true⟩, by decide, rfl⟩, rfl, by decide⟩
  intro p hp x
  simp only [List.mem_singleton] at hp
  subst hp
  show 8 < 2 ^ 64 ∧ 2 < 2 ^ 64
  decide

/-- The round trip of the table itself, for all tables with whatever holes: a page that was set is found, a field or batch in the range without page is the page of
zeros, and nothing else is found. -/
theorem C114_table (t : Table) (lo hi : Int) (tbl pre post : List Nat) (hw : t.write lo = some tbl) (hhi : maximum? (t.map (·.1.1)) = some hi)
    (hsmall : ∀ f b p, t.get f b = some p → p.position < 2 ^ 64 ∧ p.length < 2 ^ 64) (hsize : (hi + 1 - lo).toNat * t.batches * 2 ≤ 2 ^ 31) :
    ∃ t', load (pre ++ tbl ++ post) pre.length lo hi t.batches = some t' ∧
      (∀ f b p, t.get f b = some p → t'.get f b = some p) ∧
      (∀ f b, t.get f b = none → lo ≤ f → f ≤ hi → b < t.batches → t'.get f b = some ⟨0, 0⟩) ∧
      (∀ f b, f < lo ∨ hi < f ∨ t.batches ≤ b → t'.get f b = none) := by
  obtain ⟨hm1, hm2⟩ := maximum?_spec hhi
  have hmin : ∀ x ∈ t.map (·.1.1), lo ≤ x := by
    intro x hx
    unfold Table.write at hw
    split at hw
    case h_2 => cases hw
    case h_1 observed hi hmin hmax =>
      split at hw
      case isTrue => cases hw
      case isFalse hlo =>
        have := (minimum?_spec hmin).2 x hx
        omega
  have hlo := hmin hi hm1
  have hlen := write_length t lo tbl hw hi hm1
  obtain ⟨t', ht, hget, hnone⟩ := load_write t lo lo hi tbl pre post hw hsmall hlo hsize (by omega)
  refine ⟨t', ht, ?_, ?_, hnone⟩
  · intro f b p hp
    have hmem := get_mem hp
    have hf : f ∈ t.map (·.1.1) := List.mem_map.mpr ⟨_, hmem, rfl⟩
    have hb := (batches_spec t 0).2.2 _ hmem
    rw [hget f b (hmin f hf) (hm2 f hf) hb ⟨f, hf, by omega⟩]
    have : f - lo + lo = f := by omega
    rw [this, hp]
    rfl
  · intro f b hn h1 h2 hb
    rw [hget f b h1 h2 hb ⟨hi, hm1, by omega⟩]
    have : f - lo + lo = f := by omega
    rw [this, hn]
    rfl

/-- The table of the pages of statistics: ids are from 0 and the largest one has a page. -/
theorem C114_stats (schema : List Fld) (pages : Int → Page) (tbl pre post : List Nat) (hg : Good schema) (hs : Small schema [pages])
    (hw : writeStatsTable schema pages = some tbl) (f : Fld) (hf : f ∈ schema) (hp : f.paged = true) :
    ∃ t, loadStats (pre ++ tbl ++ post) pre.length (schema.map (·.id)) = some t ∧ t.get f.id 0 = some (pages f.id) := by
  have hw' : (addBatches schema [] 0 [pages]).write 0 = some tbl := hw
  have hbt := written_batches schema [pages] f hf hp
  obtain ⟨l, hl, hlp, hlm⟩ := hg.last
  have hmaxl : maximum? (schema.map (·.id)) = some l.id := by
    obtain ⟨m, hm⟩ := maximum?_some (List.mem_map.mpr ⟨l, hl, rfl⟩ : l.id ∈ schema.map (·.id))
    obtain ⟨h1, h2⟩ := maximum?_spec hm
    obtain ⟨g, hg, rfl⟩ := List.mem_map.mp h1
    have := hlm g hg
    have := h2 l.id (List.mem_map.mpr ⟨l, hl, rfl⟩)
    have e : g.id = l.id := by omega
    rw [hm, e]
  have hmem : l.id ∈ (addBatches schema [] 0 [pages]).map (·.1.1) := (written_fields ..).mpr ⟨by simp, l, hl, hlp, rfl⟩
  have hmax : maximum? ((addBatches schema [] 0 [pages]).map (·.1.1)) = some l.id := by
    obtain ⟨m, hm⟩ := maximum?_some hmem
    obtain ⟨h1, h2⟩ := maximum?_spec hm
    obtain ⟨_, g, hg, _, hge⟩ := (written_fields ..).mp h1
    have := hlm g hg
    have := h2 l.id hmem
    have e : m = l.id := by omega
    rw [hm, e]
  have hent := hs.entries l hl
  have h0 := hg.nonneg l hl
  have hmono : (l.id + 1 - 0).toNat * [pages].length * 2 ≤ (l.id + 3).toNat * [pages].length * 2 :=
    Nat.mul_le_mul_right _ (Nat.mul_le_mul_right _ (by omega))
  obtain ⟨t, ht, hget, _, _⟩ := C114_table _ 0 l.id tbl pre post hw' hmax
    (by
      intro f b q hq
      obtain ⟨p, hp, rfl⟩ := written_get_some _ _ _ _ _ hq
      exact hs.pages p (List.mem_of_getElem? hp) f) (by rw [hbt]; omega)
  refine ⟨t, ?_, hget f.id 0 _ (written_get schema [pages] f hf hp 0 pages rfl)⟩
  unfold loadStats
  rw [hmaxl]
  simp only
  rw [hbt] at ht
  exact ht

/-- A file of five columns and two batches of which columns 1 and 3 were replaced meets the hypotheses of `C114_first_kept_partial`. -/
theorem C114_nonvacuous : Good five ∧ Small five [tensMod, fun x => ⟨(tensMod x).position + 1, 7⟩] ∧ (writeTable five [tensMod, fun x => ⟨(tensMod x).position + 1, 7⟩]).isSome ∧
    fieldsAfter five [[1], [3]] = [0, -2, 2, -2, 4] := by
  refine ⟨five_good, ⟨?_, by decide⟩, by decide, by decide⟩
  intro p hp x
  have : x.toNat % 100 < 100 := Nat.mod_lt _ (by decide)
  rcases List.mem_cons.mp hp with rfl | hp
  · simp only [tensMod]; omega
  · simp only [List.mem_singleton] at hp
    subst hp
    simp only [tensMod]
    omega

/-- The fields of `fieldsAfter` are what `merge_insert` leaves (`Verif.Merge.tombstone`) of the fields of an older file. -/
theorem C114_tombstone (older newest : List Int) : Verif.Merge.tombstone [older, newest] = [replaced newest older, newest] := rfl

end Verif.PageTable
