import Verif.Fix.Lemmas
import Verif.PageTable.PropsPageTable
/-!
# C116: the repair of duplicate field ids keeps the data of each column

The id of a column is twice in a fragment if two of its files list it; the newest of them has the data of the column.
-/
namespace Verif.Fix
open Verif.PageTable (Fld Page Table writeTable openTable maximum? minimum? maximum?_spec load fieldIdOffset Good Small addBatches written_batches written_fields
  bytes_length words_length fieldRange_length fieldRange load_write written_get)

/-- The id comes twice in the files of a fragment. -/
def Duplicate (m : Manifest) (x : Int) : Prop := 0 ≤ x ∧ ∃ f ∈ m.frags, 2 ≤ (f.flatMap (·.2)).count x

theorem holders_one (f : List File) (h : f.length ≤ 1) (x : Int) : (holders f x).getLast?.toList = holders f x := by
  match f, h with
  | [], _ => rfl
  | [g], _ =>
    rw [holders_cons]
    split <;> rfl

/-- A commit of a manifest, if it does not panic, keeps the order and number of columns and fragments.  A column whose id is duplicate in some fragment has then, in
each fragment, its data in one file and at one place: those of the newest file that listed the old id.  All other columns keep their id and all their files and
places.  No two columns get the same id. -/
theorem C116_newest (m m' : Manifest) (h : fixSchema m = some m') :
    m'.schema.length = m.schema.length ∧ m'.frags.length = m.frags.length ∧ (m.schema.Nodup → m'.schema.Nodup) ∧
      ∀ (j : Nat) (x : Int), m.schema[j]? = some x → ∃ y, m'.schema[j]? = some y ∧
        (¬ Duplicate m x → y = x) ∧
        ∀ (i : Nat) (f : List File), m.frags[i]? = some f → ∃ f', m'.frags[i]? = some f' ∧
          (Duplicate m x → holders f' y = (holders f x).getLast?.toList) ∧ (¬ Duplicate m x → holders f' y = holders f x) := by
  unfold fixSchema at h
  split at h
  next hall =>
    simp only [Option.some.injEq] at h
    subst h
    refine ⟨rfl, rfl, id, fun j x hj => ⟨x, hj, fun _ => rfl, fun i f hf => ⟨f, hf, fun _ => ?_, fun _ => rfl⟩⟩⟩
    rw [List.all_eq_true] at hall
    exact (holders_one f (of_decide_eq_true (hall f (List.mem_of_getElem? hf))) x).symm
  next =>
    split at h
    next hemp =>
      simp only [Option.some.injEq] at h
      subst h
      refine ⟨rfl, rfl, id, fun j x hj => ⟨x, hj, fun _ => rfl, fun i f hf => ⟨f, hf, fun hd => ?_, fun _ => rfl⟩⟩⟩
      have := (mem_duplicates m.frags x).mpr hd
      rw [List.isEmpty_iff] at hemp
      rw [hemp] at this
      cases this
    next =>
      split at h
      next => cases h
      next schema hs =>
        simp only [Option.some.injEq] at h
        subst h
        have hget := fun j x hj => renameSchema_get _ _ _ hs j x hj (mapping_fresh m)
        have hlen := renameSchema_length _ _ _ hs
        refine ⟨hlen, List.length_map _, ?_, ?_⟩
        · intro hnd
          rw [List.nodup_iff_pairwise_ne, List.pairwise_iff_getElem] at hnd ⊢
          intro a b ha hb hab he
          simp only at ha hb he
          have ha' : a < m.schema.length := by omega
          have hb' : b < m.schema.length := by omega
          have e1 := hget a m.schema[a] (List.getElem?_eq_getElem ha')
          have e2 := hget b m.schema[b] (List.getElem?_eq_getElem hb')
          rw [List.getElem?_eq_getElem ha, Option.some.injEq] at e1
          rw [List.getElem?_eq_getElem hb, Option.some.injEq] at e2
          rw [e1, e2] at he
          have hma := maxFieldId_schema m _ (List.getElem_mem ha')
          have hmb := maxFieldId_schema m _ (List.getElem_mem hb')
          cases h1 : lookup (mapping m) m.schema[a] with
          | none =>
            cases h2 : lookup (mapping m) m.schema[b] with
            | none =>
              rw [h1, h2] at he
              exact hnd a b ha' hb' hab he
            | some z =>
              have := lookup_fresh m _ _ h2
              rw [h1, h2] at he
              simp only [Option.getD_none, Option.getD_some] at he
              omega
          | some y =>
            have hy := lookup_fresh m _ _ h1
            cases h2 : lookup (mapping m) m.schema[b] with
            | none =>
              rw [h1, h2] at he
              simp only [Option.getD_none, Option.getD_some] at he
              omega
            | some z =>
              rw [h1, h2] at he
              simp only [Option.getD_some] at he
              subst he
              exact hnd a b ha' hb' hab (lookup_inj m _ _ _ h2 h1)
        · intro j x hj
          have hy := hget j x hj
          have hxm := maxFieldId_schema m x (List.mem_of_getElem? hj)
          refine ⟨_, hy, ?_, ?_⟩
          · intro hd
            rw [lookup_none m x (fun hm => hd ((mem_duplicates _ _).mp hm))]
            rfl
          · intro i f hf
            refine ⟨retain schema (renameFrag (lookup (mapping m)) f), by simp only [List.getElem?_map, hf, Option.map_some], ?_, ?_⟩
            · intro hd
              obtain ⟨y, hly⟩ := lookup_isSome m x ((mem_duplicates _ _).mpr hd)
              rw [holders_retain _ _ _ (List.mem_of_getElem? hy), hly]
              refine holders_renameFrag f x y hly (fun z hz => lookup_inj m x z y hly hz) ?_
              intro g hg hyg
              have h1 := maxFieldId_frag m f (List.mem_of_getElem? hf) y (List.mem_flatMap.mpr ⟨g, hg, hyg⟩)
              have h2 := lookup_fresh m x y hly
              omega
            · intro hd
              have hln := lookup_none m x (fun hm => hd ((mem_duplicates _ _).mp hm))
              rw [holders_retain _ _ _ (List.mem_of_getElem? hy), hln]
              refine holders_renameFrag_other f x hln ?_
              intro z hz
              have := lookup_fresh m z x hz
              omega

/-- After a commit, each column is in at most one file of each fragment, at one place. -/
theorem C116_one_file (m m' : Manifest) (h : fixSchema m = some m') (hf : ∀ f ∈ m.frags, ∀ g ∈ f, g.2.Nodup) (hs : ∀ x ∈ m.schema, 0 ≤ x)
    (y : Int) (hy : y ∈ m'.schema) (f' : List File) (hf' : f' ∈ m'.frags) : (holders f' y).length ≤ 1 := by
  obtain ⟨h1, h2, _, h3⟩ := C116_newest m m' h
  obtain ⟨j, hj⟩ := List.mem_iff_getElem?.mp hy
  obtain ⟨i, hi⟩ := List.mem_iff_getElem?.mp hf'
  have hjl := (List.getElem?_eq_some_iff.mp hj).1
  have hil := (List.getElem?_eq_some_iff.mp hi).1
  have ej : m.schema[j]? = some m.schema[j] := List.getElem?_eq_getElem (by omega)
  have ei : m.frags[i]? = some m.frags[i] := List.getElem?_eq_getElem (by omega)
  obtain ⟨y', hy', _, hall⟩ := h3 j _ ej
  rw [hj, Option.some.injEq] at hy'
  subst hy'
  obtain ⟨f'', hf'', hd, hnd⟩ := hall i _ ei
  rw [hi, Option.some.injEq] at hf''
  subst hf''
  by_cases hdup : Duplicate m m.schema[j]
  · rw [hd hdup]
    cases (holders m.frags[i] m.schema[j]).getLast? <;> simp
  · rw [hnd hdup]
    have := holders_length m.frags[i] m.schema[j]
    have hc : ¬ 2 ≤ (m.frags[i].flatMap (·.2)).count m.schema[j] := fun hc =>
      hdup ⟨hs _ (List.getElem_mem _), _, List.getElem_mem _, hc⟩
    omega

/-- The full claim: the repair does not panic, and what it leaves needs no repair: the next commit changes nothing. -/
def C116_statement : Prop :=
  ∀ m : Manifest, m.schema.Nodup → (∀ x ∈ m.schema, 0 ≤ x) → (∀ f ∈ m.frags, ∀ g ∈ f, g.2.Nodup) → ∃ m', fixSchema m = some m' ∧ fixSchema m' = some m'

/-- What holds of it: if each duplicate id is of a column of the schema and no more than two files of a fragment list it, then the repair does not panic and the
next commit changes nothing. -/
theorem C116_repaired_partial (m : Manifest) (hin : ∀ x, Duplicate m x → x ∈ m.schema) (htwo : ∀ f ∈ m.frags, ∀ x, 0 ≤ x → (f.flatMap (·.2)).count x ≤ 2) :
    ∃ m', fixSchema m = some m' ∧ fixSchema m' = some m' := by
  by_cases hall : m.frags.all (fun f => decide (f.length ≤ 1)) = true
  · have : fixSchema m = some m := by unfold fixSchema; rw [if_pos hall]
    exact ⟨m, this, this⟩
  by_cases hemp : (duplicates m.frags).isEmpty = true
  · have : fixSchema m = some m := by unfold fixSchema; rw [if_neg hall, if_pos hemp]
    exact ⟨m, this, this⟩
  obtain ⟨s', hs'⟩ := renameSchema_some (mapping m) m.schema
    (fun p hp => hin p.1 ((mem_duplicates _ _).mp (mem_mapping m p hp).1))
    (by rw [mapping_fst]; exact sortIds_nodup _ (once_nodup _))
  have e : fixSchema m = some ⟨m.frags.map (fun f => retain s' (renameFrag (lookup (mapping m)) f)), s'⟩ := by
    unfold fixSchema
    rw [if_neg hall, if_neg hemp, hs']
  refine ⟨_, e, ?_⟩
  unfold fixSchema
  split
  · rfl
  · rw [if_pos]
    rw [List.isEmpty_iff]
    refine List.eq_nil_iff_forall_not_mem.mpr ?_
    intro x hx
    obtain ⟨h0, f', hf', hc⟩ := (mem_duplicates _ _).mp hx
    simp only at hf'
    obtain ⟨f, hf, rfl⟩ := List.mem_map.mp hf'
    have h1 := count_retain s' (renameFrag (lookup (mapping m)) f) x
    have h2 : ((renameFrag (lookup (mapping m)) f).flatMap (·.2)).count x = (renameFields (lookup (mapping m)) [] (f.reverse.flatMap (·.2))).1.count x := by
      unfold renameFrag
      rw [flatMap_reverse_count, renameRev_flat]
    by_cases hnew : ∃ z, lookup (mapping m) z = some x
    · obtain ⟨z, hz⟩ := hnew
      have h3 := count_renameFields_new (m := lookup (mapping m)) (f.reverse.flatMap (·.2)) [] z x hz (fun w hw => lookup_inj m z w x hz hw) (by
        intro hm
        have hm' : x ∈ f.flatMap (·.2) := by
          obtain ⟨g, hg, hxg⟩ := List.mem_flatMap.mp hm
          exact List.mem_flatMap.mpr ⟨g, List.mem_reverse.mp hg, hxg⟩
        have h1 := maxFieldId_frag m f hf x hm'
        have h2 := lookup_fresh m z x hz
        omega)
      omega
    · have h3 := count_renameFields_old (m := lookup (mapping m)) (f.reverse.flatMap (·.2)) [] x (fun z hz => hnew ⟨z, hz⟩)
      rw [flatMap_reverse_count] at h3
      have h4 := htwo f hf x h0
      by_cases hd : x ∈ duplicates m.frags
      · obtain ⟨y, hy⟩ := lookup_isSome m x hd
        rw [hy] at h3
        simp only [Option.isSome_some, List.contains_nil, Bool.not_false, Bool.and_self, if_true] at h3
        omega
      · have : ¬ 2 ≤ (f.flatMap (·.2)).count x := fun hc => hd ((mem_duplicates _ _).mpr ⟨h0, f, hf, hc⟩)
        rw [lookup_none m x hd] at h3
        simp only [Option.isSome_none, Bool.false_and, Bool.false_eq_true, if_false] at h3
        omega

/-- Dropping the duplicate column: the commit panics, for each manifest with a fragment of more than one file and a duplicate id that is not in the schema. -/
theorem C116_dropped_violated (m : Manifest) (x : Int) (hx : Duplicate m x) (hs : x ∉ m.schema) (hf : ∃ f ∈ m.frags, 2 ≤ f.length) : fixSchema m = none := by
  have hd := (mem_duplicates m.frags x).mpr hx
  unfold fixSchema
  rw [if_neg, if_neg]
  · have : ∀ (ps : List (Int × Int)) (s : List Int), (∃ p ∈ ps, p.1 ∉ s ∧ ∀ q ∈ ps, q.2 ≠ p.1) → renameSchema s ps = none := by
      intro ps
      induction ps with
      | nil => rintro s ⟨p, hp, _⟩; cases hp
      | cons q ps ih =>
        rintro s ⟨p, hp, hps, hq⟩
        unfold renameSchema renameOne
        by_cases hqs : q.1 ∈ s
        · rw [if_pos (List.contains_iff_mem.mpr hqs)]
          simp only
          rcases List.mem_cons.mp hp with rfl | hp
          · exact absurd hqs hps
          · refine ih _ ⟨p, hp, ?_, fun r hr => hq r (List.mem_cons_of_mem _ hr)⟩
            intro hm
            obtain ⟨z, hz, he⟩ := List.mem_map.mp hm
            split at he
            · exact hq q (by simp) he
            · subst he; exact hps hz
        · rw [if_neg (fun hc => hqs (List.contains_iff_mem.mp hc))]
    rw [this]
    rw [← mapping_fst] at hd
    obtain ⟨p, hp, rfl⟩ := List.mem_map.mp hd
    exact ⟨p, hp, hs, fun q hq => mapping_fresh m q hq p hp⟩
  · rw [List.isEmpty_iff]
    intro he
    rw [he] at hd
    cases hd
  · rw [List.all_eq_true]
    intro hall
    obtain ⟨f, hf, hl⟩ := hf
    have := of_decide_eq_true (hall f hf)
    omega

/-- Three files with the same id: the commit repairs one of them, and each later commit panics. -/
theorem C116_three_violated : ∃ m m' : Manifest, m.schema.Nodup ∧ (∀ x ∈ m.schema, 0 ≤ x) ∧ (∀ f ∈ m.frags, ∀ g ∈ f, g.2.Nodup) ∧ fixSchema m = some m' ∧
    m' = ⟨[[(0, [0, 1]), (1, [1, 2]), (2, [3])]], [0, 3, 2]⟩ ∧ fixSchema m' = none :=
  ⟨⟨[[(0, [0, 1]), (1, [1, 2]), (2, [1])]], [0, 1, 2]⟩, _, by decide, by decide, by decide, by decide, rfl, by decide⟩

theorem C116_violated : ¬ C116_statement := by
  intro h
  obtain ⟨m, m', h1, h2, h3, h4, _, h5⟩ := C116_three_violated
  obtain ⟨m'', h6, h7⟩ := h m h1 h2 h3
  rw [h4, Option.some.injEq] at h6
  subst h6
  rw [h5] at h7
  cases h7

/-! ## Legacy files -/

theorem writeTable_length (schema : List Fld) (batches : List (Int → Page)) (tbl : List Nat) (hg : Good schema) (hne : batches ≠ []) (hw : writeTable schema batches = some tbl) (lo : Int)
    (hlo : minimum? (schema.map (·.id)) = some lo) (hi : Fld) (hhi : hi ∈ schema) (hmax : ∀ g ∈ schema, g.id ≤ hi.id) :
    tbl.length = (hi.id + 1 - lo).toNat * (batches.length * 2) * 8 := by
  obtain ⟨l, hl, hlp, hlm⟩ := hg.last
  have hbt := written_batches schema batches l hl hlp
  have hmem := (written_fields schema batches l.id).mpr ⟨hne, l, hl, hlp, rfl⟩
  unfold writeTable at hw
  rw [hlo] at hw
  simp only at hw
  unfold Table.write at hw
  split at hw
  case h_2 => cases hw
  case h_1 observed top hmin htop =>
    split at hw
    case isTrue => cases hw
    case isFalse =>
      simp only [Option.some.injEq] at hw
      obtain ⟨t1, t2⟩ := maximum?_spec htop
      have h1 := t2 _ hmem
      obtain ⟨_, k, hk, _, hke⟩ := (written_fields schema batches top).mp t1
      have h2 := hmax k hk
      have h3 := hlm hi hhi
      have : top = hi.id := by omega
      rw [← hw, bytes_length, words_length, fieldRange_length, hbt, this]

/-- A legacy file that was listed with ids from `lo` to `hi`, and is listed after the repair with a new id `y` for a column other than its first: the page table
is then read as if it went up to `y`, beyond its end.  If the rest of the file is shorter than that, the file cannot be opened; none of its columns can be read. -/
theorem C116_legacy_violated (schema : List Fld) (batches : List (Int → Page)) (tbl pre post : List Nat) (hg : Good schema) (hne : batches ≠ [])
    (hw : writeTable schema batches = some tbl) (lo : Int) (hlo : minimum? (schema.map (·.id)) = some lo) (hi : Fld) (hhi : hi ∈ schema) (hmax : ∀ g ∈ schema, g.id ≤ hi.id)
    (fields : List Int) (hfirst : fields.head? = some lo) (y : Int) (hy : maximum? fields = some y) (hnew : hi.id < y)
    (hpost : post.length < (y - hi.id).toNat * (batches.length * 2) * 8) :
    openTable none (pre ++ tbl ++ post) pre.length batches.length fields = none := by
  have hlen := writeTable_length schema batches tbl hg hne hw lo hlo hi hhi hmax
  have hlh : lo ≤ hi.id := (Verif.PageTable.minimum?_spec hlo).2 _ (List.mem_map.mpr ⟨hi, hhi, rfl⟩)
  unfold openTable
  rw [hy]
  simp only
  have hoff : fieldIdOffset fields = lo := by unfold fieldIdOffset; rw [hfirst]; rfl
  rw [hoff]
  unfold load
  rw [if_neg (by omega)]
  simp only
  split
  · rfl
  · rw [if_pos]
    have e : (y + 1 - lo).toNat = (hi.id + 1 - lo).toNat + (y - hi.id).toNat := by omega
    rw [e, List.length_append, List.length_append, hlen, Nat.mul_assoc, Nat.add_mul]
    omega

/-- The project's own test of the repair (`rust/lance/src/io/commit.rs` 1355-1440) is such a case: its files are legacy ones, and the repair lists the first of
them with the ids 0, 1 and 10. -/
theorem C116_legacy_test_violated : fixSchema ⟨[[(0, [0, 1, 2]), (1, [9])], [(2, [0, 1, 2]), (3, [2])]], [0, 2]⟩ =
      some ⟨[[(0, [0, 1, 10])], [(2, [0, 1, 2]), (3, [10])]], [0, 10]⟩ ∧
    ∀ (batches : List (Int → Page)) (tbl pre post : List Nat), batches ≠ [] → writeTable [⟨0, true⟩, ⟨1, true⟩, ⟨2, true⟩] batches = some tbl →
      post.length < 128 * batches.length → openTable none (pre ++ tbl ++ post) pre.length batches.length [0, 1, 10] = none := by
  refine ⟨by decide, ?_⟩
  intro batches tbl pre post hne hw hp
  refine C116_legacy_violated _ batches tbl pre post ⟨by decide, ⟨2, true⟩, by decide, rfl, by decide⟩ hne hw 0 (by decide) ⟨2, true⟩ (by decide) (by decide) _ rfl 10 (by decide) (by decide) ?_
  show post.length < 8 * (batches.length * 2) * 8
  omega

/-- A legacy file with one column is read correctly with whatever new id. -/
theorem C116_legacy_single_partial (x y : Int) (batches : List (Int → Page)) (tbl pre post : List Nat) (hx : 0 ≤ x) (hs : Small [⟨x, true⟩] batches)
    (hw : writeTable [⟨x, true⟩] batches = some tbl) (b : Nat) (p : Int → Page) (hb : batches[b]? = some p) :
    ∃ t, openTable none (pre ++ tbl ++ post) pre.length batches.length [y] = some t ∧ t.get y b = some (p x) := by
  have hlt := (List.getElem?_eq_some_iff.mp hb).1
  have hne : batches ≠ [] := by rintro rfl; simp at hlt
  have hbt := written_batches [⟨x, true⟩] batches ⟨x, true⟩ (by simp) rfl
  have hlen := writeTable_length [⟨x, true⟩] batches tbl ⟨by simpa using hx, ⟨x, true⟩, by simp, rfl, by simp⟩ hne hw x rfl ⟨x, true⟩ (by simp) (by simp)
  have hmem := (written_fields [⟨x, true⟩] batches x).mpr ⟨hne, ⟨x, true⟩, by simp, rfl, rfl⟩
  have hw' : (addBatches [⟨x, true⟩] [] 0 batches).write x = some tbl := hw
  have hent := hs.entries ⟨x, true⟩ (by simp)
  have h1 : (y + 1 - y).toNat = 1 := by omega
  have h2 : (x + 1 - x).toNat = 1 := by omega
  simp only [h2] at hlen
  have h3 : 1 * batches.length * 2 ≤ (x + 3).toNat * batches.length * 2 := Nat.mul_le_mul_right _ (Nat.mul_le_mul_right _ (by omega))
  simp only at hent
  obtain ⟨t, ht, hget, _⟩ := load_write _ x y y tbl pre post hw'
    (by
      intro f b q hq
      obtain ⟨p, hp, rfl⟩ := Verif.PageTable.written_get_some _ _ _ _ _ hq
      exact hs.pages p (List.mem_of_getElem? hp) f)
    (by omega) (by rw [hbt, h1]; omega) (by rw [hbt, h1]; omega)
  refine ⟨t, ?_, ?_⟩
  · show load _ _ y y _ = _
    rw [← hbt]
    exact ht
  · have e : y - y + x = x := by omega
    rw [hget y b (by omega) (by omega) (by rw [hbt]; exact hlt) ⟨x, hmem, by omega⟩, e, written_get _ batches ⟨x, true⟩ (by simp) rfl b p hb]
    rfl

/-- The repair of a dataset with two fragments, one of which has the id twice: the column is then read from the file of the newest data in the first fragment and
from its only file in the second. -/
theorem C116_nonvacuous :
    let m : Manifest := ⟨[[(0, [0, 1, 2]), (1, [5, 2])], [(2, [2, 0, 1])]], [0, 1, 2]⟩
    Duplicate m 2 ∧ ¬ Duplicate m 1 ∧ (∀ x, Duplicate m x → x ∈ m.schema) ∧ fixSchema m = some ⟨[[(0, [0, 1, 2]), (1, [5, 6])], [(2, [6, 0, 1])]], [0, 1, 6]⟩ ∧
      holders [(0, [0, 1, 2]), (1, [5, 2])] 2 = [(0, 2), (1, 1)] ∧ holders [(0, [0, 1, 2]), (1, [5, 6])] 6 = [(1, 1)] ∧ holders [(2, [6, 0, 1])] 6 = [(2, 0)] := by
  have key : duplicates [[((0 : Nat), [(0 : Int), 1, 2]), (1, [5, 2])], [(2, [2, 0, 1])]] = [2] := by decide
  have hd : ∀ x, Duplicate ⟨[[(0, [0, 1, 2]), (1, [5, 2])], [(2, [2, 0, 1])]], [0, 1, 2]⟩ x ↔ x = 2 := by
    intro x
    have := mem_duplicates [[((0 : Nat), [(0 : Int), 1, 2]), (1, [5, 2])], [(2, [2, 0, 1])]] x
    rw [key, List.mem_singleton] at this
    exact this.symm
  refine ⟨(hd 2).mpr rfl, fun h => ?_, fun x h => ?_, by decide, by decide, by decide, by decide⟩
  · have := (hd 1).mp h
    omega
  · have := (hd x).mp h
    subst this
    decide

end Verif.Fix
