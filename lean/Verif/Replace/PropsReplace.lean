import Verif.Replace.Lemmas
/-!
# C117: replacing data files changes the replaced columns of the given fragments and nothing else
-/
namespace Verif.Replace

/-- A version that operations of the library make: ids of fragments increase, each field of a fragment is in one file, each field of a file has a column. -/
structure Valid (v : Version) : Prop where
  ids : (v.frags.map (·.id)).Pairwise (· < ·)
  once : ∀ f ∈ v.frags, (f.files.flatMap (·.fields)).Nodup
  columns : ∀ f ∈ v.frags, ∀ d ∈ f.files, d.columns.length = d.fields.length

/-- What a column is to be after the replacement: that of the new file of the fragment, if it has the column, or what it was. -/
def expected (disk : Disk) (reps : List (Nat × DataFile)) (f : Frag) (x : Int) : Option (List (Option Nat)) :=
  match reps.find? (fun p => p.1 == f.id && p.2.fields.contains x) with
  | some p => p.2.read disk x
  | none => f.read disk x

/-- The new version has the same fragments in the same order, with the same rows and deletions, and the columns that are to be. -/
def Replaced (disk : Disk) (reps : List (Nat × DataFile)) (v v' : Version) : Prop :=
  v'.frags.map (·.id) = v.frags.map (·.id) ∧
    ∀ f' ∈ v'.frags, ∃ f ∈ v.frags, f'.id = f.id ∧ f'.rows = f.rows ∧ f'.deletions = f.deletions ∧ ∀ x, f'.read disk x = expected disk reps f x

/-- The full claim. -/
def C117_statement : Prop :=
  ∀ (disk : Disk) (v v' : Version) (reps : List (Nat × DataFile)), Valid v → (∀ p ∈ reps, p.2.columns.length = p.2.fields.length) →
    commit v reps = .ok v' → Replaced disk reps v v'

theorem pairwise_nodup {l : List Nat} (h : l.Pairwise (· < ·)) : l.Nodup := List.Pairwise.imp (fun h => by omega) h

theorem keyed (reps : List (Nat × DataFile)) (hr : (reps.map (·.1)).Nodup) (p q : Nat × DataFile) (hp : p ∈ reps) (hq : q ∈ reps) (he : q.1 = p.1) : q = p := by
  induction reps with
  | nil => cases hp
  | cons r reps ih =>
    rw [List.map_cons, List.nodup_cons] at hr
    rcases List.mem_cons.mp hp with h1 | h1
    · rcases List.mem_cons.mp hq with h2 | h2
      · rw [h1, h2]
      · exact absurd (List.mem_map.mpr ⟨q, h2, by rw [he, h1]⟩) hr.1
    · rcases List.mem_cons.mp hq with h2 | h2
      · exact absurd (List.mem_map.mpr ⟨p, h1, by rw [← he, h2]⟩) hr.1
      · exact ih hr.2 h1 h2

/-- The columns of one fragment. -/
theorem read_replaceFrag (disk : Disk) (n : DataFile) (f : Frag) (hne : replaceFrag n f ≠ f) (hu : (f.files.flatMap (·.fields)).Nodup)
    (hcol : ∀ d ∈ f.files, d.fields = n.fields → d.version = n.version → d.columns = n.columns) (x : Int) :
    (replaceFrag n f).read disk x = if n.fields.contains x then n.read disk x else f.read disk x := by
  unfold Frag.read replaceFrag
  simp only
  rw [List.find?_append, find_swap]
  by_cases hx : x ∈ n.fields
  · rw [if_pos (List.contains_iff_mem.mpr hx)]
    by_cases hun : uncovered n f.files = true
    · have h1 := (uncovered_iff n f.files).mp hun x hx
      have h2 : f.files.find? (fun d => d.fields.contains x) = none := by
        rw [List.find?_eq_none]
        intro d hd hc
        exact h1 d hd (List.contains_iff_mem.mp hc)
      rw [h2, if_pos hun]
      simp [hx]
    · have : ∃ d ∈ f.files, d.fields = n.fields ∧ d.version = n.version := by
        false_or_by_contra
        rename_i hno
        refine hne ?_
        unfold replaceFrag
        rw [if_neg hun, List.append_nil, map_swap_id n f.files (fun d hd he => hno ⟨d, hd, he⟩)]
      obtain ⟨d, hd, he1, he2⟩ := this
      rw [find_unique f.files hu d hd x (he1 ▸ hx)]
      simp only [Option.map_some, Option.some_or]
      have hs : swap n d = { d with path := n.path } := by unfold swap; rw [if_pos ⟨he1, he2⟩]
      rw [hs]
      unfold DataFile.read
      simp only [he1, hcol d hd he1 he2]
  · rw [if_neg (fun hc => hx (List.contains_iff_mem.mp hc))]
    have hlast : (if uncovered n f.files then [n] else []).find? (fun d => d.fields.contains x) = none := by
      rw [List.find?_eq_none]
      intro d hd hc
      split at hd
      · rw [List.mem_singleton] at hd
        subst hd
        exact hx (List.contains_iff_mem.mp hc)
      · cases hd
    rw [hlast, Option.or_none]
    cases hf : f.files.find? (fun d => d.fields.contains x) with
    | none => rfl
    | some d =>
      have hd := List.find?_some hf
      have hs : swap n d = d := by
        unfold swap
        rw [if_neg]
        rintro ⟨he, _⟩
        exact hx (he ▸ List.contains_iff_mem.mp hd)
      simp only [Option.map_some, hs]

/-- What holds of the claim: if each fragment is given once, and the new files have their columns in the order of the files that they replace. -/
theorem C117_replaced_partial (disk : Disk) (v v' : Version) (reps : List (Nat × DataFile)) (hv : Valid v) (hr : (reps.map (·.1)).Nodup)
    (hcol : ∀ p ∈ reps, ∀ f ∈ v.frags, f.id = p.1 → ∀ d ∈ f.files, d.fields = p.2.fields → d.version = p.2.version → d.columns = p.2.columns)
    (h : commit v reps = .ok v') : Replaced disk reps v v' := by
  unfold commit at h
  split at h
  next => cases h
  next =>
    split at h
    next => cases h
    next fs hfs =>
      simp only [Except.ok.injEq] at h
      subst h
      obtain ⟨h1, h2, h3⟩ := replaceAll_spec v.frags reps fs hfs
      have hnd := pairwise_nodup hv.ids
      have hsn := sortFrags_nodup _ (sorted_nodup v.frags fs reps h1 hr hnd)
      unfold Replaced
      refine ⟨?_, ?_⟩
      · refine increasing_ext _ _ (increasing_of_count _ ?_ hsn) hv.ids ?_
        · exact List.pairwise_map.mpr (sortFrags_sorted _)
        · intro x
          simp only [List.mem_map, mem_sortFrags, List.mem_append, List.mem_filter]
          constructor
          · rintro ⟨f', hf' | hf', rfl⟩
            · obtain ⟨p, hp, f, hf, rfl, _⟩ := h3 f' hf'
              exact ⟨f, List.mem_of_find?_eq_some hf, rfl⟩
            · exact ⟨f', hf'.1, rfl⟩
          · rintro ⟨f, hf, rfl⟩
            by_cases hm : f.id ∈ reps.map (·.1)
            · obtain ⟨p, hp, he⟩ := List.mem_map.mp hm
              obtain ⟨g, hg, _, hgm⟩ := h2 p hp
              rw [he, find_id v.frags hnd f hf, Option.some.injEq] at hg
              subst hg
              exact ⟨_, Or.inl hgm, rfl⟩
            · exact ⟨f, Or.inr ⟨hf, by simpa using hm⟩, rfl⟩
      · intro f' hf'
        simp only [mem_sortFrags, List.mem_append, List.mem_filter] at hf'
        rcases hf' with hf' | ⟨hf', hnot⟩
        · obtain ⟨p, hp, f, hf, rfl, hne⟩ := h3 f' hf'
          have hfm := List.mem_of_find?_eq_some hf
          have hid : f.id = p.1 := by simpa using List.find?_some hf
          refine ⟨f, hfm, rfl, rfl, rfl, fun x => ?_⟩
          rw [read_replaceFrag disk p.2 f hne (hv.once f hfm) (hcol p hp f hfm hid) x]
          unfold expected
          split
          next hx =>
            have : reps.find? (fun q => q.1 == f.id && q.2.fields.contains x) = some p := by
              cases hq : reps.find? (fun q => q.1 == f.id && q.2.fields.contains x) with
              | none =>
                have := List.find?_eq_none.mp hq p hp
                rw [hid, hx] at this
                simp at this
              | some q =>
                have hc := List.find?_some hq
                rw [Bool.and_eq_true, beq_iff_eq] at hc
                rw [keyed reps hr p q hp (List.mem_of_find?_eq_some hq) (by rw [hc.1, hid])]
            rw [this]
          next hx =>
            have : reps.find? (fun q => q.1 == f.id && q.2.fields.contains x) = none := by
              rw [List.find?_eq_none]
              intro q hq hc
              rw [Bool.and_eq_true, beq_iff_eq] at hc
              have hqp : q = p := keyed reps hr p q hp hq (by rw [hc.1, hid])
              subst hqp
              exact hx hc.2
            rw [this]
        · refine ⟨f', hf', rfl, rfl, rfl, fun x => ?_⟩
          unfold expected
          have : reps.find? (fun q => q.1 == f'.id && q.2.fields.contains x) = none := by
            rw [List.find?_eq_none]
            intro q hq hc
            rw [Bool.and_eq_true, beq_iff_eq] at hc
            rw [Bool.not_eq_true', ← Bool.not_eq_true, List.contains_iff_mem] at hnot
            exact hnot (List.mem_map.mpr ⟨q, hq, hc.1⟩)
          rw [this]

/-- Files 1 and 2 with two columns each; in the second, the first column of the file is field 8. -/
def twoFiles : Disk := fun path column => if path = 2 then (if column = 0 then [some 81] else [some 71]) else [some 0]

/-- A version with the first file. -/
def oneFile : Version := ⟨[⟨0, [⟨1, [7, 8], [0, 1], (2, 0)⟩], 1, 0⟩], []⟩

/-- The second file. -/
def exchanged : DataFile := ⟨2, [7, 8], [1, 0], (2, 0)⟩

theorem oneFile_valid : Valid oneFile := ⟨by decide, by decide, by decide⟩

/-- The columns of the replaced file are not taken of the new file: with the columns of the new file in another order, two columns are exchanged. -/
theorem C117_columns_violated : Valid oneFile ∧ exchanged.columns.length = exchanged.fields.length ∧
    commit oneFile [(0, exchanged)] = .ok ⟨[⟨0, [⟨2, [7, 8], [0, 1], (2, 0)⟩], 1, 0⟩], []⟩ ∧
    exchanged.read twoFiles 7 = some [some 71] ∧ exchanged.read twoFiles 8 = some [some 81] ∧
    Frag.read twoFiles ⟨0, [⟨2, [7, 8], [0, 1], (2, 0)⟩], 1, 0⟩ 7 = some [some 81] ∧ Frag.read twoFiles ⟨0, [⟨2, [7, 8], [0, 1], (2, 0)⟩], 1, 0⟩ 8 = some [some 71] :=
  ⟨oneFile_valid, rfl, rfl, by decide, by decide, by decide, by decide⟩

theorem C117_violated : ¬ C117_statement := by
  intro h
  obtain ⟨_, hall⟩ := h twoFiles oneFile _ [(0, exchanged)] oneFile_valid (by decide) C117_columns_violated.2.2.1
  obtain ⟨f, hf, _, _, _, hread⟩ := hall ⟨0, [⟨2, [7, 8], [0, 1], (2, 0)⟩], 1, 0⟩ (by simp)
  have : f = ⟨0, [⟨1, [7, 8], [0, 1], (2, 0)⟩], 1, 0⟩ := by simpa [oneFile] using hf
  subst this
  exact absurd (hread 7) (by decide)

/-- A fragment that is given twice is in the new version twice, with each of its rows. -/
theorem C117_twice_violated (v v' : Version) (id : Nat) (n₁ n₂ : DataFile) (h : commit v [(id, n₁), (id, n₂)] = .ok v') : 2 ≤ v'.frags.countP (fun f => f.id == id) := by
  unfold commit at h
  split at h
  next => cases h
  next =>
    split at h
    next => cases h
    next fs hfs =>
      simp only [Except.ok.injEq] at h
      subst h
      obtain ⟨h1, _, _⟩ := replaceAll_spec _ _ _ hfs
      show 2 ≤ (sortFrags _).countP _
      rw [sortFrags_count, List.countP_append]
      have : fs.countP (fun f => f.id == id) = (fs.map (·.id)).countP (fun i => i == id) := by rw [List.countP_map]; rfl
      rw [this, h1]
      simp

/-- Such a version: two rows are four. -/
theorem C117_twice_witness_violated : commit ⟨[⟨0, [⟨1, [0], [0], (2, 0)⟩], 2, 0⟩], []⟩ [(0, ⟨2, [0], [0], (2, 0)⟩), (0, ⟨3, [0], [0], (2, 0)⟩)] =
    .ok ⟨[⟨0, [⟨2, [0], [0], (2, 0)⟩], 2, 0⟩, ⟨0, [⟨3, [0], [0], (2, 0)⟩], 2, 0⟩], []⟩ := rfl

/-- Each index stays and covers the replaced fragments, although it was built of the old data. -/
theorem C117_index_violated (v v' : Version) (reps : List (Nat × DataFile)) (h : commit v reps = .ok v') : v'.indices = v.indices := by
  unfold commit at h
  split at h
  next => cases h
  next =>
    split at h
    next => cases h
    next => simp only [Except.ok.injEq] at h; subst h; rfl

/-- Such a version: the column has a new value in a fragment that its index covers. -/
theorem C117_index_witness_violated : ∃ (disk : Disk) (v v' : Version) (n : DataFile) (f f' : Frag), commit v [(0, n)] = .ok v' ∧ v.frags = [f] ∧ v'.frags = [f'] ∧
    v'.indices = [⟨[0], [0]⟩] ∧ f.read disk 0 = some [some 5] ∧ f'.read disk 0 = some [some 6] :=
  ⟨fun path _ => if path = 1 then [some 5] else [some 6], ⟨[⟨0, [⟨1, [0], [0], (2, 0)⟩], 1, 0⟩], [⟨[0], [0]⟩]⟩, ⟨[⟨0, [⟨2, [0], [0], (2, 0)⟩], 1, 0⟩], [⟨[0], [0]⟩]⟩,
    ⟨2, [0], [0], (2, 0)⟩, _, _, rfl, rfl, rfl, rfl, by decide, by decide⟩

/-- The length of the new file is not checked: a column of a fragment with two rows has three values. -/
theorem C117_length_violated : ∃ (disk : Disk) (v v' : Version) (n : DataFile) (f' : Frag), Valid v ∧ commit v [(0, n)] = .ok v' ∧ v'.frags = [f'] ∧ f'.rows = 2 ∧
    f'.read disk 0 = some [some 1, some 2, some 3] :=
  ⟨fun path _ => if path = 1 then [some 5, some 6] else [some 1, some 2, some 3], ⟨[⟨0, [⟨1, [0], [0], (2, 0)⟩], 2, 0⟩], []⟩,
    ⟨[⟨0, [⟨2, [0], [0], (2, 0)⟩], 2, 0⟩], []⟩, ⟨2, [0], [0], (2, 0)⟩, _, ⟨by decide, by decide, by decide⟩, rfl, rfl, rfl, by decide⟩

/-- A column that no file has can be given by a file of another format: the fragment then has files of two formats. -/
theorem C117_formats_violated : ∃ (v v' : Version) (n : DataFile), Valid v ∧ commit v [(0, n)] = .ok v' ∧
    v'.frags.map (fun f => f.files.map (·.version)) = [[(0, 1), (2, 0)]] :=
  ⟨⟨[⟨0, [⟨1, [0], [0], (0, 1)⟩], 2, 0⟩], []⟩, ⟨[⟨0, [⟨1, [0], [0], (0, 1)⟩, ⟨2, [1], [0], (2, 0)⟩], 2, 0⟩], []⟩, ⟨2, [1], [0], (2, 0)⟩,
    ⟨by decide, by decide, by decide⟩, rfl, by decide⟩

/-- What is documented: all new files have the same fields, and each fragment has either a file of exactly these fields and of the version of the new one, or none of
the fields in any file; files are not split. -/
theorem C117_layout (v v' : Version) (reps : List (Nat × DataFile)) (h : commit v reps = .ok v') :
    (∀ p ∈ reps, ∀ q ∈ reps, p.2.fields = q.2.fields) ∧
      ∀ p ∈ reps, ∃ f ∈ v.frags, f.id = p.1 ∧ ((∃ d ∈ f.files, d.fields = p.2.fields ∧ d.version = p.2.version ∧ d.path ≠ p.2.path) ∨
        ∀ d ∈ f.files, ∀ x ∈ p.2.fields, x ∉ d.fields) := by
  unfold commit at h
  split at h
  next => cases h
  next hsame =>
    split at h
    next => cases h
    next fs hfs =>
      obtain ⟨_, h2, _⟩ := replaceAll_spec _ _ _ hfs
      constructor
      · have hs : sameFields reps = true := by simpa using hsame
        cases reps with
        | nil => simp
        | cons r reps =>
          unfold sameFields at hs
          rw [List.all_eq_true] at hs
          have key : ∀ p ∈ r :: reps, p.2.fields = r.2.fields := by
            intro p hp
            rcases List.mem_cons.mp hp with rfl | hp
            · rfl
            · simpa using hs p hp
          intro p hp q hq
          rw [key p hp, key q hq]
      · intro p hp
        obtain ⟨f, hf, hne, _⟩ := h2 p hp
        refine ⟨f, List.mem_of_find?_eq_some hf, by simpa using List.find?_some hf, ?_⟩
        by_cases hun : uncovered p.2 f.files = true
        · exact Or.inr (fun d hd x hx => (uncovered_iff _ _).mp hun x hx d hd)
        · refine Or.inl ?_
          false_or_by_contra
          rename_i hno
          refine hne ?_
          unfold replaceFrag
          rw [if_neg hun, List.append_nil]
          have : f.files.map (swap p.2) = f.files := by
            rw [List.map_congr_left (g := id), List.map_id]
            intro d hd
            unfold swap
            split
            next he =>
              by_cases hp' : d.path = p.2.path
              · rw [← hp']; rfl
              · exact absurd ⟨d, hd, he.1, he.2, hp'⟩ hno
            next => rfl
          rw [this]

/-- If fragments and columns are there, the replacement succeeds: each fragment is found, and has a file to be replaced or none of the columns. -/
theorem C117_accepted (v : Version) (reps : List (Nat × DataFile)) (fields : List Int) (hf : ∀ p ∈ reps, p.2.fields = fields) (hids : (v.frags.map (·.id)).Nodup)
    (h : ∀ p ∈ reps, ∃ f ∈ v.frags, f.id = p.1 ∧ ((∃ d ∈ f.files, d.fields = p.2.fields ∧ d.version = p.2.version ∧ d.path ≠ p.2.path) ∨
      ∀ d ∈ f.files, ∀ x ∈ p.2.fields, x ∉ d.fields)) : ∃ v', commit v reps = .ok v' := by
  have hs : sameFields reps = true := by
    cases reps with
    | nil => rfl
    | cons r reps =>
      unfold sameFields
      rw [List.all_eq_true]
      intro p hp
      rw [hf p (by simp [hp]), hf r (by simp)]
      simp
  have hall : ∃ fs, replaceAll v.frags reps = .ok fs := by
    clear hs hf
    induction reps with
    | nil => exact ⟨[], rfl⟩
    | cons p reps ih =>
      obtain ⟨fs, hfs⟩ := ih (fun q hq => h q (by simp [hq]))
      obtain ⟨f, hf, hid, hor⟩ := h p (by simp)
      have hfind := find_id v.frags hids f hf
      rw [hid] at hfind
      unfold replaceAll
      rw [hfind]
      simp only
      rw [if_neg, hfs]
      · exact ⟨_, rfl⟩
      · intro he
        have hfiles := congrArg Frag.files he
        unfold replaceFrag at hfiles
        simp only at hfiles
        rcases hor with ⟨d, hd, h1, h2, h3⟩ | hun
        · split at hfiles
          · have := congrArg List.length hfiles
            simp at this
          · rw [List.append_nil] at hfiles
            obtain ⟨i, hi⟩ := List.mem_iff_getElem?.mp hd
            have := congrArg (fun l => l[i]?) hfiles
            simp only [List.getElem?_map, hi, Option.map_some, Option.some.injEq] at this
            unfold swap at this
            rw [if_pos ⟨h1, h2⟩] at this
            exact h3 (congrArg DataFile.path this).symm
        · rw [if_pos ((uncovered_iff _ _).mpr (fun x hx d hd => hun d hd x hx))] at hfiles
          have := congrArg List.length hfiles
          simp at this
  obtain ⟨fs, hfs⟩ := hall
  unfold commit
  rw [hs, hfs]
  exact ⟨_, rfl⟩

/-- A column that no file of a fragment has reads as one null for each row, and still does after a replacement that does not bring the column. -/
theorem C117_missing_null (disk : Disk) (f : Frag) (n : DataFile) (x : Int) (hf : ∀ d ∈ f.files, x ∉ d.fields) (hn : x ∉ n.fields) :
    f.read disk x = some (List.replicate f.rows none) ∧ (replaceFrag n f).read disk x = some (List.replicate f.rows none) := by
  have h : ∀ g : Frag, (∀ d ∈ g.files, x ∉ d.fields) → g.read disk x = some (List.replicate g.rows none) := by
    intro g hg
    unfold Frag.read
    rw [List.find?_eq_none.mpr (fun d hd hc => hg d hd (List.contains_iff_mem.mp hc))]
  refine ⟨h f hf, h (replaceFrag n f) ?_⟩
  intro d hd
  unfold replaceFrag at hd
  simp only [List.mem_append, List.mem_map] at hd
  rcases hd with ⟨d0, h0, rfl⟩ | hd
  · have := hf d0 h0
    unfold swap
    split <;> simp_all
  · split at hd
    · rw [List.mem_singleton.mp hd]
      exact hn
    · exact nomatch hd

/-- Two fragments of three: one has the file, the other none with the column; the third stays. -/
theorem C117_nonvacuous :
    let v : Version := ⟨[⟨0, [⟨1, [0], [0], (2, 0)⟩, ⟨2, [1], [0], (2, 0)⟩], 2, 9⟩, ⟨3, [⟨3, [0], [0], (2, 0)⟩], 2, 0⟩, ⟨4, [⟨4, [0, 1], [0, 1], (2, 0)⟩], 2, 0⟩], []⟩
    let reps : List (Nat × DataFile) := [(3, ⟨6, [1], [0], (2, 0)⟩), (0, ⟨5, [1], [0], (2, 0)⟩)]
    Valid v ∧ (reps.map (·.1)).Nodup ∧
      commit v reps = .ok ⟨[⟨0, [⟨1, [0], [0], (2, 0)⟩, ⟨5, [1], [0], (2, 0)⟩], 2, 9⟩, ⟨3, [⟨3, [0], [0], (2, 0)⟩, ⟨6, [1], [0], (2, 0)⟩], 2, 0⟩,
        ⟨4, [⟨4, [0, 1], [0, 1], (2, 0)⟩], 2, 0⟩], []⟩ ∧ commit v ((4, ⟨7, [1], [0], (2, 0)⟩) :: reps) = .error .nothingChanged :=
  ⟨⟨by decide, by decide, by decide⟩, by decide, rfl, rfl⟩

end Verif.Replace
