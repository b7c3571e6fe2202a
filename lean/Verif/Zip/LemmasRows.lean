import Verif.Zip.LemmasWords
import Verif.Mini.LemmasDecode
import Verif.Mini.LemmasCut
import Verif.Mini.LemmasBytes
/-!
# The rows of a page as words and bytes, and the repetition index
-/
namespace Verif.Zip
open Verif.Mini

abbrev S := Slot (List Nat)

/-- One slot can be parsed. -/
structure SlotGood (ps : Parser) (maxRep maxVis : Nat) (word : S → List Nat) (dsc : S → Desc) (s : S) : Prop where
  length : (word s).length = ps.size
  levels : ∀ rest, ps.levels (word s ++ rest) =
    some (if ps.hasRep then some s.rep else none, if ps.hasDef then some s.dfn else none)
  desc : ∀ rest, ps.desc (word s ++ rest) maxRep maxVis = some (dsc s)
  visible : (if ps.hasDef then decide (s.dfn ≤ maxVis) else true) = s.val.isSome
  descs : dsc s = ⟨!ps.hasRep || decide (s.rep = maxRep), s.val.isSome, decide (s.dfn = 0)⟩

structure RowGood (ps : Parser) (maxRep maxVis : Nat) (word : S → List Nat) (dsc : S → Desc) (row : List S) : Prop where
  slots : ∀ s ∈ row, SlotGood ps maxRep maxVis word dsc s
  shape : ∃ s cs, row = s :: cs ∧ (dsc s).newRow = true ∧ ∀ t ∈ cs, (dsc t).newRow = false
  flat : ps.hasRep = false → ∀ s ∈ row, s.val.isSome = true

theorem maxVisibleZip_eq (layers : List Layer) : maxVisibleZip layers = itemLevels layers := by
  induction layers with
  | nil => rfl
  | cons l ls ih =>
    unfold maxVisibleZip at *
    rw [itemLevels, ← ih, List.filter_cons]
    cases l.isList <;> simp

theorem innerLevels_le (layers : List Layer) : innerLevels layers ≤ itemLevels layers := by
  induction layers with
  | nil => exact Nat.le_refl _
  | cons l ls ih =>
    rw [innerLevels, itemLevels]
    split
    · omega
    · omega

theorem itemLevels_flat (layers : List Layer) (h : listDepth layers = 0) : itemLevels layers = allLevels layers := by
  induction layers with
  | nil => rfl
  | cons l ls ih =>
    unfold listDepth at *
    rw [List.countP_cons] at h
    have h1 : l.isList = false := by
      cases e : l.isList with
      | false => rfl
      | true => rw [if_pos e] at h; omega
    rw [itemLevels, ih (by omega), h1]
    simp [allLevels]

theorem slots_length_vals {V : Type} (ss : List (Slot V)) (h : ∀ s ∈ ss, s.val.isSome = true) : (valsOf ss).length = ss.length := by
  induction ss with
  | nil => rfl
  | cons s ss ih =>
    obtain ⟨v, hv⟩ := Option.isSome_iff_exists.mp (h s (by simp))
    unfold valsOf at *
    rw [List.filterMap_cons, hv]
    simp only [List.length_cons]
    rw [ih fun t ht => h t (List.mem_cons_of_mem _ ht)]

/-- What the words of a page are. -/
theorem page_words (r : Rows (List Nat)) (h : RowsOk r) (hl : LevelsOk r) (hp : Plain r) :
    ∃ w word dsc, pageWords r.repDefs (valsOf r.rows.flatten).length = some w ∧
      (Parser.new w.bitsRep w.bitsDef).hasRep = decide (listDepth r.layers ≠ 0) ∧
      (Parser.new w.bitsRep w.bitsDef).hasDef = r.withDefs ∧
      (Parser.new w.bitsRep w.bitsDef).size = w.bytesPerWord ∧ w.bytesPerWord ≤ 4 ∧
      (w.bytesPerWord = 0 → listDepth r.layers = 0 ∧ r.withDefs = false) ∧
      w.hasRep r.repDefs = decide (listDepth r.layers ≠ 0) ∧
      numItems r.repDefs (valsOf r.rows.flatten).length = r.rows.flatten.length ∧
      w.words = r.rows.flatten.map (fun s => (word s, dsc s)) ∧
      ∀ row ∈ r.rows, RowGood (Parser.new w.bitsRep w.bitsDef) (maxRepOf r.layers) (maxVisibleZip r.layers) word dsc row := by
  have hslot : ∀ s ∈ r.rows.flatten, ∃ row ∈ r.rows, s ∈ row ∧ SlotOk r s ∧ s.rep ≤ listDepth r.layers := by
    intro s hs
    obtain ⟨row, h1, h2⟩ := List.mem_flatten.mp hs
    refine ⟨row, h1, h2, ?_⟩
    have := h.rows row h1
    cases row with
    | nil => simp at h2
    | cons a as =>
      obtain ⟨q1, q2, q3⟩ := this
      refine ⟨q3 s h2, ?_⟩
      rcases List.mem_cons.mp h2 with e | e
      · subst e; omega
      · have := q2 s e; omega
  obtain ⟨row0, hrow0⟩ := List.exists_mem_of_ne_nil _ h.nonempty
  have hrow0' := h.rows row0 hrow0
  have hslotlev : ∀ s ∈ r.rows.flatten, s.dfn ≤ allLevels r.layers := by
    intro s hs
    obtain ⟨row, h1, h2, _⟩ := hslot s hs
    exact hl row h1 s h2
  have mk : ∀ (ps : Parser) (word : S → List Nat) (dsc : S → Desc), Parses ps (maxRepOf r.layers) (maxVisibleZip r.layers) word dsc r.rows.flatten →
      ps.hasRep = decide (listDepth r.layers ≠ 0) →
      ∀ row ∈ r.rows, RowGood ps (maxRepOf r.layers) (maxVisibleZip r.layers) word dsc row := by
    intro ps word dsc P hrep row hrow
    have hmem : ∀ s ∈ row, s ∈ r.rows.flatten := fun s hs => List.mem_flatten.mpr ⟨row, hrow, hs⟩
    refine ⟨fun s hs => ⟨P.length s (hmem s hs), P.levels s (hmem s hs), P.desc s (hmem s hs), ?_, P.descs s (hmem s hs)⟩, ?_, ?_⟩
    · obtain ⟨v1, v2⟩ := P.visible s (hmem s hs)
      cases e : ps.hasDef with
      | true => rw [if_pos rfl]; exact v1 e
      | false => rw [v2 e]; rfl
    · have hr := h.rows row hrow
      cases row with
      | nil => exact absurd hr id
      | cons a as =>
        obtain ⟨q1, q2, q3⟩ := hr
        refine ⟨a, as, rfl, ?_, ?_⟩
        · rw [P.descs a (hmem a (by simp)), q1, maxRepOf_eq]
          simp
        · intro t ht
          rw [P.descs t (hmem t (List.mem_cons_of_mem _ ht)), maxRepOf_eq, hrep]
          have := q2 t ht
          have e1 : listDepth r.layers ≠ 0 := by omega
          have e2 : t.rep ≠ listDepth r.layers := by omega
          simp [e1, e2]
    · intro hf s hs
      rw [hrep] at hf
      obtain ⟨_, _, _, q, _⟩ := hslot s (hmem s hs)
      exact q.1.mpr (Or.inl (by simpa using hf))
  by_cases hd : listDepth r.layers = 0
  · -- no lists
    have hvis : ∀ s ∈ r.rows.flatten, s.val.isSome = true := by
      intro s hs
      obtain ⟨_, _, _, q, _⟩ := hslot s hs
      exact q.1.mpr (Or.inl hd)
    have hlen := slots_length_vals _ hvis
    have hmv : ∀ s ∈ r.rows.flatten, s.dfn ≤ maxVisibleZip r.layers := by
      intro s hs
      rw [maxVisibleZip_eq, itemLevels_flat _ hd]
      exact hslotlev s hs
    have hrep0 : repsOf r r.rows.flatten = none := by unfold repsOf; rw [if_pos hd]
    by_cases hw : r.withDefs = true
    · have hdefs : defsOf r r.rows.flatten = some (r.rows.flatten.map Slot.dfn) := by unfold defsOf; rw [if_pos hw]
      obtain ⟨m1, m2, m3⟩ := foldl_max_spec (r.rows.flatten.map Slot.dfn) 0
      obtain ⟨row, hr1, s, hs1, hs2⟩ := hp.used hw
      have hmax0 : (r.rows.flatten.map Slot.dfn).foldl max 0 ≠ 0 := by
        have := m2 s.dfn (List.mem_map.mpr ⟨s, List.mem_flatten.mpr ⟨row, hr1, hs1⟩, rfl⟩)
        omega
      have hmax1 : (r.rows.flatten.map Slot.dfn).foldl max 0 < 256 := by
        rcases m3 with e | e
        · omega
        · obtain ⟨t, ht, e⟩ := List.mem_map.mp e
          have := hslotlev t ht
          have := hp.levels
          omega
      obtain ⟨w, c1, c2, c3, c4, c5, c6, word, dsc, c7, c8⟩ := parses_def ((r.rows.flatten.map Slot.dfn).foldl max 0) (r.repDefs.maxVisible.getD 65535)
        (maxRepOf r.layers) (maxVisibleZip r.layers) (valsOf r.rows.flatten).length hmax0 hmax1 r.rows.flatten
        (fun t ht => m2 t.dfn (List.mem_map.mpr ⟨t, ht, rfl⟩)) hvis hmv
      refine ⟨w, word, dsc, ?_, by rw [c2, hd]; rfl, by rw [c3, hw], c4, c5, fun e => by omega, ?_, ?_, c7, mk _ word dsc c8 (by rw [c2, hd]; rfl)⟩
      · unfold pageWords
        simp only [Rows.repDefs, hrep0, hdefs, maxLevel, Option.getD_none, Option.getD_some, List.foldl_nil]
        simp only [Rows.repDefs, hrep0, hdefs] at c1
        exact c1
      · unfold Words.hasRep
        simp only [Rows.repDefs, hrep0, hd]
        rfl
      · unfold numItems
        simp only [Rows.repDefs, hrep0]
        exact hlen
    · have hw' : r.withDefs = false := by simpa using hw
      have hdefs : defsOf r r.rows.flatten = none := by unfold defsOf; rw [if_neg hw]
      have hz : ∀ s ∈ r.rows.flatten, s.dfn = 0 := by
        intro s hs
        obtain ⟨_, _, _, q, _⟩ := hslot s hs
        exact q.2.1 hw'
      obtain ⟨w, c1, c2, c3, c4, c5, word, dsc, c7, c8⟩ := parses_none (r.repDefs.maxVisible.getD 65535)
        (maxRepOf r.layers) (maxVisibleZip r.layers) r.rows.flatten hz hvis
      refine ⟨w, word, dsc, ?_, by rw [c2, hd]; rfl, by rw [c3, hw'], c4, by omega, fun _ => ⟨hd, hw'⟩, ?_, ?_, c7, mk _ word dsc c8 (by rw [c2, hd]; rfl)⟩
      · unfold pageWords
        simp only [Rows.repDefs, hrep0, hdefs, maxLevel, Option.getD_none, List.foldl_nil, hlen]
        simp only [Rows.repDefs, hrep0, hdefs] at c1
        exact c1
      · unfold Words.hasRep
        simp only [Rows.repDefs, hrep0, hdefs, hd]
        rfl
      · unfold numItems
        simp only [Rows.repDefs, hrep0]
        exact hlen
  · -- lists
    have hrep1 : repsOf r r.rows.flatten = some (r.rows.flatten.map Slot.rep) := by unfold repsOf; rw [if_neg hd]
    obtain ⟨m1, m2, m3⟩ := foldl_max_spec (r.rows.flatten.map Slot.rep) 0
    have hmaxr : (r.rows.flatten.map Slot.rep).foldl max 0 = listDepth r.layers := by
      refine Nat.le_antisymm ?_ ?_
      · rcases m3 with e | e
        · omega
        · obtain ⟨t, ht, e⟩ := List.mem_map.mp e
          obtain ⟨_, _, _, _, q⟩ := hslot t ht
          omega
      · cases row0 with
        | nil => exact absurd hrow0' id
        | cons a as =>
          rw [← hrow0'.1]
          exact m2 a.rep (List.mem_map.mpr ⟨a, List.mem_flatten.mpr ⟨a :: as, hrow0, by simp⟩, rfl⟩)
    have hmv : r.repDefs.maxVisible = some (innerLevels r.layers) := maxVisible_some r.layers hd
    have hdec : decide (listDepth r.layers ≠ 0) = true := decide_eq_true hd
    have hv : ∀ s ∈ r.rows.flatten, decide (s.dfn ≤ innerLevels r.layers) = s.val.isSome ∧ decide (s.dfn ≤ maxVisibleZip r.layers) = s.val.isSome := by
      intro s hs
      obtain ⟨row, hr1, hr2, q, _⟩ := hslot s hs
      rw [maxVisibleZip_eq]
      cases e : s.val with
      | none =>
        have h1 := hp.apart row hr1 s hr2 e
        have h2 := innerLevels_le r.layers
        exact ⟨decide_eq_false (by omega), decide_eq_false (by omega)⟩
      | some v =>
        have h1 : s.dfn ≤ innerLevels r.layers := by
          rcases q.1.mp (by rw [e]; rfl) with x | x
          · exact absurd x hd
          · exact x
        have h2 := innerLevels_le r.layers
        exact ⟨decide_eq_true h1, decide_eq_true (by omega)⟩
    by_cases hw : r.withDefs = true
    · have hdefs : defsOf r r.rows.flatten = some (r.rows.flatten.map Slot.dfn) := by unfold defsOf; rw [if_pos hw]
      obtain ⟨n1, n2, n3⟩ := foldl_max_spec (r.rows.flatten.map Slot.dfn) 0
      obtain ⟨row, hr1, s, hs1, hs2⟩ := hp.used hw
      have hmax0 : (r.rows.flatten.map Slot.dfn).foldl max 0 ≠ 0 := by
        have := n2 s.dfn (List.mem_map.mpr ⟨s, List.mem_flatten.mpr ⟨row, hr1, hs1⟩, rfl⟩)
        omega
      have hmax1 : (r.rows.flatten.map Slot.dfn).foldl max 0 < 256 := by
        rcases n3 with e | e
        · omega
        · obtain ⟨t, ht, e⟩ := List.mem_map.mp e
          have := hslotlev t ht
          have := hp.levels
          omega
      obtain ⟨w, c1, c2, c3, c4, c5, c6, c6', word, dsc, c7, c8⟩ := parses_both (listDepth r.layers) ((r.rows.flatten.map Slot.dfn).foldl max 0) (innerLevels r.layers)
        (maxVisibleZip r.layers) hd hp.depth hmax0 hmax1 r.rows.flatten (fun t ht => let ⟨_, _, _, _, q⟩ := hslot t ht; q)
        (fun t ht => n2 t.dfn (List.mem_map.mpr ⟨t, ht, rfl⟩)) (fun t ht => (hv t ht).1) (fun t ht => (hv t ht).2)
      rw [← maxRepOf_eq] at c8
      refine ⟨w, word, dsc, ?_, by rw [c2, hdec], by rw [c3, hw], c4, c5, fun e => by omega, ?_, ?_, c7, mk _ word dsc c8 (by rw [c2, hdec])⟩
      · unfold pageWords
        rw [hmv]
        simp only [Rows.repDefs, hrep1, hdefs, maxLevel, Option.getD_some, hmaxr, List.length_map]
        exact c1
      · unfold Words.hasRep
        simp only [Rows.repDefs, hrep1, hdefs, hdec]
      · unfold numItems
        simp only [Rows.repDefs, hrep1, List.length_map]
    · have hw' : r.withDefs = false := by simpa using hw
      have hdefs : defsOf r r.rows.flatten = none := by unfold defsOf; rw [if_neg hw]
      have hz : ∀ s ∈ r.rows.flatten, s.dfn = 0 := by
        intro s hs
        obtain ⟨_, _, _, q, _⟩ := hslot s hs
        exact q.2.1 hw'
      have hvis : ∀ s ∈ r.rows.flatten, s.val.isSome = true := by
        intro s hs
        rw [← (hv s hs).1, hz s hs]
        rfl
      obtain ⟨w, c1, c2, c3, c4, c5, c6, c6', word, dsc, c7, c8⟩ := parses_rep (listDepth r.layers) (innerLevels r.layers)
        (maxVisibleZip r.layers) r.rows.flatten.length hd hp.depth r.rows.flatten (fun t ht => let ⟨_, _, _, _, q⟩ := hslot t ht; q) hz hvis
      rw [← maxRepOf_eq] at c8
      refine ⟨w, word, dsc, ?_, by rw [c2, hdec], by rw [c3, hw'], c4, c5, fun e => by omega, ?_, ?_, c7, mk _ word dsc c8 (by rw [c2, hdec])⟩
      · unfold pageWords
        rw [hmv]
        simp only [Rows.repDefs, hrep1, hdefs, maxLevel, Option.getD_some, Option.getD_none, List.foldl_nil, hmaxr, List.length_map]
        exact c1
      · unfold Words.hasRep
        simp only [Rows.repDefs, hrep1, hdefs, hdec]
        exact decide_eq_true c6'
      · unfold numItems
        simp only [Rows.repDefs, hrep1, List.length_map]

/-! ### Bytes of rows -/

/-- The bytes of some slots. -/
def bytesOf (word body : S → List Nat) (ss : List S) : List Nat := ss.flatMap fun s => word s ++ body s

theorem bytesOf_append (word body : S → List Nat) (a b : List S) : bytesOf word body (a ++ b) = bytesOf word body a ++ bytesOf word body b :=
  List.flatMap_append

theorem bytesOf_cons (word body : S → List Nat) (s : S) (b : List S) : bytesOf word body (s :: b) = word s ++ body s ++ bytesOf word body b :=
  List.flatMap_cons

/-- What is stored of a value of a fixed width. -/
def fixedBody (s : S) : List Nat := s.val.getD []

/-- What is stored of a string. -/
def stringBody (s : S) : List Nat :=
  if s.dfn = 0 then (match s.val with | some v => leBytes 4 v.length ++ v | none => []) else []

/-- Where the rows of some slots start, and where the slots end. -/
def slotStarts (word body : S → List Nat) (new : S → Bool) : List S → Nat → List Nat
  | [], pos => [pos]
  | s :: ss, pos =>
    if new s then pos :: slotStarts word body new ss (pos + (word s ++ body s).length)
    else slotStarts word body new ss (pos + (word s ++ body s).length)

theorem zipFixed_slots (word : S → List Nat) (dsc : S → Desc) : ∀ (ss : List S) (pos : Nat),
    (∀ s ∈ ss, (dsc s).visible = s.val.isSome) →
    zipFixed (ss.map fun s => (word s, dsc s)) (valsOf ss) pos =
      some (bytesOf word fixedBody ss, slotStarts word fixedBody (fun s => (dsc s).newRow) ss pos)
  | [], pos, _ => rfl
  | s :: ss, pos, h => by
    have hs := h s (by simp)
    have ih := fun p => zipFixed_slots word dsc ss p fun t ht => h t (List.mem_cons_of_mem _ ht)
    rw [List.map_cons, zipFixed.eq_def, bytesOf_cons, slotStarts]
    simp only
    cases e : s.val with
    | none =>
      rw [hs, e, if_neg (by simp), show valsOf (s :: ss) = valsOf ss from by unfold valsOf; rw [List.filterMap_cons, e], ih]
      simp [fixedBody, e]
    | some v =>
      rw [hs, e, if_pos (by simp), show valsOf (s :: ss) = v :: valsOf ss from by unfold valsOf; rw [List.filterMap_cons, e]]
      simp only
      rw [ih]
      simp [fixedBody, e, Nat.add_assoc]

theorem zipVariable_slots (word : S → List Nat) (dsc : S → Desc) : ∀ (ss : List S) (pos : Nat),
    (∀ s ∈ ss, (dsc s).visible = s.val.isSome ∧ (dsc s).valid = decide (s.dfn = 0)) →
    zipVariable (ss.map fun s => (word s, dsc s)) (valsOf ss) pos =
      some (bytesOf word stringBody ss, slotStarts word stringBody (fun s => (dsc s).newRow) ss pos)
  | [], pos, _ => rfl
  | s :: ss, pos, h => by
    obtain ⟨hs, hv⟩ := h s (by simp)
    have ih := fun p => zipVariable_slots word dsc ss p fun t ht => h t (List.mem_cons_of_mem _ ht)
    rw [List.map_cons, zipVariable.eq_def, bytesOf_cons, slotStarts]
    simp only
    cases e : s.val with
    | none =>
      rw [hs, e, if_neg (by simp), show valsOf (s :: ss) = valsOf ss from by unfold valsOf; rw [List.filterMap_cons, e], ih]
      simp [stringBody, e]
    | some v =>
      rw [hs, e, if_pos (by simp), show valsOf (s :: ss) = v :: valsOf ss from by unfold valsOf; rw [List.filterMap_cons, e]]
      simp only
      rw [ih, hv]
      by_cases hz : s.dfn = 0
      · simp [stringBody, e, hz, Nat.add_assoc]
      · simp [stringBody, e, hz, Nat.add_assoc]

/-- Where rows start, and the end. -/
def rowStarts (word body : S → List Nat) : List (List S) → Nat → List Nat
  | [], pos => [pos]
  | row :: rows, pos => pos :: rowStarts word body rows (pos + (bytesOf word body row).length)

theorem slotStarts_cont (word body : S → List Nat) (new : S → Bool) : ∀ (cs rest : List S) (pos : Nat), (∀ t ∈ cs, new t = false) →
    slotStarts word body new (cs ++ rest) pos = slotStarts word body new rest (pos + (bytesOf word body cs).length)
  | [], rest, pos, _ => by simp [bytesOf]
  | c :: cs, rest, pos, h => by
    rw [List.cons_append, slotStarts, h c (by simp), if_neg (by simp), slotStarts_cont word body new cs rest _ fun t ht => h t (List.mem_cons_of_mem _ ht),
      bytesOf_cons, List.length_append (bs := bytesOf word body cs), Nat.add_assoc]

theorem slotStarts_rows (word body : S → List Nat) (new : S → Bool) : ∀ (rows : List (List S)) (pos : Nat),
    (∀ row ∈ rows, ∃ s cs, row = s :: cs ∧ new s = true ∧ ∀ t ∈ cs, new t = false) →
    slotStarts word body new rows.flatten pos = rowStarts word body rows pos
  | [], pos, _ => rfl
  | row :: rows, pos, h => by
    obtain ⟨s, cs, h1, h2, h3⟩ := h row (by simp)
    rw [List.flatten_cons, rowStarts, h1, List.cons_append, slotStarts, h2, if_pos rfl, slotStarts_cont word body new cs _ _ h3,
      slotStarts_rows word body new rows _ fun t ht => h t (List.mem_cons_of_mem _ ht), bytesOf_cons,
      List.length_append (bs := bytesOf word body cs), Nat.add_assoc]

theorem rowStarts_length (word body : S → List Nat) : ∀ (rows : List (List S)) (pos : Nat), (rowStarts word body rows pos).length = rows.length + 1
  | [], _ => rfl
  | _ :: rows, _ => by rw [rowStarts, List.length_cons, rowStarts_length word body rows, List.length_cons]

theorem rowStarts_get (word body : S → List Nat) : ∀ (rows : List (List S)) (pos i : Nat), i ≤ rows.length →
    (rowStarts word body rows pos)[i]? = some (pos + (bytesOf word body (rows.take i).flatten).length)
  | [], pos, i, h => by
    have : i = 0 := by simpa using h
    subst this
    simp [rowStarts, bytesOf]
  | row :: rows, pos, 0, _ => by simp [rowStarts, bytesOf]
  | row :: rows, pos, i + 1, h => by
    rw [rowStarts, List.getElem?_cons_succ, rowStarts_get word body rows _ i (by simpa using h), List.take_succ_cons, List.flatten_cons, bytesOf_append,
      List.length_append, Nat.add_assoc]

/-! ### The index -/

theorem packIndex_length (w : Nat) (xs : List Nat) : (xs.flatMap (leBytes w)).length = w * xs.length := by
  induction xs with
  | nil => rfl
  | cons x xs ih => rw [List.flatMap_cons, List.length_append, leBytes_length, ih, List.length_cons, Nat.mul_succ, Nat.add_comm]

theorem fetch_index (w : Nat) : ∀ (xs : List Nat) (i x : Nat), xs[i]? = some x →
    fetch (xs.flatMap (leBytes w)) (i * w) (i * w + w) = some (leBytes w x)
  | [], i, x, h => by simp at h
  | y :: xs, 0, x, h => by
    have : y = x := by simpa using h
    subst this
    unfold fetch sliceLen
    rw [if_pos (by omega), List.flatMap_cons, if_pos (by rw [List.length_append, leBytes_length]; omega)]
    simp only [Nat.zero_mul, List.drop_zero, Nat.zero_add, Nat.sub_zero]
    rw [List.take_append_of_le_length (by rw [leBytes_length]; exact Nat.le_refl _), List.take_of_length_le (by rw [leBytes_length]; exact Nat.le_refl _)]
  | y :: xs, i + 1, x, h => by
    have ih := fetch_index w xs i x (by simpa using h)
    unfold fetch sliceLen at *
    rw [if_pos (by omega)] at ih ⊢
    have e1 : (i + 1) * w = (leBytes w y).length + i * w := by rw [leBytes_length, Nat.succ_mul, Nat.add_comm]
    have e2 : (i + 1) * w + w - (i + 1) * w = i * w + w - i * w := by omega
    rw [List.flatMap_cons, e2, List.length_append, e1, ← List.drop_drop, List.drop_left]
    by_cases hc : i * w + (i * w + w - i * w) ≤ (xs.flatMap (leBytes w)).length
    · rw [if_pos hc] at ih
      rw [if_pos (by omega), ih]
    · rw [if_neg hc] at ih
      simp at ih

theorem packWidth_spec (m : Nat) (h0 : 0 < m) (h : m < 2 ^ 64) : m < 256 ^ packWidth m ∧ packSize (packWidth m) = true ∧ 0 < packWidth m := by
  unfold packWidth
  rw [if_neg (by omega)]
  split
  · refine ⟨by omega, by decide, by decide⟩
  · split
    · refine ⟨by omega, by decide, by decide⟩
    · split
      · refine ⟨by omega, by decide, by decide⟩
      · refine ⟨by omega, by decide, by decide⟩

theorem fetch_rows (word body : S → List Nat) (rows : List (List S)) (a b : Nat) (hab : a ≤ b) (hb : b ≤ rows.length) :
    fetch (bytesOf word body rows.flatten) (bytesOf word body (rows.take a).flatten).length (bytesOf word body (rows.take b).flatten).length =
      some (bytesOf word body ((rows.drop a).take (b - a)).flatten) := by
  have e1 : rows = rows.take a ++ ((rows.drop a).take (b - a) ++ rows.drop b) := by
    rw [show rows.drop b = (rows.drop a).drop (b - a) from by rw [List.drop_drop]; congr 1; omega, List.take_append_drop, List.take_append_drop]
  have e2 : rows.take b = rows.take a ++ (rows.drop a).take (b - a) := by
    rw [show b = a + (b - a) from by omega, List.take_add]
    simp
  rw [e2]
  conv => lhs; arg 1; rw [e1]
  unfold fetch
  simp only [List.flatten_append, bytesOf_append, List.length_append]
  rw [if_pos (by omega), ← List.append_assoc, sliceLen_mid _ _ _ _ _ rfl (by omega)]

theorem mapM_some_map {A B : Type} (f : A → Option B) (g : A → B) : ∀ (l : List A), (∀ x ∈ l, f x = some (g x)) → l.mapM f = some (l.map g)
  | [], _ => rfl
  | x :: l, h => by
    rw [List.mapM_cons, h x (by simp), mapM_some_map f g l fun y hy => h y (List.mem_cons_of_mem _ hy)]
    rfl

theorem rangesOk_mem : ∀ (n a : Nat) (ranges : List (Nat × Nat)), RangesOk n a ranges → ∀ r ∈ ranges, r.1 < r.2 ∧ r.2 ≤ n
  | _, _, [], _, r, h => by simp at h
  | n, a, (s, e) :: rest, ⟨_, h1, h2, h3⟩, r, h => by
    rcases List.mem_cons.mp h with x | x
    · subst x; exact ⟨h1, h2⟩
    · exact rangesOk_mem n e rest h3 r x

/-- The rows of each range. -/
def segments (rows : List (List S)) (ranges : List (Nat × Nat)) : List (List (List S)) := ranges.map fun r => (rows.drop r.1).take (r.2 - r.1)

theorem segments_flatten (rows : List (List S)) (ranges : List (Nat × Nat)) : (segments rows ranges).flatten = selected rows ranges := rfl

theorem fetchRep_rows (p : Page) (n m : Nat) (word body : S → List Nat) (rows : List (List S)) (ranges : List (Nat × Nat))
    (hn : 0 < n) (hrows : rows.length = n * p.rows) (hm0 : 0 < m) (hm : m < 2 ^ 64) (hdata : p.data = bytesOf word body rows.flatten)
    (hle : (bytesOf word body rows.flatten).length ≤ m) (hr : RangesOk p.rows 0 ranges) :
    fetchRep p n (packIndex m (rowStarts word body rows 0)) ranges =
      some ((segments rows (scaled n ranges)).map fun seg => bytesOf word body seg.flatten) := by
  obtain ⟨w1, w2, w3⟩ := packWidth_spec m hm0 hm
  have hw : (packIndex m (rowStarts word body rows 0)).length / (n * p.rows + 1) = packWidth m := by
    unfold packIndex
    rw [packIndex_length, rowStarts_length, hrows, Nat.mul_div_cancel _ (by omega)]
  have hent : ∀ i, i ≤ rows.length → (bytesOf word body (rows.take i).flatten).length < 256 ^ packWidth m := by
    intro i hi
    have e : rows.flatten = (rows.take i).flatten ++ (rows.drop i).flatten := by rw [← List.flatten_append, List.take_append_drop]
    rw [e, bytesOf_append, List.length_append] at hle
    omega
  unfold fetchRep
  simp only
  rw [hw, if_pos w2]
  unfold segments scaled
  rw [List.map_map, List.map_map]
  refine mapM_some_map _ _ _ fun r hrm => ?_
  obtain ⟨q1, q2⟩ := rangesOk_mem _ _ _ hr r hrm
  have b2 : r.2 * n ≤ rows.length := by
    rw [hrows, Nat.mul_comm n]
    exact Nat.mul_le_mul_right n q2
  have b1 : r.1 * n ≤ r.2 * n := Nat.mul_le_mul_right n (by omega)
  have g1 := rowStarts_get word body rows 0 (r.1 * n) (by omega)
  have g2 := rowStarts_get word body rows 0 (r.2 * n) b2
  have hi : indexRange (packIndex m (rowStarts word body rows 0)) (packWidth m) (r.1 * n, r.2 * n) =
      some ((bytesOf word body (rows.take (r.1 * n)).flatten).length, (bytesOf word body (rows.take (r.2 * n)).flatten).length) := by
    unfold indexRange packIndex
    simp only
    rw [fetch_index _ _ _ _ g1, fetch_index _ _ _ _ g2]
    simp only
    rw [ofBytes_leBytes_lt _ _ (by rw [Nat.zero_add]; exact hent _ (by omega)), ofBytes_leBytes_lt _ _ (by rw [Nat.zero_add]; exact hent _ b2),
      Nat.zero_add, Nat.zero_add]
  rw [hi]
  simp only
  rw [hdata, fetch_rows word body rows _ _ b1 b2]
  rfl

end Verif.Zip
