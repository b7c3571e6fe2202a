import Verif.Zip.LemmasFixed
/-!
# Reading strings
-/
namespace Verif.Zip
open Verif.Mini

variable {ps : Parser} {maxRep maxVis : Nat} {word : S → List Nat} {dsc : S → Desc}

/-- The string that is read of a slot. -/
def shown (s : S) : List (List Nat) := (blank s).val.toList

theorem valsOf_blank (ss : List S) : valsOf (ss.map blank) = ss.flatMap shown := by
  induction ss with
  | nil => rfl
  | cons s ss ih =>
    unfold valsOf at *
    rw [List.map_cons, List.filterMap_cons, List.flatMap_cons, ← ih]
    unfold shown
    cases (blank s).val <;> rfl

/-- What one slot adds. -/
def add (ps : Parser) (dsc : S → Desc) (u : Unzipped) (s : S) : Unzipped :=
  ⟨u.data ++ (shown s).flatten, u.offsets ++ (shown s).map (fun _ => u.data.length % 2 ^ 32),
    u.rep ++ (if ps.hasRep then [s.rep] else []), u.defs ++ (if ps.hasDef then [s.dfn] else []),
    if (dsc s).newRow then u.repdefStarts ++ [max u.rep.length u.defs.length] else u.repdefStarts,
    if (dsc s).newRow then u.offsetStarts ++ [u.offsets.length] else u.offsetStarts,
    if (dsc s).newRow then u.visibleCounts ++ [u.offsets.length] else u.visibleCounts⟩

theorem toList_if (b : Bool) (x : Nat) : (if b then some x else none).toList = if b then [x] else [] := by cases b <;> rfl

theorem unzipOne_slot (s : S) (rest : List Nat) (u : Unzipped) (h : SlotGood ps maxRep maxVis word dsc s)
    (hv : ∀ v, s.val = some v → v.length < 2 ^ 32) :
    unzipOne ps maxRep maxVis (word s ++ stringBody s ++ rest) u = some (rest, add ps dsc u s) := by
  unfold unzipOne
  rw [List.append_assoc, h.levels, h.desc]
  simp only
  rw [← h.length, List.drop_left, toList_if, toList_if]
  have hd := h.descs
  have hvis : (dsc s).visible = s.val.isSome := by rw [hd]
  have hval : (dsc s).valid = decide (s.dfn = 0) := by rw [hd]
  rw [hvis, hval]
  cases e : s.val with
  | none =>
    have h1 : stringBody s = [] := by unfold stringBody; rw [e]; split <;> rfl
    have h2 : shown s = [] := by simp [shown, blank, e]
    rw [h1, Option.isSome_none, if_neg (by simp), List.nil_append]
    unfold add
    rw [h2]
    simp
  | some v =>
    rw [Option.isSome_some, if_pos rfl]
    by_cases hz : s.dfn = 0
    · have h1 : stringBody s = leBytes 4 v.length ++ v := by unfold stringBody; rw [e, if_pos hz]
      have h2 : shown s = [v] := by simp [shown, blank, e, hz]
      have h3 : ofBytes (leBytes 4 v.length) = v.length := ofBytes_leBytes_lt _ _ (by have := hv v e; omega)
      have h4 : ((leBytes 4 v.length ++ v) ++ rest).take 4 = leBytes 4 v.length := by
        rw [List.append_assoc, List.take_append_of_le_length (by rw [leBytes_length]; exact Nat.le_refl _), List.take_of_length_le (by rw [leBytes_length]; exact Nat.le_refl _)]
      have h5 : ((leBytes 4 v.length ++ v) ++ rest).drop 4 = v ++ rest := by
        rw [List.append_assoc]
        exact List.drop_left' (leBytes_length 4 _)
      rw [h1, decide_eq_true hz, if_pos rfl, if_neg (by simp only [List.length_append, leBytes_length]; omega), h4, h3,
        if_neg (by simp only [List.length_append, leBytes_length]; omega), ← List.drop_drop, h5, List.drop_left, List.take_left]
      unfold add
      rw [h2]
      simp
    · have h1 : stringBody s = [] := by unfold stringBody; rw [if_neg hz]
      have h2 : shown s = [[]] := by simp [shown, blank, e, hz]
      rw [h1, decide_eq_false hz, if_neg (by simp), List.nil_append]
      unfold add
      rw [h2]
      simp

theorem unzipBuf_cons (fuel : Nat) (buf : List Nat) (hne : buf ≠ []) (u : Unzipped) :
    unzipBuf ps maxRep maxVis (fuel + 1) buf u =
      match unzipOne ps maxRep maxVis buf u with
      | none => none
      | some (buf', u') => unzipBuf ps maxRep maxVis fuel buf' u' := by
  cases buf with
  | nil => exact absurd rfl hne
  | cons b bs => rfl

theorem unzipBuf_slots : ∀ (ss : List S) (fuel : Nat) (u : Unzipped), ss.length ≤ fuel →
    (∀ s ∈ ss, SlotGood ps maxRep maxVis word dsc s ∧ (∀ v, s.val = some v → v.length < 2 ^ 32) ∧ word s ++ stringBody s ≠ []) →
    unzipBuf ps maxRep maxVis fuel (bytesOf word stringBody ss) u = some (ss.foldl (add ps dsc) u)
  | [], fuel, u, _, _ => by cases fuel <;> rfl
  | s :: ss, 0, u, hf, _ => by simp at hf
  | s :: ss, fuel + 1, u, hf, h => by
    obtain ⟨h1, h2, h3⟩ := h s (by simp)
    rw [bytesOf_cons, unzipBuf_cons _ _ (by intro e; exact h3 (List.append_eq_nil_iff.mp e).1), unzipOne_slot s _ u h1 h2]
    simp only
    rw [unzipBuf_slots ss fuel _ (by simpa using hf) fun t ht => h t (List.mem_cons_of_mem _ ht)]
    rfl

theorem unzipBufs_segs : ∀ (segs : List (List (List S))) (u : Unzipped),
    (∀ seg ∈ segs, ∀ s ∈ seg.flatten, SlotGood ps maxRep maxVis word dsc s ∧ (∀ v, s.val = some v → v.length < 2 ^ 32) ∧ word s ++ stringBody s ≠ []) →
    unzipBufs ps maxRep maxVis (segs.map fun seg => bytesOf word stringBody seg.flatten) u = some (segs.flatten.flatten.foldl (add ps dsc) u)
  | [], u, _ => rfl
  | seg :: segs, u, h => by
    have hlen : ∀ ss : List S, (∀ s ∈ ss, word s ++ stringBody s ≠ []) → ss.length ≤ (bytesOf word stringBody ss).length := by
      intro ss
      induction ss with
      | nil => intro _; exact Nat.zero_le _
      | cons s ss ih =>
        intro hs
        have h1 := List.length_pos_iff.mpr (hs s (by simp))
        have h2 := ih fun t ht => hs t (List.mem_cons_of_mem _ ht)
        rw [bytesOf_cons, List.length_append, List.length_cons]
        omega
    rw [List.map_cons, unzipBufs, unzipBuf_slots seg.flatten _ u (hlen _ fun s hs => (h seg (by simp) s hs).2.2) (h seg (by simp))]
    simp only
    rw [unzipBufs_segs segs _ fun t ht => h t (List.mem_cons_of_mem _ ht), List.flatten_cons, List.flatten_append, List.foldl_append]

/-- Offsets of strings, and the end. -/
def prefixSums : Nat → List (List Nat) → List Nat
  | pos, [] => [pos]
  | pos, v :: vs => pos :: prefixSums (pos + v.length) vs

theorem foldl_data : ∀ (ss : List S) (u : Unzipped), (ss.foldl (add ps dsc) u).data = u.data ++ (ss.flatMap shown).flatten
  | [], u => by simp
  | s :: ss, u => by
    rw [List.foldl_cons, foldl_data ss, List.flatMap_cons, List.flatten_append]
    simp [add]

theorem shown_cases (s : S) : shown s = [] ∨ ∃ v, shown s = [v] := by
  unfold shown
  cases (blank s).val with
  | none => exact Or.inl rfl
  | some v => exact Or.inr ⟨v, rfl⟩

theorem foldl_offsets : ∀ (ss : List S) (u : Unzipped), u.data.length + (ss.flatMap shown).flatten.length < 2 ^ 32 →
    (ss.foldl (add ps dsc) u).offsets ++ [(ss.foldl (add ps dsc) u).data.length % 2 ^ 32] = u.offsets ++ prefixSums u.data.length (ss.flatMap shown)
  | [], u, h => by
    simp [prefixSums] at h ⊢
    omega
  | s :: ss, u, h => by
    rw [List.flatMap_cons, List.flatten_append, List.length_append] at h
    rw [List.foldl_cons, foldl_offsets ss _ (by simp only [add, List.length_append]; omega), List.flatMap_cons]
    rcases shown_cases s with e | ⟨v, e⟩
    · simp [add, e]
    · rw [e] at h ⊢
      simp [add, e, prefixSums]
      omega

theorem foldl_offsets_length : ∀ (ss : List S) (u : Unzipped), (ss.foldl (add ps dsc) u).offsets.length = u.offsets.length + (ss.flatMap shown).length
  | [], u => by simp
  | s :: ss, u => by
    rw [List.foldl_cons, foldl_offsets_length ss, List.flatMap_cons]
    simp only [add, List.length_append, List.length_map]
    omega

theorem foldl_rep : ∀ (ss : List S) (u : Unzipped), (ss.foldl (add ps dsc) u).rep = u.rep ++ (if ps.hasRep then ss.map Slot.rep else [])
  | [], u => by simp
  | s :: ss, u => by
    rw [List.foldl_cons, foldl_rep ss]
    cases hr : ps.hasRep <;> simp [add, hr]

theorem foldl_defs : ∀ (ss : List S) (u : Unzipped), (ss.foldl (add ps dsc) u).defs = u.defs ++ (if ps.hasDef then ss.map Slot.dfn else [])
  | [], u => by simp
  | s :: ss, u => by
    rw [List.foldl_cons, foldl_defs ss]
    cases hr : ps.hasDef <;> simp [add, hr]

theorem foldl_cont : ∀ (cs : List S) (u : Unzipped), (∀ t ∈ cs, (dsc t).newRow = false) →
    (cs.foldl (add ps dsc) u).repdefStarts = u.repdefStarts ∧ (cs.foldl (add ps dsc) u).offsetStarts = u.offsetStarts
  | [], u, _ => ⟨rfl, rfl⟩
  | c :: cs, u, h => by
    obtain ⟨i1, i2⟩ := foldl_cont cs (add ps dsc u c) fun t ht => h t (List.mem_cons_of_mem _ ht)
    rw [List.foldl_cons, i1, i2]
    simp [add, h c (by simp)]

/-- Where rows start, counting something of their slots. -/
def countStarts (f : List S → Nat) : Nat → List (List S) → List Nat
  | _, [] => []
  | acc, row :: rows => acc :: countStarts f (acc + f row) rows

theorem countStarts_get (f : List S → Nat) (hf0 : f [] = 0) (hf : ∀ a b, f (a ++ b) = f a + f b) : ∀ (rows : List (List S)) (acc i : Nat), i ≤ rows.length →
    (countStarts f acc rows ++ [acc + f rows.flatten])[i]? = some (acc + f (rows.take i).flatten)
  | [], acc, i, h => by
    have : i = 0 := by simpa using h
    subst this
    simp [countStarts]
  | row :: rows, acc, 0, _ => by simp [countStarts, hf0]
  | row :: rows, acc, i + 1, h => by
    have ih := countStarts_get f hf0 hf rows (acc + f row) i (by simpa using h)
    rw [countStarts, List.cons_append, List.getElem?_cons_succ, List.flatten_cons, hf, ← Nat.add_assoc, ih, List.take_succ_cons, List.flatten_cons, hf, Nat.add_assoc]

/-- The levels of some slots. -/
def levelCount (ps : Parser) (ss : List S) : Nat := if ps.hasRep || ps.hasDef then ss.length else 0

theorem levelCount_append (ps : Parser) (a b : List S) : levelCount ps (a ++ b) = levelCount ps a + levelCount ps b := by
  unfold levelCount
  split
  · exact List.length_append
  · rfl

/-- The levels read so far are those of some number of slots. -/
def LevelsAt (ps : Parser) (u : Unzipped) (n : Nat) : Prop :=
  u.rep.length = (if ps.hasRep then n else 0) ∧ u.defs.length = (if ps.hasDef then n else 0)

theorem levelsAt_foldl (ss : List S) (u : Unzipped) (n : Nat) (h : LevelsAt ps u n) : LevelsAt ps (ss.foldl (add ps dsc) u) (n + ss.length) := by
  unfold LevelsAt at *
  rw [foldl_rep, foldl_defs]
  cases h1 : ps.hasRep <;> cases h2 : ps.hasDef <;> simp [h1, h2] at h ⊢ <;> omega

theorem levelsAt_max (u : Unzipped) (n : Nat) (h : LevelsAt ps u n) : max u.rep.length u.defs.length = if ps.hasRep || ps.hasDef then n else 0 := by
  rw [h.1, h.2]
  cases ps.hasRep <;> cases ps.hasDef <;> simp

theorem foldl_starts : ∀ (rows : List (List S)) (u : Unzipped) (n : Nat), LevelsAt ps u n →
    (∀ row ∈ rows, ∃ s cs, row = s :: cs ∧ (dsc s).newRow = true ∧ ∀ t ∈ cs, (dsc t).newRow = false) →
    (rows.flatten.foldl (add ps dsc) u).repdefStarts = u.repdefStarts ++ countStarts (levelCount ps) (if ps.hasRep || ps.hasDef then n else 0) rows ∧
    (rows.flatten.foldl (add ps dsc) u).offsetStarts = u.offsetStarts ++ countStarts (fun ss => (ss.flatMap shown).length) u.offsets.length rows
  | [], u, n, _, _ => by simp [countStarts]
  | row :: rows, u, n, hl, h => by
    obtain ⟨s, cs, e1, e2, e3⟩ := h row (by simp)
    obtain ⟨i1, i2⟩ := foldl_starts rows (row.foldl (add ps dsc) u) (n + row.length) (levelsAt_foldl row u n hl) fun t ht => h t (List.mem_cons_of_mem _ ht)
    obtain ⟨j1, j2⟩ := foldl_cont (ps := ps) cs (add ps dsc u s) e3
    have k1 : (row.foldl (add ps dsc) u).repdefStarts = u.repdefStarts ++ [max u.rep.length u.defs.length] := by
      rw [e1, List.foldl_cons, j1]
      simp [add, e2]
    have k2 : (row.foldl (add ps dsc) u).offsetStarts = u.offsetStarts ++ [u.offsets.length] := by
      rw [e1, List.foldl_cons, j2]
      simp [add, e2]
    rw [List.flatten_cons, List.foldl_append, i1, i2, k1, k2, countStarts, countStarts, foldl_offsets_length, levelsAt_max u n hl]
    refine ⟨?_, by simp⟩
    rw [List.append_assoc, List.singleton_append]
    congr 3
    unfold levelCount
    cases ps.hasRep <;> cases ps.hasDef <;> simp

theorem prefixSums_get : ∀ (vs : List (List Nat)) (pos i n : Nat), i + n ≤ vs.length →
    ((prefixSums pos vs).drop i).take (n + 1) = prefixSums (pos + (vs.take i).flatten.length) ((vs.drop i).take n)
  | [], pos, i, n, h => by
    have h1 : i = 0 := by simp at h; omega
    have h2 : n = 0 := by simp at h; omega
    subst h1; subst h2
    simp [prefixSums]
  | v :: vs, pos, 0, 0, h => by simp [prefixSums]
  | v :: vs, pos, 0, n + 1, h => by
    have ih := prefixSums_get vs (pos + v.length) 0 n (by simp at h; omega)
    simp only [List.drop_zero, List.take_zero, List.flatten_nil, List.length_nil, Nat.add_zero] at ih ⊢
    rw [prefixSums, List.take_succ_cons, ih, List.take_succ_cons, prefixSums]
  | v :: vs, pos, i + 1, n, h => by
    have ih := prefixSums_get vs (pos + v.length) i n (by simp at h; omega)
    rw [prefixSums, List.drop_succ_cons, ih, List.take_succ_cons, List.flatten_cons, List.length_append, List.drop_succ_cons, Nat.add_assoc]

theorem prefixSums_length : ∀ (vs : List (List Nat)) (pos : Nat), (prefixSums pos vs).length = vs.length + 1
  | [], _ => rfl
  | v :: vs, pos => by rw [prefixSums, List.length_cons, prefixSums_length vs, List.length_cons]

theorem prefixSums_ne (vs : List (List Nat)) (pos : Nat) : ∃ rest, prefixSums pos vs = pos :: rest := by
  cases vs <;> exact ⟨_, rfl⟩

theorem between_vals : ∀ (vs : List (List Nat)) (pre post : List Nat),
    between (pre ++ vs.flatten ++ post) (prefixSums pre.length vs) = some vs
  | [], pre, post => by simp [prefixSums, between]
  | v :: vs, pre, post => by
    have ih := between_vals vs (pre ++ v) post
    rw [List.length_append] at ih
    obtain ⟨rest, hr⟩ := prefixSums_ne vs (pre.length + v.length)
    rw [prefixSums, hr, between, ← hr]
    have h1 : pre ++ (v :: vs).flatten ++ post = pre ++ v ++ vs.flatten ++ post := by simp
    have h2 : fetch (pre ++ v ++ vs.flatten ++ post) pre.length (pre.length + v.length) = some v := by
      unfold fetch
      rw [if_pos (by omega), List.append_assoc (pre ++ v), sliceLen_mid pre v _ _ _ rfl (by omega)]
    rw [h1, h2, ih]

theorem sliceLevels_mid (a b c : List Nat) : sliceLevels (a ++ b ++ c) a.length (a.length + b.length) = some b := by
  unfold sliceLevels
  split
  · rename_i h
    simp at h
    rw [h.2.1]
  · rw [if_pos (by omega), sliceLen_mid a b c _ _ rfl (by omega)]

theorem sliceLevels_if (b : Bool) (f : S → Nat) (x y z : List S) (s e : Nat) (hs : b = true → s = x.length) (he : b = true → e = x.length + y.length) :
    sliceLevels (if b then (x ++ y ++ z).map f else []) s e = some (if b then y.map f else []) := by
  cases b with
  | false => simp [sliceLevels]
  | true =>
    rw [if_pos rfl, if_pos rfl, hs rfl, he rfl, List.map_append, List.map_append]
    have := sliceLevels_mid (x.map f) (y.map f) (z.map f)
    rwa [List.length_map, List.length_map] at this

theorem rows_split {A : Type} (rows : List A) (a n : Nat) : rows = rows.take a ++ ((rows.drop a).take n ++ rows.drop (a + n)) := by
  rw [show rows.drop (a + n) = (rows.drop a).drop n from by rw [List.drop_drop], List.take_append_drop, List.take_append_drop]

theorem drain_rows (r : Rows (List Nat)) (hrep : ps.hasRep = decide (listDepth r.layers ≠ 0)) (hdef : ps.hasDef = r.withDefs)
    (rows : List (List S)) (u : Unzipped)
    (hu : (some (rows.flatten.foldl (add ps dsc) Unzipped.empty)).map (fun u => (⟨u.data, u.offsets ++ [u.data.length % 2 ^ 32], u.rep, u.defs,
      u.repdefStarts ++ [max u.rep.length u.defs.length], u.offsetStarts ++ [u.offsets.length],
      u.visibleCounts ++ [u.offsets.length]⟩ : Unzipped)) = some u)
    (hrows : ∀ row ∈ rows, ∃ s cs, row = s :: cs ∧ (dsc s).newRow = true ∧ ∀ t ∈ cs, (dsc t).newRow = false)
    (hsmall : (rows.flatten.flatMap shown).flatten.length < 2 ^ 32) (a n : Nat) (h : a + n ≤ rows.length) :
    drainVariable u a (a + n) = some (expectedStrings r ((rows.drop a).take n)) := by
  have hl0 : LevelsAt ps Unzipped.empty 0 := by unfold LevelsAt; cases ps.hasRep <;> cases ps.hasDef <;> simp [Unzipped.empty]
  obtain ⟨st1, st2⟩ := foldl_starts rows Unzipped.empty 0 hl0 hrows
  have hmax := levelsAt_max _ _ (levelsAt_foldl (dsc := dsc) rows.flatten _ 0 hl0)
  have hoff := foldl_offsets (ps := ps) (dsc := dsc) rows.flatten Unzipped.empty (by simpa [Unzipped.empty] using hsmall)
  have holen := foldl_offsets_length (ps := ps) (dsc := dsc) rows.flatten Unzipped.empty
  have hdat := foldl_data (ps := ps) (dsc := dsc) rows.flatten Unzipped.empty
  have hre := foldl_rep (ps := ps) (dsc := dsc) rows.flatten Unzipped.empty
  have hde := foldl_defs (ps := ps) (dsc := dsc) rows.flatten Unzipped.empty
  rw [Option.map_some, Option.some.injEq] at hu
  subst hu
  generalize rows.flatten.foldl (add ps dsc) Unzipped.empty = w at *
  simp only [Unzipped.empty, List.nil_append, List.length_nil, Nat.zero_add, ite_self] at st1 st2 hoff holen hdat hre hde hmax
  have g1 := fun i (hi : i ≤ rows.length) => countStarts_get (fun ss => (ss.flatMap shown).length) rfl (fun a b => by simp) rows 0 i hi
  have g2 := fun i (hi : i ≤ rows.length) => countStarts_get (levelCount ps) (by simp [levelCount]) (levelCount_append ps) rows 0 i hi
  simp only [Nat.zero_add] at g1 g2
  have hmax' : max w.rep.length w.defs.length = levelCount ps rows.flatten := hmax
  unfold drainVariable
  simp only
  rw [st2, holen, st1, hmax', g1 a (by omega), g1 (a + n) h, g2 a (by omega), g2 (a + n) h]
  simp only
  -- cut the rows
  have hta : rows.take (a + n) = rows.take a ++ (rows.drop a).take n := List.take_add
  have hsp := rows_split rows a n
  generalize hx : (rows.take a).flatten = x at *
  generalize hy : ((rows.drop a).take n) = yr at *
  generalize hz : rows.drop (a + n) = zr at *
  have hall : rows.flatten = x ++ yr.flatten ++ zr.flatten := by
    rw [hsp, List.flatten_append, List.flatten_append, hx, List.append_assoc]
  have htk : (rows.take (a + n)).flatten = x ++ yr.flatten := by rw [hta, List.flatten_append, hx]
  rw [htk, List.flatMap_append, List.length_append, if_pos (by omega), hoff, hre, hde, hall, hdat, hall]
  have hslice : sliceLen (prefixSums 0 ((x ++ yr.flatten ++ zr.flatten).flatMap shown)) (x.flatMap shown).length
      ((x.flatMap shown).length + (yr.flatten.flatMap shown).length + 1 - (x.flatMap shown).length) =
      some (prefixSums (x.flatMap shown).flatten.length (yr.flatten.flatMap shown)) := by
    unfold sliceLen
    have hn : (x.flatMap shown).length + (yr.flatten.flatMap shown).length + 1 - (x.flatMap shown).length = (yr.flatten.flatMap shown).length + 1 := by omega
    rw [hn, List.flatMap_append, List.flatMap_append, if_pos (by rw [prefixSums_length, List.length_append, List.length_append]; omega),
      prefixSums_get _ _ _ _ (by rw [List.length_append, List.length_append]; omega), Nat.zero_add, List.append_assoc, List.take_left, List.drop_left, List.take_left]
  rw [hslice]
  have hlc : ∀ b : Bool, (b = true → (ps.hasRep || ps.hasDef) = true) → (b = true → levelCount ps x = x.length) ∧ (b = true → levelCount ps (x ++ yr.flatten) = x.length + yr.flatten.length) := by
    intro b hb
    unfold levelCount
    refine ⟨fun e => by rw [if_pos (hb e)], fun e => by rw [if_pos (hb e), List.length_append]⟩
  have l1 := hlc ps.hasRep (fun e => by rw [e]; rfl)
  have l2 := hlc ps.hasDef (fun e => by rw [e, Bool.or_true])
  rw [sliceLevels_if ps.hasRep Slot.rep x yr.flatten zr.flatten _ _ l1.1 l1.2, sliceLevels_if ps.hasDef Slot.dfn x yr.flatten zr.flatten _ _ l2.1 l2.2]
  simp only
  have hb := between_vals (yr.flatten.flatMap shown) (x.flatMap shown).flatten (zr.flatten.flatMap shown).flatten
  rw [List.flatMap_append, List.flatMap_append, List.flatten_append, List.flatten_append, hb]
  unfold expectedStrings repsOf defsOf
  rw [valsOf_blank, hrep, hdef]
  simp only [Option.map_some, Option.some.injEq, Out.mk.injEq, and_true]
  refine ⟨?_, ?_⟩
  · by_cases hd : listDepth r.layers = 0
    · rw [if_pos hd, hd]; rfl
    · rw [decide_eq_true hd, if_pos rfl, if_neg hd]; rfl
  · cases r.withDefs <;> rfl

theorem batchVariable_rows (r : Rows (List Nat)) (u : Unzipped) (rows : List (List S))
    (hd : ∀ a n, a + n ≤ rows.length → drainVariable u a (a + n) = some (expectedStrings r ((rows.drop a).take n))) :
    ∀ (batches : List Nat) (a : Nat), a + batches.sum ≤ rows.length →
      batchVariable u batches a = some ((inBatches batches (rows.drop a)).map (expectedStrings r))
  | [], a, _ => rfl
  | n :: rest, a, h => by
    rw [List.sum_cons] at h
    rw [batchVariable, hd a n (by omega), batchVariable_rows r u rows hd rest (a + n) (by omega)]
    simp only [inBatches, List.map_cons, List.drop_drop]

theorem selected_sublist {A : Type} (rows : List A) : ∀ (ranges : List (Nat × Nat)) (a : Nat), RangesOk rows.length a ranges →
    (selected rows ranges).Sublist (rows.drop a)
  | [], a, _ => List.nil_sublist _
  | (s, e) :: rest, a, ⟨h1, h2, h3, h4⟩ => by
    have ih := selected_sublist rows rest e h4
    unfold selected at *
    rw [List.flatMap_cons]
    have e1 : rows.drop s = (rows.drop s).take (e - s) ++ rows.drop e := by
      rw [show rows.drop e = (rows.drop s).drop (e - s) from by rw [List.drop_drop]; congr 1; omega, List.take_append_drop]
    have e2 : ((rows.drop s).take (e - s) ++ rest.flatMap fun r => (rows.drop r.1).take (r.2 - r.1)).Sublist (rows.drop s) := by
      rw (occs := .pos [2]) [e1]
      exact List.Sublist.append (List.Sublist.refl _) ih
    refine e2.trans ?_
    rw [show s = a + (s - a) from by omega, ← List.drop_drop]
    exact List.drop_sublist _ _

theorem sublist_count {A : Type} (f : A → Nat) {a b : List A} (h : a.Sublist b) : (a.map f).sum ≤ (b.map f).sum := by
  induction h with
  | slnil => exact Nat.le_refl _
  | cons x _ ih => rw [List.map_cons, List.sum_cons]; omega
  | cons_cons x _ ih => rw [List.map_cons, List.sum_cons, List.map_cons, List.sum_cons]; omega

theorem shown_le (s : S) : (shown s).flatten.length ≤ (s.val.getD []).length := by
  unfold shown blank
  cases s.val with
  | none => exact Nat.le_refl _
  | some v => simp only [Option.map_some, Option.toList_some, Option.getD_some]; split <;> simp

theorem shown_total (ss : List S) : (ss.flatMap shown).flatten.length ≤ (valsOf ss).flatten.length := by
  induction ss with
  | nil => exact Nat.le_refl _
  | cons s ss ih =>
    have := shown_le s
    rw [List.flatMap_cons, List.flatten_append, List.length_append]
    unfold valsOf at *
    rw [List.filterMap_cons]
    cases e : s.val with
    | none =>
      rw [e, Option.getD_none, List.length_nil] at this
      simp only
      omega
    | some v =>
      rw [e, Option.getD_some] at this
      simp only [List.flatten_cons, List.length_append]
      omega

theorem vals_rows_sum (rows : List (List S)) : (valsOf rows.flatten).flatten.length = (rows.map fun row => (valsOf row).flatten.length).sum := by
  induction rows with
  | nil => rfl
  | cons row rows ih => rw [List.flatten_cons, valsOf_append, List.flatten_append, List.length_append, ih, List.map_cons, List.sum_cons]

/-- A page of strings is read as it was written. -/
theorem string_pages (r : Rows (List Nat)) (ranges : List (Nat × Nat)) (batches : List Nat)
    (h : RowsOk r) (hl : LevelsOk r) (hp : Plain r) (hv : (valsOf r.rows.flatten).flatten.length < 2 ^ 32)
    (hsize : pageSize 8 r < 2 ^ 64) (hr : RangesOk r.rows.length 0 ranges) (hb : batches.sum ≤ (selected r.rows ranges).length) :
    ∃ p, writeVariable r.repDefs (valsOf r.rows.flatten) r.rows.length = some p ∧
      readVariable p ranges batches = some ((inBatches batches (selected r.rows ranges)).map (expectedStrings r)) := by
  obtain ⟨w, word, dsc, c1, c2, c3, c4, c5, c6, c7, c8, c9, c10⟩ := page_words r h hl hp
  have hg : ∀ s ∈ r.rows.flatten, SlotGood (Parser.new w.bitsRep w.bitsDef) (maxRepOf r.layers) (maxVisibleZip r.layers) word dsc s := by
    intro s hs
    obtain ⟨row, h1, h2⟩ := List.mem_flatten.mp hs
    exact (c10 row h1).slots s h2
  have hzip := zipVariable_slots word dsc r.rows.flatten 0 (fun s hs => by rw [(hg s hs).descs]; exact ⟨rfl, rfl⟩)
  rw [slotStarts_rows word stringBody (fun s => (dsc s).newRow) r.rows 0 (fun row hrow => (c10 row hrow).shape)] at hzip
  -- each slot takes a byte
  have hne : ∀ s ∈ r.rows.flatten, word s ++ stringBody s ≠ [] := by
    intro s hs e
    obtain ⟨e1, e2⟩ := List.append_eq_nil_iff.mp e
    have hz : w.bytesPerWord = 0 := by rw [← c4, ← (hg s hs).length, e1]; rfl
    obtain ⟨z1, z2⟩ := c6 hz
    obtain ⟨row, h1, h2⟩ := List.mem_flatten.mp hs
    have hsome := (c10 row h1).flat (by rw [c2, z1]; rfl) s h2
    obtain ⟨v, hv⟩ := Option.isSome_iff_exists.mp hsome
    have hd0 : s.dfn = 0 := by
      have := h.rows row h1
      cases row with
      | nil => simp at h2
      | cons a as => exact (this.2.2 s h2).2.1 z2
    unfold stringBody at e2
    rw [if_pos hd0, hv] at e2
    have := congrArg List.length e2
    rw [List.length_append, leBytes_length, List.length_nil] at this
    omega
  have hlen : (bytesOf word stringBody r.rows.flatten).length ≤ (valsOf r.rows.flatten).flatten.length + w.bytesPerWord * r.rows.flatten.length + 4 * (valsOf r.rows.flatten).length := by
    have : ∀ ss : List S, (∀ s ∈ ss, (word s).length = w.bytesPerWord) →
        (bytesOf word stringBody ss).length ≤ (valsOf ss).flatten.length + w.bytesPerWord * ss.length + 4 * (valsOf ss).length := by
      intro ss
      induction ss with
      | nil => intro _; exact Nat.zero_le _
      | cons s ss ih =>
        intro hs
        have ih := ih fun t ht => hs t (List.mem_cons_of_mem _ ht)
        rw [bytesOf_cons, List.length_append, List.length_append, hs s (by simp), List.length_cons, Nat.mul_succ]
        cases e : s.val with
        | none =>
          rw [show valsOf (s :: ss) = valsOf ss from by unfold valsOf; rw [List.filterMap_cons, e],
            show stringBody s = [] from by unfold stringBody; rw [e]; split <;> rfl, List.length_nil]
          omega
        | some v =>
          rw [show valsOf (s :: ss) = v :: valsOf ss from by unfold valsOf; rw [List.filterMap_cons, e], List.flatten_cons, List.length_append, List.length_cons]
          have : (stringBody s).length ≤ 4 + v.length := by
            unfold stringBody
            rw [e]
            split
            · simp only [List.length_append, leBytes_length]; exact Nat.le_refl _
            · exact Nat.zero_le _
          omega
    exact this _ fun s hs => by rw [← c4]; exact (hg s hs).length
  have hvl : (valsOf r.rows.flatten).length ≤ r.rows.flatten.length := List.length_filterMap_le _ _
  have hm0 : 0 < (valsOf r.rows.flatten).flatten.length + w.bytesPerWord * r.rows.flatten.length + 4 * (valsOf r.rows.flatten).length := by
    obtain ⟨row, hrow⟩ := List.exists_mem_of_ne_nil _ h.nonempty
    obtain ⟨s, cs, e, _⟩ := (c10 row hrow).shape
    have hs : s ∈ r.rows.flatten := List.mem_flatten.mpr ⟨row, hrow, by rw [e]; simp⟩
    have h1 := List.length_pos_iff.mpr (hne s hs)
    obtain ⟨l1, l2, hl12⟩ := List.append_of_mem hs
    have : (word s ++ stringBody s).length ≤ (bytesOf word stringBody r.rows.flatten).length := by
      rw [hl12, bytesOf_append, bytesOf_cons]
      simp only [List.length_append]
      omega
    omega
  have hm : (valsOf r.rows.flatten).flatten.length + w.bytesPerWord * r.rows.flatten.length + 4 * (valsOf r.rows.flatten).length < 2 ^ 64 := by
    unfold pageSize at hsize
    have := Nat.mul_le_mul_right r.rows.flatten.length c5
    omega
  have hscale : scaled 1 ranges = ranges := by
    unfold scaled
    simp
  refine ⟨⟨w.bitsRep, w.bitsDef, r.layers, r.rows.length, bytesOf word stringBody r.rows.flatten,
    some (packIndex ((valsOf r.rows.flatten).flatten.length + w.bytesPerWord * r.rows.flatten.length + 4 * (valsOf r.rows.flatten).length)
      (rowStarts word stringBody r.rows 0))⟩, ?_, ?_⟩
  · unfold writeVariable
    rw [c1]
    simp only
    rw [c9, hzip, c8]
    rfl
  · have hsub := selected_sublist r.rows ranges 0 hr
    rw [List.drop_zero] at hsub
    have hmem : ∀ row ∈ selected r.rows ranges, row ∈ r.rows := fun row hrow => hsub.subset hrow
    unfold readVariable
    simp only
    rw [fetchRep_rows _ 1 _ word stringBody r.rows ranges (by omega) (by simp) hm0 hm rfl hlen hr, hscale]
    simp only
    unfold unzip
    have hvs : ∀ s ∈ r.rows.flatten, ∀ v, s.val = some v → v.length < 2 ^ 32 := by
      intro s hs v e
      have hvm : v ∈ valsOf r.rows.flatten := List.mem_filterMap.mpr ⟨s, hs, e⟩
      obtain ⟨l1, l2, hl12⟩ := List.append_of_mem hvm
      rw [hl12] at hv
      simp only [List.flatten_append, List.flatten_cons, List.length_append] at hv
      omega
    rw [unzipBufs_segs (dsc := dsc) (segments r.rows ranges) _ (by
      intro seg hseg s hs
      obtain ⟨row, h1, h2⟩ := List.mem_flatten.mp hs
      have hrow : row ∈ r.rows := hmem row (by rw [← segments_flatten]; exact List.mem_flatten.mpr ⟨seg, hseg, h1⟩)
      have hs' : s ∈ r.rows.flatten := List.mem_flatten.mpr ⟨row, hrow, h2⟩
      exact ⟨hg s hs', hvs s hs', hne s hs'⟩), segments_flatten]
    have hsmall : ((selected r.rows ranges).flatten.flatMap shown).flatten.length < 2 ^ 32 := by
      have q1 := shown_total (selected r.rows ranges).flatten
      have q2 := sublist_count (fun row : List S => (valsOf row).flatten.length) hsub
      rw [← vals_rows_sum, ← vals_rows_sum] at q2
      omega
    rw [Option.map_some]
    simp only
    have hdr := fun a n hn => drain_rows (dsc := dsc) r c2 c3 (selected r.rows ranges) _ rfl (fun row hrow => (c10 row (hmem row hrow)).shape) hsmall a n hn
    have := batchVariable_rows r _ (selected r.rows ranges) hdr batches 0 (by omega)
    rw [List.drop_zero] at this
    exact this

end Verif.Zip
