import Verif.ListCol.LemmasRead
/-! Lemmas about writing, and about draining. -/
namespace Verif.ListCol

variable {α : Type}

/-! ### Flat pages -/

theorem cutParts_flatten (a : List α) (size : Nat) : ∀ (k offset : Nat), offset ≤ a.length → a.length ≤ offset + k * size →
    (cutParts a size k offset).flatten = a.drop offset
  | 0, offset, h1, h2 => by
    simp only [cutParts, List.flatten_nil]
    rw [List.drop_eq_nil_of_le (by omega)]
  | k + 1, offset, h1, h2 => by
    simp only [cutParts, List.flatten_cons]
    rw [Nat.succ_mul] at h2
    rw [cutParts_flatten a size k _ (by omega) (by
      by_cases h : a.length - offset ≤ size
      · rw [show min (a.length - offset) size = a.length - offset by omega]; omega
      · rw [show min (a.length - offset) size = size by omega]; omega)]
    unfold slice
    simp only [Nat.add_sub_cancel_left]
    rw [← List.drop_drop, List.take_append_drop]

theorem ceil_mul (n k : Nat) (hk : 0 < k) : n ≤ k * ((n + k - 1) / k) := by
  have h1 := Nat.div_add_mod (n + k - 1) k
  have h2 := Nat.mod_lt (n + k - 1) hk
  omega

theorem doFlush_flatten (size : List α → Nat) (pageBytes : Nat) (arrays : List (List α)) :
    (doFlush size pageBytes arrays).flatten = arrays.flatten := by
  unfold doFlush
  split
  · rename_i a
    simp only
    split
    · rfl
    · rename_i h
      rw [cutParts_flatten a _ _ 0 (Nat.zero_le _) (by
        have := ceil_mul a.length (min ((size a + pageBytes - 1) / pageBytes) a.length) (by omega)
        omega)]
      simp
  · simp

theorem encodeFlat_flatten (size : List α → Nat) (pageBytes : Nat) : ∀ (arrs : List (List α)) (q : Queue (List α)),
    (encodeFlat size pageBytes q arrs).flatten = q.buffered.flatten ++ arrs.flatten
  | [], q => by
    unfold encodeFlat Queue.flush
    by_cases h : q.buffered.isEmpty
    · rw [if_pos h]; rw [List.isEmpty_iff] at h; simp [h]
    · rw [if_neg h]; simp [doFlush_flatten]
  | a :: rest, q => by
    unfold encodeFlat Queue.insert
    simp only
    by_cases h : q.bytes + size a > q.cache
    · rw [if_pos h]
      simp only [List.flatten_append, doFlush_flatten]
      rw [encodeFlat_flatten size pageBytes rest]
      simp
    · rw [if_neg h]
      simp only
      rw [encodeFlat_flatten size pageBytes rest]
      simp

/-! ### Lists -/

/-- Lengths. -/
def lens : List Nat → List Nat
  | a :: b :: rest => (b - a) :: lens (b :: rest)
  | _ => []

/-- Lengths and flags of an array. -/
def arrLV (a : Arr α) : LV := List.zip (lens a.offsets) a.flags

theorem length_lens : ∀ (os : List Nat), (lens os).length = os.length - 1
  | [] => rfl
  | [_] => rfl
  | a :: b :: rest => by simp [lens, length_lens (b :: rest)]

theorem flags_length (a : Arr α) (h : a.Ok) : a.flags.length = a.offsets.length - 1 := by
  unfold Arr.flags
  cases hv : a.validity with
  | none => simp
  | some v => simpa using h.2.2.2 v hv

theorem rising_ge : ∀ (x : Nat) (os : List Nat), Rising (x :: os) → ∀ y ∈ os, x ≤ y
  | _, [], _ => fun _ h => (nomatch h)
  | x, b :: rest, ⟨h1, h2⟩ => by
    intro y hy
    rcases List.mem_cons.1 hy with h | h
    · subst h; exact h1
    · exact Nat.le_trans h1 (rising_ge b rest h2 y h)

theorem getLastD_cons_cons (x y d : Nat) (os : List Nat) : (x :: y :: os).getLastD d = (y :: os).getLastD d := by
  simp [List.getLastD]

theorem rising_last : ∀ (x : Nat) (os : List Nat), Rising (x :: os) → x ≤ (x :: os).getLastD 0
  | x, [], _ => by simp
  | x, b :: rest, ⟨h1, h2⟩ => by
    rw [getLastD_cons_cons]
    exact Nat.le_trans h1 (rising_last b rest h2)

theorem total_zip : ∀ (x : Nat) (os : List Nat) (fs : List Bool), Rising (x :: os) → fs.length = os.length →
    x + total (List.zip (lens (x :: os)) fs) = (x :: os).getLastD 0
  | x, [], fs, _, _ => by simp [lens, total]
  | x, b :: rest, [], _, h => by simp at h
  | x, b :: rest, f :: fs, ⟨h1, h2⟩, h => by
    have := total_zip b rest fs h2 (by simpa using h)
    simp only [lens, List.zip_cons_cons, total_cons]
    rw [getLastD_cons_cons, ← this]; omega

theorem ok_cons (a : Arr α) (h : a.Ok) : ∃ x os, a.offsets = x :: os := by
  cases ho : a.offsets with
  | nil => exact absurd ho h.1
  | cons x os => exact ⟨x, os, rfl⟩

theorem total_arrLV (a : Arr α) (h : a.Ok) : total (arrLV a) = span a.offsets := by
  obtain ⟨x, os, ho⟩ := ok_cons a h
  have hf := flags_length a h
  have h2 := h.2.1
  unfold arrLV span
  rw [ho] at hf h2 ⊢
  have := total_zip x os a.flags h2 (by simpa using hf)
  simp only [List.headD_cons]; omega

theorem length_arrLV (a : Arr α) (h : a.Ok) : (arrLV a).length = a.offsets.length - 1 := by
  unfold arrLV
  rw [List.length_zip, length_lens, flags_length a h]; omega

theorem lists_cells (values : List α) : ∀ (x : Nat) (os : List Nat) (fs : List Bool), Rising (x :: os) → fs.length = os.length →
    lists (x :: os) fs values = cells values x (List.zip (lens (x :: os)) fs)
  | x, [], fs, _, _ => by simp [lens, lists, cells]
  | x, b :: rest, [], _, h => by simp at h
  | x, b :: rest, f :: fs, ⟨h1, h2⟩, h => by
    have := lists_cells values b rest fs h2 (by simpa using h)
    simp only [lens, List.zip_cons_cons, cells, lists]
    rw [show x + (b - x) = b by omega, this]

theorem rows_cells (a : Arr α) (h : a.Ok) : a.rows = cells (itemsOf a) 0 (arrLV a) := by
  obtain ⟨x, os, ho⟩ := ok_cons a h
  have hf := flags_length a h
  have h2 := h.2.1
  have ht := total_arrLV a h
  have hl := rising_last x os (by rw [← ho]; exact h2)
  unfold itemsOf
  rw [cells_slice _ _ _ _ _ (by rw [ht]; unfold span; rw [ho]; simp only [List.headD_cons]; omega)]
  unfold Arr.rows arrLV
  rw [ho] at hf h2 ⊢
  rw [lists_cells _ _ _ _ h2 (by simpa using hf)]
  simp

theorem length_itemsOf (a : Arr α) (h : a.Ok) : (itemsOf a).length = total (arrLV a) := by
  unfold itemsOf
  rw [length_slice _ _ h.2.2.1, total_arrLV a h]
  rfl

theorem extend_some (adj start : Nat) : ∀ (x base : Nat) (os : List Nat) (fs : List Bool), start ≤ x →
    Rising (x :: os) → fs.length = os.length → 
    (List.zip os fs).map (fun y => y.1 + base - start + (if y.2 then 0 else adj)) =
      ends adj (x + base - start) (List.zip (lens (x :: os)) fs)
  | x, base, [], fs, _, _, _ => by simp [lens, ends]
  | x, base, b :: rest, [], _, _, h => by simp at h
  | x, base, b :: rest, f :: fs, hs, ⟨h1, h2⟩, h => by
    have := extend_some adj start b base rest fs (by omega) h2 (by simpa using h)
    simp only [lens, List.zip_cons_cons, ends, List.map_cons]
    rw [this, show x + base - start + (b - x) = b + base - start by omega]

theorem extendOffsets_ends (a : Arr α) (h : a.Ok) (base adj : Nat) :
    extendOffsets a.offsets (if (extractValidity a).isEmpty then none else some (extractValidity a)) base adj =
      ends adj base (arrLV a) := by
  obtain ⟨x, os, ho⟩ := ok_cons a h
  have hf := flags_length a h
  have h2 := h.2.1
  have hkey := extend_some adj x x base os a.flags (Nat.le_refl _) (by rw [← ho]; exact h2) (by rw [hf, ho]; simp)
  rw [show x + base - x = base by omega] at hkey
  have hend : ends adj base (arrLV a) = (List.zip os a.flags).map (fun y => y.1 + base - x + (if y.2 then 0 else adj)) := by
    unfold arrLV; rw [ho, hkey]
  rw [hend]
  unfold extendOffsets extractValidity
  rw [ho]
  simp only [List.headD_cons, List.drop_succ_cons, List.drop_zero]
  have hnone : ∀ (os : List Nat) (n : Nat), n = os.length →
      os.map (fun o => o + base - x) =
        (List.zip os (List.replicate n true)).map (fun y => y.1 + base - x + (if y.2 then 0 else adj)) := by
    intro os
    induction os with
    | nil => intro n _; simp
    | cons o os ih =>
      intro n hn
      subst hn
      have := ih os.length rfl
      simp only [List.length_cons, List.replicate_succ, List.zip_cons_cons, List.map_cons, if_true, Nat.add_zero]
      rw [this]
  cases hv : a.validity with
  | none =>
    simp only [Option.getD_none, List.isEmpty_nil, if_true]
    unfold Arr.flags
    rw [hv, ho]
    exact hnone os _ (by simp)
  | some v =>
    have hvl := h.2.2.2 v hv
    rw [ho] at hvl
    simp only [Option.getD_some]
    have hfl : a.flags = v := by unfold Arr.flags; rw [hv]; rfl
    rw [hfl]
    by_cases he : v.isEmpty
    · rw [if_pos he]
      rw [List.isEmpty_iff] at he
      subst he
      have : os = [] := by cases os <;> simp_all
      simp [this]
    · rw [if_neg he]

theorem getLastD_append_ends (adj : Nat) (dest : List Nat) (base : Nat) (hb : dest.getLastD 0 % adj = base) :
    ∀ (lv : LV), base + total lv < adj → (dest ++ ends adj base lv).getLastD 0 % adj = base + total lv := by
  intro lv
  induction lv generalizing dest base with
  | nil => intro _; simp only [ends, total, List.append_nil, List.map_nil, List.sum_nil, Nat.add_zero]; exact hb
  | cons x lv ih =>
    intro h
    rw [total_cons] at h
    have hm : (dest ++ [base + x.1 + if x.2 then 0 else adj]).getLastD 0 % adj = base + x.1 := by
      simp only [List.getLastD_eq_getLast?, List.getLast?_append, List.getLast?_singleton, Option.some_or,
        Option.getD_some]
      split
      · rw [Nat.add_zero, Nat.mod_eq_of_lt (by omega)]
      · rw [Nat.add_mod_right, Nat.mod_eq_of_lt (by omega)]
    have := ih (dest ++ [base + x.1 + if x.2 then 0 else adj]) (base + x.1) hm (by omega)
    simp only [ends, List.append_assoc, List.singleton_append] at this ⊢
    rw [this, total_cons]; omega

theorem encodeU64_ends (adj : Nat) : ∀ (arrs : List (Arr α)) (dest : List Nat) (base : Nat), (∀ a ∈ arrs, a.Ok) →
    dest.getLastD 0 % adj = base → base + total (arrs.flatMap arrLV) < adj →
    encodeU64 adj dest (arrs.map (fun a => (a.offsets, if (extractValidity a).isEmpty then none else some (extractValidity a)))) =
      dest ++ ends adj base (arrs.flatMap arrLV)
  | [], dest, base, _, _, _ => by simp [encodeU64, ends]
  | a :: arrs, dest, base, hok, hb, ht => by
    rw [List.flatMap_cons, total_append] at ht
    have ha := hok a List.mem_cons_self
    simp only [List.map_cons, encodeU64]
    rw [hb, extendOffsets_ends a ha]
    have hlast := getLastD_append_ends adj dest base hb (arrLV a) (by omega)
    rw [encodeU64_ends adj arrs _ _ (fun x h => hok x (List.mem_cons_of_mem _ h)) hlast (by omega)]
    rw [List.flatMap_cons, ends_append, List.append_assoc]

/-- A page of arrays. -/
theorem encodePage_stored (g : List (Arr α)) (hok : ∀ a ∈ g, a.Ok) :
    encodePage (g.map (fun a => (a.offsets, extractValidity a))) = stored (g.flatMap arrLV) := by
  have ht : ((g.map (fun a => (a.offsets, extractValidity a))).map (fun b => span b.1)).sum = total (g.flatMap arrLV) := by
    induction g with
    | nil => rfl
    | cons a g ih =>
      simp only [List.map_cons, List.sum_cons, List.flatMap_cons, total_append]
      rw [ih (fun x h => hok x (List.mem_cons_of_mem _ h)), total_arrLV a (hok a List.mem_cons_self)]
  have hn : ((g.map (fun a => (a.offsets, extractValidity a))).map (fun b => b.1.length)).sum -
      (g.map (fun a => (a.offsets, extractValidity a))).length = (g.flatMap arrLV).length := by
    have : ((g.map (fun a => (a.offsets, extractValidity a))).map (fun b => b.1.length)).sum =
        (g.flatMap arrLV).length + g.length := by
      clear ht
      induction g with
      | nil => rfl
      | cons a g ih =>
        have hi := ih (fun x h => hok x (List.mem_cons_of_mem _ h))
        have ha := hok a List.mem_cons_self
        have hl := length_arrLV a ha
        have : 0 < a.offsets.length := List.length_pos_iff.2 ha.1
        simp only [List.map_cons, List.sum_cons, List.flatMap_cons, List.length_append, List.length_cons] at hi ⊢
        omega
    rw [this, List.length_map]; omega
  unfold encodePage stored
  simp only
  rw [ht, hn]
  congr 1
  have := encodeU64_ends (total (g.flatMap arrLV) + 1) g [] 0 hok (by simp) (by omega)
  rw [List.nil_append] at this
  rw [← this, List.map_map]
  rfl

/-- The arrays as they are in the queue. -/
def bufs (g : List (Arr α)) : List Buf := g.flatMap (fun a => [.offs a.offsets, .vals (extractValidity a)])

theorem pairUp_bufs : ∀ (g : List (Arr α)), pairUp (bufs g) = some (g.map (fun a => (a.offsets, extractValidity a)))
  | [] => rfl
  | a :: g => by
    have := pairUp_bufs g
    unfold bufs at this ⊢
    simp [pairUp, this]

/-- The pages of a stream are groups of arrays, in order. -/
theorem encodeStream_groups (size : Buf → Nat) : ∀ (arrs : List (Arr α)) (q : Queue Buf) (pend : List (Arr α)),
    (∀ a ∈ pend ++ arrs, a.Ok) → q.buffered = bufs pend →
    ∃ groups : List (List (Arr α)), groups.flatten = pend ++ arrs ∧
      encodeStream size q arrs = some (groups.map (fun g => stored (g.flatMap arrLV)))
  | [], q, pend, hok, hq => by
    rw [List.append_nil] at hok ⊢
    unfold encodeStream Queue.flush
    cases pend with
    | nil =>
      rw [hq]
      exact ⟨[], rfl, rfl⟩
    | cons a pend =>
      rw [hq]
      refine ⟨[a :: pend], by simp, ?_⟩
      rw [if_neg (by simp [bufs])]
      simp only
      rw [pairUp_bufs, Option.map_some, encodePage_stored _ hok]
      rfl
  | a :: rest, q, pend, hok, hq => by
    have happ : bufs (pend ++ [a]) = bufs pend ++ [.offs a.offsets, .vals (extractValidity a)] := by simp [bufs]
    have hcut : ∀ q' : Queue Buf, q'.buffered = [] →
        ∃ groups : List (List (Arr α)), groups.flatten = pend ++ a :: rest ∧
          (match pairUp (bufs (pend ++ [a])), encodeStream size q' rest with
            | some b, some ps => some (encodePage b :: ps)
            | _, _ => none) = some (groups.map (fun g => stored (g.flatMap arrLV))) := by
      intro q' hq'
      obtain ⟨groups, g1, g2⟩ := encodeStream_groups size rest q' [] (fun x h => hok x (by simp at h ⊢; exact Or.inr (Or.inr h)))
        (by rw [hq']; rfl)
      refine ⟨(pend ++ [a]) :: groups, by simp [g1], ?_⟩
      rw [pairUp_bufs, g2]
      simp only [List.map_cons]
      rw [encodePage_stored _ (fun x h => hok x (by simp at h ⊢; rcases h with h | h <;> simp [h]))]
    unfold encodeStream maybeEncode Queue.insert
    simp only
    by_cases h1 : q.bytes + size (.offs a.offsets) > q.cache
    · rw [if_pos h1]
      simp only
      rw [hq, show bufs pend ++ [.offs a.offsets] ++ [.vals (extractValidity a)] = bufs (pend ++ [a]) by rw [happ]; simp]
      exact hcut _ rfl
    · rw [if_neg h1]
      simp only
      by_cases h2 : q.bytes + size (.offs a.offsets) + size (.vals (extractValidity a)) > q.cache
      · rw [if_pos h2]
        simp only
        rw [hq, show bufs pend ++ [.offs a.offsets] ++ [.vals (extractValidity a)] = bufs (pend ++ [a]) by rw [happ]; simp]
        exact hcut _ rfl
      · rw [if_neg h2]
        simp only
        have := encodeStream_groups size rest
          ⟨q.cache, q.buffered ++ [.offs a.offsets] ++ [.vals (extractValidity a)],
            q.bytes + size (.offs a.offsets) + size (.vals (extractValidity a))⟩ (pend ++ [a])
          (fun x h => hok x (by simpa using h)) (by simp only; rw [hq, happ]; simp)
        simpa using this

theorem rows_all : ∀ (arrs : List (Arr α)), (∀ a ∈ arrs, a.Ok) →
    cells (arrs.flatMap itemsOf) 0 (arrs.flatMap arrLV) = arrs.flatMap Arr.rows ∧
      (arrs.flatMap itemsOf).length = total (arrs.flatMap arrLV)
  | [], _ => ⟨rfl, rfl⟩
  | a :: arrs, hok => by
    have ha := hok a List.mem_cons_self
    obtain ⟨h1, h2⟩ := rows_all arrs (fun x h => hok x (List.mem_cons_of_mem _ h))
    have hl := length_itemsOf a ha
    simp only [List.flatMap_cons]
    refine ⟨?_, ?_⟩
    · rw [cells_append, cells_left _ _ _ _ (by omega), ← rows_cells a ha, Nat.zero_add, ← hl]
      have := cells_right (itemsOf a) (arrs.flatMap itemsOf) (arrs.flatMap arrLV) 0
      rw [Nat.add_zero] at this
      rw [this, h1]
    · rw [List.length_append, total_append, hl, h2]

/-- Reading what was written. -/
theorem read_written (arrs : List (Arr α)) (hok : ∀ a ∈ arrs, a.Ok) (size : Buf → Nat) (cache : Nat)
    (readItems : List Rng → Option (List α)) (hr : Reads readItems (arrs.flatMap itemsOf)) (R : List Rng)
    (ho : Ordered (arrs.flatMap Arr.rows).length R) :
    ∃ pages out, encodeStream size ⟨cache, [], 0⟩ arrs = some pages ∧ readLists pages readItems R = some out ∧
      out.flatMap Loaded.rows = wanted (arrs.flatMap Arr.rows) R ∧
      ∀ l ∈ out, ∃ lv, l.offsets = 0 :: sums 0 lv ∧ l.validity = lv.map Prod.snd ∧ l.items.length = total lv := by
  obtain ⟨groups, g1, g2⟩ := encodeStream_groups size arrs ⟨cache, [], 0⟩ [] (by simpa using hok) rfl
  rw [List.nil_append] at g1
  obtain ⟨r1, r2⟩ := rows_all arrs hok
  have hfl : ∀ (gs : List (List (Arr α))),
      ((gs.map (fun g => g.flatMap arrLV)).filter (fun lv => 0 < lv.length)).flatten = gs.flatten.flatMap arrLV := by
    intro gs
    rw [filter_flatten]
    induction gs with
    | nil => rfl
    | cons g gs ih => simp only [List.map_cons, List.flatten_cons, List.flatMap_append, ih]
  have hfilter : (groups.map (fun g => stored (g.flatMap arrLV))).filter (fun p => 0 < p.2.offsetsInPage) =
      ((groups.map (fun g => g.flatMap arrLV)).filter (fun lv => 0 < lv.length)).map stored := by
    rw [List.filter_map, List.filter_map, List.map_map]
    rfl
  have hlv := hfl groups
  rw [g1] at hlv
  have hne : ∀ lv ∈ (groups.map (fun g => g.flatMap arrLV)).filter (fun lv => 0 < lv.length), 0 < lv.length := by
    intro lv h
    simpa using (List.mem_filter.1 h).2
  generalize (groups.map (fun g => g.flatMap arrLV)).filter (fun lv => 0 < lv.length) = lvs at *
  have hlen : (arrs.flatMap Arr.rows).length = lvs.flatten.length := by rw [← r1, length_cells, hlv]
  obtain ⟨reqs, Q, n1, n2⟩ := run_lists (arrs.flatMap itemsOf) readItems hr lvs lvs.length 0 0 R hne (Nat.le_refl _)
    (by rw [hlv]; omega) (by rw [Nat.zero_add, ← hlen]; exact ho) (fun _ _ => Nat.zero_le _)
  obtain ⟨out, o1, o2, o3⟩ := n2 Q rfl
  refine ⟨_, out, g2, ?_, ?_, o3⟩
  · unfold readLists
    simp only
    rw [hfilter]
    simp only [List.map_map, List.length_map]
    rw [show (Prod.snd ∘ stored) = (fun lv => (stored lv).2) from rfl, n1]
    exact o1
  · rw [o2, hlv, r1, shift_zero]

/-! ### Draining -/

theorem drop_sums : ∀ (k : Nat) (lv : LV) (c : Nat), k ≤ lv.length →
    (c :: sums c lv).drop k = (c + total (lv.take k)) :: sums (c + total (lv.take k)) (lv.drop k)
  | 0, lv, c, _ => by simp [total]
  | k + 1, [], c, h => by simp at h
  | k + 1, x :: lv, c, h => by
    simp only [sums, List.drop_succ_cons, List.take_succ_cons, total_cons]
    rw [drop_sums k lv (c + x.1) (by simpa using h), Nat.add_assoc]

theorem take_sums : ∀ (n : Nat) (lv : LV) (c : Nat), (c :: sums c lv).take (n + 1) = c :: sums c (lv.take n)
  | 0, lv, c => by simp [sums]
  | n + 1, [], c => by simp [sums]
  | n + 1, x :: lv, c => by
    have := take_sums n lv (c + x.1)
    simp only [sums, List.take_succ_cons] at this ⊢
    rw [this]

theorem slice_sums (lv : LV) (k n : Nat) (h : k + n ≤ lv.length) :
    slice (0 :: sums 0 lv) (k, k + n + 1) =
      total (lv.take k) :: sums (total (lv.take k)) (slice lv (k, k + n)) := by
  unfold slice
  simp only
  rw [drop_sums k lv 0 (by omega), show k + n + 1 - k = n + 1 by omega, take_sums, Nat.zero_add,
    show k + n - k = n by omega]

theorem sums_sub : ∀ (lv : LV) (c d : Nat), (sums (c + d) lv).map (· - c) = sums d lv
  | [], _, _ => rfl
  | x :: lv, c, d => by
    simp only [sums, List.map_cons]
    rw [show c + d + x.1 = c + (d + x.1) by omega, sums_sub lv c (d + x.1), Nat.add_sub_cancel_left]

theorem last_sums : ∀ (lv : LV) (c : Nat), (c :: sums c lv).getLastD 0 = c + total lv
  | [], c => by simp [sums, total]
  | x :: lv, c => by
    simp only [sums]
    rw [getLastD_cons_cons, last_sums lv (c + x.1), total_cons]; omega

/-- A page decoder after rows were drained. -/
def DrainOk (lv : LV) (d : Decoder α) : Prop :=
  d.loaded.offsets = 0 :: sums 0 lv ∧ d.loaded.validity = lv.map Prod.snd ∧ d.loaded.items.length = total lv ∧
    d.itemsDrained = total (lv.take d.drained)

theorem drain_ok (lv : LV) (d : Decoder α) (hd : DrainOk lv d) (narrow : Bool) (n : Nat) (hn : d.drained + n ≤ lv.length) :
    (d.drain narrow n = none ∧ narrow = true ∧ 2147483647 < total (slice lv (d.drained, d.drained + n))) ∨
    ∃ a d', d.drain narrow n = some (a, d') ∧ a.rows = slice d.loaded.rows (d.drained, d.drained + n) ∧
      d'.loaded = d.loaded ∧ d'.drained = d.drained + n ∧ DrainOk lv d' := by
  obtain ⟨h1, h2, h3, h4⟩ := hd
  have hrows : d.loaded.rows = cells d.loaded.items 0 lv := by
    unfold Loaded.rows; rw [h1, h2, lists_sums]
  have htk := total_take_slice lv d.drained (d.drained + n) (by omega)
  have hle := total_take_le lv (d.drained + n)
  have hso := slice_sums lv d.drained n hn
  have hsl : (slice lv (d.drained, d.drained + n)).length = n := by
    rw [length_slice _ _ hn]; simp only; omega
  unfold Decoder.drain
  simp only
  rw [h1, h2, hso]
  simp only [List.headD_cons, last_sums, Nat.add_sub_cancel_left]
  rw [if_neg (by simp only [List.length_cons, length_sums, List.length_map]; omega)]
  by_cases hbig : (narrow : Prop) ∧ total (slice lv (d.drained, d.drained + n)) > 2147483647
  · rw [if_pos hbig]
    exact Or.inl ⟨rfl, hbig.1, hbig.2⟩
  · rw [if_neg hbig]
    refine Or.inr ⟨_, _, rfl, ?_, rfl, rfl, ?_⟩
    · have hoff : (total (lv.take d.drained) :: sums (total (lv.take d.drained)) (slice lv (d.drained, d.drained + n))).map
          (· - total (lv.take d.drained)) = 0 :: sums 0 (slice lv (d.drained, d.drained + n)) := by
        have := sums_sub (slice lv (d.drained, d.drained + n)) (total (lv.take d.drained)) 0
        rw [Nat.add_zero] at this
        simp only [List.map_cons, Nat.sub_self]
        rw [this]
      have hfl : Arr.flags (⟨0 :: sums 0 (slice lv (d.drained, d.drained + n)),
          if (slice (lv.map Prod.snd) (d.drained, d.drained + n)).all id then none
            else some (slice (lv.map Prod.snd) (d.drained, d.drained + n)),
          slice d.loaded.items (d.itemsDrained, d.itemsDrained + total (slice lv (d.drained, d.drained + n)))⟩ : Arr α) =
          (slice lv (d.drained, d.drained + n)).map Prod.snd := by
        unfold Arr.flags
        simp only
        rw [slice_map]
        by_cases hall : ((slice lv (d.drained, d.drained + n)).map Prod.snd).all id
        · rw [if_pos hall]
          simp only [Option.getD_none, List.length_cons, length_sums, Nat.add_sub_cancel]
          symm
          rw [List.eq_replicate_iff]
          refine ⟨by simp, ?_⟩
          intro b hb
          simpa using List.all_eq_true.1 hall b hb
        · rw [if_neg hall]; rfl
      unfold Arr.rows
      rw [hoff, hfl]
      simp only
      rw [lists_sums, hrows, slice_cells _ _ _ _ _ (by omega), Nat.zero_add, h4, cells_slice _ _ _ _ _ (by omega),
        Nat.add_zero]
    · refine ⟨h1, h2, h3, ?_⟩
      simp only
      rw [h4]; omega

theorem drains_ok (lv : LV) (narrow : Bool) : ∀ (ns : List Nat) (d : Decoder α), DrainOk lv d →
    d.drained + ns.sum ≤ lv.length →
    (narrow = true ∧ 2147483647 < total lv ∧ d.drains narrow ns = none) ∨
    ∃ out, d.drains narrow ns = some out ∧ out.flatMap Arr.rows = slice d.loaded.rows (d.drained, d.drained + ns.sum)
  | [], d, _, _ => Or.inr ⟨[], rfl, by simp [slice]⟩
  | n :: ns, d, hd, h => by
    rw [List.sum_cons] at h
    rcases drain_ok lv d hd narrow n (by omega) with ⟨e1, e2, e3⟩ | ⟨a, d', e1, e2, e3, e4, e5⟩
    · refine Or.inl ⟨e2, ?_, ?_⟩
      · exact Nat.lt_of_lt_of_le e3 (total_slice_le lv _)
      · simp only [Decoder.drains, e1]
    · rcases drains_ok lv narrow ns d' e5 (by rw [e4]; omega) with ⟨f1, f2, f3⟩ | ⟨out, f1, f2⟩
      · refine Or.inl ⟨f1, f2, ?_⟩
        simp only [Decoder.drains, e1, f3, Option.map_none]
      · refine Or.inr ⟨a :: out, ?_, ?_⟩
        · simp only [Decoder.drains, e1, f1, Option.map_some]
        · rw [List.flatMap_cons, e2, f2, e3, e4, List.sum_cons, ← Nat.add_assoc]
          exact (slice_split _ _ _ _ (by omega) (by omega)).symm

end Verif.ListCol
