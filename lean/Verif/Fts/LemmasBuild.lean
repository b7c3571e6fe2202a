import Verif.Fts.Build
import Verif.Fts.LemmasPos
/-! # Full text search: workers, files -/
namespace Verif.Fts

/-! ## A worker keeps what it receives -/

/-- The entries of a token in the messages. -/
def msgEntries (withPos : Bool) (t : Tok) : List (Nat × List (Tok × Int)) → List Entry
  | [] => []
  | (row, toks) :: ms => if (occ t toks).isEmpty then msgEntries withPos t ms else entry withPos row (occ t toks) :: msgEntries withPos t ms

theorem msgEntries_append (withPos : Bool) (t : Tok) (a b : List (Nat × List (Tok × Int))) :
    msgEntries withPos t (a ++ b) = msgEntries withPos t a ++ msgEntries withPos t b := by
  induction a with
  | nil => rfl
  | cons x a ih =>
    obtain ⟨row, toks⟩ := x
    simp only [List.cons_append, msgEntries, ih]
    split
    · rfl
    · rfl

theorem msgEntries_perm {withPos : Bool} {t : Tok} {a b : List (Nat × List (Tok × Int))} (h : a.Perm b) :
    (msgEntries withPos t a).Perm (msgEntries withPos t b) := by
  induction h with
  | nil => exact List.Perm.refl _
  | cons x _ ih =>
    obtain ⟨row, toks⟩ := x
    simp only [msgEntries]
    split
    · exact ih
    · exact ih.cons _
  | swap x y l =>
    obtain ⟨r1, t1⟩ := x
    obtain ⟨r2, t2⟩ := y
    simp only [msgEntries]
    split
    · split <;> exact List.Perm.refl _
    · split
      · exact List.Perm.refl _
      · exact List.Perm.swap _ _ _
  | trans _ _ ih1 ih2 => exact ih1.trans ih2

/-- The part of the file at some places. -/
def slices (file : List Entry) (os : List (Nat × Nat)) : List Entry := os.flatMap (fun on => (file.drop on.1).take on.2)

theorem slices_append_file {file b : List Entry} {os : List (Nat × Nat)} (h : ∀ on ∈ os, on.1 + on.2 ≤ file.length) :
    slices (file ++ b) os = slices file os := by
  induction os with
  | nil => rfl
  | cons on os ih =>
    simp only [slices, List.flatMap_cons] at ih ⊢
    rw [ih fun x hx => h x (by simp [hx])]
    have := h on (by simp)
    congr 1
    rw [List.drop_append_of_le_length (by omega), List.take_append_of_le_length (by rw [List.length_drop]; omega)]

/-- What holds for a worker: for every token, the lists on disk and in memory together are what was received. -/
structure WInv (withPos : Bool) (w : Worker) (ms : List (Nat × List (Tok × Int))) : Prop where
  lists_sorted : w.lists.Sorted
  offs_sorted : w.offs.Sorted
  offset : w.offset = w.file.length
  inside : ∀ t os, SMap.get t w.offs = some os → ∀ on ∈ os, on.1 + on.2 ≤ w.file.length
  perm : ∀ t, (slices w.file ((SMap.get t w.offs).getD []) ++ (SMap.get t w.lists).getD []).Perm (msgEntries withPos t ms)
  nonempty : ∀ t l, SMap.get t w.lists = some l → l ≠ []
  full : ∀ t os, SMap.get t w.offs = some os → slices w.file os ≠ []

theorem occ_eq_nil {t : Tok} {toks : List (Tok × Int)} : occ t toks = [] ↔ t ∉ toks.map (·.1) := by
  simp only [occ, List.map_eq_nil_iff, List.filter_eq_nil_iff, List.mem_map, not_exists, not_and, beq_iff_eq]

theorem addFold_spec (withPos : Bool) (row : Nat) (toks : List (Tok × Int)) : ∀ (ts : List Tok), ts.Nodup → ∀ (w : Worker), w.lists.Sorted →
    (∀ t l, SMap.get t w.lists = some l → l ≠ []) →
    (ts.foldl (fun (w : Worker) t =>
      { w with lists := SMap.insert t (((SMap.get t w.lists).getD []) ++ [entry withPos row (occ t toks)]) w.lists }) w).lists.Sorted ∧
    (ts.foldl (fun (w : Worker) t =>
      { w with lists := SMap.insert t (((SMap.get t w.lists).getD []) ++ [entry withPos row (occ t toks)]) w.lists }) w).file = w.file ∧
    (ts.foldl (fun (w : Worker) t =>
      { w with lists := SMap.insert t (((SMap.get t w.lists).getD []) ++ [entry withPos row (occ t toks)]) w.lists }) w).offset = w.offset ∧
    (ts.foldl (fun (w : Worker) t =>
      { w with lists := SMap.insert t (((SMap.get t w.lists).getD []) ++ [entry withPos row (occ t toks)]) w.lists }) w).offs = w.offs ∧
    (∀ t l, SMap.get t (ts.foldl (fun (w : Worker) t =>
      { w with lists := SMap.insert t (((SMap.get t w.lists).getD []) ++ [entry withPos row (occ t toks)]) w.lists }) w).lists = some l → l ≠ []) ∧
    ∀ t, (SMap.get t (ts.foldl (fun (w : Worker) t =>
      { w with lists := SMap.insert t (((SMap.get t w.lists).getD []) ++ [entry withPos row (occ t toks)]) w.lists }) w).lists).getD []
      = (SMap.get t w.lists).getD [] ++ (if t ∈ ts then [entry withPos row (occ t toks)] else []) := by
  intro ts
  induction ts with
  | nil =>
    intro _ w hs hne
    exact ⟨hs, rfl, rfl, rfl, hne, fun t => by simp⟩
  | cons a ts ih =>
    intro hnd w hs hne
    rw [List.nodup_cons] at hnd
    simp only [List.foldl_cons]
    obtain ⟨i1, i2, i3, i4, i5, i6⟩ := ih hnd.2
      { w with lists := SMap.insert a (((SMap.get a w.lists).getD []) ++ [entry withPos row (occ a toks)]) w.lists }
      (SMap.sorted_insert _ _ _ hs) (by
        intro t l h
        rw [SMap.get_insert] at h
        split at h
        · simp only [Option.some.injEq] at h
          subst h
          simp
        · exact hne t l h)
    refine ⟨i1, i2, i3, i4, i5, ?_⟩
    intro t
    rw [i6 t]
    simp only [SMap.get_insert]
    by_cases hta : t = a
    · subst hta
      simp [hnd.1]
    · simp [hta]

theorem nodup_eraseDups (l : List Nat) : l.eraseDups.Nodup := by
  induction h : l.length using Nat.strongRecOn generalizing l with
  | _ n ih =>
    cases l with
    | nil => simp
    | cons a l =>
      rw [List.eraseDups_cons, List.nodup_cons]
      refine ⟨?_, ih _ ?_ _ rfl⟩
      · rw [List.mem_eraseDups]
        simp
      · have := List.length_filter_le (fun b => !b == a) l
        simp only [List.length_cons] at h
        omega

theorem WInv.add {withPos : Bool} {w : Worker} {ms : List (Nat × List (Tok × Int))} (h : WInv withPos w ms) (row : Nat)
    (toks : List (Tok × Int)) : WInv withPos (w.add withPos row toks) (ms ++ [(row, toks)]) := by
  obtain ⟨i1, i2, i3, i4, i5, i6⟩ := addFold_spec withPos row toks (toks.map (·.1)).eraseDups (nodup_eraseDups _) w h.lists_sorted h.nonempty
  refine ⟨i1, ?_, ?_, ?_, ?_, i5, ?_⟩
  rotate_right
  · unfold Worker.add
    rw [i4, i2]
    exact h.full
  · show (Worker.add withPos w row toks).offs.Sorted
    unfold Worker.add
    rw [i4]
    exact h.offs_sorted
  · unfold Worker.add
    rw [i3, i2]
    exact h.offset
  · unfold Worker.add
    rw [i4, i2]
    exact h.inside
  · intro t
    unfold Worker.add
    rw [i6 t, i4, i2, msgEntries_append, ← List.append_assoc]
    refine (h.perm t).append ?_
    simp only [msgEntries, List.mem_eraseDups]
    by_cases ht : t ∈ toks.map (·.1)
    · rw [if_pos ht, if_neg (by
        intro hn
        exact occ_eq_nil.1 (List.isEmpty_iff.1 hn) ht)]
    · rw [if_neg ht, if_pos (List.isEmpty_iff.2 (occ_eq_nil.2 ht))]

theorem WInv.flushOne {withPos : Bool} {w : Worker} {ms : List (Nat × List (Tok × Int))} (h : WInv withPos w ms) (t : Tok) :
    WInv withPos (w.flushOne t) ms := by
  unfold Worker.flushOne
  cases hl : SMap.get t w.lists with
  | none => exact h
  | some l =>
    simp only
    have hb : (toBatch l).Perm l := sortBy_perm _ _
    refine ⟨SMap.sorted_erase _ _ h.lists_sorted, SMap.sorted_insert _ _ _ h.offs_sorted, ?_, ?_, ?_, ?_, ?_⟩
    rotate_right
    · intro t' os hg
      rw [SMap.get_insert] at hg
      by_cases htt : t' = t
      · rw [if_pos htt] at hg
        simp only [Option.some.injEq] at hg
        subst hg
        intro hn
        simp only [slices, List.flatMap_append, List.append_eq_nil_iff] at hn
        have h2 := hn.2
        simp [h.offset] at h2
        have hl' := h.nonempty t l hl
        rw [h2] at hb
        exact hl' (List.nil_perm.1 hb)
      · rw [if_neg htt] at hg
        rw [slices_append_file fun on hon => h.inside t' os hg on hon]
        exact h.full t' os hg
    · simp only [List.length_append, h.offset]
    · intro t' os hg on hon
      simp only [List.length_append]
      rw [SMap.get_insert] at hg
      by_cases htt : t' = t
      · rw [if_pos htt] at hg
        simp only [Option.some.injEq] at hg
        subst hg
        rcases List.mem_append.1 hon with hon | hon
        · cases ho : SMap.get t w.offs with
          | none => rw [ho] at hon; cases hon
          | some os =>
            rw [ho] at hon
            have := h.inside t os ho on hon
            omega
        · simp only [List.mem_singleton] at hon
          subst hon
          simp only [h.offset]
          omega
      · rw [if_neg htt] at hg
        have := h.inside t' os hg on hon
        omega
    · intro t'
      rw [SMap.get_insert, SMap.get_erase]
      have hp := h.perm t'
      by_cases htt : t' = t
      · subst htt
        rw [if_pos rfl, if_pos rfl]
        simp only [Option.getD_some, Option.getD_none, List.append_nil]
        rw [hl] at hp
        refine List.Perm.trans ?_ hp
        unfold slices
        rw [List.flatMap_append]
        have e1 : List.flatMap (fun on => ((w.file ++ toBatch l).drop on.1).take on.2) ((SMap.get t' w.offs).getD [])
            = slices w.file ((SMap.get t' w.offs).getD []) := by
          refine slices_append_file fun on hon => ?_
          cases ho : SMap.get t' w.offs with
          | none => rw [ho] at hon; cases hon
          | some os =>
            rw [ho] at hon
            exact h.inside t' os ho on hon
        have e2 : List.flatMap (fun on => ((w.file ++ toBatch l).drop on.1).take on.2) [(w.offset, (toBatch l).length)] = toBatch l := by
          simp [h.offset]
        rw [e1, e2]
        exact hb.append_left _
      · rw [if_neg htt]
        rw [if_neg htt]
        refine List.Perm.trans ?_ hp
        rw [slices_append_file]
        intro on hon
        cases ho : SMap.get t' w.offs with
        | none => rw [ho] at hon; cases hon
        | some os =>
          rw [ho] at hon
          exact h.inside t' os ho on hon
    · intro t' l' hg
      rw [SMap.get_erase] at hg
      split at hg
      · cases hg
      · exact h.nonempty t' l' hg

theorem WInv.flush {withPos : Bool} {ms : List (Nat × List (Tok × Int))} : ∀ (ks : List Tok) {w : Worker}, WInv withPos w ms →
    WInv withPos (ks.foldl Worker.flushOne w) ms := by
  intro ks
  induction ks with
  | nil => intro w h; exact h
  | cons k ks ih => intro w h; exact ih (h.flushOne k)

theorem WInv.init (withPos : Bool) : WInv withPos Worker.init [] :=
  ⟨SMap.sorted_nil, SMap.sorted_nil, rfl, fun _ _ h => (by cases h), fun _ => List.Perm.refl _, fun _ _ h => (by cases h), fun _ _ h => (by cases h)⟩

theorem WInv.events {withPos : Bool} : ∀ (evs : List Ev) {w : Worker} {ms : List (Nat × List (Tok × Int))}, WInv withPos w ms →
    WInv withPos (evs.foldl (Worker.step withPos) w) (ms ++ received evs) := by
  intro evs
  induction evs with
  | nil => intro w ms h; simpa [received] using h
  | cons e evs ih =>
    intro w ms h
    cases e with
    | add row toks =>
      have := ih (h.add row toks)
      simpa [received, Worker.step] using this
    | flush keys =>
      have := ih (WInv.flush keys h)
      simpa [received, Worker.step] using this

theorem flush_lists_get : ∀ (ks : List Tok) (w : Worker) (t : Tok), SMap.get t (ks.foldl Worker.flushOne w).lists =
    if t ∈ ks then none else SMap.get t w.lists := by
  intro ks
  induction ks with
  | nil => intro w t; simp
  | cons k ks ih =>
    intro w t
    rw [List.foldl_cons, ih]
    have : SMap.get t (w.flushOne k).lists = if t = k then none else SMap.get t w.lists := by
      unfold Worker.flushOne
      cases hl : SMap.get k w.lists with
      | none =>
        simp only
        by_cases h : t = k
        · rw [if_pos h, h, hl]
        · rw [if_neg h]
      | some l => simp only [SMap.get_erase]
    rw [this]
    by_cases h1 : t ∈ ks
    · simp [h1]
    · by_cases h2 : t = k
      · simp [h2]
      · simp [h1, h2]

/-- At the end all that was received for a token is on disk. -/
theorem worker_spec {withPos : Bool} {evs : List Ev} {last : List Tok}
    (hlast : last.Perm (SMap.keys (evs.foldl (Worker.step withPos) Worker.init).lists)) :
    (worker withPos evs last).offs.Sorted ∧
    (∀ t os, SMap.get t (worker withPos evs last).offs = some os → slices (worker withPos evs last).file os ≠ []) ∧
    ∀ t, (slices (worker withPos evs last).file ((SMap.get t (worker withPos evs last).offs).getD [])).Perm (msgEntries withPos t (received evs)) := by
  have h1 : WInv withPos (evs.foldl (Worker.step withPos) Worker.init) (received evs) := by
    have := WInv.events evs (WInv.init withPos)
    simpa using this
  have h2 : WInv withPos (worker withPos evs last) (received evs) := WInv.flush last h1
  refine ⟨h2.offs_sorted, h2.full, fun t => ?_⟩
  have hp := h2.perm t
  have hn : SMap.get t (worker withPos evs last).lists = none := by
    unfold worker
    rw [flush_lists_get]
    split
    · rfl
    · rename_i hnm
      rw [SMap.get_eq_none_iff]
      exact fun hm => hnm (hlast.mem_iff.2 hm)
  rw [hn] at hp
  simpa using hp

/-! ## Messages and documents -/

/-- The entries of a token in documents. -/
def docEntries (withPos : Bool) (t : Tok) : List Doc → List Entry
  | [] => []
  | d :: ds => if (occ t d.toks).isEmpty then docEntries withPos t ds else entry withPos d.row (occ t d.toks) :: docEntries withPos t ds

theorem occ_filter {s : Sched} {t : Tok} {k : Nat} (toks : List (Tok × Int)) :
    occ t (toks.filter (fun x => s.shard x.1 == k)) = if s.shard t = k then occ t toks else [] := by
  unfold occ
  rw [List.filter_filter]
  split
  · rename_i h
    congr 1
    refine List.filter_congr fun x _ => ?_
    by_cases hx : x.1 = t
    · simp [hx, h]
    · simp [hx]
  · rename_i h
    rw [List.map_eq_nil_iff, List.filter_eq_nil_iff]
    intro x _
    by_cases hx : x.1 = t
    · simp [hx, h]
    · simp [hx]

theorem msgEntries_messages (withPos : Bool) (s : Sched) (t : Tok) (k : Nat) (docs : List Doc) :
    msgEntries withPos t (messages s k docs) = if s.shard t = k then docEntries withPos t docs else [] := by
  induction docs with
  | nil => simp [messages, msgEntries, docEntries]
  | cons d ds ih =>
    rw [messages]
    by_cases hk : s.shard t = k
    · rw [if_pos hk] at ih ⊢
      have ho := occ_filter (s := s) (t := t) (k := k) d.toks
      rw [if_pos hk] at ho
      by_cases he : (d.toks.filter (fun x => s.shard x.1 == k)).isEmpty = true
      · simp only [he, if_true]
        rw [List.isEmpty_iff] at he
        rw [he] at ho
        rw [docEntries, ← ho]
        exact ih
      · simp only [he, if_false, Bool.false_eq_true]
        rw [msgEntries, docEntries, ho, ih]
    · rw [if_neg hk] at ih ⊢
      have ho := occ_filter (s := s) (t := t) (k := k) d.toks
      rw [if_neg hk] at ho
      by_cases he : (d.toks.filter (fun x => s.shard x.1 == k)).isEmpty = true
      · simp only [he, if_true]
        exact ih
      · simp only [he, if_false, Bool.false_eq_true]
        rw [msgEntries, ho]
        exact ih

theorem docEntries_append (withPos : Bool) (t : Tok) (a b : List Doc) :
    docEntries withPos t (a ++ b) = docEntries withPos t a ++ docEntries withPos t b := by
  induction a with
  | nil => rfl
  | cons d a ih =>
    simp only [List.cons_append, docEntries, ih]
    split <;> rfl

theorem mem_docEntries {withPos : Bool} {t : Tok} {docs : List Doc} {e : Entry} :
    e ∈ docEntries withPos t docs ↔ ∃ d ∈ docs, occ t d.toks ≠ [] ∧ e = entry withPos d.row (occ t d.toks) := by
  induction docs with
  | nil => simp [docEntries]
  | cons d ds ih =>
    rw [docEntries]
    by_cases h : (occ t d.toks).isEmpty = true
    · rw [if_pos h, ih]
      rw [List.isEmpty_iff] at h
      constructor
      · rintro ⟨d', h1, h2⟩
        exact ⟨d', by simp [h1], h2⟩
      · rintro ⟨d', h1, h2, h3⟩
        rcases List.mem_cons.1 h1 with rfl | h1
        · exact absurd h h2
        · exact ⟨d', h1, h2, h3⟩
    · rw [if_neg h, List.mem_cons, ih]
      have h' : occ t d.toks ≠ [] := fun e => h (List.isEmpty_iff.2 e)
      constructor
      · rintro (rfl | ⟨d', h1, h2⟩)
        · exact ⟨d, by simp, h', rfl⟩
        · exact ⟨d', by simp [h1], h2⟩
      · rintro ⟨d', h1, h2, h3⟩
        rcases List.mem_cons.1 h1 with rfl | h1
        · exact Or.inl h3
        · exact Or.inr ⟨d', h1, h2, h3⟩

theorem docEntries_rows (withPos : Bool) (t : Tok) (docs : List Doc) :
    ((docEntries withPos t docs).map Entry.row).Sublist (docs.map Doc.row) := by
  induction docs with
  | nil => exact List.Sublist.refl _
  | cons d ds ih =>
    rw [docEntries]
    split
    · exact ih.cons _
    · exact ih.cons_cons _

/-! ## Files -/

theorem writeLists_spec : ∀ (ls : List (List Entry × Nat)) (o m : List Nat) (f : List Entry),
    ls.foldl (fun (o, m, f) (b, s) => (o ++ [f.length], m ++ [s], f ++ b)) (o, m, f)
      = (o ++ (List.range ls.length).map (fun i => f.length + ((ls.take i).map (fun x => x.1.length)).sum), m ++ ls.map (·.2),
          f ++ ls.flatMap (·.1)) := by
  intro ls
  induction ls with
  | nil => intro o m f; simp
  | cons x ls ih =>
    intro o m f
    obtain ⟨b, s⟩ := x
    rw [List.foldl_cons, ih]
    simp only [List.append_assoc, List.length_append, List.length_cons, List.range_succ_eq_map, List.map_cons, List.map_map, List.take_zero,
      List.map_nil, List.sum_nil, Nat.add_zero, List.singleton_append, List.flatMap_cons, Prod.mk.injEq, List.append_cancel_left_eq, true_and,
      and_true, List.cons.injEq]
    refine List.map_congr_left fun i _ => ?_
    simp only [Function.comp_apply, List.take_succ_cons, List.map_cons, List.sum_cons]
    omega

theorem writeLists_eq (ls : List (List Entry × Nat)) : writeLists ls =
    ((List.range ls.length).map (fun i => ((ls.take i).map (fun x => x.1.length)).sum), ls.map (·.2), ls.flatMap (·.1)) := by
  unfold writeLists
  rw [writeLists_spec]
  simp

theorem sum_length_flatMap (ls : List (List Entry × Nat)) : (ls.flatMap (·.1)).length = (ls.map (fun x => x.1.length)).sum := by
  induction ls with
  | nil => rfl
  | cons x ls ih => simp [List.flatMap_cons, ih]

/-- The list written as the `i`-th is what is read for `i`. -/
theorem batch_written (ls : List (List Entry × Nat)) (x : Index) (ho : x.offsets = (writeLists ls).1) (hf : x.file = (writeLists ls).2.2)
    {i : Nat} {l : List Entry} {s : Nat} (hi : ls[i]? = some (l, s)) : x.batch i = l := by
  obtain ⟨hlt, hget⟩ := List.getElem?_eq_some_iff.1 hi
  rw [writeLists_eq] at ho hf
  simp only at ho hf
  have hsplit : ls = ls.take i ++ (l, s) :: ls.drop (i + 1) := by
    rw [← hget, List.getElem_cons_drop, List.take_append_drop]
  have h1 : (x.offsets[i]?).getD 0 = ((ls.take i).map (fun x => x.1.length)).sum := by
    rw [ho, List.getElem?_map, List.getElem?_range hlt]
    rfl
  have hfile : x.file = (ls.take i).flatMap (·.1) ++ (l ++ (ls.drop (i + 1)).flatMap (·.1)) := by
    rw [hf]
    conv => lhs; rw [hsplit]
    rw [List.flatMap_append, List.flatMap_cons]
  have hpre : ((ls.take i).flatMap (·.1)).length = ((ls.take i).map (fun x => x.1.length)).sum := sum_length_flatMap _
  have hlen : x.postingLen i = l.length := by
    unfold Index.postingLen
    rw [h1]
    by_cases hn : i + 1 < ls.length
    · have h2 : (x.offsets[i + 1]?).getD x.file.length = ((ls.take (i + 1)).map (fun x => x.1.length)).sum := by
        rw [ho, List.getElem?_map, List.getElem?_range hn]
        rfl
      rw [h2, List.take_succ_eq_append_getElem hlt, hget]
      simp [List.sum_append_nat]
    · have h2 : x.offsets[i + 1]? = none := by
        rw [ho, List.getElem?_eq_none_iff]
        simp
        omega
      have h3 : ls.drop (i + 1) = [] := List.drop_eq_nil_of_le (by omega)
      rw [h2, Option.getD_none, hfile, h3, List.length_append, hpre]
      simp
  unfold Index.batch
  rw [hlen, h1, hfile, ← hpre, List.drop_left, List.take_left]

/-! ## Tokens -/

theorem addAll_spec : ∀ (ts : List Tok) (s : TokenSet) (done : List Tok), (done ++ ts).Nodup → s.map.Sorted →
    (∀ t i, SMap.get t s.map = some i ↔ done[i]? = some t) → s.nextId = done.length →
    (ts.foldl TokenSet.add s).map.Sorted ∧ (∀ t i, SMap.get t (ts.foldl TokenSet.add s).map = some i ↔ (done ++ ts)[i]? = some t) := by
  intro ts
  induction ts with
  | nil =>
    intro s done _ hs hg hn
    exact ⟨hs, by simpa using hg⟩
  | cons a ts ih =>
    intro s done hnd hs hg hn
    rw [List.foldl_cons]
    have ha : SMap.get a s.map = none := by
      cases h : SMap.get a s.map with
      | none => rfl
      | some i =>
        exfalso
        have hm := List.mem_of_getElem? ((hg a i).1 h)
        rw [List.nodup_append] at hnd
        exact hnd.2.2 a hm a (by simp) rfl
    have hadd : s.add a = ⟨SMap.insert a s.nextId s.map, s.nextId + 1⟩ := by
      unfold TokenSet.add
      rw [ha]
    have e : done ++ a :: ts = (done ++ [a]) ++ ts := by simp
    rw [e] at hnd ⊢
    refine ih (s.add a) (done ++ [a]) hnd ?_ ?_ ?_
    · rw [hadd]
      exact SMap.sorted_insert _ _ _ hs
    · intro t i
      rw [hadd]
      simp only [SMap.get_insert]
      by_cases hta : t = a
      · subst hta
        rw [if_pos rfl, hn]
        constructor
        · intro h
          cases h
          simp
        · intro h
          by_cases hi : i < done.length
          · exfalso
            rw [List.getElem?_append_left hi] at h
            have := (hg t i).2 h
            rw [ha] at this
            cases this
          · obtain ⟨hlt, _⟩ := List.getElem?_eq_some_iff.1 h
            simp only [List.length_append, List.length_singleton] at hlt
            congr 1
            omega
      · rw [if_neg hta, hg]
        by_cases hi : i < done.length
        · rw [List.getElem?_append_left hi]
        · rw [List.getElem?_eq_none (by omega)]
          constructor
          · intro h; cases h
          · intro h
            obtain ⟨hlt, hget⟩ := List.getElem?_eq_some_iff.1 h
            simp only [List.length_append, List.length_singleton] at hlt
            have : i = done.length := by omega
            subst this
            simp at hget
            exact absurd hget.symm hta
    · rw [hadd]
      simp [hn]

theorem foldl_max_le {l : List Nat} {a n : Nat} (ha : a ≤ n) (h : ∀ x ∈ l, x < n) : l.foldl (fun n id => max n (id + 1)) a ≤ n := by
  induction l generalizing a with
  | nil => exact ha
  | cons x l ih =>
    rw [List.foldl_cons]
    refine ih ?_ fun y hy => h y (by simp [hy])
    have := h x (by simp)
    omega

theorem le_foldl_max {l : List Nat} {a : Nat} : a ≤ l.foldl (fun n id => max n (id + 1)) a ∧
    ∀ x ∈ l, x + 1 ≤ l.foldl (fun n id => max n (id + 1)) a := by
  induction l generalizing a with
  | nil => exact ⟨Nat.le_refl _, fun _ h => by cases h⟩
  | cons x l ih =>
    rw [List.foldl_cons]
    obtain ⟨h1, h2⟩ := ih (a := max a (x + 1))
    refine ⟨by omega, ?_⟩
    intro y hy
    rcases List.mem_cons.1 hy with rfl | hy
    · omega
    · exact h2 y hy

/-- Loading finds the next id. -/
theorem load_nextId {m : SMap Nat} {n : Nat} (hs : m.Sorted) (h : ∀ t i, SMap.get t m = some i → i < n)
    (hsurj : ∀ i < n, ∃ t, SMap.get t m = some i) : (TokenSet.load m).nextId = n := by
  refine Nat.le_antisymm ?_ ?_
  · refine foldl_max_le (Nat.zero_le _) fun x hx => ?_
    obtain ⟨e, he, rfl⟩ := List.mem_map.1 hx
    exact h e.1 e.2 (SMap.get_eq_some_of_mem hs he)
  · cases n with
    | zero => exact Nat.zero_le _
    | succ n =>
      obtain ⟨t, ht⟩ := hsurj n (by omega)
      exact le_foldl_max.2 n (List.mem_map.2 ⟨(t, n), SMap.get_some_mem ht, rfl⟩)

theorem le_maxScore {wt : Nat → Nat → Nat → Nat → Nat → Nat} {docs : DocSet} {l : List Entry} {e : Entry} (he : e ∈ l) :
    wt docs.count.length docs.total l.length (docs.numTokens e.row) e.freq ≤ maxScore wt docs l := by
  unfold maxScore
  generalize l.length = n
  have : ∀ (l : List Entry) (a : Nat), a ≤ l.foldl (fun m e =>
      if m < wt docs.count.length docs.total n (docs.numTokens e.row) e.freq then wt docs.count.length docs.total n (docs.numTokens e.row) e.freq else m) a ∧
      ∀ e ∈ l, wt docs.count.length docs.total n (docs.numTokens e.row) e.freq ≤ l.foldl (fun m e =>
        if m < wt docs.count.length docs.total n (docs.numTokens e.row) e.freq then wt docs.count.length docs.total n (docs.numTokens e.row) e.freq else m) a := by
    intro l
    induction l with
    | nil => intro a; exact ⟨Nat.le_refl _, fun _ h => by cases h⟩
    | cons x l ih =>
      intro a
      rw [List.foldl_cons]
      obtain ⟨h1, h2⟩ := ih (if a < wt docs.count.length docs.total n (docs.numTokens x.row) x.freq
        then wt docs.count.length docs.total n (docs.numTokens x.row) x.freq else a)
      have h3 : a ≤ (if a < wt docs.count.length docs.total n (docs.numTokens x.row) x.freq
        then wt docs.count.length docs.total n (docs.numTokens x.row) x.freq else a) := by split <;> omega
      have h4 : wt docs.count.length docs.total n (docs.numTokens x.row) x.freq ≤ (if a < wt docs.count.length docs.total n (docs.numTokens x.row) x.freq
        then wt docs.count.length docs.total n (docs.numTokens x.row) x.freq else a) := by split <;> omega
      refine ⟨by omega, ?_⟩
      intro y hy
      rcases List.mem_cons.1 hy with rfl | hy
      · omega
      · exact h2 y hy
  exact (this l 0).2 e he

end Verif.Fts
