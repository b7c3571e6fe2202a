import Verif.Legacy.LemmasFile
/-! C104: what `read_range` and `take` give of a legacy file are the rows that were written. -/
namespace Verif.Legacy
open Verif.ListCol (slice)
open Verif.RowIds.Serde (fromLe)

/-- The rows of an array, as a user sees them.  (A fixed size list with a null item counts as null here; no array that is
read has one.) -/
def Arr.rows : Arr → List Val
  | .null n => List.replicate n .null
  | .fixed rows => rows.map (fun r => if r.1 && r.2.all (·.1) then .items (r.2.map (·.2)) else .null)
  | .bytes b => b.rows.map Val.ofBytes
  | .dict keys values => keys.map (fun k => if k.1 then values.getD (fromLe k.2.toRaw) .null else .null)
  | .pair a b => List.zipWith .pair a.rows b.rows
  | .struct valid f => List.zipWith (fun v x => if v then x else .null) valid f.rows
  | .list os valid v => List.zipWith (fun b l => if b then Val.ofList l else .null) valid (pieces v.rows os)

/-- Arrays without nulls, except that strings of nullable columns can be null but not empty, and columns of type null; and
with the dictionaries of the schema. -/
def Plain : CTy → Arr → Prop
  | .null _, .null _ => True
  | .fixed _ _, .fixed rows => ∀ r ∈ rows, r.1 = true ∧ ∀ c ∈ r.2, c.1 = true
  | .bytes _ _ nullable, .bytes b => Clear nullable b
  | .dict _ _ values, .dict keys vs => vs = values ∧ ∀ k ∈ keys, k.1 = true
  | .pair a b, .pair x y => Plain a x ∧ Plain b y
  | .struct t, .struct valid x => (∀ v ∈ valid, v = true) ∧ Plain t x
  | .list _ _ t, .list _ valid v => (∀ b ∈ valid, b = true) ∧ Plain t v
  | _, _ => False

theorem zipWith_valid {α : Type} (f : α → Val) : ∀ (valid : List Bool) (xs : List α), valid.length = xs.length → (∀ b ∈ valid, b = true) →
    List.zipWith (fun b x => if b then f x else .null) valid xs = xs.map f
  | [], [], _, _ => rfl
  | b :: valid, x :: xs, hl, h => by
    have hb := h b (by simp)
    subst hb
    rw [List.zipWith_cons_cons, List.map_cons, zipWith_valid f valid xs (by simpa using hl) (fun c hc => h c (by simp [hc]))]
    rfl
  | [], _ :: _, hl, _ => by simp at hl
  | _ :: _, [], hl, _ => by simp at hl

theorem stored_rows (t : CTy) : ∀ (a : Arr), Good t a → Plain t a → stored t a = a.rows := by
  induction t with
  | null id => intro a h _; cases a <;> simp_all [Good, stored, Arr.rows, Arr.length]
  | fixed id t =>
    intro a h hp
    cases a <;> simp only [Good] at h
    simp only [Plain] at hp
    simp only [stored, Arr.rows]
    apply List.map_congr_left
    intro r hr
    obtain ⟨h1, h2⟩ := hp r hr
    rw [if_pos (by simp only [h1, Bool.true_and, List.all_eq_true]; exact h2)]
    congr 1
    apply List.map_congr_left
    intro c hc
    have hf := (h.2.2 r hr).2 c hc
    unfold keep
    cases hl : t.leaf with
    | bool =>
      rw [hl] at hf
      cases hc2 : c.2 with
      | bit b => simp [h2 c hc, Item.toBit]
      | raw bs => rw [hc2] at hf; simp [Fits] at hf
    | _ => rfl
  | bytes id l n =>
    intro a h hp
    cases a <;> simp only [Good] at h
    simp only [Plain] at hp
    rename_i b
    simp only [stored, Arr.rows]
    rw [rows_clear n b h hp, List.map_map]
    rfl
  | dict id w vs =>
    intro a h hp
    cases a <;> simp only [Good] at h
    simp only [Plain] at hp
    obtain ⟨rfl, hp⟩ := hp
    simp only [stored, Arr.rows]
    apply List.map_congr_left
    intro k hk
    rw [if_pos (hp k hk)]
  | pair x y ihx ihy =>
    intro a h hp
    cases a <;> simp only [Good] at h
    simp only [Plain] at hp
    simp only [stored, Arr.rows]
    rw [ihx _ h.1 hp.1, ihy _ h.2.1 hp.2]
  | struct t ih =>
    intro a h hp
    cases a <;> simp only [Good] at h
    simp only [Plain] at hp
    simp only [stored, Arr.rows]
    rw [← ih _ h.1 hp.2]
    have hl := stored_length t _ h.1
    have := zipWith_valid (fun x : Val => x) _ _ (h.2.trans hl.symm) hp.1
    rw [List.map_id'] at this
    exact this.symm
  | list id l t ih =>
    intro a h hp
    cases a <;> simp only [Good] at h
    simp only [Plain] at hp
    simp only [stored, Arr.rows]
    rw [← ih _ h.1 hp.2]
    exact (zipWith_valid Val.ofList _ _ (by rw [pieces_length]; omega) hp.1).symm

/-- What is written to a file: calls of `write` with record batches of the type of the file, some of them with a batch,
of a size that the offsets of the types can have. -/
structure Written (t : CTy) (B : List (List Arr)) : Prop where
  ids : t.ids.Nodup
  some : ∃ b ∈ B, b ≠ []
  good : ∀ b ∈ B, ∀ a ∈ b, Good t a
  sized : ∀ b ∈ B, Sized t b
  size : (LFile.new.writeAll t B).file.bytes.length < 2 ^ 63

theorem writeAll_filter (t : CTy) : ∀ (B : List (List Arr)) (f : LFile), LFile.writeAll t B f = LFile.writeAll t (B.filter (fun b => !b.isEmpty)) f
  | [], _ => rfl
  | b :: B, f => by
    cases b with
    | nil => rw [LFile.writeAll, List.filter_cons_of_neg (by simp), ← writeAll_filter t B f]; rfl
    | cons a b => rw [List.filter_cons_of_pos (by simp), LFile.writeAll, LFile.writeAll, writeAll_filter t B]

theorem flatMap_filter {β : Type} (g : Arr → List β) : ∀ (B : List (List Arr)), (B.filter (fun b => !b.isEmpty)).flatMap (fun b => b.flatMap g) = B.flatMap (fun b => b.flatMap g)
  | [] => rfl
  | b :: B => by
    cases b with
    | nil => rw [List.filter_cons_of_neg (by simp), flatMap_filter g B]; rfl
    | cons a b => rw [List.filter_cons_of_pos (by simp), List.flatMap_cons (x := a :: b), flatMap_filter g B, List.flatMap_cons (x := a :: b)]

/-- The batches of the file and what is read of each. -/
theorem written_ok (block minIo : Nat) (t : CTy) (B : List (List Arr)) (h : Written t B) : ∃ L : List (List Val),
    (LFile.new.writeAll t B).offsets = sums 0 (lens L) ∧ L.flatten = B.flatMap (fun b => b.flatMap (stored t)) ∧
    ∀ i, i < L.length → ∀ p : Params, p.OkStrict (L.getD i []).length → p ≠ .indices [] →
      readCol (LFile.new.writeAll t B).file block minIo i t p = some (p.pick (L.getD i [])) := by
  obtain ⟨b0, hb0, hne0⟩ := h.some
  have hC : ∀ b ∈ B.filter (fun b => !b.isEmpty), b ∈ B ∧ b ≠ [] := by
    intro b hb
    rw [List.mem_filter] at hb
    exact ⟨hb.1, by simpa using hb.2⟩
  have hCne : B.filter (fun b => !b.isEmpty) ≠ [] := List.ne_nil_of_mem (List.mem_filter.2 ⟨hb0, by simpa using hne0⟩)
  have hsize := h.size
  rw [writeAll_filter] at hsize ⊢
  rw [← flatMap_filter]
  generalize B.filter (fun b => !b.isEmpty) = C at *
  refine ⟨C.map (fun b => b.flatMap (stored t)), ?_, by rw [List.flatMap_def], ?_⟩
  · rw [writeAll_offsets t C LFile.new [] (fun b hb => (hC b hb).2) (Or.inl ⟨rfl, rfl⟩) hCne, List.nil_append]
    congr 1
    rw [lens, List.map_map]
    apply List.map_congr_left
    intro b hb
    exact (total_eq t b (h.good b (hC b hb).1)).symm
  · intro i hi p hp hpn
    rw [List.length_map] at hi
    have hg : (C.map (fun b => b.flatMap (stored t))).getD i [] = (C[i]).flatMap (stored t) := by
      rw [List.getD_eq_getElem?_getD, List.getElem?_map, List.getElem?_eq_getElem hi]
      rfl
    rw [hg] at hp ⊢
    have hm := hC _ (List.getElem_mem hi)
    obtain ⟨g, hext⟩ := writeAll_ext t C LFile.new (fun b hb => (hC b hb).2) i _ (List.getElem?_eq_getElem hi)
    have e : LFile.new.next + i = i := by simp [LFile.new]
    rw [e] at hext
    exact readCol_ok block minIo i t h.ids _ g _ hm.2 (h.good _ hm.1) (h.sized _ hm.1) hext hsize p (by rw [← total_eq t _ (h.good _ hm.1)]; exact hp) hpn

/-- Whatever the batches are and whatever place the search gives: a range of rows is what the file keeps of these rows. -/
theorem C104_range_kept (block minIo : Nat) (t : CTy) (B : List (List Arr)) (h : Written t B) (s e b : Nat) (hse : s ≤ e)
    (he : e ≤ (B.flatMap (fun b => b.flatMap (stored t))).length) (hb : Found (LFile.new.writeAll t B).offsets s b) :
    readRange (LFile.new.writeAll t B) block minIo t s e b = some (slice (B.flatMap (fun b => b.flatMap (stored t))) (s, e)) := by
  obtain ⟨L, h1, h2, h3⟩ := written_ok block minIo t B h
  rw [← h2] at he ⊢
  exact readRange_ok _ block minIo t L h1 h3 s e b hse he hb

/-- Rows at different indices are what the file keeps of the rows, in the order of the file. -/
theorem C104_take_kept (block minIo : Nat) (t : CTy) (B : List (List Arr)) (h : Written t B) (is : List Nat) (hn : is.Nodup)
    (hin : ∀ i ∈ is, i < (B.flatMap (fun b => b.flatMap (stored t))).length) :
    takeRows (LFile.new.writeAll t B) block minIo t is =
      some ((sortAsc is).map (fun i => (B.flatMap (fun b => b.flatMap (stored t)))[i]!)) := by
  obtain ⟨L, h1, h2, h3⟩ := written_ok block minIo t B h
  rw [← h2] at hin ⊢
  exact takeRows_ok _ block minIo t L h1 h3 is hn hin

/-- The claim: a range or a take gives the rows of the record batches that were written, whatever `write` calls they came
in; a take gives them in the order of the indices. -/
def C104_read_statement : Prop :=
  ∀ (block minIo : Nat) (t : CTy) (B : List (List Arr)), Written t B →
    (∀ s e b : Nat, s ≤ e → e ≤ (B.flatten.flatMap Arr.rows).length → Found (LFile.new.writeAll t B).offsets s b →
      readRange (LFile.new.writeAll t B) block minIo t s e b = some (slice (B.flatten.flatMap Arr.rows) (s, e))) ∧
    (∀ is : List Nat, (∀ i ∈ is, i < (B.flatten.flatMap Arr.rows).length) →
      takeRows (LFile.new.writeAll t B) block minIo t is = some (is.map (fun i => (B.flatten.flatMap Arr.rows)[i]!)))

theorem stored_all (t : CTy) (B : List (List Arr)) (h : ∀ b ∈ B, ∀ a ∈ b, Good t a ∧ Plain t a) :
    B.flatMap (fun b => b.flatMap (stored t)) = B.flatten.flatMap Arr.rows := by
  induction B with
  | nil => rfl
  | cons b B ih =>
    rw [List.flatMap_cons, ih (fun c hc => h c (by simp [hc])), List.flatten_cons, List.flatMap_append]
    congr 1
    rw [List.flatMap_def, List.flatMap_def]
    congr 1
    exact List.map_congr_left (fun a ha => stored_rows t a (h b (by simp) a ha).1 (h b (by simp) a ha).2)

/-- It holds for arrays without nulls (strings of nullable columns: nulls but no empty ones) that have the dictionaries of
the schema, and for indices that increase. -/
theorem C104_read_partial (block minIo : Nat) (t : CTy) (B : List (List Arr)) (h : Written t B) (hp : ∀ b ∈ B, ∀ a ∈ b, Plain t a) :
    (∀ s e b : Nat, s ≤ e → e ≤ (B.flatten.flatMap Arr.rows).length → Found (LFile.new.writeAll t B).offsets s b →
      readRange (LFile.new.writeAll t B) block minIo t s e b = some (slice (B.flatten.flatMap Arr.rows) (s, e))) ∧
    (∀ is : List Nat, is.Pairwise (· < ·) → (∀ i ∈ is, i < (B.flatten.flatMap Arr.rows).length) →
      takeRows (LFile.new.writeAll t B) block minIo t is = some (is.map (fun i => (B.flatten.flatMap Arr.rows)[i]!))) := by
  rw [← stored_all t B (fun b hb a ha => ⟨h.good b hb a ha, hp b hb a ha⟩)]
  refine ⟨fun s e b => C104_range_kept block minIo t B h s e b, ?_⟩
  intro is hs hin
  rw [C104_take_kept block minIo t B h is (hs.imp (fun h => Nat.ne_of_lt h)) hin, sortAsc_of_pairwise is hs]

/-- There is a place that the search can give. -/
theorem C104_search_total (t : CTy) (B : List (List Arr)) (h : Written t B) (s : Nat) : ∃ b, Found (LFile.new.writeAll t B).offsets s b := by
  obtain ⟨L, h1, _, _⟩ := written_ok 1 1 t B h
  rw [h1]
  by_cases hm : s ∈ sums 0 (lens L)
  · obtain ⟨b, hb, he⟩ := List.mem_iff_getElem.1 hm
    exact ⟨b, Or.inl (by rw [List.getElem?_eq_getElem hb, he])⟩
  · have key : ∀ (ls : List Nat) (c : Nat), c ≤ s → s ∉ sums c ls → ∃ b o, (sums c ls)[b]? = some o ∧ o < s ∧ ∀ o', (sums c ls)[b + 1]? = some o' → s < o' := by
      intro ls
      induction ls with
      | nil =>
        intro c hc hn
        have : s ≠ c := by rintro rfl; exact hn (by simp [sums])
        exact ⟨0, c, rfl, by omega, by simp [sums]⟩
      | cons l ls ih =>
        intro c hc hn
        have e : sums c (l :: ls) = c :: sums (c + l) ls := rfl
        rw [e] at hn ⊢
        simp only [List.mem_cons, not_or] at hn
        rcases Nat.lt_or_ge s (c + l) with hlt | hge
        · refine ⟨0, c, rfl, by omega, ?_⟩
          intro o' ho
          have : (sums (c + l) ls)[0]? = some (c + l) := by cases ls <;> rfl
          simp only [Nat.zero_add, List.getElem?_cons_succ] at ho
          rw [this] at ho
          have := Option.some.inj ho
          omega
        · obtain ⟨b, o, q1, q2, q3⟩ := ih (c + l) hge hn.2
          exact ⟨b + 1, o, by simpa using q1, q2, fun o' ho => q3 o' (by simpa using ho)⟩
    obtain ⟨b, o, q1, q2, q3⟩ := key (lens L) 0 (Nat.zero_le _) hm
    exact ⟨b, Or.inr ⟨hm, o, q1, q2, q3⟩⟩

/-- What is not there is not read: a range that ends behind the last row, or an index of no row. -/
theorem C104_beyond (block minIo : Nat) (t : CTy) (B : List (List Arr)) (h : Written t B) :
    (∀ s e b : Nat, s < e → (B.flatMap (fun b => b.flatMap (stored t))).length < e → readRange (LFile.new.writeAll t B) block minIo t s e b = none) ∧
    (∀ (is : List Nat) (i : Nat), i ∈ is → (B.flatMap (fun b => b.flatMap (stored t))).length ≤ i → takeRows (LFile.new.writeAll t B) block minIo t is = none) := by
  obtain ⟨L, h1, h2, h3⟩ := written_ok block minIo t B h
  rw [← h2]
  refine ⟨?_, fun is i hi hb => takeRows_beyond _ block minIo t L h1 is i hi hb⟩
  intro s e b hse he
  unfold readRange
  rw [if_neg (by omega), rangeToBatches, h1]
  simp only [sums_lens_last, Option.bind_eq_bind, Option.bind_some]
  rw [if_pos he]
  rfl

/-- The number of rows of the file is that of the record batches. -/
theorem C104_count (t : CTy) (B : List (List Arr)) (h : Written t B) : (LFile.new.writeAll t B).len = (B.flatten.map Arr.length).sum := by
  obtain ⟨L, h1, h2, h3⟩ := written_ok 1 1 t B h
  rw [LFile.len, h1, List.getLastD_eq_getLast?, sums_lens_last, Option.getD_some, h2]
  have hg := h.good
  clear h1 h2 h3 h
  induction B with
  | nil => rfl
  | cons b B ih =>
    rw [List.flatMap_cons, List.length_append, ih (fun c hc => hg c (by simp [hc])), total_eq t b (hg b (by simp)), List.flatten_cons, List.map_append, List.sum_append]
    rfl

/-! ### Rows that change -/

/-- A list column of 4 byte values. -/
def exList : CTy := .list 0 false (.fixed 1 (.prim 4))

/-- Rows `[1,2]`, null and `[3]`. -/
def exLists : Arr := .list [0, 2, 2, 3] [true, false, true]
  (.fixed [(true, [(true, .raw [1, 0, 0, 0])]), (true, [(true, .raw [2, 0, 0, 0])]), (true, [(true, .raw [3, 0, 0, 0])])])

/-- A null list is an empty list when it is read. -/
theorem C104_null_list_violated : exLists.rows[1]! = .null ∧
    readRange (LFile.new.writeAll exList [[exLists]]) 4096 4096 exList 1 2 0 = some [.nil] := by decide +kernel

/-- A struct with one field. -/
def exStruct : CTy := .struct (.fixed 1 (.prim 1))

/-- A null struct is a struct when it is read. -/
theorem C104_null_struct_violated : (Arr.struct [true, false] (.fixed [(true, [(true, .raw [7])]), (true, [(true, .raw [8])])])).rows[1]! = .null ∧
    readRange (LFile.new.writeAll exStruct [[.struct [true, false] (.fixed [(true, [(true, .raw [7])]), (true, [(true, .raw [8])])])]]) 4096 4096 exStruct 1 2 0 =
      some [.items [.raw [8]]] := by decide +kernel

/-- A dictionary of the strings `a` and `b`, as the first batch had it. -/
def exDict : CTy := .dict 0 1 [.bytes [97], .bytes [98]]

/-- The first batch, and one with the dictionary `x`, `a`. -/
def exDicts : List (List Arr) := [[.dict [(true, .raw [0]), (true, .raw [1])] [.bytes [97], .bytes [98]]], [.dict [(true, .raw [0]), (true, .raw [1])] [.bytes [120], .bytes [97]]]]

/-- The keys of the second batch are read with the dictionary of the first: `x` and `a` are read as `a` and `b`; and a null
key is read as a value. -/
theorem C104_dictionary_violated : (exDicts.flatten.flatMap Arr.rows).drop 2 = [.bytes [120], .bytes [97]] ∧
    readRange (LFile.new.writeAll exDict exDicts) 4096 4096 exDict 2 4 1 = some [.bytes [97], .bytes [98]] ∧
    (Arr.dict [(false, .raw [1])] [.bytes [97], .bytes [98]]).rows = [.null] ∧
    readRange (LFile.new.writeAll exDict [[.dict [(false, .raw [1])] [.bytes [97], .bytes [98]]]]) 4096 4096 exDict 0 1 0 = some [.bytes [98]] := by decide +kernel

/-- A column of bytes and a column of strings. -/
def exBoth : CTy := .pair (.fixed 0 (.prim 1)) (.bytes 1 false false)

/-- Two rows `1, x` and `2, yz`. -/
def exRows : Arr := .pair (.fixed [(true, [(true, .raw [1])]), (true, [(true, .raw [2])])]) (.bytes ⟨[0, 1, 3], [true, true], [120, 121, 122]⟩)

/-- The rows of indices that do not increase come in another order; and a repeated index is an error with strings. -/
theorem C104_order_violated : takeRows (LFile.new.writeAll exBoth [[exRows]]) 4096 4096 exBoth [1, 0] = some exRows.rows ∧
    takeRows (LFile.new.writeAll exBoth [[exRows]]) 4096 4096 exBoth [1, 1] = none := by decide +kernel

theorem exBoth_written : Written exBoth [[exRows], [], [exRows, exRows]] := by
  refine ⟨by decide, ⟨[exRows], by simp, by simp⟩, ?_, ?_, by decide +kernel⟩
  · have : Good exBoth exRows := by
      refine ⟨⟨show 0 < 1 by decide, Or.inr (by simp [Ty.leaf]), ?_⟩, ⟨by decide, ?_, by decide⟩, by decide⟩
      · intro r hr
        simp only [List.mem_cons, List.not_mem_nil, or_false] at hr
        rcases hr with rfl | rfl <;> simp [Ty.mult, Fits, Ty.leaf]
      · simp [Sorted]
    intro b hb a ha
    simp only [List.mem_cons, List.not_mem_nil, or_false] at hb
    rcases hb with rfl | rfl | rfl <;> simp_all
  · intro b hb
    simp only [List.mem_cons, List.not_mem_nil, or_false] at hb
    rcases hb with rfl | rfl | rfl
    · exact ⟨trivial, Or.inr (by decide)⟩
    · exact ⟨trivial, Or.inr (by decide)⟩
    · exact ⟨trivial, Or.inr (by decide)⟩

theorem C104_read_violated : ¬ C104_read_statement := by
  intro h
  have h1 := (h 4096 4096 exBoth _ exBoth_written).2 [1, 0] (by decide +kernel)
  revert h1
  decide +kernel

/-- Different lists are different rows, and so are different strings: equal rows mean equal values. -/
theorem C104_rows_distinct : (∀ l l' : List Val, Val.ofList l = Val.ofList l' → l = l') ∧ ∀ b b' : Option (List Nat), Val.ofBytes b = Val.ofBytes b' → b = b' := by
  constructor
  · intro l
    induction l with
    | nil => intro l' h; cases l' with
      | nil => rfl
      | cons _ _ => simp [Val.ofList] at h
    | cons v l ih => intro l' h; cases l' with
      | nil => simp [Val.ofList] at h
      | cons v' l' =>
        simp only [Val.ofList, Val.cons.injEq] at h
        rw [h.1, ih l' h.2]
  · intro b b' h
    cases b <;> cases b' <;> simp [Val.ofBytes] at h ⊢
    exact h

/-- Rows of three `write` calls, one without batches, are read across them. -/
theorem C104_nonvacuous : Written exBoth [[exRows], [], [exRows, exRows]] ∧ (∀ b ∈ [[exRows], [], [exRows, exRows]], ∀ a ∈ b, Plain exBoth a) ∧
    Found (LFile.new.writeAll exBoth [[exRows], [], [exRows, exRows]]).offsets 1 0 ∧
    readRange (LFile.new.writeAll exBoth [[exRows], [], [exRows, exRows]]) 4096 4096 exBoth 1 4 0 =
      some [.pair (.items [.raw [2]]) (.bytes [121, 122]), .pair (.items [.raw [1]]) (.bytes [120]), .pair (.items [.raw [2]]) (.bytes [121, 122])] ∧
    takeRows (LFile.new.writeAll exBoth [[exRows], [], [exRows, exRows]]) 4096 4096 exBoth [1, 4] =
      some [.pair (.items [.raw [2]]) (.bytes [121, 122]), .pair (.items [.raw [1]]) (.bytes [120])] := by
  refine ⟨exBoth_written, ?_, ?_, by decide +kernel, by decide +kernel⟩
  · have : Plain exBoth exRows := by
      refine ⟨?_, ?_⟩
      · intro r hr
        simp only [List.mem_cons, List.not_mem_nil, or_false] at hr
        rcases hr with rfl | rfl <;> simp
      · show Clear false _
        unfold Clear
        decide
    intro b hb a ha
    simp only [List.mem_cons, List.not_mem_nil, or_false] at hb
    rcases hb with rfl | rfl | rfl <;> simp_all
  · right
    have e : (LFile.new.writeAll exBoth [[exRows], [], [exRows, exRows]]).offsets = [0, 2, 6] := by decide +kernel
    rw [e]
    exact ⟨by decide, 0, rfl, by decide, by intro o' ho; simp at ho; omega⟩

end Verif.Legacy
