import Verif.RepDef.LemmasPages
/-!
# C88: arrays turned into levels and values are the arrays made of them again
-/
namespace Verif.RepDef
open Verif.Mini (Layer RepDefs)

/-- The claim: the arrays of some pages of a column, of any nesting of structs, lists and fixed size lists, can be
turned into levels and values, and the array made of these has the cells of the arrays, in order. -/
def C88_arrays_round_trip_statement : Prop :=
  ∀ (ks : List Kind) (pages : List (List (Arr Nat))), PagesOk ks pages →
    ∃ rps arr, pages.mapM (encode ks) = some rps ∧ decodePages ks rps = some arr ∧
      arr.cells = pages.flatMap fun page => page.flatMap Arr.cells

/-! ### Columns without lists -/

theorem parts_of {A B C : Type} (f : A → Option B) (R : A → C → Prop) (g : C → B) : ∀ (l : List A),
    (∀ a ∈ l, ∃ c, f a = some (g c) ∧ R a c) →
    ∃ cs : List C, l.mapM f = some (cs.map g) ∧ cs.length = l.length ∧ ∀ x ∈ l.zip cs, R x.1 x.2
  | [], _ => ⟨[], rfl, rfl, by simp⟩
  | a :: l, h => by
    obtain ⟨c, h1, h2⟩ := h a (by simp)
    obtain ⟨cs, i1, i2, i3⟩ := parts_of f R g l (fun x hx => h x (by simp [hx]))
    refine ⟨c :: cs, ?_, by simp [i2], ?_⟩
    · rw [List.mapM_cons, h1, i1]; rfl
    · intro x hx
      rw [List.zip_cons_cons] at hx
      rcases List.mem_cons.mp hx with h | h
      · subst h; exact h2
      · exact i3 x h

theorem flatMap_zip {A C D : Type} (f : A → List D) (g : C → List D) : ∀ (l : List A) (cs : List C), cs.length = l.length →
    (∀ x ∈ l.zip cs, f x.1 = g x.2) → l.flatMap f = cs.flatMap g
  | [], [], _, _ => rfl
  | [], _ :: _, h, _ => by simp at h
  | _ :: _, [], h, _ => by simp at h
  | a :: l, c :: cs, h, hx => by
    rw [List.flatMap_cons, List.flatMap_cons, hx (a, c) (by simp), flatMap_zip f g l cs (by simpa using h)
      (fun x hm => hx x (by simp [hm]))]

theorem of_mem_zip_right {A C : Type} : ∀ (l : List A) (cs : List C), cs.length = l.length → ∀ c ∈ cs, ∃ a, (a, c) ∈ l.zip cs
  | [], [], _, _, h => by simp at h
  | [], _ :: _, h, _, _ => by simp at h
  | _ :: _, [], h, _, _ => by simp at h
  | a :: l, c :: cs, h, x, hx => by
    rcases List.mem_cons.mp hx with e | e
    · subst e; exact ⟨a, by simp⟩
    · obtain ⟨b, hb⟩ := of_mem_zip_right l cs (by simpa using h) x e
      exact ⟨b, by simp [hb]⟩

/-- **C88** for columns without lists (values inside of any number of structs), what can be proved: if each layer has
a bitmap in all pages or in none.  What is missing of the claim is exactly this: see `C88_pages_with_and_without_nulls`
and `C88_struct_nulls_between_pages`. -/
theorem C88_flat_round_trip_partial {V : Type} (q : Nat) (pages : List (List (Arr V)))
    (h : PagesOk (List.replicate q .struct) pages)
    (hagree : ∀ a ∈ pages, ∀ b ∈ pages, ∀ j, j ≤ q → hasBitmap a j = hasBitmap b j) :
    ∃ rps arr, pages.mapM (encode (List.replicate q .struct)) = some rps ∧ decodePages (List.replicate q .struct) rps = some arr ∧
      arr.cells = pages.flatMap fun page => page.flatMap Arr.cells := by
  obtain ⟨p0, hp0⟩ : ∃ p0, p0 ∈ pages := by
    cases pages with
    | nil => exact absurd rfl h.some
    | cons a _ => exact ⟨a, by simp⟩
  have hlay : ∀ a ∈ pages, flatLayers q a = flatLayers q p0 := by
    intro a ha
    unfold flatLayers
    apply List.map_congr_left
    intro j hj
    rw [List.mem_range] at hj
    rw [hagree a ha p0 hp0 j (by omega)]
  generalize hin : flatLayers q p0 = inner at hlay
  have hil : inner.length = q + 1 := by rw [← hin]; simp [flatLayers]
  obtain ⟨parts, h1, h2, h3⟩ := parts_of (encode (List.replicate q .struct))
    (fun (a : List (Arr V)) (P : FlatPart V) => FlatOk inner P ∧ a.flatMap Arr.cells = P.items.map (levelCell inner))
    (fun P : FlatPart V => (P.page inner, P.items.map (·.2))) pages (by
      intro a ha
      obtain ⟨P, e1, e2, e3⟩ := encode_flat_part q a (h.ok a ha) (h.rows a ha)
      rw [hlay a ha] at e1 e2 e3
      exact ⟨P, e1, e2, e3⟩)
  have hok : ∀ P ∈ parts, FlatOk inner P := by
    intro P hP
    obtain ⟨a, ha⟩ := of_mem_zip_right pages parts h2 P hP
    exact (h3 _ ha).1
  obtain ⟨us, arr, d1, d2, _⟩ := decode_flat inner q hil parts (by
    intro hn; rw [hn] at h2; exact h.some (List.length_eq_zero_iff.mp h2.symm)) hok
  refine ⟨_, arr, h1, ?_, ?_⟩
  · unfold decodePages
    rw [List.map_map, show ((fun p : RepDefs × List V => Unraveler.new p.1) ∘ fun P : FlatPart V => (P.page inner, P.items.map (·.2))) =
      fun P => Unraveler.new (P.page inner) from rfl, List.flatMap_map, ← List.map_flatMap, d1]
    rfl
  · rw [d2, List.map_flatMap]
    exact (flatMap_zip _ _ pages parts h2 (fun x hx => (h3 x hx).2)).symm

/-- **C88** for a column without lists that is read from one page: the claim holds as it stands. -/
theorem C88_flat_page_round_trip {V : Type} (q : Nat) (page : List (Arr V)) (h : PagesOk (List.replicate q .struct) [page]) :
    ∃ rp arr, encode (List.replicate q .struct) page = some rp ∧ decodePages (List.replicate q .struct) [rp] = some arr ∧
      arr.cells = page.flatMap Arr.cells := by
  obtain ⟨rps, arr, h1, h2, h3⟩ := C88_flat_round_trip_partial q [page] h (by
    intro a ha b hb j _
    rw [List.mem_singleton] at ha hb
    rw [ha, hb])
  rw [List.mapM_cons, List.mapM_nil] at h1
  cases he : encode (List.replicate q .struct) page with
  | none => rw [he] at h1; simp at h1
  | some rp =>
    rw [he] at h1
    simp only [Option.pure_def, Option.bind_eq_bind, Option.bind_some, Option.some.injEq] at h1
    subst h1
    exact ⟨rp, arr, rfl, h2, by simpa using h3⟩

/-! ### Columns of lists -/

/-- The layers of a page other than the one of the lists, which comes after `q + 1` others. -/
def otherLayers (q : Nat) (rd : RepDefs) : List Layer × List Layer := (rd.layers.take (q + 1), rd.layers.drop (q + 2))

theorem drop_mid {A : Type} (a : List A) (x : A) (b : List A) (n : Nat) (h : a.length = n + 1) : (a ++ x :: b).drop (n + 2) = b := by
  rw [show a ++ x :: b = (a ++ [x]) ++ b by simp, show n + 2 = (a ++ [x]).length by simp [h], List.drop_left]

/-- **C88** for columns with one layer of lists (values inside of `q` structs, in lists, inside of `p` structs), what can
be proved.  What is missing of the claim: the structs around the lists may not be null, a list may start with a null element
only if the lists have a bitmap or one of them is null or empty, each page has an element, and the pages have the same
layers (apart from that of the lists).  Arrays that start within their values, and null lists that are not
empty, are covered. -/
theorem C88_lists_round_trip_partial {V : Type} (p q : Nat) (pages : List (List (Arr V)))
    (h : PagesOk (List.replicate p .struct ++ .list :: List.replicate q .struct) pages)
    (hl : ∀ page ∈ pages, ListPage p (q + 1) page) :
    ∃ rps, pages.mapM (encode (List.replicate p .struct ++ .list :: List.replicate q .struct)) = some rps ∧
      ((∀ a ∈ rps, ∀ b ∈ rps, otherLayers q a.1 = otherLayers q b.1) →
        ∃ arr, decodePages (List.replicate p .struct ++ .list :: List.replicate q .struct) rps = some arr ∧
          arr.cells = pages.flatMap fun page => page.flatMap Arr.cells) := by
  obtain ⟨cs, h1, h2, h3⟩ := parts_of (encode (List.replicate p .struct ++ .list :: List.replicate q .struct))
    (fun (a : List (Arr V)) (x : List Layer × List Layer × Part V) => PartOk x.1 x.2.1 x.2.2 ∧
      a.flatMap Arr.cells = x.2.2.rows.map (fun r => wrap p (rowOf x.1 r)) ∧ x.1.length = q + 1 ∧ x.2.1.length = p)
    (fun x => (x.2.2.page x.1 x.2.1, (flat x.2.2.rows).map (·.2))) pages (by
      intro a ha
      obtain ⟨inner, outer, P, e1, e2, e3, e4, e5, _⟩ := encode_list_part p q a (h.ok a ha) (hl a ha)
      exact ⟨(inner, outer, P), e1, e2, e3, e4, e5⟩)
  refine ⟨_, h1, ?_⟩
  intro hagree
  have hcs : ∀ x ∈ cs, PartOk x.1 x.2.1 x.2.2 ∧ x.1.length = q + 1 ∧ x.2.1.length = p := by
    intro x hx
    obtain ⟨a, ha⟩ := of_mem_zip_right pages cs h2 x hx
    have := h3 _ ha
    exact ⟨this.1, this.2.2⟩
  obtain ⟨x0, hx0⟩ : ∃ x0, x0 ∈ cs := by
    cases cs with
    | nil => exact absurd (List.length_eq_zero_iff.mp h2.symm) h.some
    | cons a _ => exact ⟨a, by simp⟩
  have hsame : ∀ x ∈ cs, x.1 = x0.1 ∧ x.2.1 = x0.2.1 := by
    intro x hx
    have := hagree _ (List.mem_map_of_mem hx) _ (List.mem_map_of_mem hx0)
    simp only [otherLayers, Part.page, listPage, Prod.mk.injEq] at this
    have l1 := (hcs x hx).2.1
    have l2 := (hcs x0 hx0).2.1
    rw [← l1, List.take_left] at this
    rw [l1, ← l2, List.take_left] at this
    refine ⟨this.1, ?_⟩
    have h2 := this.2
    rw [drop_mid _ _ _ q l1, drop_mid _ _ _ q l2] at h2
    exact h2
  obtain ⟨inner, outer, P0⟩ := x0
  have hmap : (cs.map fun x => (x.2.2.page x.1 x.2.1, (flat x.2.2.rows).map (·.2))) =
      (cs.map (·.2.2)).map fun P => (P.page inner outer, (flat P.rows).map (·.2)) := by
    rw [List.map_map]
    apply List.map_congr_left
    intro x hx
    have := hsame x hx
    simp only at this
    simp only [Function.comp]
    rw [this.1, this.2]
  obtain ⟨zs, arr, d1, _, _, d4, _⟩ := decode_all inner outer q (hcs _ hx0).2.1 (cs.map (·.2.2))
    (by intro hn; rw [List.map_eq_nil_iff] at hn; rw [hn] at hx0; simp at hx0)
    (by
      intro P hP
      obtain ⟨x, hx, rfl⟩ := List.mem_map.mp hP
      have := hsame x hx
      simp only at this
      rw [← this.1, ← this.2]
      exact (hcs x hx).1)
    p (by rw [(hcs _ hx0).2.2]; exact Nat.le_refl _)
  refine ⟨arr, ?_, ?_⟩
  · rw [hmap]
    unfold decodePages
    have hfl : (((cs.map (·.2.2)).map fun P : Part V => (P.page inner outer, (flat P.rows).map (·.2))).flatMap (·.2)) =
        (flat ((cs.map (·.2.2)).flatMap Part.rows)).map (·.2) := by
      generalize cs.map (·.2.2) = ps
      induction ps with
      | nil => rfl
      | cons P ps ih =>
        simp only [List.map_cons, List.flatMap_cons, ih]
        simp [flat]
    rw [hfl, List.map_map, show ((fun p : RepDefs × List V => Unraveler.new p.1) ∘ fun P : Part V => (P.page inner outer, (flat P.rows).map (·.2))) =
      fun P => Unraveler.new (P.page inner outer) from rfl, d1]
    rfl
  · rw [d4, List.map_flatMap, List.flatMap_map]
    apply Eq.symm
    apply flatMap_zip _ _ pages cs h2
    intro x hx
    have e1 := (h3 x hx).2.1
    have e2 := hsame x.2 (List.of_mem_zip hx).2
    simp only at e2
    rw [e1, e2.1]

/-- **C88** for a page with one layer of lists. -/
theorem C88_list_page_round_trip_partial {V : Type} (p q : Nat) (page : List (Arr V))
    (h : ∀ a ∈ page, a.Ok (List.replicate p .struct ++ .list :: List.replicate q .struct)) (hl : ListPage p (q + 1) page) :
    ∃ rp arr, encode (List.replicate p .struct ++ .list :: List.replicate q .struct) page = some rp ∧
      decodePages (List.replicate p .struct ++ .list :: List.replicate q .struct) [rp] = some arr ∧ arr.cells = page.flatMap Arr.cells := by
  obtain ⟨rps, h1, h2⟩ := C88_lists_round_trip_partial p q [page]
    ⟨by simp, by simpa using h, by
      intro x hx
      rw [List.mem_singleton] at hx
      subst hx
      obtain ⟨c, hc, _⟩ := hl.element
      intro h; rw [h] at hc; simp at hc⟩
    (by intro x hx; rw [List.mem_singleton] at hx; subst hx; exact hl)
  rw [List.mapM_cons, List.mapM_nil] at h1
  cases he : encode (List.replicate p .struct ++ .list :: List.replicate q .struct) page with
  | none => rw [he] at h1; simp at h1
  | some rp =>
    rw [he] at h1
    simp only [Option.pure_def, Option.bind_eq_bind, Option.bind_some, Option.some.injEq] at h1
    subst h1
    obtain ⟨arr, e1, e2⟩ := h2 (by
      intro a ha b hb
      rw [List.mem_singleton] at ha hb
      rw [ha, hb])
    exact ⟨rp, arr, rfl, e1, by simpa using e2⟩

/-! ### Where the claim fails -/

/-- What is written for some pages and read from it: `none` if it cannot be written, `some none` if it cannot be read. -/
def roundTrip (ks : List Kind) (pages : List (List (Arr Nat))) : Option (Option (Arr Nat)) :=
  (pages.mapM (encode ks)).map (decodePages ks)

/-- **C88**, violated: `[[null, 1], [2]]` is read as one list, `[1]` (the second and the third value are `1` and `2`, and the
offsets are `1` and `2`), as a list that starts with a null element is not seen if lists have no definition levels. -/
theorem C88_list_starting_with_null :
    roundTrip [.list] [[.list [0, 2, 3] (.prim [0, 1, 2] (some [false, true, true])) none]] =
      some (some (.list [1, 2] (.prim [0, 1, 2] (some [false, true, true])) none)) := by decide

/-- **C88**, violated: `[[[]], [[7]]]` is read without its first list, and `[[[7]], []]` cannot be written. -/
theorem C88_empty_lists_in_lists :
    roundTrip [.list, .list] [[.list [0, 1, 2] (.list [0, 0, 1] (.prim [7] none) none) none]] =
      some (some (.list [1] (.list [0, 0, 1] (.prim [7] none) none) none)) ∧
    roundTrip [.list, .list] [[.list [0, 1, 1] (.list [0, 1] (.prim [7] none) none) none]] = none := by decide

/-- **C88**, violated: a null struct around lists is read as a struct that is not null (here with a null list in it, or with a
list of one element in it), or cannot be read. -/
theorem C88_null_struct_around_list :
    roundTrip [.struct, .list] [[.struct (.list [0, 1, 1] (.prim [7] none) (some [true, false])) (some [true, false])]] =
      some (some (.struct (.list [0, 1, 1] (.prim [7] none) (some [true, false])) (some [true, true]))) ∧
    roundTrip [.struct, .list] [[.struct (.list [0, 1, 2] (.prim [7, 8] none) none) (some [true, false])]] =
      some (some (.struct (.list [0, 1, 2] (.prim [7, 8] none) none) (some [true, true]))) ∧
    roundTrip [.struct, .list] [[.struct (.list [0, 1, 2] (.prim [7, 8] none) none) (some [false, true])]] = some none := by decide

/-- **C88**, violated: a page with nulls and one without cannot be read together. -/
theorem C88_pages_with_and_without_nulls :
    roundTrip [] [[.prim [1] none], [.prim [2] (some [false])]] = some none ∧
    roundTrip [] [[.prim [1] (some [false])], [.prim [2] none]] = some none := by decide

/-- **C88**, violated: levels of a page without a bitmap for some layer are read as those of a page with one: the struct of
the first page is null, and is read as a struct with a null value. -/
theorem C88_struct_nulls_between_pages :
    roundTrip [.struct] [[.struct (.prim [1] none) (some [false])], [.struct (.prim [2] (some [false])) (some [false])]] =
      some (some (.struct (.prim [1, 2] (some [false, false])) (some [true, false]))) := by decide

/-- **C88**, violated: fixed size lists in lists cannot be written. -/
theorem C88_fixed_size_lists_in_lists :
    roundTrip [.list, .fsl 2] [[.list [0, 1] (.fsl 2 (.prim [7, 8] none) none) none]] = none := by decide

/-- **C88** as it stands does not hold. -/
theorem C88_arrays_round_trip_violated : ¬ C88_arrays_round_trip_statement := by
  intro h
  obtain ⟨rps, arr, h1, h2, h3⟩ := h [.list] [[.list [0, 2, 3] (.prim [0, 1, 2] (some [false, true, true])) none]]
    ⟨by simp, by
      intro p hp a ha
      simp only [List.mem_singleton] at hp
      subst hp
      simp only [List.mem_singleton] at ha
      subst ha
      exact ⟨by intro bs h; simp at h; subst h; rfl, by intro bs h; simp at h, by simp, by simp [Rising], by decide⟩,
    by simp [Arr.cells, mask, slices]⟩
  have hr := C88_list_starting_with_null
  unfold roundTrip at hr
  rw [h1, Option.map_some, h2] at hr
  simp only [Option.some.injEq] at hr
  rw [hr] at h3
  have := congrArg List.length h3
  simp [Arr.cells, mask, slices] at this

/-! ### Cases that meet the hypotheses -/

/-- Two pages of structs of nullable values, one of them made of two arrays; one of the arrays has no bitmap. -/
def flatPages : List (List (Arr Nat)) :=
  [[.struct (.prim [1, 2, 3] (some [true, false, true])) (some [true, true, false]), .struct (.prim [4] none) none],
   [.struct (.prim [5] (some [false])) (some [true])]]

theorem C88_flat_nonvacuous : PagesOk [.struct] flatPages ∧ (∀ a ∈ flatPages, ∀ b ∈ flatPages, ∀ j, j ≤ 1 → hasBitmap a j = hasBitmap b j) ∧
    roundTrip [.struct] flatPages = some (some (.struct (.prim [1, 2, 3, 4, 5] (some [true, false, false, true, false]))
      (some [true, true, false, true, true]))) := by
  refine ⟨⟨by simp [flatPages], ?_, by simp [flatPages, Arr.cells, mask]⟩, ?_, by decide⟩
  · intro p hp a ha
    simp only [flatPages, List.mem_cons, List.not_mem_nil, or_false] at hp
    rcases hp with rfl | rfl <;> simp only [List.mem_cons, List.not_mem_nil, or_false] at ha
    · rcases ha with rfl | rfl
      · exact ⟨by intro bs h; simp at h; subst h; rfl, by intro bs h; simp at h; subst h; rfl⟩
      · exact ⟨by intro bs h; simp at h, by intro bs h; simp at h⟩
    · subst ha
      exact ⟨by intro bs h; simp at h; subst h; rfl, by intro bs h; simp at h; subst h; rfl⟩
  · intro a ha b hb j hj
    have : j = 0 ∨ j = 1 := by omega
    simp only [flatPages, List.mem_cons, List.not_mem_nil, or_false] at ha hb
    rcases ha with rfl | rfl <;> rcases hb with rfl | rfl <;> rcases this with rfl | rfl <;> decide

/-- A page of two arrays of lists: the first starts within its values and has a null list that is not empty, and lists that
start with null elements; the second has an empty list. -/
def listArrays : List (Arr Nat) :=
  [.list [1, 3, 4, 6] (.prim [0, 1, 2, 3, 4, 5, 6] (some [true, false, true, true, false, true, true])) (some [true, false, true]),
   .list [0, 0, 1] (.prim [9] none) none]

theorem C88_lists_nonvacuous : (∀ a ∈ listArrays, a.Ok [.list]) ∧ ListPage 0 1 listArrays ∧
    roundTrip [.list] [listArrays] = some (some (.list [0, 2, 2, 4, 4, 5] (.prim [1, 2, 4, 5, 9] (some [false, true, false, true, true]))
      (some [true, false, true, true, true]))) := by
  refine ⟨?_, ⟨?_, ?_, ?_⟩, by decide⟩
  · intro a ha
    simp only [listArrays, List.mem_cons, List.not_mem_nil, or_false] at ha
    rcases ha with rfl | rfl
    · exact ⟨by intro bs h; simp at h; subst h; rfl, by intro bs h; simp at h; subst h; rfl, by simp, by simp [Rising], by decide⟩
    · exact ⟨by intro bs h; simp at h, by intro bs h; simp at h, by simp, by simp [Rising], by decide⟩
  · intro c _; rfl
  · exact ⟨.valid (.list [.valid (.item 9)]), by simp [listArrays, Arr.cells, mask, slices], .valid (.item 9), [], rfl⟩
  · exact Or.inl (by decide)

end Verif.RepDef
