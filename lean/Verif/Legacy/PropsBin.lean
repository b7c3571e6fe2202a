import Verif.Legacy.LemmasBin
import Verif.Legacy.PropsPlain
/-! C103: the strings that are read from a legacy page are the strings that were written. -/
namespace Verif.Legacy
open Verif.ListCol (slice)

/-- A request for rows that are there; indices increase. -/
def Params.OkStrict (n : Nat) : Params → Prop
  | .indices is => Strict is ∧ ∀ i ∈ is, i < n
  | p => p.Ok n

/-- An array of a column of which the rows can be told apart from what is stored: in a nullable column a value is not
empty and a null has no bytes, in another column there are no nulls. -/
def Clear (nullable : Bool) (a : BArr) : Prop :=
  ∀ x ∈ List.zip a.valid a.slots, if nullable then (x.1 = true ↔ x.2 ≠ []) else x.1 = true

theorem pick_slice {α : Type} [Inhabited α] (xs : List α) (p : Params) (hp : p.OkStrict xs.length) :
    (match p with
      | .range s e => slice xs (s, e)
      | .full => slice xs (0, xs.length)
      | .to e => slice xs (0, e)
      | .from s => slice xs (s, xs.length)
      | .indices is => is.map (fun i => xs.getD i default)) = p.pick xs := by
  cases p with
  | range s e => exact slice_eq_drop_take _ _ _ hp.1
  | full => simp [slice, Params.pick]
  | to e => simp [slice, Params.pick]
  | «from» s => simp only [slice, Params.pick]; rw [List.take_of_length_le (by simp)]
  | indices is =>
    apply List.map_congr_left
    intro i hi
    have := hp.2 i hi
    rw [List.getD_eq_getElem?_getD, List.getElem?_eq_getElem this, getElem!_pos xs i this]
    rfl

/-- All requests: what is read are the bytes of the rows, null and not null, and an empty one is null if the column is
nullable.  The size of the page is limited for the types with offsets of 32 bits. -/
theorem readBin_ok (pre post : List Nat) (minIo : Nat) (large nullable : Bool) (arrs : List BArr) (ha : ∀ a ∈ arrs, a.Ok)
    (hfit : pre.length + (arrs.flatMap BArr.slots).flatten.length < 2 ^ 63)
    (hsz : large = true ∨ (arrs.flatMap BArr.slots).flatten.length < 2 ^ 31) (p : Params) (hp : p.OkStrict (arrs.flatMap BArr.slots).length) :
    readBin (pre ++ encodeBin pre.length arrs ++ post) (pre.length + (dataOf arrs).length) minIo large nullable (arrs.flatMap BArr.slots).length p =
      some (arrOf nullable (p.pick (arrs.flatMap BArr.slots))) := by
  have hd := dataOf_eq arrs ha
  rw [encodeBin_eq _ _ ha, hd]
  generalize arrs.flatMap BArr.slots = vs at *
  have hat : At (pre ++ (vs.flatten ++ (sums pre.length (lens vs)).flatMap (Verif.RowIds.Serde.leBytes 8)) ++ post) pre.length vs.flatten :=
    ⟨pre, (sums pre.length (lens vs)).flatMap (Verif.RowIds.Serde.leBytes 8) ++ post, by simp, rfl⟩
  have hpos : At (pre ++ (vs.flatten ++ (sums pre.length (lens vs)).flatMap (Verif.RowIds.Serde.leBytes 8)) ++ post) (pre.length + vs.flatten.length)
      ((sums pre.length (lens vs)).flatMap (Verif.RowIds.Serde.leBytes 8)) := ⟨pre ++ vs.flatten, post, by simp, by simp⟩
  have hfit' : pre.length + vs.flatten.length < 256 ^ 8 := Nat.lt_of_lt_of_le hfit (by decide)
  have hps := pick_slice vs p hp
  cases p with
  | range s e =>
    simp only [readBin] at hps ⊢
    rw [getBin_ok _ _ large nullable _ vs hat hpos hfit' hsz s e hp.1 hp.2, hps]
  | full =>
    simp only [readBin] at hps ⊢
    rw [getBin_ok _ _ large nullable _ vs hat hpos hfit' hsz 0 _ (Nat.zero_le _) (Nat.le_refl _), hps]
  | to e =>
    simp only [readBin] at hps ⊢
    rw [getBin_ok _ _ large nullable _ vs hat hpos hfit' hsz 0 e (Nat.zero_le _) hp, hps]
  | «from» s =>
    simp only [readBin] at hps ⊢
    rw [getBin_ok _ _ large nullable _ vs hat hpos hfit' hsz s _ hp (Nat.le_refl _), hps]
  | indices is =>
    simp only [readBin] at hps ⊢
    rw [← hps]
    exact takeBin_ok _ _ minIo large nullable _ vs hat hpos hfit' is hp.1 hp.2 hsz

theorem pick_map {α β : Type} [Inhabited α] [Inhabited β] (f : α → β) (xs : List α) (p : Params) (hp : p.OkStrict xs.length) :
    p.pick (xs.map f) = (p.pick xs).map f := by
  cases p with
  | range s e => simp [Params.pick, List.map_take, List.map_drop]
  | full => rfl
  | to e => simp [Params.pick, List.map_take]
  | «from» s => simp [Params.pick, List.map_drop]
  | indices is =>
    simp only [Params.pick, List.map_map]
    apply List.map_congr_left
    intro i hi
    have := hp.2 i hi
    rw [getElem!_pos (xs.map f) i (by simpa using this), Function.comp_apply, getElem!_pos xs i this, List.getElem_map]

/-- The same in terms of rows. -/
theorem C103_read_kept (pre post : List Nat) (minIo : Nat) (large nullable : Bool) (arrs : List BArr) (ha : ∀ a ∈ arrs, a.Ok)
    (hfit : pre.length + (arrs.flatMap BArr.slots).flatten.length < 2 ^ 63)
    (hsz : large = true ∨ (arrs.flatMap BArr.slots).flatten.length < 2 ^ 31) (p : Params) (hp : p.OkStrict (arrs.flatMap BArr.slots).length) :
    (readBin (pre ++ encodeBin pre.length arrs ++ post) (pre.length + (dataOf arrs).length) minIo large nullable (arrs.flatMap BArr.slots).length p).map BArr.rows =
      some (p.pick ((arrs.flatMap BArr.slots).map (fun v => if nullable && v.isEmpty then none else some v))) := by
  rw [readBin_ok pre post minIo large nullable arrs ha hfit hsz p hp, Option.map_some, arrOf_rows, ← pick_map _ _ p hp]
  rfl

/-- The claim: for each request the rows that were written, with the values and the nulls. -/
def C103_read_statement : Prop :=
  ∀ (pre post : List Nat) (minIo : Nat) (large nullable : Bool) (arrs : List BArr) (_ : ∀ a ∈ arrs, a.Ok)
    (_ : nullable = true ∨ ∀ a ∈ arrs, ∀ v ∈ a.valid, v = true)
    (_ : pre.length + (dataOf arrs).length < 2 ^ 63) (_ : large = true ∨ (dataOf arrs).length < 2 ^ 31)
    (p : Params) (_ : p.Ok (arrs.flatMap BArr.rows).length)
    (_ : large = true ∨ (p.pick (arrs.flatMap BArr.slots)).flatten.length < 2 ^ 31),
    (readBin (pre ++ encodeBin pre.length arrs ++ post) (pre.length + (dataOf arrs).length) minIo large nullable (arrs.flatMap BArr.rows).length p).map BArr.rows =
      some (p.pick (arrs.flatMap BArr.rows))

theorem rows_clear (nullable : Bool) (a : BArr) (hl : a.Ok) (h : Clear nullable a) : a.rows = a.slots.map (norm nullable) := by
  have hll : a.valid.length = a.slots.length := by
    unfold BArr.slots
    rw [pieces_length]
    have := hl.1
    omega
  unfold BArr.rows Clear at *
  change List.zipWith _ a.valid a.slots = _
  generalize a.slots = vs at *
  generalize a.valid = bs at *
  clear hl
  induction bs generalizing vs with
  | nil => cases vs <;> simp_all
  | cons b bs ih =>
    cases vs with
    | nil => simp at hll
    | cons v vs =>
      have h0 := h (b, v) (by simp)
      rw [List.zipWith_cons_cons, List.map_cons, ih vs (fun x hx => h x (by rw [List.zip_cons_cons]; exact List.mem_cons_of_mem _ hx)) (by simpa using hll)]
      congr 1
      cases nullable <;> cases v <;> cases b <;> simp_all [norm]

theorem rows_length (a : BArr) (h : a.Ok) : a.rows.length = a.slots.length := by
  unfold BArr.rows BArr.slots
  rw [List.length_zipWith, pieces_length]
  have := h.1
  omega

/-- It holds for arrays that can be told apart from what is stored, and indices that increase.  Missing: empty values in
nullable columns, nulls that have bytes below them, repeated indices. -/
theorem C103_read_partial (pre post : List Nat) (minIo : Nat) (large nullable : Bool) (arrs : List BArr) (ha : ∀ a ∈ arrs, a.Ok)
    (hc : ∀ a ∈ arrs, Clear nullable a) (hfit : pre.length + (dataOf arrs).length < 2 ^ 63)
    (hsz : large = true ∨ (dataOf arrs).length < 2 ^ 31) (p : Params) (hp : p.OkStrict (arrs.flatMap BArr.rows).length) :
    (readBin (pre ++ encodeBin pre.length arrs ++ post) (pre.length + (dataOf arrs).length) minIo large nullable (arrs.flatMap BArr.rows).length p).map BArr.rows =
      some (p.pick (arrs.flatMap BArr.rows)) := by
  have hd := dataOf_eq arrs ha
  have hl : (arrs.flatMap BArr.rows).length = (arrs.flatMap BArr.slots).length := by
    rw [List.length_flatMap, List.length_flatMap]
    congr 1
    exact List.map_congr_left (fun a h => rows_length a (ha a h))
  have hr : arrs.flatMap BArr.rows = (arrs.flatMap BArr.slots).map (norm nullable) := by
    rw [List.map_flatMap, List.flatMap_def, List.flatMap_def]
    congr 1
    exact List.map_congr_left (fun a h => rows_clear nullable a (ha a h) (hc a h))
  rw [hd] at hfit hsz
  rw [hl] at hp
  rw [hl, hr]
  exact C103_read_kept pre post minIo large nullable arrs ha hfit hsz p hp

/-- An empty string of a nullable column is read as null. -/
theorem C103_empty_violated :
    (readBin (encodeBin 0 [⟨[0, 0, 1], [true, true], [65]⟩]) 1 65536 false true 2 .full).map BArr.rows = some [none, some [65]] := by
  decide +kernel

/-- A null with bytes below it is read as these bytes. -/
theorem C103_null_violated :
    (readBin (encodeBin 0 [⟨[0, 1, 2], [false, true], [66, 65]⟩]) 2 65536 false true 2 .full).map BArr.rows = some [some [66], some [65]] := by
  decide +kernel

/-- The first index twice: the chunk counts as contiguous, the value is in the buffer once and the offsets point behind
it, so that the array cannot be built. -/
theorem C103_repeated_violated :
    readBin (encodeBin 0 [⟨[0, 1, 2], [true, true], [66, 65]⟩]) 2 65536 false false 2 (.indices [1, 1]) = none := by
  decide +kernel

theorem C103_read_violated : ¬ C103_read_statement := by
  intro h
  have := h [] [] 65536 false true [⟨[0, 0, 1], [true, true], [65]⟩] (by
    intro a ha
    simp only [List.mem_singleton] at ha
    subst ha
    exact ⟨rfl, ⟨by decide, by decide, by decide, trivial⟩, by decide⟩) (Or.inl rfl) (by decide) (Or.inr (by decide)) .full trivial (Or.inr (by decide))
  have h2 := C103_empty_violated
  have e : ([] : List Nat) ++ encodeBin 0 [⟨[0, 0, 1], [true, true], [65]⟩] ++ [] = encodeBin 0 [⟨[0, 0, 1], [true, true], [65]⟩] := by simp
  simp only [List.length_nil] at this
  rw [e] at this
  have h3 := h2.symm.trans this
  revert h3
  decide +kernel

/-- Two arrays, the second one with an offset, behind three bytes; the first, third and fourth rows, with requests of more than no
bytes. -/
theorem C103_nonvacuous :
    (readBin ([9, 9, 9] ++ encodeBin 3 [⟨[0, 2, 2], [true, false], [65, 66]⟩, ⟨[1, 2, 4], [true, true], [7, 67, 68, 69]⟩] ++ [5])
      8 0 false true 4 (.indices [0, 2, 3])).map BArr.rows = some [some [65, 66], some [67], some [68, 69]] ∧
    (Params.indices [0, 2, 3]).OkStrict 4 ∧
    (∀ a ∈ [(⟨[0, 2, 2], [true, false], [65, 66]⟩ : BArr), ⟨[1, 2, 4], [true, true], [7, 67, 68, 69]⟩], a.Ok ∧ Clear true a) ∧
    (dataOf [⟨[0, 2, 2], [true, false], [65, 66]⟩, ⟨[1, 2, 4], [true, true], [7, 67, 68, 69]⟩]).length = 5 := by
  refine ⟨by decide +kernel, ⟨by simp [Strict], by decide⟩, ?_, by decide⟩
  intro a ha
  simp only [List.mem_cons, List.not_mem_nil, or_false] at ha
  rcases ha with rfl | rfl
  · exact ⟨⟨rfl, by simp [Sorted], by decide⟩, by unfold Clear; decide⟩
  · exact ⟨⟨rfl, by simp [Sorted], by decide⟩, by unfold Clear; decide⟩

end Verif.Legacy
