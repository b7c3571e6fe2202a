import Verif.Legacy.Lemmas
/-! C102: the rows that are read from a legacy page of values of a fixed width are the rows that were written. -/
namespace Verif.Legacy
open Verif.ListCol (slice)
open Verif.Phys (chunk)

/-- What a request asks for, of some rows. -/
def Params.pick {α : Type} [Inhabited α] (rows : List α) : Params → List α
  | .range s e => (rows.take e).drop s
  | .full => rows
  | .to e => rows.take e
  | .from s => rows.drop s
  | .indices is => is.map (fun i => rows[i]!)

/-- A request for rows that are there; indices are sorted. -/
def Params.Ok (n : Nat) : Params → Prop
  | .range s e => s ≤ e ∧ e ≤ n
  | .full => True
  | .to e => e ≤ n
  | .from s => s ≤ n
  | .indices is => Sorted is ∧ ∀ i ∈ is, i < n

/-- A request for rows some of which are not there. -/
def Params.Beyond (n : Nat) : Params → Prop
  | .range s e => s < e ∧ n < e
  | .to e => 0 < e ∧ n < e
  | .indices is => Sorted is ∧ ∃ i ∈ is, n ≤ i
  | _ => False

/-- Row `i` of a column, of which each row has `m` elements. -/
def rowAt (m : Nat) (items : List Item) (i : Nat) : List Item := (items.drop (i * m)).take m

theorem slice_eq_drop_take {α : Type} (xs : List α) (s e : Nat) (h : s ≤ e) : slice xs (s, e) = (xs.take e).drop s := by
  unfold slice
  rw [List.drop_take]

theorem kept_eq (t : Ty) (len : Nat) (arrs : List (List Cell)) :
    kept t len arrs = (List.range len).map (rowAt t.mult (arrs.flatten.map (keep t.leaf))) := by
  unfold kept chunk rowAt slice
  apply List.map_congr_left
  intro i _
  simp only [Nat.add_sub_cancel_left]

/-- All requests: what is read are the rows, with the values that are kept: the value in the buffer, but false for a
boolean that is null.  Nothing that is read is null. -/
theorem C102_read_kept (pre post : List Nat) (block : Nat) (t : Ty) (ht : t.Pos) (arrs : List (List Cell)) (len : Nat)
    (hf : ∀ a ∈ arrs, ∀ c ∈ a, Fits t.leaf c.2) (hlen : arrs.flatten.length = len * t.mult) (p : Params) (hp : p.Ok len)
    (hb : t = .bool ∨ t.leaf ≠ .bool ∨ ∀ is, p ≠ .indices is) :
    readPlain (pre ++ encode t arrs ++ post) block pre.length t len p =
      some (p.pick ((List.range len).map (rowAt t.mult (arrs.flatten.map (keep t.leaf))))) := by
  have hat : At (pre ++ encode t arrs ++ post) pre.length (encode t arrs) := ⟨pre, post, rfl, rfl⟩
  have hf' : ∀ c ∈ arrs.flatten, Fits t.leaf c.2 := by
    intro c hc
    obtain ⟨a, ha, hc⟩ := List.mem_flatten.1 hc
    exact hf a ha c hc
  rw [← kept_eq]
  have hl := kept_length t len arrs
  cases p with
  | range s e =>
    simp only [readPlain]
    rw [rows_get _ _ arrs t len s e ht hf' hlen hat hp.1 hp.2, slice_eq_drop_take _ _ _ hp.1]
    rfl
  | full =>
    simp only [readPlain]
    rw [rows_get _ _ arrs t len 0 len ht hf' hlen hat (Nat.zero_le _) (Nat.le_refl _), slice_eq_drop_take _ _ _ (Nat.zero_le _), List.drop_zero,
      List.take_of_length_le (by omega)]
    rfl
  | to e =>
    simp only [readPlain]
    rw [rows_get _ _ arrs t len 0 e ht hf' hlen hat (Nat.zero_le _) hp, slice_eq_drop_take _ _ _ (Nat.zero_le _), List.drop_zero]
    rfl
  | «from» s =>
    simp only [readPlain]
    rw [rows_get _ _ arrs t len s len ht hf' hlen hat hp (Nat.le_refl _), slice_eq_drop_take _ _ _ hp, List.take_of_length_le (by omega)]
    rfl
  | indices is =>
    simp only [readPlain]
    rw [take_ok _ block _ arrs t len ht hf' hlen hat (by
      rcases hb with h | h | h
      · exact Or.inl h
      · exact Or.inr h
      · exact absurd rfl (h is)) is hp.1 hp.2]
    simp only [Params.pick, Option.some.injEq]
    apply List.map_congr_left
    intro i hi
    have := hp.2 i hi
    rw [List.getD_eq_getElem?_getD, List.getElem?_eq_getElem (by omega), getElem!_pos _ _ (by omega)]
    rfl

/-- The claim: every request for rows that are there gives the rows that were written, those that have nulls too. -/
def C102_read_statement : Prop :=
  ∀ (pre post : List Nat) (block : Nat) (t : Ty) (_ : t.Pos) (arrs : List (List Cell)) (len : Nat)
    (_ : ∀ a ∈ arrs, ∀ c ∈ a, Fits t.leaf c.2) (_ : arrs.flatten.length = len * t.mult) (p : Params) (_ : p.Ok len),
    (readPlain (pre ++ encode t arrs ++ post) block pre.length t len p).map (fun rows => rows.map (fun r => r.map (fun x => (true, x)))) =
      some (p.pick ((List.range len).map (fun i => (arrs.flatten.drop (i * t.mult)).take t.mult)))

/-- Without nulls the rows are those that were written.  Missing: columns with nulls, and indices of lists of
booleans. -/
theorem C102_read_partial (pre post : List Nat) (block : Nat) (t : Ty) (ht : t.Pos) (arrs : List (List Cell)) (len : Nat)
    (hf : ∀ a ∈ arrs, ∀ c ∈ a, Fits t.leaf c.2) (hv : ∀ a ∈ arrs, ∀ c ∈ a, c.1 = true) (hlen : arrs.flatten.length = len * t.mult)
    (p : Params) (hp : p.Ok len) (hb : t = .bool ∨ t.leaf ≠ .bool ∨ ∀ is, p ≠ .indices is) :
    readPlain (pre ++ encode t arrs ++ post) block pre.length t len p =
      some (p.pick ((List.range len).map (rowAt t.mult (arrs.flatten.map Prod.snd)))) := by
  rw [C102_read_kept pre post block t ht arrs len hf hlen p hp hb]
  have : arrs.flatten.map (keep t.leaf) = arrs.flatten.map Prod.snd := by
    apply List.map_congr_left
    intro c hc
    obtain ⟨a, ha, hc⟩ := List.mem_flatten.1 hc
    have h1 := hf a ha c hc
    have h2 := hv a ha c hc
    obtain ⟨v, x⟩ := c
    subst h2
    cases hl : t.leaf <;> rw [hl] at h1 <;> cases x <;> simp_all [keep, Fits, Item.toBit]
  rw [this]

theorem get_beyond (file : List Nat) (pos : Nat) : ∀ (t : Ty) (len s e : Nat), t.Pos → s < e → len < e → get file pos t len s e = none
  | .bool, len, s, e, _, h1, h2 => by
    unfold get
    rw [if_neg (by omega), if_pos h2]
  | .prim w, len, s, e, _, h1, h2 => by
    unfold get
    rw [if_neg (by omega), if_pos h2]
  | .fsb w, len, s, e, h, h1, h2 => by
    have h : 0 < w := h
    unfold get
    have a1 := Nat.mul_lt_mul_of_pos_right h1 h
    have a2 := Nat.mul_lt_mul_of_pos_right h2 h
    rw [if_neg (by omega), if_neg (by omega), if_pos a2]
  | .fsl n t, len, s, e, h, h1, h2 => by
    unfold get
    rw [if_neg (by omega)]
    exact get_beyond file pos t _ _ _ h.2 (Nat.mul_lt_mul_of_pos_right h1 h.1) (Nat.mul_lt_mul_of_pos_right h2 h.1)

theorem mapM_none {α β : Type} (f : α → Option β) : ∀ (xs : List α) (x : α), x ∈ xs → f x = none → xs.mapM f = none
  | y :: ys, x, hx, h => by
    rw [List.mapM_cons]
    rcases List.mem_cons.1 hx with rfl | hx
    · rw [h]; rfl
    · rw [mapM_none f ys x hx h]
      cases f y <;> rfl

/-- Requests for rows that are not there give no rows, whatever is in the file. -/
theorem C102_beyond (file : List Nat) (block pos : Nat) (t : Ty) (ht : t.Pos) (len : Nat) (p : Params) (hp : p.Beyond len) :
    readPlain file block pos t len p = none := by
  cases p with
  | full => exact hp.elim
  | «from» s => exact hp.elim
  | range s e => simp only [readPlain]; rw [get_beyond file pos t len s e ht hp.1 hp.2]; rfl
  | to e => simp only [readPlain]; rw [get_beyond file pos t len 0 e ht hp.1 hp.2]; rfl
  | indices is =>
    obtain ⟨hs, i, hi, hn⟩ := hp
    have key : ∀ cs : List (List Nat), cs.flatten = is → cs.mapM (takeChunk file pos t len) = none := by
      intro cs he
      obtain ⟨c, hc, hic⟩ := List.mem_flatten.1 (he ▸ hi)
      apply mapM_none _ _ c hc
      have hcs := sorted_pieces cs (he ▸ hs) c hc
      have hne : c ≠ [] := List.ne_nil_of_mem hic
      have hle := sorted_getLast c hne hcs
      unfold takeChunk
      obtain ⟨x, xs, rfl⟩ := List.exists_cons_of_ne_nil hne
      rw [List.head?_cons, List.getLast?_eq_some_getLast hne]
      simp only [Option.bind_eq_bind, Option.bind_some]
      rw [get_beyond file pos t len x _ ht (by have := hle x (by simp); omega) (by have := hle i hic; omega)]
      rfl
    unfold readPlain take
    cases is with
    | nil => exact nomatch hi
    | cons x xs =>
      cases t with
      | bool => simp only; rw [key _ (by rw [boolChunksFrom_flatten]; rfl)]; rfl
      | prim w => simp only [Ty.byteWidth, Option.bind_eq_bind, Option.bind_some]; rw [key _ (by rw [chunksFrom_flatten]; rfl)]; rfl
      | fsb w => simp only [Ty.byteWidth, Option.bind_eq_bind, Option.bind_some]; rw [key _ (by rw [chunksFrom_flatten]; rfl)]; rfl
      | fsl n t =>
        simp only
        cases (Ty.fsl n t).byteWidth with
        | none => rfl
        | some w => simp only [Option.bind_eq_bind, Option.bind_some]; rw [key _ (by rw [chunksFrom_flatten]; rfl)]; rfl

/-- Indices of a fixed size list of booleans make the reader panic, also if the rows are there and sorted. -/
theorem C102_bool_lists_violated (file : List Nat) (block pos n len : Nat) (i : Nat) (is : List Nat) :
    readPlain file block pos (.fsl n .bool) len (.indices (i :: is)) = none := by
  simp [readPlain, take, Ty.byteWidth]

/-- A null is read back as the value below it, here 7: the claim does not hold. -/
theorem C102_read_violated : ¬ C102_read_statement := by
  intro h
  have := h [] [] 1 (.prim 1) Nat.one_pos [[(false, .raw [7])]] 1 (by simp [Fits, Ty.leaf]) (by decide) .full trivial
  revert this
  decide

/-- Indices that are not sorted fail. -/
theorem C102_unsorted_violated :
    readPlain (encode (.prim 1) [[(true, .raw [7]), (true, .raw [8]), (true, .raw [9])]]) 64 0 (.prim 1) 3 (.indices [2, 0]) = none := by
  decide

/-- Lists of two booleans, in two arrays, three bytes into the file: rows 1 and 2, and of numbers in pairs the rows 0, 2,
2 with requests of one byte. -/
theorem C102_nonvacuous :
    readPlain ([9, 9, 9] ++ encode (.fsl 2 .bool) [[(true, .bit true), (true, .bit false)],
        [(true, .bit true), (true, .bit true), (false, .bit true), (true, .bit true)]] ++ [5]) 1 3 (.fsl 2 .bool) 3 (.range 1 3) =
      some [[.bit true, .bit true], [.bit false, .bit true]] ∧
    (Params.range 1 3).Ok 3 ∧ (Ty.fsl 2 .bool).Pos ∧ (Ty.fsl 2 (.prim 1)).Pos ∧ (Params.indices [0, 2, 2]).Ok 3 ∧
    readPlain ([9, 9, 9] ++ encode (.fsl 2 (.prim 1)) [[(true, .raw [1]), (true, .raw [2])],
        [(true, .raw [3]), (true, .raw [4]), (true, .raw [5]), (true, .raw [6])]] ++ [5]) 1 3 (.fsl 2 (.prim 1)) 3 (.indices [0, 2, 2]) =
      some [[.raw [1], .raw [2]], [.raw [5], .raw [6]], [.raw [5], .raw [6]]] := by
  refine ⟨by decide, by unfold Params.Ok; decide, ⟨by decide, trivial⟩, ⟨by decide, by unfold Ty.Pos; decide⟩, ⟨?_, by decide⟩, by decide⟩
  simp [Sorted]

end Verif.Legacy
