import Verif.Legacy.Column
import Verif.Legacy.PropsBin
/-! Lemmas about columns of legacy files. -/
namespace Verif.Legacy
open Verif.ListCol
open Verif.RowIds.Serde (leBytes fromLe leBytes_length fromLe_leBytes)

variable {α β : Type}

/-- What the file keeps of the rows of an array. -/
def stored : CTy → Arr → List Val
  | .null _, a => List.replicate a.length .null
  | .fixed _ t, .fixed rows => rows.map (fun r => .items (r.2.map (keep t.leaf)))
  | .bytes _ _ nullable, .bytes b => b.slots.map (fun v => Val.ofBytes (norm nullable v))
  | .dict _ _ values, .dict keys _ => keys.map (fun k => values.getD (fromLe k.2.toRaw) .null)
  | .pair a b, .pair x y => List.zipWith .pair (stored a x) (stored b y)
  | .struct t, .struct _ x => stored t x
  | .list _ _ t, .list os _ v => (pieces (stored t v) os).map Val.ofList
  | _, _ => []

/-- An array of the type, as arrow has them. -/
def Good : CTy → Arr → Prop
  | .null _, .null _ => True
  | .fixed _ t, .fixed rows => t.Pos ∧ (t = .bool ∨ t.leaf ≠ .bool) ∧ ∀ r ∈ rows, r.2.length = t.mult ∧ ∀ c ∈ r.2, Fits t.leaf c.2
  | .bytes _ _ _, .bytes b => b.Ok
  | .dict _ w values, .dict keys _ => 0 < w ∧ ∀ k ∈ keys, Fits (.prim w) k.2 ∧ fromLe k.2.toRaw < values.length
  | .pair a b, .pair x y => Good a x ∧ Good b y ∧ x.length = y.length
  | .struct t, .struct valid x => Good t x ∧ valid.length = x.length
  | .list _ _ t, .list os valid v => Good t v ∧ OffsOk v.length os ∧ os.length = valid.length + 1
  | _, _ => False

/-- The sizes that the offsets of 32 bits of strings and lists are limited to, and those of 64 bits. -/
def Sized : CTy → List Arr → Prop
  | .bytes _ large _, arrs => large = true ∨ (dataOf (arrs.map Arr.asBytes)).length < 2 ^ 31
  | .pair a b, arrs => Sized a (arrs.map Arr.first) ∧ Sized b (arrs.map Arr.rest)
  | .struct t, arrs => Sized t (arrs.map Arr.fields)
  | .list _ large t, arrs => total (arrs.map Arr.items) < (if large then 2 ^ 63 else 2 ^ 31) ∧ Sized t (arrs.map Arr.items)
  | _, _ => True

/-- The fields that have pages. -/
def CTy.ids : CTy → List Nat
  | .null id => [id]
  | .fixed id _ => [id]
  | .bytes id _ _ => [id]
  | .dict id _ _ => [id]
  | .pair a b => a.ids ++ b.ids
  | .struct t => t.ids
  | .list id _ t => id :: t.ids

/-! ### Lengths and slices -/

theorem stored_length : ∀ (t : CTy) (a : Arr), Good t a → (stored t a).length = a.length := by
  intro t
  induction t with
  | null id => intro a h; simp [stored]
  | fixed id t => intro a h; cases a <;> simp_all [Good, stored, Arr.length]
  | bytes id l n =>
    intro a h
    cases a <;> simp_all [Good, stored, Arr.length]
    rename_i b
    unfold BArr.slots
    rw [pieces_length]
    have := h.1
    omega
  | dict id w vs => intro a h; cases a <;> simp_all [Good, stored, Arr.length]
  | pair x y ihx ihy =>
    intro a h
    cases a <;> simp only [Good] at h
    simp only [stored, Arr.length, List.length_zipWith, ihx _ h.1, ihy _ h.2.1, h.2.2, Nat.min_self]
  | struct t ih =>
    intro a h
    cases a <;> simp only [Good] at h
    exact ih _ h.1
  | list id l t ih =>
    intro a h
    cases a <;> simp only [Good] at h
    simp only [stored, Arr.length, List.length_map, pieces_length]
    omega

theorem pieces_drop (data : List α) : ∀ (s : Nat) (os : List Nat), pieces data (os.drop s) = (pieces data os).drop s
  | 0, os => by simp
  | s + 1, [] => by simp [pieces]
  | s + 1, [a] => by simp [pieces]
  | s + 1, a :: b :: r => by
    rw [List.drop_succ_cons, pieces_drop data s (b :: r), pieces, List.drop_succ_cons]

theorem pieces_take (data : List α) : ∀ (n : Nat) (os : List Nat), pieces data (os.take (n + 1)) = (pieces data os).take n
  | 0, [] => by simp [pieces]
  | 0, [_] => by simp [pieces]
  | 0, a :: b :: r => by simp [pieces]
  | n + 1, [] => by simp [pieces]
  | n + 1, [_] => by simp [pieces]
  | n + 1, a :: b :: r => by
    have := pieces_take data n (b :: r)
    rw [List.take_succ_cons, List.take_succ_cons, pieces, ← List.take_succ_cons, this, pieces, List.take_succ_cons]

theorem pieces_slice (data : List α) (os : List Nat) (s e : Nat) (h : s ≤ e) : pieces data (slice os (s, e + 1)) = slice (pieces data os) (s, e) := by
  unfold slice
  simp only
  have : e + 1 - s = (e - s) + 1 := by omega
  rw [this, pieces_take, pieces_drop]

theorem slice_length (t : CTy) : ∀ (a : Arr) (s e : Nat), Good t a → s ≤ e → e ≤ a.length → (a.slice s e).length = e - s := by
  induction t with
  | null id => intro a s e h _ _; cases a <;> simp_all [Good, Arr.slice, Arr.length]
  | fixed id t => intro a s e h _ he; cases a <;> simp_all [Good, Arr.slice, Arr.length, length_slice]
  | bytes id l n => intro a s e h _ he; cases a <;> simp_all [Good, Arr.slice, Arr.length, length_slice]
  | dict id w vs => intro a s e h _ he; cases a <;> simp_all [Good, Arr.slice, Arr.length, length_slice]
  | pair x y ihx ihy =>
    intro a s e h hse he
    cases a <;> simp only [Good] at h
    simp only [Arr.slice, Arr.length] at he ⊢
    exact ihx _ s e h.1 hse he
  | struct t ih =>
    intro a s e h hse he
    cases a <;> simp only [Good] at h
    simp only [Arr.slice, Arr.length] at he ⊢
    exact ih _ s e h.1 hse he
  | list id l t ih =>
    intro a s e h hse he
    cases a <;> simp only [Good] at h
    simp only [Arr.slice, Arr.length] at he ⊢
    exact length_slice _ _ he

theorem sorted_slice (os : List Nat) (r : Nat × Nat) (h : Sorted os) : Sorted (slice os r) := by
  unfold slice
  have h1 : Sorted (os.drop r.1) := by
    have := List.take_append_drop r.1 os
    rw [← this, sorted_append] at h
    exact h.2.1
  have := List.take_append_drop (r.2 - r.1) (os.drop r.1)
  rw [← this, sorted_append] at h1
  exact h1.1

theorem good_slice (t : CTy) : ∀ (a : Arr) (s e : Nat), Good t a → s ≤ e → e ≤ a.length → Good t (a.slice s e) := by
  induction t with
  | null id => intro a s e h _ _; cases a <;> simp_all [Good, Arr.slice]
  | fixed id t =>
    intro a s e h _ _
    cases a <;> simp only [Good] at h
    exact ⟨h.1, h.2.1, fun r hr => h.2.2 r (mem_slice hr)⟩
  | bytes id l n =>
    intro a s e h hse he
    cases a <;> simp only [Good] at h
    rename_i b
    obtain ⟨h1, h2, h3⟩ := h
    simp only [Arr.length] at he
    refine ⟨?_, sorted_slice _ _ h2, fun o ho => h3 o (mem_slice ho)⟩
    simp only
    rw [length_slice _ _ (by simp only; omega), length_slice _ _ he]
    simp only
    omega
  | dict id w vs =>
    intro a s e h _ _
    cases a <;> simp only [Good] at h
    exact ⟨h.1, fun k hk => h.2 k (mem_slice hk)⟩
  | pair x y ihx ihy =>
    intro a s e h hse he
    cases a <;> simp only [Good] at h
    simp only [Arr.length] at he
    exact ⟨ihx _ s e h.1 hse he, ihy _ s e h.2.1 hse (h.2.2 ▸ he), by
      rw [slice_length x _ s e h.1 hse he, slice_length y _ s e h.2.1 hse (h.2.2 ▸ he)]⟩
  | struct t ih =>
    intro a s e h hse he
    cases a <;> simp only [Good] at h
    simp only [Arr.length] at he
    exact ⟨ih _ s e h.1 hse he, by rw [length_slice _ _ (by simp only; omega), slice_length t _ s e h.1 hse he]⟩
  | list id l t ih =>
    intro a s e h hse he
    cases a <;> simp only [Good] at h
    rename_i os valid v
    obtain ⟨h1, ⟨h2, h3, h4⟩, h5⟩ := h
    simp only [Arr.length] at he
    have hl : (slice os (s, e + 1)).length = e + 1 - s := length_slice _ _ (by simp only; omega)
    refine ⟨h1, ⟨?_, sorted_slice _ _ h3, fun o ho => h4 o (mem_slice ho)⟩, ?_⟩
    · intro h0
      rw [h0] at hl
      simp at hl
      omega
    · rw [hl, length_slice _ _ he]
      simp only
      omega

theorem stored_slice (t : CTy) : ∀ (a : Arr) (s e : Nat), Good t a → s ≤ e → e ≤ a.length → stored t (a.slice s e) = slice (stored t a) (s, e) := by
  induction t with
  | null id =>
    intro a s e h hse he
    cases a <;> simp only [Good] at h
    simp only [Arr.length] at he
    simp only [stored, Arr.slice, Arr.length]
    rw [Verif.Phys.slice_replicate _ _ _ _ he]
  | fixed id t =>
    intro a s e h _ _
    cases a <;> simp only [Good] at h
    simp only [stored, Arr.slice, slice_map]
  | bytes id l n =>
    intro a s e h hse _
    cases a <;> simp only [Good] at h
    simp only [stored, Arr.slice, BArr.slots, slice_map]
    rw [pieces_slice _ _ _ _ hse]
  | dict id w vs =>
    intro a s e h _ _
    cases a <;> simp only [Good] at h
    simp only [stored, Arr.slice, slice_map]
  | pair x y ihx ihy =>
    intro a s e h hse he
    cases a <;> simp only [Good] at h
    simp only [Arr.length] at he
    simp only [stored, Arr.slice]
    rw [ihx _ s e h.1 hse he, ihy _ s e h.2.1 hse (h.2.2 ▸ he), Verif.Phys.slice_zipWith]
  | struct t ih =>
    intro a s e h hse he
    cases a <;> simp only [Good] at h
    exact ih _ s e h.1 hse he
  | list id l t ih =>
    intro a s e h hse _
    cases a <;> simp only [Good] at h
    simp only [stored, Arr.slice, slice_map]
    rw [pieces_slice _ _ _ _ hse]

/-! ### Files that grow -/

/-- All that `f` has is in `g`, as far as the pages of `t` are concerned. -/
def Ext (batch : Nat) (t : CTy) (f g : File) : Prop :=
  (∃ more, g.bytes = f.bytes ++ more) ∧ ∀ id ∈ t.ids, g.page id batch = f.page id batch

theorem page_add (f : File) (bs : List Nat) (id batch pos len : Nat) : (f.add bs id batch pos len).page id batch = some (pos, len) := by
  simp [File.page, File.add]

theorem page_add_other (f : File) (bs : List Nat) (id batch pos len id' batch' : Nat) (h : id' ≠ id ∨ batch' ≠ batch) :
    (f.add bs id batch pos len).page id' batch' = f.page id' batch' := by
  simp only [File.page, File.add]
  rw [List.find?_cons_of_neg]
  simp only [beq_iff_eq, Prod.mk.injEq, not_and]
  intro h1 h2
  rcases h with h | h
  · exact h h1.symm
  · exact h h2.symm

theorem write_grows (batch : Nat) : ∀ (t : CTy) (arrs : List Arr) (f : File), ∃ more, (write batch t arrs f).bytes = f.bytes ++ more := by
  intro t
  induction t with
  | null id => intro arrs f; exact ⟨_, rfl⟩
  | fixed id t => intro arrs f; exact ⟨_, rfl⟩
  | bytes id l n => intro arrs f; exact ⟨_, rfl⟩
  | dict id w vs => intro arrs f; exact ⟨_, rfl⟩
  | pair a b iha ihb =>
    intro arrs f
    obtain ⟨m1, h1⟩ := iha (arrs.map Arr.first) f
    obtain ⟨m2, h2⟩ := ihb (arrs.map Arr.rest) (write batch a (arrs.map Arr.first) f)
    exact ⟨m1 ++ m2, by rw [write, h2, h1, List.append_assoc]⟩
  | struct t ih => intro arrs f; exact ih _ _
  | list id l t ih =>
    intro arrs f
    obtain ⟨m, h⟩ := ih (arrs.map Arr.items) (f.add (encode (.prim (offWidth l)) [(0 :: positionsFrom 0 (arrs.map Arr.offsets)).map (fun p => (true, .raw (leBytes (offWidth l) p)))])
        id batch f.bytes.length (0 :: positionsFrom 0 (arrs.map Arr.offsets)).length)
    exact ⟨_ ++ m, by rw [write, h, ← List.append_assoc]; rfl⟩

theorem write_page_other (batch : Nat) : ∀ (t : CTy) (arrs : List Arr) (f : File) (id' batch' : Nat), id' ∉ t.ids ∨ batch' ≠ batch →
    (write batch t arrs f).page id' batch' = f.page id' batch' := by
  intro t
  induction t with
  | null id => intro arrs f id' b' h; exact page_add_other _ _ _ _ _ _ _ _ (by simpa [CTy.ids] using h)
  | fixed id t => intro arrs f id' b' h; exact page_add_other _ _ _ _ _ _ _ _ (by simpa [CTy.ids] using h)
  | bytes id l n => intro arrs f id' b' h; exact page_add_other _ _ _ _ _ _ _ _ (by simpa [CTy.ids] using h)
  | dict id w vs => intro arrs f id' b' h; exact page_add_other _ _ _ _ _ _ _ _ (by simpa [CTy.ids] using h)
  | pair a b iha ihb =>
    intro arrs f id' b' h
    simp only [CTy.ids, List.mem_append, not_or] at h
    rw [write, ihb _ _ id' b' (h.imp And.right id), iha _ _ id' b' (h.imp And.left id)]
  | struct t ih => intro arrs f id' b' h; exact ih _ _ id' b' h
  | list id l t ih =>
    intro arrs f id' b' h
    simp only [CTy.ids, List.mem_cons, not_or] at h
    rw [write, ih _ _ id' b' (h.imp And.right _root_.id), page_add_other _ _ _ _ _ _ _ _ (h.imp And.left _root_.id)]

end Verif.Legacy
