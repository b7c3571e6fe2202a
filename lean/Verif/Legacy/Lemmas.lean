import Verif.Legacy.Model
import Verif.Phys.LemmasBase
/-! Lemmas about pages of values of a fixed width. -/
namespace Verif.Legacy
open Verif.ListCol
open Verif.Phys (chunk packBits bitsOf length_packBits bitsOf_range slice_chunk length_chunk chunk_append)

variable {α β : Type}

/-- What the page keeps of an element. -/
def keep (t : Ty) (c : Cell) : Item :=
  match t with
  | .bool => .bit (c.1 && c.2.toBit)
  | _ => c.2

/-! ### Pieces of equal length -/

theorem flatMap_length (f : α → List β) (w : Nat) : ∀ (xs : List α), (∀ x ∈ xs, (f x).length = w) → (xs.flatMap f).length = xs.length * w
  | [], _ => by simp
  | x :: xs, h => by
    rw [List.flatMap_cons, List.length_append, h x (by simp), flatMap_length f w xs (fun y hy => h y (by simp [hy])), List.length_cons, Nat.add_mul]
    omega

theorem drop_flatMap (f : α → List β) (w : Nat) : ∀ (xs : List α) (s : Nat), (∀ x ∈ xs, (f x).length = w) → (xs.flatMap f).drop (s * w) = (xs.drop s).flatMap f
  | [], s, _ => by simp
  | x :: xs, 0, _ => by simp
  | x :: xs, s + 1, h => by
    rw [List.flatMap_cons, List.drop_succ_cons, Nat.add_mul, Nat.one_mul, Nat.add_comm, ← drop_flatMap f w xs s (fun y hy => h y (by simp [hy])),
      ← List.drop_drop]
    congr 1
    have := h x (by simp)
    rw [← this, List.drop_left]

theorem take_flatMap (f : α → List β) (w : Nat) : ∀ (xs : List α) (s : Nat), (∀ x ∈ xs, (f x).length = w) → (xs.flatMap f).take (s * w) = (xs.take s).flatMap f
  | [], s, _ => by simp
  | x :: xs, 0, _ => by simp
  | x :: xs, s + 1, h => by
    rw [List.flatMap_cons, List.take_succ_cons, List.flatMap_cons, Nat.add_mul, Nat.one_mul, ← take_flatMap f w xs s (fun y hy => h y (by simp [hy])),
      List.take_append, h x (by simp), List.take_of_length_le (by rw [h x (by simp)]; omega)]
    congr 2
    omega

theorem mem_slice {xs : List α} {r : Nat × Nat} {x : α} (h : x ∈ slice xs r) : x ∈ xs := List.mem_of_mem_drop (List.mem_of_mem_take h)

theorem slice_flatMap (f : α → List β) (w : Nat) (xs : List α) (s e : Nat) (h : ∀ x ∈ xs, (f x).length = w) :
    slice (xs.flatMap f) (s * w, e * w) = (slice xs (s, e)).flatMap f := by
  unfold slice
  simp only
  rw [drop_flatMap f w xs s h, ← Nat.sub_mul, take_flatMap f w _ _ (fun x hx => h x (List.mem_of_mem_drop hx))]

theorem chunk_flatMap (f : α → List β) (w : Nat) : ∀ (xs : List α), (∀ x ∈ xs, (f x).length = w) → chunk w xs.length (xs.flatMap f) = xs.map f
  | [], _ => by simp [chunk]
  | x :: xs, h => by
    have hx := h x (by simp)
    rw [List.flatMap_cons, List.length_cons, Nat.add_comm, chunk_append w 1 xs.length _ _ (by omega), chunk_flatMap f w xs (fun y hy => h y (by simp [hy]))]
    have : chunk w 1 (f x) = [f x] := by
      simp [chunk, slice, List.take_of_length_le (Nat.le_of_eq hx)]
    rw [this]; rfl

/-! ### Reading a piece of the file -/

/-- The bytes `b` are at `pos`. -/
def At (file : List Nat) (pos : Nat) (b : List Nat) : Prop := ∃ pre post, file = pre ++ b ++ post ∧ pre.length = pos

theorem read_at {file b : List Nat} {pos : Nat} (h : At file pos b) (x y : Nat) (hxy : x ≤ y) (hy : y ≤ b.length) :
    read file (pos + x) (pos + y) = some (slice b (x, y)) := by
  obtain ⟨pre, post, rfl, rfl⟩ := h
  unfold read
  rw [if_pos (by simp; omega), List.append_assoc, slice_append_right _ _ _ (by simp)]
  simp only [Nat.add_sub_cancel_left]
  rw [slice_append_left _ _ _ hy]

/-! ### `get` -/

theorem rows_div (n m : Nat) (hm : 0 < m) : n * m / m = n := Nat.mul_div_cancel n hm

theorem mult_pos : ∀ (t : Ty), t.Pos → 0 < t.mult
  | .bool, _ => by simp [Ty.mult]
  | .prim _, _ => by simp [Ty.mult]
  | .fsb _, _ => by simp [Ty.mult]
  | .fsl _ t, h => Nat.mul_pos h.1 (mult_pos t h.2)

theorem encode_eq_bool (t : Ty) (arrs : List (List Cell)) (h : t.leaf = .bool) :
    encode t arrs = packBits (arrs.flatten.map (fun c => c.1 && c.2.toBit)) := by
  unfold encode
  rw [h]
  simp [List.flatMap_def, List.map_flatten]

theorem encode_eq_raw (t : Ty) (arrs : List (List Cell)) (h : t.leaf ≠ .bool) :
    encode t arrs = arrs.flatten.flatMap (fun c => c.2.toRaw) := by
  unfold encode
  have e : arrs.flatMap (fun a => a.flatMap (fun c => c.2.toRaw)) = arrs.flatten.flatMap (fun c => c.2.toRaw) := by
    induction arrs with
    | nil => rfl
    | cons a arrs ih => rw [List.flatMap_cons, ih, List.flatten_cons, List.flatMap_append]
  cases hl : t.leaf <;> simp_all

theorem get_ok (file : List Nat) (pos : Nat) (arrs : List (List Cell)) : ∀ (t : Ty) (len s e : Nat), t.Pos →
    (∀ c ∈ arrs.flatten, Fits t.leaf c.2) → arrs.flatten.length = len * t.mult → At file pos (encode t arrs) → s ≤ e → e ≤ len →
    get file pos t len s e = some (slice (arrs.flatten.map (keep t.leaf)) (s * t.mult, e * t.mult)) := by
  intro t
  induction t with
  | bool =>
    intro len s e _ _ hlen hat hse he
    simp only [Ty.mult, Nat.mul_one] at *
    unfold get
    by_cases h0 : e ≤ s
    · rw [if_pos h0, Verif.Phys.slice_zero_len _ _ _ h0]
    · rw [if_neg h0, if_neg (by omega)]
      rw [encode_eq_bool _ _ rfl] at hat
      rw [read_at hat _ _ (by omega) (by rw [length_packBits, List.length_map, hlen]; omega)]
      have := bitsOf_range (arrs.flatten.map (fun c => c.1 && c.2.toBit)) (s, e) (by simp only; omega) (by simp only [List.length_map]; omega) 0 (e - s) (by simp only; omega)
      simp only [Nat.zero_add, Nat.add_zero] at this
      have e1 : s + (e - s) = e := by omega
      rw [e1] at this
      simp only [Option.bind_eq_bind, Option.bind_some, this]
      rw [← slice_map, List.map_map]
      rfl
  | prim w =>
    intro len s e hp hf hlen hat hse he
    simp only [Ty.mult, Nat.mul_one] at *
    have hw : ∀ c ∈ arrs.flatten, (Item.toRaw c.2).length = w := by
      intro c hc
      have := hf c hc
      cases hi : c.2 <;> simp_all [Fits, Ty.leaf, Item.toRaw]
    unfold get
    by_cases h0 : e ≤ s
    · rw [if_pos h0, Verif.Phys.slice_zero_len _ _ _ h0]
    · rw [if_neg h0, if_neg (by omega)]
      rw [encode_eq_raw _ _ (by simp [Ty.leaf])] at hat
      rw [read_at hat _ _ (Nat.mul_le_mul_right w hse) (by rw [flatMap_length _ w _ hw, hlen]; exact Nat.mul_le_mul_right w he)]
      simp only [Option.bind_eq_bind, Option.bind_some]
      rw [slice_flatMap _ w _ _ _ hw]
      have hl : e - s = (slice arrs.flatten (s, e)).length := by rw [length_slice _ _ (by simp only; omega)]
      rw [hl, chunk_flatMap _ w _ (fun c hc => hw c (mem_slice hc)), slice_map, List.map_map]
      congr 1
      apply List.map_congr_left
      intro c hc
      have := hf c (mem_slice hc)
      cases hi : c.2 <;> simp_all [Fits, Ty.leaf, Item.toRaw, keep]
  | fsb w =>
    intro len s e hp hf hlen hat hse he
    simp only [Ty.mult, Nat.mul_one] at *
    have hw : ∀ c ∈ arrs.flatten, (Item.toRaw c.2).length = w := by
      intro c hc
      have := hf c hc
      cases hi : c.2 <;> simp_all [Fits, Ty.leaf, Item.toRaw]
    have hp : 0 < w := hp
    unfold get
    by_cases h0 : e ≤ s
    · rw [if_pos h0, Verif.Phys.slice_zero_len _ _ _ h0]
    · have h1 : ¬ e * w ≤ s * w := by
        intro h
        exact h0 (Nat.le_of_mul_le_mul_right h hp)
      have h2 : ¬ e * w > len * w := Nat.not_lt.2 (Nat.mul_le_mul_right w he)
      rw [if_neg h0, if_neg h1, if_neg h2]
      rw [encode_eq_raw _ _ (by simp [Ty.leaf])] at hat
      rw [read_at hat _ _ (Nat.mul_le_mul_right w hse) (by rw [flatMap_length _ w _ hw, hlen]; exact Nat.mul_le_mul_right w he)]
      simp only [Option.bind_eq_bind, Option.bind_some]
      rw [slice_flatMap _ w _ _ _ hw, flatMap_length _ w _ (fun c hc => hw c (mem_slice hc)), rows_div _ _ hp, chunk_flatMap _ w _ (fun c hc => hw c (mem_slice hc)), slice_map, List.map_map]
      congr 1
      apply List.map_congr_left
      intro c hc
      have := hf c (mem_slice hc)
      cases hi : c.2 <;> simp_all [Fits, Ty.leaf, Item.toRaw, keep]
  | fsl n t ih =>
    intro len s e hp hf hlen hat hse he
    unfold get
    simp only [Ty.mult, Ty.leaf] at *
    by_cases h0 : e ≤ s
    · rw [if_pos h0, Verif.Phys.slice_zero_len _ _ _ (Nat.mul_le_mul_right _ h0)]
    · rw [if_neg h0, ih (len * n) (s * n) (e * n) hp.2 hf (by rw [hlen, Nat.mul_assoc]) hat (Nat.mul_le_mul_right _ hse) (Nat.mul_le_mul_right _ he),
        Nat.mul_assoc, Nat.mul_assoc]

/-- The rows that a page keeps. -/
def kept (t : Ty) (len : Nat) (arrs : List (List Cell)) : List (List Item) := chunk t.mult len (arrs.flatten.map (keep t.leaf))

theorem kept_length (t : Ty) (len : Nat) (arrs : List (List Cell)) : (kept t len arrs).length = len := length_chunk _ _ _

theorem rows_get (file : List Nat) (pos : Nat) (arrs : List (List Cell)) (t : Ty) (len s e : Nat) (hp : t.Pos)
    (hf : ∀ c ∈ arrs.flatten, Fits t.leaf c.2) (hlen : arrs.flatten.length = len * t.mult) (hat : At file pos (encode t arrs)) (hse : s ≤ e) (he : e ≤ len) :
    (get file pos t len s e).map (rowsOf t) = some (slice (kept t len arrs) (s, e)) := by
  rw [get_ok file pos arrs t len s e hp hf hlen hat hse he]
  simp only [Option.map_some, rowsOf, kept]
  have h1 : e * t.mult ≤ (arrs.flatten.map (keep t.leaf)).length := by rw [List.length_map, hlen]; exact Nat.mul_le_mul_right _ he
  rw [slice_chunk _ _ _ _ _ he, length_slice _ _ h1, ← Nat.sub_mul, rows_div _ _ (mult_pos t hp)]

/-! ### `take` -/

/-- Indices that do not decrease. -/
def Sorted : List Nat → Prop
  | [] => True
  | x :: xs => (∀ y ∈ xs, x ≤ y) ∧ Sorted xs

theorem sorted_append : ∀ (a b : List Nat), Sorted (a ++ b) ↔ Sorted a ∧ Sorted b ∧ ∀ x ∈ a, ∀ y ∈ b, x ≤ y
  | [], b => by simp [Sorted]
  | x :: a, b => by
    simp only [List.cons_append, Sorted, sorted_append a b, List.mem_append, List.mem_cons]
    constructor
    · rintro ⟨h1, h2, h3, h4⟩
      refine ⟨⟨fun y hy => h1 y (Or.inl hy), h2⟩, h3, ?_⟩
      rintro z (rfl | hz) y hy
      · exact h1 y (Or.inr hy)
      · exact h4 z hz y hy
    · rintro ⟨⟨h1, h2⟩, h3, h4⟩
      refine ⟨?_, h2, h3, fun z hz y hy => h4 z (Or.inr hz) y hy⟩
      rintro y (hy | hy)
      · exact h1 y hy
      · exact h4 x (Or.inl rfl) y hy

theorem chunksFrom_flatten (w b : Nat) : ∀ (xs : List Nat) (f p : Nat) (cur : List Nat), (chunksFrom w b f p cur xs).flatten = cur ++ xs
  | [], f, p, cur => by simp [chunksFrom]
  | x :: xs, f, p, cur => by
    unfold chunksFrom
    split
    · rw [chunksFrom_flatten w b xs]; simp
    · split
      · rw [List.flatten_cons, chunksFrom_flatten w b xs]; simp
      · rw [chunksFrom_flatten w b xs]; simp

theorem chunksFrom_ne (w b : Nat) : ∀ (xs : List Nat) (f p : Nat) (cur : List Nat), cur ≠ [] → ∀ c ∈ chunksFrom w b f p cur xs, c ≠ []
  | [], f, p, cur, h => by simp [chunksFrom, h]
  | x :: xs, f, p, cur, h => by
    unfold chunksFrom
    split
    · exact chunksFrom_ne w b xs _ _ _ (by simp)
    · split
      · intro c hc
        rcases List.mem_cons.1 hc with h' | h'
        · exact h' ▸ h
        · exact chunksFrom_ne w b xs _ _ _ (by simp) c h'
      · exact chunksFrom_ne w b xs _ _ _ (by simp)

theorem boolChunksFrom_flatten (b : Nat) : ∀ (xs : List Nat) (f : Nat) (cur : List Nat), (boolChunksFrom b f cur xs).flatten = cur ++ xs
  | [], f, cur => by simp [boolChunksFrom]
  | x :: xs, f, cur => by
    unfold boolChunksFrom
    split
    · rw [List.flatten_cons, boolChunksFrom_flatten b xs]; simp
    · rw [boolChunksFrom_flatten b xs]; simp

theorem boolChunksFrom_ne (b : Nat) : ∀ (xs : List Nat) (f : Nat) (cur : List Nat), cur ≠ [] → ∀ c ∈ boolChunksFrom b f cur xs, c ≠ []
  | [], f, cur, h => by simp [boolChunksFrom, h]
  | x :: xs, f, cur, h => by
    unfold boolChunksFrom
    split
    · intro c hc
      rcases List.mem_cons.1 hc with h' | h'
      · exact h' ▸ h
      · exact boolChunksFrom_ne b xs _ _ (by simp) c h'
    · exact boolChunksFrom_ne b xs _ _ (by simp)

theorem sorted_pieces : ∀ (cs : List (List Nat)), Sorted cs.flatten → ∀ c ∈ cs, Sorted c
  | [], _, c, hc => nomatch hc
  | d :: cs, h, c, hc => by
    rw [List.flatten_cons, sorted_append] at h
    rcases List.mem_cons.1 hc with rfl | hc
    · exact h.1
    · exact sorted_pieces cs h.2.1 c hc

theorem mapM_some_of (f : α → Option β) (g : α → β) : ∀ (xs : List α), (∀ x ∈ xs, f x = some (g x)) → xs.mapM f = some (xs.map g)
  | [], _ => rfl
  | x :: xs, h => by
    rw [List.mapM_cons, h x (by simp), mapM_some_of f g xs (fun y hy => h y (by simp [hy]))]
    rfl

theorem sorted_getLast : ∀ (xs : List Nat) (h : xs ≠ []), Sorted xs → ∀ x ∈ xs, x ≤ xs.getLast h
  | [x], _, _, y, hy => by simp_all
  | x :: z :: xs, _, hs, y, hy => by
    rw [List.getLast_cons (by simp)]
    rcases List.mem_cons.1 hy with rfl | hy
    · exact Nat.le_trans (hs.1 z (by simp)) (sorted_getLast (z :: xs) (by simp) hs.2 z (by simp))
    · exact sorted_getLast (z :: xs) (by simp) hs.2 y hy

theorem takeChunk_ok (file : List Nat) (pos : Nat) (arrs : List (List Cell)) (t : Ty) (len : Nat) (hp : t.Pos)
    (hf : ∀ c ∈ arrs.flatten, Fits t.leaf c.2) (hlen : arrs.flatten.length = len * t.mult) (hat : At file pos (encode t arrs))
    (req : List Nat) (hne : req ≠ []) (hs : Sorted req) (hi : ∀ i ∈ req, i < len) :
    takeChunk file pos t len req = some (req.map (fun i => (kept t len arrs).getD i [])) := by
  obtain ⟨x, xs, rfl⟩ := List.exists_cons_of_ne_nil hne
  unfold takeChunk
  rw [List.head?_cons, List.getLast?_eq_some_getLast hne]
  simp only [Option.bind_eq_bind, Option.bind_some]
  have hle := sorted_getLast _ hne hs
  have hlast := hi _ (List.getLast_mem hne)
  have hg := rows_get file pos arrs t len x ((x :: xs).getLast hne + 1) hp hf hlen hat (by have := hle x (by simp); omega) (by omega)
  cases hget : get file pos t len x ((x :: xs).getLast hne + 1) with
  | none => rw [hget] at hg; exact nomatch hg
  | some items =>
    rw [hget] at hg
    simp only [Option.map_some, Option.some.injEq] at hg
    simp only [Option.bind_some]
    apply mapM_some_of
    intro i hi'
    have h1 : x ≤ i := by
      rcases List.mem_cons.1 hi' with rfl | h'
      · exact Nat.le_refl _
      · exact hs.1 i h'
    have h2 := hle i hi'
    have h3 := hi i hi'
    rw [if_neg (by omega), hg]
    unfold slice
    simp only
    rw [List.getElem?_take, if_pos (by omega), List.getElem?_drop, Nat.add_sub_cancel' h1, List.getElem?_eq_getElem (by rw [kept_length]; exact h3),
      List.getD_eq_getElem?_getD, List.getElem?_eq_getElem (by rw [kept_length]; exact h3)]
    rfl

theorem takeChunks_ok (file : List Nat) (pos : Nat) (arrs : List (List Cell)) (t : Ty) (len : Nat) (hp : t.Pos)
    (hf : ∀ c ∈ arrs.flatten, Fits t.leaf c.2) (hlen : arrs.flatten.length = len * t.mult) (hat : At file pos (encode t arrs))
    (cs : List (List Nat)) (hne : ∀ c ∈ cs, c ≠ []) (hs : Sorted cs.flatten) (hi : ∀ i ∈ cs.flatten, i < len) :
    cs.mapM (takeChunk file pos t len) = some (cs.map (fun c => c.map (fun i => (kept t len arrs).getD i []))) :=
  mapM_some_of _ _ cs (fun c hc => takeChunk_ok file pos arrs t len hp hf hlen hat c (hne c hc) (sorted_pieces cs hs c hc)
    (fun i hi' => hi i (List.mem_flatten.2 ⟨c, hc, hi'⟩)))

theorem take_ok (file : List Nat) (block pos : Nat) (arrs : List (List Cell)) (t : Ty) (len : Nat) (hp : t.Pos)
    (hf : ∀ c ∈ arrs.flatten, Fits t.leaf c.2) (hlen : arrs.flatten.length = len * t.mult) (hat : At file pos (encode t arrs))
    (hb : t = .bool ∨ t.leaf ≠ .bool) (is : List Nat) (hs : Sorted is) (hi : ∀ i ∈ is, i < len) :
    take file block pos t len is = some (is.map (fun i => (kept t len arrs).getD i [])) := by
  cases is with
  | nil => rfl
  | cons x xs =>
    have key : ∀ cs : List (List Nat), (∀ c ∈ cs, c ≠ []) → cs.flatten = x :: xs →
        (do let rows ← cs.mapM (takeChunk file pos t len); some rows.flatten) = some ((x :: xs).map (fun i => (kept t len arrs).getD i [])) := by
      intro cs hne he
      rw [takeChunks_ok file pos arrs t len hp hf hlen hat cs hne (he ▸ hs) (he ▸ hi)]
      simp only [Option.bind_eq_bind, Option.bind_some, ← List.map_flatten, he]
    have hw : t.leaf ≠ .bool → ∃ w, t.byteWidth = some w := by
      clear key hat hlen hf hp hb
      induction t with
      | bool => intro h; simp [Ty.leaf] at h
      | prim w => intro _; exact ⟨w, rfl⟩
      | fsb w => intro _; exact ⟨w, rfl⟩
      | fsl n t ih => intro h; obtain ⟨w, hw⟩ := ih h; exact ⟨n * w, by simp [Ty.byteWidth, hw]⟩
    unfold take
    cases t with
    | bool => exact key _ (boolChunksFrom_ne _ _ _ _ (by simp)) (by rw [boolChunksFrom_flatten]; rfl)
    | prim w => exact key _ (chunksFrom_ne _ _ _ _ _ _ (by simp)) (by rw [chunksFrom_flatten]; rfl)
    | fsb w => exact key _ (chunksFrom_ne _ _ _ _ _ _ (by simp)) (by rw [chunksFrom_flatten]; rfl)
    | fsl n t =>
      obtain ⟨w, hw⟩ := hw (hb.resolve_left (by simp))
      simp only [hw, Option.bind_eq_bind, Option.bind_some]
      exact key _ (chunksFrom_ne _ _ _ _ _ _ (by simp)) (by rw [chunksFrom_flatten]; rfl)

end Verif.Legacy
