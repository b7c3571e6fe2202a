import Verif.Legacy.Binary
import Verif.Legacy.Lemmas
import Verif.RowIds.PropsSerde
import Verif.ListCol.LemmasCol
/-! Lemmas about pages of strings. -/
namespace Verif.Legacy
open Verif.ListCol
open Verif.RowIds.Serde (leBytes fromLe leBytes_length fromLe_leBytes)

variable {α β : Type}

/-! ### Sums -/

abbrev lens (vs : List (List α)) : List Nat := vs.map List.length

theorem sums_length : ∀ (c : Nat) (ls : List Nat), (sums c ls).length = ls.length + 1
  | _, [] => rfl
  | c, l :: ls => by simp [sums, sums_length]

theorem sums_drop : ∀ (a : Nat) (c : Nat) (ls : List Nat), a ≤ ls.length → (sums c ls).drop a = sums (c + (ls.take a).sum) (ls.drop a)
  | 0, c, ls, _ => by simp
  | a + 1, c, [], h => by simp at h
  | a + 1, c, l :: ls, h => by
    have := sums_drop a (c + l) ls (by simpa using h)
    simp only [sums, List.drop_succ_cons, List.take_succ_cons, List.sum_cons]
    rw [this, Nat.add_assoc]

theorem sums_take : ∀ (n : Nat) (c : Nat) (ls : List Nat), n ≤ ls.length → (sums c ls).take (n + 1) = sums c (ls.take n)
  | 0, c, [], _ => by simp [sums]
  | 0, c, l :: ls, _ => by simp [sums]
  | n + 1, c, [], h => by simp at h
  | n + 1, c, l :: ls, h => by
    rw [sums, List.take_succ_cons, sums_take n (c + l) ls (by simpa using h), List.take_succ_cons, sums]

theorem sums_slice (c : Nat) (ls : List Nat) (a b : Nat) (hab : a ≤ b) (hb : b ≤ ls.length) :
    slice (sums c ls) (a, b + 1) = sums (c + (ls.take a).sum) (slice ls (a, b)) := by
  unfold slice
  simp only
  have e : b + 1 - a = (b - a) + 1 := by omega
  rw [sums_drop a c ls (by omega), e, sums_take _ _ _ (by rw [List.length_drop]; omega)]

theorem sums_get (c : Nat) (ls : List Nat) (a : Nat) (ha : a ≤ ls.length) : (sums c ls)[a]? = some (c + (ls.take a).sum) := by
  have h := sums_drop a c ls ha
  have : (sums c ls)[a]? = ((sums c ls).drop a)[0]? := by rw [List.getElem?_drop]; rfl
  rw [this, h]
  cases ls.drop a <;> simp [sums]

theorem sums_map_sub : ∀ (c d : Nat) (ls : List Nat), (sums (c + d) ls).map (fun p => p - c) = sums d ls
  | c, d, [] => by simp [sums]
  | c, d, l :: ls => by
    simp only [sums, List.map_cons, Nat.add_sub_cancel_left]
    rw [Nat.add_assoc, sums_map_sub c (d + l) ls]

theorem sums_append : ∀ (c : Nat) (ls ms : List Nat), sums c (ls ++ ms) = sums c ls ++ (sums (c + ls.sum) ms).drop 1
  | c, [], ms => by cases ms <;> simp [sums]
  | c, l :: ls, ms => by simp [sums, sums_append (c + l) ls ms, Nat.add_assoc]

theorem sums_le : ∀ (c : Nat) (ls : List Nat) (p : Nat), p ∈ sums c ls → p ≤ c + ls.sum
  | c, [], p, h => by simp [sums] at h; omega
  | c, l :: ls, p, h => by
    rcases List.mem_cons.1 h with rfl | h
    · omega
    · have := sums_le (c + l) ls p h
      rw [List.sum_cons]; omega

theorem sums_last (c : Nat) (ls : List Nat) (d : Nat) : (sums c ls).getLastD d = c + ls.sum := by
  induction ls generalizing c with
  | nil => simp [sums]
  | cons l ls ih =>
    rw [sums, List.getLastD_cons, List.sum_cons, ← Nat.add_assoc, ← ih (c + l)]
    cases hs : sums (c + l) ls with
    | nil => have := sums_length (c + l) ls; rw [hs] at this; simp at this
    | cons x xs => rw [List.getLastD_cons, List.getLastD_cons]

theorem sum_lens (vs : List (List α)) : (lens vs).sum = vs.flatten.length := by rw [List.length_flatten]

/-! ### Pieces -/

theorem pieces_sums : ∀ (vs : List (List α)) (pre post : List α), pieces (pre ++ vs.flatten ++ post) (sums pre.length (lens vs)) = vs
  | [], pre, post => by simp [sums, pieces]
  | v :: vs, pre, post => by
    have e : sums pre.length (lens (v :: vs)) = pre.length :: sums (pre.length + v.length) (lens vs) := by simp [sums]
    have ih := pieces_sums vs (pre ++ v) post
    rw [List.length_append] at ih
    have e2 : pre ++ v ++ vs.flatten ++ post = pre ++ (v :: vs).flatten ++ post := by simp
    rw [e2] at ih
    rw [e]
    cases hs : sums (pre.length + v.length) (lens vs) with
    | nil => have := sums_length (pre.length + v.length) (lens vs); rw [hs] at this; simp at this
    | cons x xs =>
      have hx : x = pre.length + v.length := by
        cases vs <;> simp [sums] at hs <;> exact hs.1.symm
      rw [hs] at ih
      rw [pieces, ih, hx]
      congr 1
      simp [slice]

theorem pieces_flatten (vs : List (List α)) : pieces vs.flatten (sums 0 (lens vs)) = vs := by
  have := pieces_sums vs [] []
  simpa using this

theorem slice_flatten (vs : List (List α)) (a b : Nat) (hab : a ≤ b) :
    slice vs.flatten (((lens vs).take a).sum, ((lens vs).take b).sum) = (slice vs (a, b)).flatten := by
  have h : ∀ n, ((lens vs).take n).sum = (vs.take n).flatten.length := by
    intro n
    rw [← List.map_take, List.length_flatten]
  rw [h, h]
  have e1 : vs.flatten = (vs.take a).flatten ++ ((vs.drop a).take (b - a)).flatten ++ (vs.drop b).flatten := by
    have e : vs.drop b = (vs.drop a).drop (b - a) := by rw [List.drop_drop]; congr 1; omega
    rw [← List.flatten_append, ← List.flatten_append, List.append_assoc, e, List.take_append_drop, List.take_append_drop]
  have e2 : vs.take b = vs.take a ++ (vs.drop a).take (b - a) := by
    have : b = a + (b - a) := by omega
    rw [this, List.take_add]
    simp
  conv => lhs; rw [e1]
  rw [e2, List.flatten_append, List.length_append]
  unfold slice
  simp

/-! ### Building -/

theorem offsetsOk_sums : ∀ (n c : Nat) (ls : List Nat), c + ls.sum ≤ n → offsetsOk n (sums c ls) = true
  | n, c, [], h => by simpa [sums, offsetsOk] using h
  | n, c, [l], h => by simp [sums, offsetsOk] at h ⊢; exact h
  | n, c, l :: m :: ls, h => by
    have := offsetsOk_sums n (c + l) (m :: ls) (by simp only [List.sum_cons] at *; omega)
    simp only [sums] at this ⊢
    simp [offsetsOk, this]

theorem notEmpty_sums : ∀ (c : Nat) (ls : List Nat), notEmpty (sums c ls) = ls.map (fun l => decide (l ≠ 0))
  | c, [] => by simp [sums, notEmpty]
  | c, [l] => by simp [sums, notEmpty]
  | c, l :: m :: ls => by
    have := notEmpty_sums (c + l) (m :: ls)
    simp only [sums] at this ⊢
    simp [notEmpty, this]

/-- The array with some values. -/
def arrOf (nullable : Bool) (vs : List (List Nat)) : BArr :=
  ⟨sums 0 (lens vs), if nullable then vs.map (fun v => decide (v.length ≠ 0)) else List.replicate vs.length true, vs.flatten⟩

theorem build_ok (nullable : Bool) (c : Nat) (vs : List (List Nat)) :
    build nullable (sums 0 (lens vs)) (sums c (lens vs)) vs.flatten = some (arrOf nullable vs) := by
  unfold build
  rw [if_pos (offsetsOk_sums _ _ _ (by rw [sum_lens]; omega)), notEmpty_sums, sums_length, List.map_map, List.length_map]
  rfl

/-- A value as it is read: nothing if it is empty and the column is nullable. -/
def norm (nullable : Bool) (v : List Nat) : Option (List Nat) := if nullable && v.isEmpty then none else some v

theorem arrOf_rows (nullable : Bool) (vs : List (List Nat)) : (arrOf nullable vs).rows = vs.map (norm nullable) := by
  unfold BArr.rows arrOf
  simp only
  rw [pieces_flatten]
  cases nullable with
  | false =>
    simp only [Bool.false_eq_true, if_false]
    induction vs with
    | nil => rfl
    | cons v vs ih => simp [List.replicate_succ, ih, norm]
  | true =>
    simp only [if_true]
    induction vs with
    | nil => rfl
    | cons v vs ih =>
      simp only [List.map_cons, List.zipWith_cons_cons, ih, norm]
      cases v <;> simp

/-! ### Reading -/

theorem positionsAt_ok (file : List Nat) (pos len : Nat) (ps : List Nat) (hat : At file pos (ps.flatMap (leBytes 8))) (hl : ps.length = len + 1)
    (hb : ∀ p ∈ ps, p < 256 ^ 8) (s e : Nat) (hse : s ≤ e) (he : e ≤ len + 1) : positionsAt file pos len s e = some (slice ps (s, e)) := by
  have henc : encode (.prim 8) [ps.map (fun p => (true, Item.raw (leBytes 8 p)))] = ps.flatMap (leBytes 8) := by
    simp [encode, Ty.leaf, List.flatMap_map, Item.toRaw]
  unfold positionsAt
  rw [get_ok file pos [ps.map (fun p => (true, Item.raw (leBytes 8 p)))] (.prim 8) (len + 1) s e (show 0 < 8 by decide) (by
      intro c hc
      simp only [List.flatten_cons, List.flatten_nil, List.append_nil, List.mem_map] at hc
      obtain ⟨p, _, rfl⟩ := hc
      exact leBytes_length 8 p) (by simp [Ty.mult, hl]) (by rw [henc]; exact hat) hse he]
  simp only [Option.map_some, Ty.mult, Nat.mul_one, List.flatten_cons, List.flatten_nil, List.append_nil, List.map_map, Option.some.injEq]
  rw [slice_map, List.map_map]
  have : slice ps (s, e) = (slice ps (s, e)).map id := by simp
  rw [this, List.map_map]
  apply List.map_congr_left
  intro p hp
  exact fromLe_leBytes 8 p (hb p (mem_slice hp))

theorem castOffset_ok (large : Bool) (x : Nat) (h : large = true ∨ x < 2 ^ 31) : castOffset large x = x := by
  unfold castOffset
  rcases h with h | h
  · simp [h]
  · simp [h]

/-- A file in which the values `vs` begin at `tell`. -/
theorem getRange_ok (file : List Nat) (large nullable : Bool) (tell : Nat) (vs : List (List Nat)) (hat : At file tell vs.flatten)
    (hsz : large = true ∨ vs.flatten.length < 2 ^ 31) (p q : Nat) (hpq : p ≤ q) (hq : q ≤ vs.length) (a b : Nat) (hab : a ≤ b) (hb : p + b ≤ q) :
    getRange file large nullable (slice (sums tell (lens vs)) (p, q + 1)) a b = some (arrOf nullable (slice vs (p + a, p + b))) := by
  have hll : (lens vs).length = vs.length := by simp
  rw [sums_slice _ _ _ _ hpq (by omega)]
  have hls : slice (lens vs) (p, q) = lens (slice vs (p, q)) := slice_map _ _ _
  have hsl : (slice vs (p, q)).length = q - p := length_slice _ _ hq
  rw [hls]
  have hss : slice (slice vs (p, q)) (a, b) = slice vs (p + a, p + b) := Verif.Phys.slice_slice _ _ _ _ _ (by omega)
  have ht : ∀ n, p + n ≤ q → ((lens vs).take p).sum + ((lens (slice vs (p, q))).take n).sum = ((lens vs).take (p + n)).sum := by
    intro n hn
    rw [← hls]
    unfold slice
    simp only
    rw [List.take_take, Nat.min_eq_left (by omega), List.take_add, List.sum_append]
  unfold getRange
  rw [if_neg (by rw [sums_length]; simp [hsl]; omega), sums_get _ _ a (by simp [hsl]; omega), sums_get _ _ b (by simp [hsl]; omega)]
  simp only [Option.bind_eq_bind, Option.bind_some]
  rw [sums_slice _ _ a b hab (by simp [hsl]; omega), slice_map, hss, Nat.add_assoc, Nat.add_assoc, ht a (by omega), ht b (by omega)]
  have hmono : ((lens vs).take (p + a)).sum ≤ ((lens vs).take (p + b)).sum := by
    have : p + b = (p + a) + (b - a) := by omega
    rw [this, List.take_add (i := p + a), List.sum_append]
    omega
  have hfl := slice_flatten vs (p + a) (p + b) (by omega)
  have htot : ∀ n, ((lens vs).take n).sum ≤ vs.flatten.length := by
    intro n
    rw [← sum_lens]
    have : (lens vs).sum = ((lens vs).take n).sum + ((lens vs).drop n).sum := by rw [← List.sum_append, List.take_append_drop]
    omega
  have hdata : readData file (tell + ((lens vs).take (p + a)).sum) (tell + ((lens vs).take (p + b)).sum) = some (slice vs (p + a, p + b)).flatten := by
    unfold readData
    split
    · rename_i h
      rw [← hfl, Verif.Phys.slice_zero_len _ _ _ (by omega)]
    · rw [read_at hat _ _ hmono (htot _), hfl]
  rw [hdata]
  simp only [Option.bind_some]
  have hmap : (sums (tell + ((lens vs).take (p + a)).sum) (lens (slice vs (p + a, p + b)))).map
      (fun x => castOffset large (x - (tell + ((lens vs).take (p + a)).sum))) = sums 0 (lens (slice vs (p + a, p + b))) := by
    have h0 := sums_map_sub (tell + ((lens vs).take (p + a)).sum) 0 (lens (slice vs (p + a, p + b)))
    rw [Nat.add_zero] at h0
    rw [← h0]
    apply List.map_congr_left
    intro x hx
    apply castOffset_ok
    rcases hsz with h | h
    · exact Or.inl h
    · right
      have h1 := sums_le _ _ _ hx
      rw [sum_lens] at h1
      have h2 : (slice vs (p + a, p + b)).flatten.length ≤ vs.flatten.length := by
        rw [← hfl]
        unfold slice
        rw [List.length_take, List.length_drop]
        omega
      omega
  rw [hmap]
  exact build_ok nullable _ _

/-! ### Chunks of indices -/

/-- Indices that increase. -/
def Strict : List Nat → Prop
  | [] => True
  | x :: xs => (∀ y ∈ xs, x < y) ∧ Strict xs

theorem strict_sorted : ∀ (xs : List Nat), Strict xs → Sorted xs
  | [], _ => trivial
  | _ :: xs, h => ⟨fun y hy => Nat.le_of_lt (h.1 y hy), strict_sorted xs h.2⟩

theorem planFrom_flatten (ps : List Nat) (m : Nat) : ∀ (xs : List Nat) (s i l : Nat) (c : Bool) (cur : List Nat),
    (planFrom ps m s i l c cur xs).flatMap (·.1) = cur ++ xs
  | [], s, i, l, c, cur => by simp [planFrom]
  | x :: xs, s, i, l, c, cur => by
    unfold planFrom
    simp only
    split
    · rw [List.flatMap_cons, planFrom_flatten ps m xs]; simp
    · rw [planFrom_flatten ps m xs]; simp

/-- Indices that follow each other without a gap. -/
def Consec (xs : List Nat) : Prop := xs = List.range' (xs.headD 0) xs.length

theorem consec_snoc (xs : List Nat) (h : Consec xs) (hne : xs ≠ []) (l : Nat) (hl : xs.getLast hne + 1 = l) : Consec (xs ++ [l]) := by
  obtain ⟨y, ys, rfl⟩ := List.exists_cons_of_ne_nil hne
  unfold Consec at h ⊢
  simp only [List.headD_cons] at h
  have hlast : (y :: ys).getLast hne = y + ys.length := by
    have e : ∀ (zs : List Nat) (hz : zs ≠ []), y :: ys = zs → (y :: ys).getLast hne = zs.getLast hz := by
      intro zs hz he; subst he; rfl
    rw [e _ (by simp) h, List.getLast_range']
    simp
  have h2 : (y :: ys ++ [l]).length = (y :: ys).length + 1 := by simp
  have hhd : (y :: ys ++ [l]).headD 0 = y := rfl
  rw [h2, hhd, ← List.range'_append_1 (s := y), ← h]
  have : y + (y :: ys).length = l := by simp; omega
  rw [this]
  rfl

theorem planFrom_ok (ps : List Nat) (m : Nat) : ∀ (xs : List Nat) (s i l : Nat) (c : Bool) (cur : List Nat) (hne : cur ≠ []),
    Strict xs → (∀ x ∈ xs, l ≤ x) → cur.getLast hne + 1 = l → i ≤ l → s < i → (c = true → Consec cur) →
    ∀ ch ∈ planFrom ps m s i l c cur xs, ch.1 ≠ [] ∧ (ch.2 = true → Consec ch.1)
  | [], s, i, l, c, cur, hne, _, _, _, _, _, hc => by
    intro ch hch
    simp only [planFrom, List.mem_singleton] at hch
    subst hch
    exact ⟨hne, hc⟩
  | x :: xs, s, i, l, c, cur, hne, hst, hge, hlast, hil, hsi, hc => by
    have hlx := hge x (by simp)
    have hxs : ∀ y ∈ xs, x + 1 ≤ y := fun y hy => hst.1 y hy
    have hcc : (x == s || x == l) = true → x = l := by
      intro h
      simp only [Bool.or_eq_true, beq_iff_eq] at h
      rcases h with h | h
      · omega
      · exact h
    intro ch hch
    unfold planFrom at hch
    simp only at hch
    split at hch
    · rcases List.mem_cons.1 hch with rfl | hch
      · exact ⟨hne, hc⟩
      · exact planFrom_ok ps m xs i (i + 1) (x + 1) true [x] (by simp) hst.2 hxs (by simp) (by omega) (by omega)
          (fun _ => by simp [Consec]) ch hch
    · refine planFrom_ok ps m xs s (i + 1) (x + 1) _ (cur ++ [x]) (by simp) hst.2 hxs (by simp) (by omega) (by omega) ?_ ch hch
      intro h
      rw [Bool.and_eq_true] at h
      have := hcc h.2
      subst this
      exact consec_snoc cur (hc h.1) hne _ hlast

theorem plan_ok (ps : List Nat) (m : Nat) (xs : List Nat) (hst : Strict (0 :: xs)) :
    ∀ ch ∈ planFrom ps m 0 0 0 true [] (0 :: xs), ch.1 ≠ [] ∧ (ch.2 = true → Consec ch.1) := by
  intro ch hch
  unfold planFrom at hch
  simp only [beq_self_eq_true, Bool.true_or, Bool.not_true, Bool.false_and, Bool.false_eq_true, if_false, Bool.and_true, List.nil_append] at hch
  exact planFrom_ok ps m xs 0 1 1 true [0] (by simp) hst.2 (fun y hy => hst.1 y hy) (by simp) (by omega) (by omega) (fun _ => by simp [Consec]) ch hch

theorem sorted_flat_pieces (cs : List (List Nat × Bool)) (h : Sorted (cs.flatMap (·.1))) : ∀ c ∈ cs, Sorted c.1 := by
  intro c hc
  rw [List.flatMap_def] at h
  exact sorted_pieces _ h _ (List.mem_map.2 ⟨c, hc, rfl⟩)

theorem slice_consec (vs : List (List Nat)) (p : Nat) : ∀ (n x : Nat), p + (x + n) ≤ vs.length →
    slice vs (p + x, p + (x + n)) = (List.range' x n).map (fun i => vs.getD (p + i) [])
  | 0, x, h => by simp [slice]
  | n + 1, x, h => by
    rw [List.range'_succ, List.map_cons, slice_split vs (p + x) (p + (x + 1)) (p + (x + (n + 1))) (by omega) (by omega)]
    have ih := slice_consec vs p n (x + 1) (by omega)
    have e : x + 1 + n = x + (n + 1) := by omega
    rw [e] at ih
    rw [ih, ← Nat.add_assoc p x 1, slice_one vs (p + x) (by omega), List.getD_eq_getElem?_getD, List.getElem?_eq_getElem (by omega)]
    rfl

/-- One chunk: the values at the indices (which are relative to row `p`). -/
theorem takeBinChunk_ok (file : List Nat) (large nullable : Bool) (tell : Nat) (vs : List (List Nat)) (hat : At file tell vs.flatten)
    (hsz : large = true ∨ vs.flatten.length < 2 ^ 31) (p q : Nat) (hpq : p ≤ q) (hq : q ≤ vs.length) (c : List Nat × Bool) (hne : c.1 ≠ [])
    (hs : Sorted c.1) (hc : c.2 = true → Consec c.1) (hi : ∀ i ∈ c.1, p + i < q) :
    takeBinChunk file large nullable (slice (sums tell (lens vs)) (p, q + 1)) c =
      some ((c.1.map (fun i => vs.getD (p + i) [])).flatten, lens (c.1.map (fun i => vs.getD (p + i) []))) := by
  obtain ⟨cs, fl⟩ := c
  simp only at hne hs hc hi
  obtain ⟨x, xs, rfl⟩ := List.exists_cons_of_ne_nil hne
  have hle := sorted_getLast _ hne hs
  have hlast := hi _ (List.getLast_mem hne)
  have hx := hle x (by simp)
  unfold takeBinChunk
  simp only [List.head?_cons, List.getLast?_eq_some_getLast hne, Option.bind_eq_bind, Option.bind_some]
  rw [getRange_ok file large nullable tell vs hat hsz p q hpq hq x _ (by omega) (by omega)]
  simp only [Option.bind_some]
  have hp : pieces (arrOf nullable (slice vs (p + x, p + ((x :: xs).getLast hne + 1)))).data (arrOf nullable (slice vs (p + x, p + ((x :: xs).getLast hne + 1)))).offsets
      = slice vs (p + x, p + ((x :: xs).getLast hne + 1)) := pieces_flatten _
  rw [hp]
  have hm : (x :: xs).mapM (fun i => (slice vs (p + x, p + ((x :: xs).getLast hne + 1)))[i - x]?) = some ((x :: xs).map (fun i => vs.getD (p + i) [])) := by
    apply mapM_some_of
    intro i hi'
    have h1 : x ≤ i := by
      rcases List.mem_cons.1 hi' with rfl | h'
      · exact Nat.le_refl _
      · exact hs.1 i h'
    have h2 := hle i hi'
    have h3 := hi i hi'
    unfold slice
    simp only
    rw [List.getElem?_take, if_pos (by omega), List.getElem?_drop]
    have e : p + x + (i - x) = p + i := by omega
    rw [e, List.getD_eq_getElem?_getD, List.getElem?_eq_getElem (by omega)]
    rfl
  rw [hm]
  simp only [Option.bind_some, Option.some.injEq, Prod.mk.injEq, and_true]
  cases fl with
  | false => rfl
  | true =>
    simp only [if_true]
    have hcon := hc rfl
    unfold Consec at hcon
    simp only [List.headD_cons] at hcon
    have hlast' : (x :: xs).getLast hne + 1 = x + (x :: xs).length := by
      have e : ∀ (zs : List Nat) (hz : zs ≠ []), x :: xs = zs → (x :: xs).getLast hne = zs.getLast hz := by
        intro zs hz he; subst he; rfl
      rw [e _ (by simp) hcon, List.getLast_range']
      simp
      omega
    rw [hlast']
    have := slice_consec vs p (x :: xs).length x (by omega)
    rw [← hcon] at this
    show (slice vs (p + x, p + (x + (x :: xs).length))).flatten = _
    rw [this]

theorem sum_drop_le : ∀ (ls : List Nat) (j k : Nat), j ≤ k → (ls.drop k).sum ≤ (ls.drop j).sum := by
  intro ls j k h
  have e : ls.drop j = (ls.drop j).take (k - j) ++ ls.drop k := by
    have : ls.drop k = (ls.drop j).drop (k - j) := by rw [List.drop_drop]; congr 1; omega
    rw [this, List.take_append_drop]
  rw [e, List.sum_append]
  omega

theorem sum_strict (ls : List Nat) : ∀ (is : List Nat) (k : Nat), Strict is → (∀ i ∈ is, k ≤ i ∧ i < ls.length) →
    (is.map (fun i => ls.getD i 0)).sum ≤ (ls.drop k).sum
  | [], k, _, _ => by simp
  | x :: xs, k, hst, h => by
    have hx := h x (by simp)
    have ih := sum_strict ls xs (x + 1) hst.2 (fun i hi => ⟨hst.1 i hi, (h i (by simp [hi])).2⟩)
    have h1 := sum_drop_le ls k x hx.1
    rw [List.drop_eq_getElem_cons hx.2, List.sum_cons] at h1
    rw [List.map_cons, List.sum_cons, List.getD_eq_getElem?_getD, List.getElem?_eq_getElem hx.2, Option.getD_some]
    omega

theorem strict_size (vs : List (List α)) (is : List Nat) (hst : Strict is) (h : ∀ i ∈ is, i < vs.length) :
    (is.map (fun i => vs.getD i [])).flatten.length ≤ vs.flatten.length := by
  have := sum_strict (lens vs) is 0 hst (fun i hi => ⟨Nat.zero_le _, by simpa using h i hi⟩)
  rw [List.drop_zero, sum_lens] at this
  rw [← sum_lens, lens, List.map_map]
  have e : is.map (List.length ∘ fun i => vs.getD i []) = is.map (fun i => (lens vs).getD i 0) := by
    apply List.map_congr_left
    intro i hi
    have := h i hi
    simp only [Function.comp_apply, List.getD_eq_getElem?_getD, List.getElem?_map, List.getElem?_eq_getElem this, Option.getD_some, Option.map_some]
  rw [e]
  exact this

theorem takeBin_ok (file : List Nat) (pos minIo : Nat) (large nullable : Bool) (tell : Nat) (vs : List (List Nat)) (hat : At file tell vs.flatten)
    (hpos : At file pos ((sums tell (lens vs)).flatMap (leBytes 8))) (hfit : tell + vs.flatten.length < 256 ^ 8)
    (is : List Nat) (hst : Strict is) (hi : ∀ i ∈ is, i < vs.length) (hsz : large = true ∨ vs.flatten.length < 2 ^ 31) :
    takeBin file pos minIo large nullable vs.length is = some (arrOf nullable (is.map (fun i => vs.getD i []))) := by
  have hsz2 : large = true ∨ (is.map (fun i => vs.getD i [])).flatten.length < 2 ^ 31 :=
    hsz.imp id (Nat.lt_of_le_of_lt (strict_size vs is hst hi))
  cases is with
  | nil => cases nullable <;> rfl
  | cons x xs =>
    have hne : x :: xs ≠ [] := by simp
    have hs := strict_sorted _ hst
    have hle := sorted_getLast _ hne hs
    have hlast := hi _ (List.getLast_mem hne)
    have hxl := hle x (by simp)
    unfold takeBin
    simp only [List.getLast?_eq_some_getLast hne, Option.bind_eq_bind, Option.bind_some]
    rw [positionsAt_ok file pos vs.length _ hpos (by rw [sums_length]; simp) (by
      intro p hp
      have := sums_le _ _ _ hp
      rw [sum_lens] at this
      omega) _ _ (by omega) (by omega)]
    simp only [Option.bind_some]
    have hge : ∀ i ∈ x :: xs, x ≤ i := by
      intro i hi'
      rcases List.mem_cons.1 hi' with rfl | h'
      · exact Nat.le_refl _
      · exact hs.1 i h'
    have hq : (x :: xs).getLast hne + 2 = ((x :: xs).getLast hne + 1) + 1 := by omega
    rw [hq]
    have hlen : (slice (sums tell (lens vs)) (x, ((x :: xs).getLast hne + 1) + 1)).length = (x :: xs).getLast hne + 2 - x := by
      rw [length_slice _ _ (by rw [sums_length]; simp; omega)]
    have hrel : (x :: xs).mapM (fun i => if i < x ∨ (slice (sums tell (lens vs)) (x, ((x :: xs).getLast hne + 1) + 1)).length ≤ i - x + 1 then none else some (i - x))
        = some ((x :: xs).map (fun i => i - x)) := by
      apply mapM_some_of
      intro i hi'
      have h1 := hge i hi'
      have h2 := hle i hi'
      rw [if_neg (by rw [hlen]; omega)]
    rw [hrel]
    simp only [Option.bind_some]
    generalize hrl : (x :: xs).map (fun i => i - x) = rel
    have hst' : Strict rel := by
      rw [← hrl]
      clear hrl hrel hlen hq hlast hxl hle hs hsz2
      generalize x :: xs = ys at hst hge
      clear hne hi
      induction ys with
      | nil => trivial
      | cons y ys ih =>
        refine ⟨?_, ih hst.2 (fun i hi => hge i (by simp [hi]))⟩
        intro z hz
        obtain ⟨i, hi, rfl⟩ := List.mem_map.1 hz
        have h1 := hst.1 i hi
        have h2 := hge y (by simp)
        show y - x < i - x
        omega
    have hrelc : rel = 0 :: xs.map (fun i => i - x) := by rw [← hrl]; simp
    have hplan : ∀ ch ∈ planFrom (slice (sums tell (lens vs)) (x, ((x :: xs).getLast hne + 1) + 1)) minIo 0 0 0 true [] rel, ch.1 ≠ [] ∧ (ch.2 = true → Consec ch.1) := by
      rw [hrelc] at hst' ⊢
      exact plan_ok _ _ _ hst'
    have hfl := planFrom_flatten (slice (sums tell (lens vs)) (x, ((x :: xs).getLast hne + 1) + 1)) minIo rel 0 0 0 true []
    rw [List.nil_append] at hfl
    generalize planFrom (slice (sums tell (lens vs)) (x, ((x :: xs).getLast hne + 1) + 1)) minIo 0 0 0 true [] rel = chs at hplan hfl
    have hsrt := sorted_flat_pieces chs (by rw [hfl]; exact strict_sorted _ hst')
    have hin : ∀ ch ∈ chs, ∀ i ∈ ch.1, x + i < (x :: xs).getLast hne + 1 := by
      intro ch hch i hi'
      have : i ∈ rel := by rw [← hfl]; exact List.mem_flatMap.2 ⟨ch, hch, hi'⟩
      rw [← hrl] at this
      obtain ⟨j, hj, rfl⟩ := List.mem_map.1 this
      have h1 := hge j hj
      have h2 := hle j hj
      omega
    rw [mapM_some_of _ (fun ch : List Nat × Bool => ((ch.1.map (fun i => vs.getD (x + i) [])).flatten, lens (ch.1.map (fun i => vs.getD (x + i) [])))) chs (fun ch hch =>
      takeBinChunk_ok file large nullable tell vs hat hsz x _ (by omega) (by omega) ch (hplan ch hch).1 (hsrt ch hch) (hplan ch hch).2 (hin ch hch))]
    simp only [Option.bind_some]
    have hv : chs.flatMap (fun ch => ch.1.map (fun i => vs.getD (x + i) [])) = (x :: xs).map (fun i => vs.getD i []) := by
      have : chs.flatMap (fun ch => ch.1.map (fun i => vs.getD (x + i) [])) = (chs.flatMap (·.1)).map (fun i => vs.getD (x + i) []) := by
        rw [List.map_flatMap]
      rw [this, hfl, ← hrl, List.map_map]
      apply List.map_congr_left
      intro i hi'
      have := hge i hi'
      simp only [Function.comp_apply]
      congr 1
      omega
    have h1 : (chs.map (fun ch : List Nat × Bool => ((ch.1.map (fun i => vs.getD (x + i) [])).flatten, lens (ch.1.map (fun i => vs.getD (x + i) []))))).flatMap (·.2)
        = lens ((x :: xs).map (fun i => vs.getD i [])) := by
      rw [← hv, List.flatMap_map, lens, List.map_flatMap]
    have h2 : (chs.map (fun ch : List Nat × Bool => ((ch.1.map (fun i => vs.getD (x + i) [])).flatten, lens (ch.1.map (fun i => vs.getD (x + i) []))))).flatMap (·.1)
        = ((x :: xs).map (fun i => vs.getD i [])).flatten := by
      rw [← hv, List.flatMap_map]
      clear h1 hv hin hsrt hfl hplan
      induction chs with
      | nil => rfl
      | cons c cs ih => rw [List.flatMap_cons, ih, List.flatMap_cons, List.flatten_append]
    rw [h1, h2, sums_last, Nat.zero_add, sum_lens, if_neg]
    · exact build_ok nullable 0 _
    · rcases hsz2 with h | h
      · simp [h]
      · simp only [Bool.and_eq_true, decide_eq_true_eq, not_and]
        intro _
        omega

theorem getBin_ok (file : List Nat) (pos : Nat) (large nullable : Bool) (tell : Nat) (vs : List (List Nat)) (hat : At file tell vs.flatten)
    (hpos : At file pos ((sums tell (lens vs)).flatMap (leBytes 8))) (hfit : tell + vs.flatten.length < 256 ^ 8)
    (hsz : large = true ∨ vs.flatten.length < 2 ^ 31) (s e : Nat) (hse : s ≤ e) (he : e ≤ vs.length) :
    getBin file pos large nullable vs.length s e = some (arrOf nullable (slice vs (s, e))) := by
  unfold getBin
  rw [positionsAt_ok file pos vs.length _ hpos (by rw [sums_length]; simp) (by
    intro p hp
    have := sums_le _ _ _ hp
    rw [sum_lens] at this
    omega) _ _ (by omega) (by omega)]
  simp only [Option.bind_eq_bind, Option.bind_some]
  rw [getRange_ok file large nullable tell vs hat hsz s e hse he 0 (e - s) (by omega) (by omega), Nat.add_zero]
  have : s + (e - s) = e := by omega
  rw [this]

/-! ### Writing -/

/-- An array as arrow has them. -/
def BArr.Ok (a : BArr) : Prop :=
  a.offsets.length = a.valid.length + 1 ∧ Sorted a.offsets ∧ ∀ o ∈ a.offsets, o ≤ a.data.length

/-- The bytes of the rows, those that are null too. -/
def BArr.slots (a : BArr) : List (List Nat) := pieces a.data a.offsets

theorem pieces_length (data : List α) : ∀ (os : List Nat), (pieces data os).length = os.length - 1
  | [] => rfl
  | [_] => rfl
  | a :: b :: r => by
    rw [pieces, List.length_cons, pieces_length data (b :: r)]
    simp

theorem pieces_sums_eq (data : List α) : ∀ (a : Nat) (os : List Nat) (c : Nat), Sorted (a :: os) → (∀ o ∈ a :: os, o ≤ data.length) →
    c :: os.map (fun b => b - a + c) = sums c (lens (pieces data (a :: os))) ∧
    (pieces data (a :: os)).flatten = slice data (a, (a :: os).getLastD 0)
  | a, [], c, _, _ => by simp [pieces, sums, slice]
  | a, b :: r, c, hs, hb => by
    have hab := hs.1 b (by simp)
    have hbl := hb b (by simp)
    have ih := pieces_sums_eq data b r (c + (b - a)) hs.2 (fun o ho => hb o (by simp [ho]))
    have hl : (slice data (a, b)).length = b - a := length_slice _ _ hbl
    refine ⟨?_, ?_⟩
    · have e : sums c (lens (pieces data (a :: b :: r))) = c :: sums (c + (b - a)) (lens (pieces data (b :: r))) := by
        rw [pieces, lens, List.map_cons, hl]
        rfl
      rw [e, ← ih.1, List.map_cons]
      congr 2
      · omega
      · apply List.map_congr_left
        intro x hx
        have := hs.2.1 x hx
        omega
    · rw [pieces, List.flatten_cons, ih.2]
      have hlast : b ≤ (b :: r).getLastD 0 := by
        rw [List.getLastD_eq_getLast?, List.getLast?_eq_some_getLast (by simp)]
        exact sorted_getLast (b :: r) (by simp) hs.2 b (by simp)
      have e : (a :: b :: r).getLastD 0 = (b :: r).getLastD 0 := by simp [List.getLastD_cons]
      rw [e, slice_split _ _ _ _ hab hlast]

/-- Offsets into `n` elements. -/
def OffsOk (n : Nat) (os : List Nat) : Prop := os ≠ [] ∧ Sorted os ∧ ∀ o ∈ os, o ≤ n

theorem positions_eq : ∀ (arrs : List (List Nat × List α)) (c : Nat), (∀ a ∈ arrs, OffsOk a.2.length a.1) →
    c :: positionsFrom c (arrs.map (·.1)) = sums c (lens (arrs.flatMap (fun a => pieces a.2 a.1)))
  | [], c, _ => by simp [positionsFrom, sums]
  | (os, data) :: arrs, c, h => by
    obtain ⟨hl, hs, hb⟩ := h (os, data) (by simp)
    cases os with
    | nil => exact absurd rfl hl
    | cons o os =>
      obtain ⟨h1, h2⟩ := pieces_sums_eq data o os c hs hb
      rw [List.flatMap_cons, lens, List.map_append, sums_append]
      simp only
      rw [← h1, List.map_cons]
      unfold positionsFrom
      simp only [List.drop_succ_cons, List.drop_zero, List.headD_cons]
      have hlast : (os.map (fun b => b - o + c)).getLast?.getD c = c + (lens (pieces data (o :: os))).sum := by
        have := sums_last c (lens (pieces data (o :: os))) 0
        rw [← this, ← h1, List.getLastD_cons, List.getLastD_eq_getLast?]
      rw [hlast, ← positions_eq arrs _ (fun b hb => h b (by simp [hb]))]
      simp

theorem dataOf_eq : ∀ (arrs : List BArr), (∀ a ∈ arrs, a.Ok) → dataOf arrs = (arrs.flatMap BArr.slots).flatten
  | [], _ => rfl
  | a :: arrs, h => by
    obtain ⟨hl, hs, hb⟩ := h a (by simp)
    unfold dataOf
    have ih := dataOf_eq arrs (fun b hb => h b (by simp [hb]))
    unfold dataOf at ih
    rw [List.flatMap_cons, List.flatMap_cons, List.flatten_append, ih]
    congr 1
    show _ = (pieces a.data a.offsets).flatten
    cases ho : a.offsets with
    | nil => rw [ho] at hl; simp at hl
    | cons o os =>
      rw [ho] at hs hb
      rw [(pieces_sums_eq a.data o os 0 hs hb).2]
      rfl

theorem encodeBin_eq (tell : Nat) (arrs : List BArr) (h : ∀ a ∈ arrs, a.Ok) :
    encodeBin tell arrs = (arrs.flatMap BArr.slots).flatten ++ (sums tell (lens (arrs.flatMap BArr.slots))).flatMap (leBytes 8) := by
  unfold encodeBin
  have e1 : arrs.map (·.offsets) = (arrs.map (fun a => (a.offsets, a.data))).map (·.1) := by rw [List.map_map]; rfl
  have e2 : (arrs.map (fun a => (a.offsets, a.data))).flatMap (fun a => pieces a.2 a.1) = arrs.flatMap BArr.slots := by
    rw [List.flatMap_map]; rfl
  rw [e1, positions_eq _ _ (by
    intro x hx
    obtain ⟨a, ha, rfl⟩ := List.mem_map.1 hx
    obtain ⟨h1, h2, h3⟩ := h a ha
    exact ⟨fun h0 => by simp only at h0; rw [h0] at h1; simp at h1, h2, h3⟩), e2, dataOf_eq _ h]

end Verif.Legacy
