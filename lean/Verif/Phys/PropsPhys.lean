import Verif.Phys.LemmasLow
import Verif.Phys.LemmasPacked
/-! C64-C67: what is written in a page of a version 2.0 file is what is read, for every way to ask for it. -/
namespace Verif.Phys
open Verif.ListCol
open Verif.RowIds.Serde (leBytes)

/-- The values of all arrays. -/
def valsOf (t : Ty) (arrays : List Arr) : List Val := arrays.flatMap (fun a => a.vals t)

/-- The round trip of a page: it can be written, and wherever its buffers are put in a file, the ranges of rows that are
asked for come back, cut in the batches that are asked for.  `Q` restricts ranges and batches. -/
def RoundTrip (c : Codec) (lowCard compress : Bool) (t : Ty) (arrays : List Arr) (Q : List Rng → List Nat → Prop) : Prop :=
  ∃ buffers e, writePage c lowCard compress t arrays = some (buffers, e) ∧
    ∀ file bufs, Placed file bufs buffers → ∀ ranges batches, InB (valsOf t arrays).length ranges → batches.sum ≤ rows ranges →
      Q ranges batches → readPage c file bufs e t ranges batches = some (cuts (wanted (valsOf t arrays) ranges) 0 batches)

/-! ### draining -/

theorem drains_ok (c : Codec) (d : Dec) (t : Ty) (xs : List Val) (P : Nat → Nat → Prop)
    (h : ∀ skip num, skip + num ≤ xs.length → P skip num → ∃ b, decode c d skip num = some b ∧ toArrow b t = some (slice xs (skip, skip + num))) :
    ∀ (batches : List Nat) (skip : Nat), skip + batches.sum ≤ xs.length →
      (∀ pre n post, batches = pre ++ n :: post → P (skip + pre.sum) n) →
      drains c d t skip batches = some (cuts xs skip batches)
  | [], _, _, _ => rfl
  | n :: ns, skip, hs, hp => by
    rw [List.sum_cons] at hs
    obtain ⟨b, h1, h2⟩ := h skip n (by omega) (by simpa using hp [] n ns rfl)
    have hrec := drains_ok c d t xs P h ns (skip + n) (by omega) (fun pre m post e => by
      have := hp (n :: pre) m post (by rw [e]; rfl)
      rw [List.sum_cons, ← Nat.add_assoc] at this
      exact this)
    simp only [drains, h1, Option.bind_some, h2, hrec, cuts]

theorem fitsAll_pre (ranges : List Rng) : ∀ (batches : List Nat) (skip : Nat), FitsAll ranges skip batches →
    ∀ pre n post, batches = pre ++ n :: post → Fits ranges (skip + pre.sum) n
  | [], _, _, pre, n, post, e => by cases pre <;> cases e
  | m :: ms, skip, h, [], n, post, e => by
    cases e
    simpa using h.1
  | m :: ms, skip, h, p :: pre, n, post, e => by
    cases e
    have := fitsAll_pre ranges _ (skip + m) h.2 pre n post rfl
    rw [List.sum_cons, ← Nat.add_assoc]
    exact this

theorem fitsAll_one (r : Rng) : ∀ (batches : List Nat) (skip : Nat), skip + batches.sum ≤ r.2 - r.1 → FitsAll [r] skip batches
  | [], _, _ => trivial
  | n :: ns, skip, h => by
    rw [List.sum_cons] at h
    refine ⟨?_, fitsAll_one r ns (skip + n) (by omega)⟩
    unfold Fits
    split
    · trivial
    · right; omega

theorem fits_unit : ∀ (is : List Nat) (skip num : Nat), Fits (is.map (fun i => (i, i + 1))) skip num
  | [], _, _ => trivial
  | i :: is, skip, num => by
    rw [List.map_cons, Fits]
    split
    · exact fits_unit is _ _
    · left; simp only at *; omega

theorem fitsAll_unit (is : List Nat) : ∀ (batches : List Nat) (skip : Nat), FitsAll (is.map (fun i => (i, i + 1))) skip batches
  | [], _ => trivial
  | _ :: ns, _ => ⟨fits_unit is _ _, fitsAll_unit is ns _⟩

theorem cuts_flatten {α : Type} (xs : List α) : ∀ (batches : List Nat) (a : Nat), a + batches.sum ≤ xs.length →
    (cuts xs a batches).flatten = slice xs (a, a + batches.sum) ∧ (cuts xs a batches).map List.length = batches
  | [], a, _ => by simp [cuts, slice]
  | n :: ns, a, h => by
    rw [List.sum_cons] at h
    obtain ⟨h1, h2⟩ := cuts_flatten xs ns (a + n) (by omega)
    rw [cuts, List.flatten_cons, List.map_cons, h1, h2, List.sum_cons, length_slice _ _ (by simp only; omega)]
    refine ⟨?_, by simp⟩
    simp only [slice]
    rw [show a + n - a = n by omega, show a + n + ns.sum - (a + n) = ns.sum by omega, show a + (n + ns.sum) - a = n + ns.sum by omega,
      List.take_add, List.drop_drop]

theorem rows_unit : ∀ (is : List Nat), rows (is.map (fun i => (i, i + 1))) = is.length
  | [] => rfl
  | i :: is => by rw [List.map_cons, rows_cons, rows_unit is, List.length_cons]; simp only; omega

theorem wanted_unit {α : Type} (xs : List α) (d : α) : ∀ (is : List Nat), (∀ i ∈ is, i < xs.length) →
    wanted xs (is.map (fun i => (i, i + 1))) = is.map (fun i => xs.getD i d)
  | [], _ => rfl
  | i :: is, h => by
    have hi := h i (by simp)
    rw [List.map_cons, wanted_cons, wanted_unit xs d is (fun j hj => h j (by simp [hj])), List.map_cons]
    have : slice xs (i, i + 1) = [xs.getD i d] := by
      have e : i + 1 - i = 1 := by omega
      simp only [slice, e]
      rw [List.drop_eq_getElem_cons hi, List.take_succ_cons, List.take_zero]
      simp [List.getD_eq_getElem?_getD, List.getElem?_eq_getElem hi]
    rw [this]
    rfl

/-- A scan of the whole page in batches, and a take of single rows in any order, are special cases. -/
theorem roundTrip_scan {c : Codec} {lowCard compress : Bool} {t : Ty} {arrays : List Arr} {Q : List Rng → List Nat → Prop}
    (h : RoundTrip c lowCard compress t arrays Q) (hQ : ∀ batches, Q [(0, (valsOf t arrays).length)] batches)
    (hne : valsOf t arrays ≠ []) :
    ∃ buffers e, writePage c lowCard compress t arrays = some (buffers, e) ∧
      ∀ file bufs, Placed file bufs buffers → ∀ batches, batches.sum = (valsOf t arrays).length →
        ∃ out, readPage c file bufs e t [(0, (valsOf t arrays).length)] batches = some out ∧ out.flatten = valsOf t arrays ∧
          out.map List.length = batches := by
  obtain ⟨buffers, e, h1, h2⟩ := h
  refine ⟨buffers, e, h1, fun file bufs hp batches hb => ?_⟩
  have hpos := List.length_pos_iff.2 hne
  have hw : wanted (valsOf t arrays) [(0, (valsOf t arrays).length)] = valsOf t arrays := by
    simp [wanted, slice]
  have hr : rows [(0, (valsOf t arrays).length)] = (valsOf t arrays).length := by simp [rows]
  have := h2 file bufs hp [(0, (valsOf t arrays).length)] batches
    (fun r hr => by simp only [List.mem_singleton] at hr; subst hr; exact ⟨hpos, Nat.le_refl _⟩) (by omega) (hQ batches)
  rw [hw] at this
  obtain ⟨f1, f2⟩ := cuts_flatten (valsOf t arrays) batches 0 (by omega)
  refine ⟨_, this, ?_, f2⟩
  rw [f1, Nat.zero_add, hb]
  simp [slice]

theorem roundTrip_take {c : Codec} {lowCard compress : Bool} {t : Ty} {arrays : List Arr} {Q : List Rng → List Nat → Prop}
    (h : RoundTrip c lowCard compress t arrays Q) (rowsOk : List Nat → Prop) (hQ : ∀ is batches, rowsOk is → Q (is.map (fun i => (i, i + 1))) batches) :
    ∃ buffers e, writePage c lowCard compress t arrays = some (buffers, e) ∧
      ∀ file bufs, Placed file bufs buffers → ∀ is : List Nat, (∀ i ∈ is, i < (valsOf t arrays).length) → rowsOk is → ∀ batches, batches.sum = is.length →
        ∃ out, readPage c file bufs e t (is.map (fun i => (i, i + 1))) batches = some out ∧
          out.flatten = is.map (fun i => (valsOf t arrays).getD i .null) ∧ out.map List.length = batches := by
  obtain ⟨buffers, e, h1, h2⟩ := h
  refine ⟨buffers, e, h1, fun file bufs hp is hi ho batches hb => ?_⟩
  have hin : InB (valsOf t arrays).length (is.map (fun i => (i, i + 1))) := by
    intro r hr
    obtain ⟨i, him, e⟩ := List.mem_map.1 hr
    subst e
    have := hi i him
    exact ⟨by simp only; omega, by simp only; omega⟩
  have := h2 file bufs hp _ batches hin (by rw [rows_unit]; omega) (hQ is batches ho)
  have hw := wanted_unit (valsOf t arrays) .null is hi
  rw [hw] at this
  obtain ⟨f1, f2⟩ := cuts_flatten (is.map (fun i => (valsOf t arrays).getD i .null)) batches 0 (by simp; omega)
  refine ⟨_, this, ?_, f2⟩
  rw [f1, Nat.zero_add, hb]
  simp only [slice, Nat.sub_zero, List.drop_zero]
  exact List.take_of_length_le (by simp)

/-! ### C64: columns without strings -/

/-- Every page of a flat column comes back, for all ranges and batches. -/
def C64_flat_page_statement : Prop :=
  ∀ (c : Codec) (lowCard compress : Bool) (t : Ty) (arrays : List Arr), c.Ok → t.flat = true → (∀ a ∈ arrays, a.HasTy t) →
    RoundTrip c lowCard compress t arrays (fun _ _ => True)

theorem readable_flat : ∀ {t : Ty}, t.flat = true → readable t = true
  | .null, _ => rfl
  | .bool, _ => rfl
  | .prim _, _ => rfl
  | .fsl inner d, h => by
    have h' : inner.flat = true := h
    have : ∀ {t : Ty}, t.flat = true → isPrimitive t = true := by
      intro t
      induction t with
      | fsl i d ih => intro h; exact ih h
      | _ => intro h; first | rfl | cases h
    exact this h'

/-- What holds: for batches that begin where a range begins or end in the range they begin in. -/
theorem C64_flat_page_partial (c : Codec) (lowCard compress : Bool) (t : Ty) (arrays : List Arr) (hc : c.Ok) (ht : t.flat = true)
    (h : ∀ a ∈ arrays, a.HasTy t) : RoundTrip c lowCard compress t arrays (fun ranges batches => FitsAll ranges 0 batches) := by
  obtain ⟨b, h1, h2, h3, h4⟩ := fromArrays_flat t arrays ht h
  obtain ⟨e, e1, _⟩ := flat_ok hc [] [] t t (lowCard && decide (t = .bin false)) compress ht b h2 0
  refine ⟨b.buffers, e, ?_, fun file bufs hp ranges batches hr hb hf => ?_⟩
  · simp only [writePage, h1, createEncoder, e1, Option.map_some]
  · obtain ⟨e', e1', e2'⟩ := flat_ok hc file bufs t t (lowCard && decide (t = .bin false)) compress ht b h2 0
    rw [e1] at e1'
    cases e1'
    obtain ⟨s, s1, s2⟩ := e2' (by simpa using hp)
    obtain ⟨d, d1, d2⟩ := s2 _ h4 ranges hr
    simp only [readPage, readable_flat ht, if_true, s1, Option.bind_some, d1]
    have hl : (wanted (valsOf t arrays) ranges).length = rows ranges := length_wanted _ ranges hr
    exact drains_ok c d t (wanted (valsOf t arrays) ranges) (Fits ranges) (fun skip num hn hfit => d2 skip num (by rw [hl] at hn; exact hn) hfit) batches 0 (by omega)
      (fun pre n post e => fitsAll_pre ranges batches 0 hf pre n post e)

/-- A scan of a flat page, in any batches. -/
theorem C64_flat_scan (c : Codec) (lowCard compress : Bool) (t : Ty) (arrays : List Arr) (hc : c.Ok) (ht : t.flat = true)
    (h : ∀ a ∈ arrays, a.HasTy t) (hne : valsOf t arrays ≠ []) :
    ∃ buffers e, writePage c lowCard compress t arrays = some (buffers, e) ∧
      ∀ file bufs, Placed file bufs buffers → ∀ batches, batches.sum = (valsOf t arrays).length →
        ∃ out, readPage c file bufs e t [(0, (valsOf t arrays).length)] batches = some out ∧ out.flatten = valsOf t arrays ∧
          out.map List.length = batches := by
  obtain ⟨buffers, e, h1, h2⟩ := C64_flat_page_partial c lowCard compress t arrays hc ht h
  exact roundTrip_scan (Q := fun ranges batches => batches.sum ≤ rows ranges → FitsAll ranges 0 batches)
    ⟨buffers, e, h1, fun file bufs hp ranges batches hr hb hq => h2 file bufs hp ranges batches hr hb (hq hb)⟩
    (fun batches hb => fitsAll_one _ batches 0 (by simpa [rows] using hb)) hne

/-- A take from a flat page: any rows in any order, any batches. -/
theorem C64_flat_take (c : Codec) (lowCard compress : Bool) (t : Ty) (arrays : List Arr) (hc : c.Ok) (ht : t.flat = true)
    (h : ∀ a ∈ arrays, a.HasTy t) :
    ∃ buffers e, writePage c lowCard compress t arrays = some (buffers, e) ∧
      ∀ file bufs, Placed file bufs buffers → ∀ is : List Nat, (∀ i ∈ is, i < (valsOf t arrays).length) → ∀ batches, batches.sum = is.length →
        ∃ out, readPage c file bufs e t (is.map (fun i => (i, i + 1))) batches = some out ∧
          out.flatten = is.map (fun i => (valsOf t arrays).getD i .null) ∧ out.map List.length = batches := by
  obtain ⟨buffers, e, h1, h2⟩ := roundTrip_take (C64_flat_page_partial c lowCard compress t arrays hc ht h) (fun _ => True)
    (fun is batches _ => fitsAll_unit is batches 0)
  exact ⟨buffers, e, h1, fun file bufs hp is hi batches hb => h2 file bufs hp is hi trivial batches hb⟩

/-- A codec that adds a byte. -/
def toyCodec : Codec := ⟨fun x => 7 :: x, fun x => match x with | 7 :: y => some y | _ => none⟩

theorem toyCodec_ok : toyCodec.Ok := fun _ => rfl

/-- Buffers one after the other, with a byte before each. -/
def layout : Nat → List (List Nat) → List Nat × List Rng
  | _, [] => ([], [])
  | p, b :: bs => let r := layout (p + 1 + b.length) bs; ([99] ++ b ++ r.1, (p + 1, b.length) :: r.2)

theorem layout_placed : ∀ (bs : List (List Nat)) (pre : List Nat), Placed (pre ++ (layout pre.length bs).1) (layout pre.length bs).2 bs
  | [], _ => by intro i b h; simp at h
  | x :: xs, pre => by
    have ih := layout_placed xs (pre ++ [99] ++ x)
    have hl : (pre ++ [99] ++ x).length = pre.length + 1 + x.length := by simp; omega
    rw [hl] at ih
    intro i b hb
    cases i with
    | zero =>
      simp only [List.getElem?_cons_zero, Option.some.injEq] at hb
      subst hb
      refine ⟨pre.length + 1, rfl, ?_⟩
      have e : pre ++ (layout pre.length (x :: xs)).1 = (pre ++ [99]) ++ (x ++ (layout (pre.length + 1 + x.length) xs).1) := by
        simp [layout]
      have hl1 : (pre ++ [99]).length = pre.length + 1 := by simp
      simp only [slice]
      rw [e, Nat.add_sub_cancel_left, ← hl1, List.drop_left, List.take_left]
    | succ i =>
      obtain ⟨p, h1, h2⟩ := ih i b (by simpa using hb)
      refine ⟨p, by simpa [layout] using h1, ?_⟩
      have e : pre ++ (layout pre.length (x :: xs)).1 = pre ++ [99] ++ x ++ (layout (pre.length + 1 + x.length) xs).1 := by
        simp [layout]
      rw [e]
      exact h2

theorem layout_placed0 (bs : List (List Nat)) : Placed (layout 0 bs).1 (layout 0 bs).2 bs := by
  simpa using layout_placed bs []

/-- Writing and reading with the toy codec. -/
def trip (lowCard compress : Bool) (t : Ty) (arrays : List Arr) (ranges : List Rng) (batches : List Nat) : Option (List (List Val)) :=
  (writePage toyCodec lowCard compress t arrays).bind (fun x =>
    readPage toyCodec (layout 0 x.1).1 (layout 0 x.1).2 x.2 t ranges batches)

theorem trip_of {lowCard compress : Bool} {t : Ty} {arrays : List Arr} {Q : List Rng → List Nat → Prop} {ranges : List Rng} {batches : List Nat}
    (h : RoundTrip toyCodec lowCard compress t arrays Q) (h1 : InB (valsOf t arrays).length ranges) (h2 : batches.sum ≤ rows ranges)
    (h3 : Q ranges batches) : trip lowCard compress t arrays ranges batches = some (cuts (wanted (valsOf t arrays) ranges) 0 batches) := by
  obtain ⟨buffers, e, w, r⟩ := h
  unfold trip
  rw [w]
  exact r _ _ (layout_placed0 buffers) ranges batches h1 h2 h3

def c64_bits : List Arr := [.bool none [true, false, true, false, true, false, true, false, false, false, false, true]]

/-- A batch that begins in one range and ends in a later one gets wrong bits: the skipped rows are not taken off the number
of rows that are left in the first range, so bits after the range are returned (bitmap.rs:105-113). -/
theorem C64_flat_page_violated : ¬ C64_flat_page_statement := by
  intro h
  have := trip_of (h toyCodec false false .bool c64_bits toyCodec_ok rfl (by
      intro a ha
      simp only [c64_bits, List.mem_singleton] at ha
      subst ha
      intro f hf
      cases hf)) (ranges := [(0, 4), (8, 12)]) (batches := [3, 3])
    (by intro r hr; simp only [List.mem_cons, List.not_mem_nil, or_false] at hr
        rcases hr with rfl | rfl <;> exact ⟨by decide, by decide⟩) (by decide) trivial
  have e1 : trip false false .bool c64_bits [(0, 4), (8, 12)] [3, 3] = none ∨
      ∃ x, trip false false .bool c64_bits [(0, 4), (8, 12)] [3, 3] = some [[.bit true, .bit false, .bit true], x] ∧ x ≠ [.bit false, .bit false, .bit false] := by
    right
    exact ⟨_, rfl, by intro h; cases h⟩
  rcases e1 with e1 | ⟨x, e1, e2⟩
  · rw [this] at e1; cases e1
  · rw [this] at e1
    apply e2
    have e3 : cuts (wanted (valsOf .bool c64_bits) [(0, 4), (8, 12)]) 0 [3, 3] =
      [[.bit true, .bit false, .bit true], [.bit false, .bit false, .bit false]] := rfl
    rw [e3] at e1
    cases e1
    rfl

/-- A page of fixed size lists of two values of 2 bytes, with null lists and null items, from two arrays. -/
def c64_lists : List Arr :=
  [.fsl (some [true, false]) (.prim (some [true, false, true, true]) [1, 2, 3, 4, 5, 6, 7, 8] 4) 2, .fsl none (.prim none [11, 12, 13, 14] 2) 1]

theorem c64_lists_ty : ∀ a ∈ c64_lists, a.HasTy (.fsl (.prim 2) 2) := by
  intro a ha
  simp only [c64_lists, List.mem_cons, List.not_mem_nil, or_false] at ha
  rcases ha with rfl | rfl
  · refine ⟨?_, by decide, rfl, ?_, rfl⟩ <;> (intro f hf; cases hf; rfl)
  · refine ⟨?_, by decide, rfl, ?_, rfl⟩ <;> (intro f hf; cases hf)

theorem C64_flat_page_nonvacuous :
    valsOf (.fsl (.prim 2) 2) c64_lists =
      [.list [.bytes [1, 2], .null], .null, .list [.bytes [11, 12], .bytes [13, 14]]] ∧
    trip false true (.fsl (.prim 2) 2) c64_lists [(2, 3), (0, 2), (0, 1)] [1, 2, 1] =
      some [[.list [.bytes [11, 12], .bytes [13, 14]]], [.list [.bytes [1, 2], .null], .null], [.list [.bytes [1, 2], .null]]] := by
  refine ⟨rfl, ?_⟩
  rw [trip_of (C64_flat_page_partial toyCodec false true _ c64_lists toyCodec_ok rfl c64_lists_ty)
    (by intro r hr
        simp only [List.mem_cons, List.not_mem_nil, or_false] at hr
        rcases hr with rfl | rfl | rfl <;> exact ⟨by decide, by decide⟩) (by decide) (by simp [FitsAll, Fits])]
  rfl

/-! ### C65: strings -/

def C65_string_page_statement : Prop :=
  ∀ (c : Codec) (lowCard compress wide : Bool) (arrays : List Arr), c.Ok → (lowCard = false ∨ wide = true) →
    (∀ a ∈ arrays, a.HasTy (.bin wide)) → 0 < (valsOf (.bin wide) arrays).length → strBytes arrays < 2 ^ 63 →
    RoundTrip c lowCard compress (.bin wide) arrays (fun _ _ => True)

/-- What holds: if only the first range may begin at row 0. All batches. -/
theorem C65_string_page_partial (c : Codec) (lowCard compress wide : Bool) (arrays : List Arr) (hc : c.Ok) (hlc : lowCard = false ∨ wide = true)
    (h : ∀ a ∈ arrays, a.HasTy (.bin wide)) (hpos : 0 < (valsOf (.bin wide) arrays).length) (hsz : strBytes arrays < 2 ^ 63) :
    RoundTrip c lowCard compress (.bin wide) arrays (fun ranges _ => ∀ r ∈ ranges.tail, r.1 ≠ 0) := by
  obtain ⟨b, S, F, b1, b2, b3, b4, b5, b6⟩ := fromArrays_bin h
  have b6' : valsOf (.bin wide) arrays = mask F (S.map .bytes) := b6
  have hlen : (valsOf (.bin wide) arrays).length = S.length := by rw [b6']; simp [mask, b4]
  have hne : S ≠ [] := by
    intro h0; rw [hlen, h0] at hpos; simp at hpos
  have hS : S.flatten.length < 2 ^ 63 := Nat.lt_of_le_of_lt b5 hsz
  have henc := encodeBinary_ok c compress b2 b4 hne 0
  have hce : createEncoder lowCard compress (.bin wide) = .binary compress := by
    unfold createEncoder
    rcases hlc with rfl | rfl
    · rfl
    · have : (lowCard && decide ((Ty.bin true) = .bin false)) = false := by cases lowCard <;> rfl
      rw [this]; rfl
  refine ⟨[(inds (S.flatten.length + 1) 0 S F).flatMap (leBytes 8), if compress then c.comp S.flatten else S.flatten],
    .binary (.noNulls (.flat 64 0 false)) (.flat 8 (0 + 1) compress) (S.flatten.length + 1), ?_, fun file bufs hp ranges batches hr hb hq => ?_⟩
  · simp only [writePage, b1, hce, encode, henc, Option.map_some]
    rfl
  · obtain ⟨s, s1, s2⟩ := binary_page c hc compress (.bin wide) (k := 0) b4 hS (by simpa [Block.buffers] using hp)
    have hwd : wideOf (.bin wide) = wide := by cases wide <;> rfl
    rw [← b6', hwd] at s2
    obtain ⟨d, d1, d2⟩ := s2 ranges hr hq
    have hrd : readable (.bin wide) = true := rfl
    simp only [readPage, hrd, if_true, s1, Option.bind_some, d1]
    have hl : (wanted (valsOf (.bin wide) arrays) ranges).length = rows ranges := length_wanted _ ranges hr
    exact drains_ok c d (.bin wide) (wanted (valsOf (.bin wide) arrays) ranges) (fun _ _ => True) (fun skip num hn _ => d2 skip num (by rw [hl] at hn; exact hn)) batches 0 (by omega)
      (fun _ _ _ _ => trivial)

theorem C65_string_scan (c : Codec) (lowCard compress wide : Bool) (arrays : List Arr) (hc : c.Ok) (hlc : lowCard = false ∨ wide = true)
    (h : ∀ a ∈ arrays, a.HasTy (.bin wide)) (hpos : 0 < (valsOf (.bin wide) arrays).length) (hsz : strBytes arrays < 2 ^ 63) :
    ∃ buffers e, writePage c lowCard compress (.bin wide) arrays = some (buffers, e) ∧
      ∀ file bufs, Placed file bufs buffers → ∀ batches, batches.sum = (valsOf (.bin wide) arrays).length →
        ∃ out, readPage c file bufs e (.bin wide) [(0, (valsOf (.bin wide) arrays).length)] batches = some out ∧
          out.flatten = valsOf (.bin wide) arrays ∧ out.map List.length = batches :=
  roundTrip_scan (C65_string_page_partial c lowCard compress wide arrays hc hlc h hpos hsz) (fun _ => by simp) (List.length_pos_iff.1 hpos)

/-- A take of rows of which only the first may be row 0: in particular, of different rows in ascending order. -/
theorem C65_string_take (c : Codec) (lowCard compress wide : Bool) (arrays : List Arr) (hc : c.Ok) (hlc : lowCard = false ∨ wide = true)
    (h : ∀ a ∈ arrays, a.HasTy (.bin wide)) (hpos : 0 < (valsOf (.bin wide) arrays).length) (hsz : strBytes arrays < 2 ^ 63) :
    ∃ buffers e, writePage c lowCard compress (.bin wide) arrays = some (buffers, e) ∧
      ∀ file bufs, Placed file bufs buffers → ∀ is : List Nat, (∀ i ∈ is, i < (valsOf (.bin wide) arrays).length) → (∀ i ∈ is.tail, i ≠ 0) →
        ∀ batches, batches.sum = is.length →
        ∃ out, readPage c file bufs e (.bin wide) (is.map (fun i => (i, i + 1))) batches = some out ∧
          out.flatten = is.map (fun i => (valsOf (.bin wide) arrays).getD i .null) ∧ out.map List.length = batches :=
  roundTrip_take (C65_string_page_partial c lowCard compress wide arrays hc hlc h hpos hsz) (fun is => ∀ i ∈ is.tail, i ≠ 0)
    (fun is _ hi r hr => by
      rw [← List.map_tail] at hr
      obtain ⟨i, hm, e⟩ := List.mem_map.1 hr
      subst e
      exact hi i hm)

/-- Two strings. -/
def c65_two : List Arr := [.bin none [0, 3, 4] [9, 1, 2, 3]]

theorem c65_two_ty (wide : Bool) : ∀ a ∈ c65_two, a.HasTy (.bin wide) := by
  intro a ha
  simp only [c65_two, List.mem_singleton] at ha
  subst ha
  refine ⟨?_, by simp, ⟨by decide, by decide, trivial⟩, by decide⟩
  intro f hf
  cases hf

/-- A take of the rows 0, 0 and 1: the third row is wrong, as the index into the decoded offsets is set back to the length
of the range when a range begins at row 0 (binary.rs:184-218). -/
theorem C65_string_page_violated : ¬ C65_string_page_statement := by
  intro h
  have := trip_of (h toyCodec false false false c65_two toyCodec_ok (Or.inl rfl) (c65_two_ty false) (by decide) (by decide))
    (ranges := [(0, 1), (0, 1), (1, 2)]) (batches := [3])
    (by intro r hr; simp only [List.mem_cons, List.not_mem_nil, or_false] at hr
        rcases hr with rfl | rfl | rfl <;> exact ⟨by decide, by decide⟩) (by decide) trivial
  have e3 : cuts (wanted (valsOf (.bin false) c65_two) [(0, 1), (0, 1), (1, 2)]) 0 [3] = [[.bytes [9, 1, 2], .bytes [9, 1, 2], .bytes [3]]] := rfl
  rw [e3] at this
  have e4 : (trip false false (.bin false) c65_two [(0, 1), (0, 1), (1, 2)] [3]).map (fun l => l.map (fun v => v.map Val.str)) ≠
      some [[some [9, 1, 2], some [9, 1, 2], some [3]]] := by decide +kernel
  rw [this] at e4
  exact e4 rfl

/-- Strings of two arrays, with nulls, an empty string and an array that is a slice. -/
def c65_strings : List Arr := [.bin none [1, 3, 3, 4] [9, 1, 2, 3], .bin (some [false, true]) [0, 2, 5] [5, 6, 7, 8, 9]]

theorem c65_strings_ty (wide : Bool) : ∀ a ∈ c65_strings, a.HasTy (.bin wide) := by
  intro a ha
  simp only [c65_strings, List.mem_cons, List.not_mem_nil, or_false] at ha
  rcases ha with rfl | rfl
  · refine ⟨?_, by simp, ⟨by decide, by decide, by decide, trivial⟩, by decide⟩
    intro f hf; cases hf
  · refine ⟨?_, by simp, ⟨by decide, by decide, trivial⟩, by decide⟩
    intro f hf; cases hf; rfl

theorem C65_string_page_nonvacuous :
    valsOf (.bin true) c65_strings = [.bytes [1, 2], .bytes [], .bytes [3], .null, .bytes [7, 8, 9]] ∧
    trip true true (.bin true) c65_strings [(3, 5), (1, 3), (1, 2)] [1, 2, 2] =
      some [[.null], [.bytes [7, 8, 9], .bytes []], [.bytes [3], .bytes []]] := by
  refine ⟨rfl, ?_⟩
  rw [trip_of (C65_string_page_partial toyCodec true true true c65_strings toyCodec_ok (Or.inr rfl) (c65_strings_ty true) (by decide) (by decide))
    (by intro r hr
        simp only [List.mem_cons, List.not_mem_nil, or_false] at hr
        rcases hr with rfl | rfl | rfl <;> exact ⟨by decide, by decide⟩) (by decide)
    (by intro r hr; simp at hr; rcases hr with rfl | rfl <;> decide)]
  rfl

/-! ### C66: dictionaries -/

/-- Every dictionary column comes back. -/
def C66_dictionary_page_statement : Prop :=
  ∀ (c : Codec) (lowCard compress : Bool) (w : Nat) (signed : Bool) (vt : Ty) (arrays : List Arr), c.Ok → 0 < w →
    (vt.flat = true ∨ ∃ wide, vt = .bin wide) → (∀ a ∈ arrays, a.HasTy (.dict w signed vt)) →
    strBytes (arrays.map Arr.values) < 2 ^ 63 → RoundTrip c lowCard compress (.dict w signed vt) arrays (fun _ _ => True)

/-- What holds: Utf8 or flat items, if all dictionaries together (with one more entry for nulls) fit in the key type, or
there is one array without nulls.  All ranges, all batches. -/
theorem C66_dictionary_page_partial (c : Codec) (lowCard compress : Bool) (w : Nat) (signed : Bool) (vt : Ty) (arrays : List Arr) (hc : c.Ok)
    (hw : 0 < w) (hvt : vt.flat = true ∨ vt = .bin false) (h : ∀ a ∈ arrays, a.HasTy (.dict w signed vt))
    (hfit : (arrays.map (fun a => a.values.len)).sum ≤ maxIndexVal w signed ∨ (arrays.length = 1 ∧ ∀ a ∈ arrays, a.nulls = none))
    (hsz : strBytes (arrays.map Arr.values) < 2 ^ 63) :
    RoundTrip c lowCard compress (.dict w signed vt) arrays (fun _ _ => True) := by
  obtain ⟨b, b', e, k', h1, h2, _⟩ := dict_page hc [] [] hw hvt h hfit hsz
  have hce : createEncoder lowCard compress (.dict w signed vt) = .already (chooseEncoder false false vt) := rfl
  refine ⟨b'.buffers, e, by simp only [writePage, h1, hce, h2, Option.map_some], fun file bufs hp ranges batches hr hb _ => ?_⟩
  obtain ⟨x, x', ex, kx, g1, g2, g3⟩ := dict_page hc file bufs hw hvt h hfit hsz
  rw [h1] at g1
  cases g1
  rw [h2] at g2
  cases g2
  obtain ⟨s, s1, s2⟩ := g3 hp
  obtain ⟨d, d1, d2⟩ := s2 ranges hr
  have hrd : readable (.dict w signed vt) = true := by
    rcases hvt with h' | h'
    · have : isPrimitive vt = true := by
        have := readable_flat h'
        cases vt <;> first | exact this | cases h'
      simp [readable, this]
    · subst h'; rfl
  simp only [readPage, hrd, if_true, s1, Option.bind_some, d1]
  have hl : (wanted (valsOf (.dict w signed vt) arrays) ranges).length = rows ranges := length_wanted _ ranges hr
  exact drains_ok c d (.dict w signed vt) (wanted (valsOf (.dict w signed vt) arrays) ranges) (fun _ _ => True) (fun skip num hn _ => d2 skip num (by rw [hl] at hn; exact hn)) batches 0 (by omega)
    (fun _ _ _ _ => trivial)

/-- Every Utf8 column that is dictionary encoded comes back. -/
def C66_low_cardinality_statement : Prop :=
  ∀ (c : Codec) (compress : Bool) (arrays : List Arr), c.Ok → (∀ a ∈ arrays, a.HasTy (.bin false)) →
    0 < (valsOf (.bin false) arrays).length → strBytes arrays < 2 ^ 63 → RoundTrip c true compress (.bin false) arrays (fun _ _ => True)

/-- What holds: if there are at most 255 different strings.  All ranges, all batches. -/
theorem C66_low_cardinality_partial (c : Codec) (compress : Bool) (arrays : List Arr) (hc : c.Ok) (h : ∀ a ∈ arrays, a.HasTy (.bin false))
    (hpos : 0 < (valsOf (.bin false) arrays).length) (hsz : strBytes arrays < 2 ^ 63)
    (hlow : ∃ ds : List (List Nat), ds.length ≤ 255 ∧ ∀ s, Val.bytes s ∈ valsOf (.bin false) arrays → s ∈ ds) :
    RoundTrip c true compress (.bin false) arrays (fun _ _ => True) := by
  obtain ⟨b, S, F, b1, b2, b3, b4, b5, b6⟩ := fromArrays_bin h
  have b6' : valsOf (.bin false) arrays = mask F (S.map .bytes) := b6
  obtain ⟨xs, x1, x2, x3⟩ := mask_ofStr F S b4
  rw [x1] at b6'
  have hb : toArrow b (.bin false) = some (xs.map ofStr) := by
    rw [← x1]
    rcases b2 with ⟨rfl, _, hf⟩ | ⟨rfl, hf⟩ | rfl
    · simp only [toArrow, hf]
      rw [mask_false _ _ (by simp)]
    · simp only [toArrow, if_true, hf]
      rw [mask_true _ _ (by simp), strs_pieces, pieces_offs]
    · simp only [toArrow, if_true, Option.map_some]
      rw [strs_pieces, pieces_offs]
  have hne : xs ≠ [] := by
    intro h0
    rw [b6', h0] at hpos
    simp at hpos
  obtain ⟨ds, hd1, hd2⟩ := hlow
  have hm : ∀ st, some st ∈ xs → st ∈ ds := fun st hst => hd2 st (by
    rw [b6']
    exact List.mem_map.2 ⟨some st, hst, rfl⟩)
  have hbytes : (xs.flatMap (fun x => x.getD [])).length < 2 ^ 63 := Nat.lt_of_le_of_lt (Nat.le_trans x3 b5) hsz
  obtain ⟨b', e, k', h2, _⟩ := low_page hc [] [] xs b hb hne ds hd1 hm hbytes
  have hce : createEncoder true compress (.bin false) = .dictionary := rfl
  refine ⟨b'.buffers, e, by simp only [writePage, b1, hce, h2, Option.map_some], fun file bufs hp ranges batches hr hbt _ => ?_⟩
  obtain ⟨x', ex, kx, g2, g3⟩ := low_page hc file bufs xs b hb hne ds hd1 hm hbytes
  rw [h2] at g2
  cases g2
  obtain ⟨s, s1, s2⟩ := g3 hp
  have hr' : InB xs.length ranges := by rw [b6', List.length_map] at hr; exact hr
  obtain ⟨d, d1, d2⟩ := s2 ranges hr'
  have hrd : readable (.bin false) = true := rfl
  simp only [readPage, hrd, if_true, s1, Option.bind_some, d1]
  have hl : (wanted (valsOf (.bin false) arrays) ranges).length = rows ranges := length_wanted _ ranges hr
  rw [b6'] at hl ⊢
  exact drains_ok c d (.bin false) (wanted (xs.map ofStr) ranges) (fun _ _ => True) (fun skip num hn _ => d2 skip num (by rw [hl] at hn; exact hn)) batches 0 (by omega)
    (fun _ _ _ _ => trivial)

/-- Keys of one signed byte, all 128 dictionary entries used, and a null. -/
def c66_full : List Arr := [.dict (some [true, false]) [5, 0] (.bool none (List.replicate 128 true))]

/-- The index of the null does not fit in the key type: the indices are widened to 4 bytes and written so, but read with
the key type (data.rs:1341-1370): the null comes back as the first entry of the dictionary. -/
theorem C66_dictionary_page_violated : ¬ C66_dictionary_page_statement := by
  intro h
  have := trip_of (h toyCodec false false 1 true .bool c66_full toyCodec_ok (by decide) (Or.inl rfl) (by
      intro a ha
      simp only [c66_full, List.mem_singleton] at ha
      subst ha
      refine ⟨?_, ?_, ?_, by decide, by decide, ?_⟩
      · intro f hf; cases hf; rfl
      · intro f hf; cases hf
      · intro k hk
        simp only [List.mem_cons, List.not_mem_nil, or_false] at hk
        rcases hk with rfl | rfl <;> decide
      · intro i hi k hk
        cases i with
        | zero => cases hk; decide +kernel
        | succ i =>
          cases i with
          | zero => cases hi
          | succ i => cases hk) (by decide +kernel)) (ranges := [(0, 2)]) (batches := [2])
    (by intro r hr; simp only [List.mem_cons, List.not_mem_nil, or_false] at hr
        rcases hr with rfl; exact ⟨by decide, by decide⟩) (by decide) trivial
  have e3 : cuts (wanted (valsOf (.dict 1 true .bool) c66_full) [(0, 2)]) 0 [2] = [[.bit true, .null]] := rfl
  rw [e3] at this
  have e4 : (trip false false (.dict 1 true .bool) c66_full [(0, 2)] [2]).map
      (fun l => l.map (fun v => v.map (fun x => match x with | .null => true | _ => false))) ≠ some [[false, true]] := by decide +kernel
  rw [this] at e4
  exact e4 rfl

/-- A dictionary with LargeUtf8 items. -/
def c66_large : List Arr := [.dict none [0] (.bin none [0, 1] [9])]

/-- The items are decoded with 4-byte offsets and then read with 8-byte offsets: not readable at all. -/
theorem C66_large_items_violated :
    (∀ a ∈ c66_large, a.HasTy (.dict 1 false (.bin true))) ∧
    (writePage toyCodec false false (.dict 1 false (.bin true)) c66_large).isSome = true ∧
    trip false false (.dict 1 false (.bin true)) c66_large [(0, 1)] [1] = none := by
  refine ⟨?_, by decide +kernel, rfl⟩
  intro a ha
  simp only [c66_large, List.mem_singleton] at ha
  subst ha
  refine ⟨?_, ⟨?_, by simp, ⟨by decide, trivial⟩, by decide⟩, ?_, by decide, by decide, ?_⟩
  · intro f hf; cases hf
  · intro f hf; cases hf
  · intro k hk
    simp only [List.mem_singleton] at hk
    subst hk; decide
  · intro i hi k hk
    cases i with
    | zero => cases hk; decide
    | succ i => cases hk

/-- 256 different strings of one byte. -/
def c66_many : List Arr := [.bin none (List.range 257) (List.range 256)]

theorem rising_range' : ∀ n a, Rising (List.range' a n)
  | 0, _ => trivial
  | 1, _ => trivial
  | n + 2, a => by
    have := rising_range' (n + 1) (a + 1)
    exact ⟨by omega, this⟩

theorem c66_many_ty : ∀ a ∈ c66_many, a.HasTy (.bin false) := by
  intro a ha
  simp only [c66_many, List.mem_singleton] at ha
  subst ha
  refine ⟨?_, by decide +kernel, by rw [List.range_eq_range']; exact rising_range' _ _, by decide +kernel⟩
  intro f hf; cases hf

/-- The 256th string gets the index 0, which means null (dictionary.rs:321-337; `curr_dict_index` is a u8, a release build
wraps and a debug build panics).  It needs a `LANCE_DICT_ENCODING_THRESHOLD` above 256. -/
theorem C66_low_cardinality_violated : ¬ C66_low_cardinality_statement := by
  intro h
  have := trip_of (h toyCodec false c66_many toyCodec_ok c66_many_ty (by decide +kernel) (by decide +kernel)) (ranges := [(255, 256)]) (batches := [1])
    (by intro r hr; simp only [List.mem_cons, List.not_mem_nil, or_false] at hr
        rcases hr with rfl; exact ⟨by decide, by decide +kernel⟩) (by decide) trivial
  have e4 : (trip true false (.bin false) c66_many [(255, 256)] [1]).map (fun l => l.map (fun v => v.map Val.str)) ≠
      some ((cuts (wanted (valsOf (.bin false) c66_many) [(255, 256)]) 0 [1]).map (fun v => v.map Val.str)) := by decide +kernel
  rw [this] at e4
  exact e4 rfl

/-- Two dictionaries with nulls in the keys. -/
def c66_dicts : List Arr :=
  [.dict (some [true, false, true]) [1, 7, 0] (.bin none [1, 3, 3, 4] [9, 1, 2, 3]), .dict none [1, 0] (.bin none [0, 2, 5] [5, 6, 7, 1, 2])]

theorem c66_dicts_ty : ∀ a ∈ c66_dicts, a.HasTy (.dict 1 false (.bin false)) := by
  intro a ha
  simp only [c66_dicts, List.mem_cons, List.not_mem_nil, or_false] at ha
  rcases ha with rfl | rfl
  · refine ⟨?_, ⟨?_, by simp, ⟨by decide, by decide, by decide, trivial⟩, by decide⟩, ?_, by decide, by decide, ?_⟩
    · intro f hf; cases hf; rfl
    · intro f hf; cases hf
    · intro k hk
      simp only [List.mem_cons, List.not_mem_nil, or_false] at hk
      rcases hk with rfl | rfl | rfl <;> decide
    · intro i hi k hk
      match i, hi, hk with
      | 0, _, hk => cases hk; decide
      | 1, hi, _ => cases hi
      | 2, _, hk => cases hk; decide
      | _ + 3, _, hk => cases hk
  · refine ⟨?_, ⟨?_, by simp, ⟨by decide, by decide, trivial⟩, by decide⟩, ?_, by decide, by decide, ?_⟩
    · intro f hf; cases hf
    · intro f hf; cases hf
    · intro k hk
      simp only [List.mem_cons, List.not_mem_nil, or_false] at hk
      rcases hk with rfl | rfl <;> decide
    · intro i hi k hk
      match i, hi, hk with
      | 0, _, hk => cases hk; decide
      | 1, _, hk => cases hk; decide
      | _ + 2, _, hk => cases hk

theorem C66_dictionary_page_nonvacuous :
    valsOf (.dict 1 false (.bin false)) c66_dicts = [.bytes [], .null, .bytes [1, 2], .bytes [7, 1, 2], .bytes [5, 6]] ∧
    trip true true (.dict 1 false (.bin false)) c66_dicts [(3, 5), (0, 2), (0, 1)] [1, 2, 2] =
      some [[.bytes [7, 1, 2]], [.bytes [5, 6], .bytes []], [.null, .bytes []]] := by
  refine ⟨rfl, ?_⟩
  rw [trip_of (C66_dictionary_page_partial toyCodec true true 1 false (.bin false) c66_dicts toyCodec_ok (by decide) (Or.inr rfl) c66_dicts_ty
      (Or.inl (by decide)) (by decide))
    (by intro r hr
        simp only [List.mem_cons, List.not_mem_nil, or_false] at hr
        rcases hr with rfl | rfl | rfl <;> exact ⟨by decide, by decide⟩) (by decide) trivial]
  rfl

theorem C66_low_cardinality_nonvacuous :
    trip true true (.bin false) c65_strings [(3, 5), (0, 2), (0, 1), (2, 3)] [1, 2, 2, 1] =
      some [[.null], [.bytes [7, 8, 9], .bytes [1, 2]], [.bytes [], .bytes [1, 2]], [.bytes [3]]] := by
  rw [trip_of (C66_low_cardinality_partial toyCodec true c65_strings toyCodec_ok (c65_strings_ty false) (by decide) (by decide)
      ⟨[[1, 2], [], [3], [7, 8, 9]], by decide, fun s hs => by
        have e : valsOf (.bin false) c65_strings = [.bytes [1, 2], .bytes [], .bytes [3], .null, .bytes [7, 8, 9]] := rfl
        rw [e] at hs
        simpa using hs⟩)
    (by intro r hr
        simp only [List.mem_cons, List.not_mem_nil, or_false] at hr
        rcases hr with rfl | rfl | rfl | rfl <;> exact ⟨by decide, by decide⟩) (by decide) trivial]
  rfl

/-! ### C67: packed structs, and columns that can be written -/

/-- Every packed struct comes back. -/
def C67_packed_page_statement : Prop :=
  ∀ (c : Codec) (lowCard compress : Bool) (ws : List Nat) (arrays : List Arr), c.Ok → ws ≠ [] → (∀ a ∈ arrays, a.HasTy (.packed ws)) →
    0 < (valsOf (.packed ws) arrays).length → RoundTrip c lowCard compress (.packed ws) arrays (fun _ _ => True)

/-- What holds: without nulls, in the structs and in the fields.  All ranges, all batches. -/
theorem C67_packed_page_partial (c : Codec) (lowCard compress : Bool) (ws : List Nat) (arrays : List Arr) (hws : ws ≠ [])
    (h : ∀ a ∈ arrays, a.HasTy (.packed ws)) (hn : ∀ a ∈ arrays, a.nulls = none ∧ ∀ f ∈ a.fields, f.1 = none)
    (hpos : 0 < (valsOf (.packed ws) arrays).length) : RoundTrip c lowCard compress (.packed ws) arrays (fun _ _ => True) := by
  have hh : ∀ a ∈ arrays, a.HasTy (.packed ws) ∧ NoNulls a := fun a ha => ⟨h a ha, hn a ha⟩
  have hlen : (valsOf (.packed ws) arrays).length = (arrays.map Arr.len).sum := by
    unfold valsOf
    rw [(packed_vals ws arrays hh).2]; simp
  rw [hlen] at hpos
  obtain ⟨b, b', e, k', h1, h2, _⟩ := packed_page c [] [] hws hh hpos
  have hce : createEncoder lowCard compress (.packed ws) = .packed := rfl
  refine ⟨b'.buffers, e, by simp only [writePage, h1, hce, h2, Option.map_some], fun file bufs hp ranges batches hr hb _ => ?_⟩
  obtain ⟨x, x', ex, kx, g1, g2, g3⟩ := packed_page c file bufs hws hh hpos
  rw [h1] at g1
  cases g1
  rw [h2] at g2
  cases g2
  obtain ⟨s, s1, s2⟩ := g3 hp
  obtain ⟨d, d1, d2⟩ := s2 ranges hr
  have hrd : readable (.packed ws) = true := rfl
  simp only [readPage, hrd, if_true, s1, Option.bind_some, d1]
  have hl : (wanted (valsOf (.packed ws) arrays) ranges).length = rows ranges := length_wanted _ ranges hr
  exact drains_ok c d (.packed ws) (wanted (valsOf (.packed ws) arrays) ranges) (fun _ _ => True) (fun skip num hn _ => d2 skip num (by rw [hl] at hn; exact hn)) batches 0 (by omega)
    (fun _ _ _ _ => trivial)

/-- A null struct. -/
def c67_null : List Arr := [.packed (some [false, true]) [(none, [1, 2])] 2]

/-- A struct with a null cannot be written: the encoder panics (packed_struct.rs:172-180). -/
theorem C67_packed_page_violated : ¬ C67_packed_page_statement := by
  intro h
  obtain ⟨buffers, e, w, _⟩ := h toyCodec false false [1] c67_null toyCodec_ok (by simp) (by
      intro a ha
      simp only [c67_null, List.mem_singleton] at ha
      subst ha
      refine ⟨?_, rfl, ?_, ?_⟩
      · intro f hf; cases hf; rfl
      · intro i hi
        have : i = 0 := by simp only [List.length_singleton] at hi; omega
        subst this; rfl
      · intro f hf
        simp only [List.mem_singleton] at hf
        subst hf
        intro g hg; cases hg) (by decide)
  have e4 : (writePage toyCodec false false (.packed [1]) c67_null).isSome = false := by decide +kernel
  rw [w] at e4
  cases e4

/-- Two arrays of structs of a 1-byte and a 2-byte field. -/
def c67_structs : List Arr := [.packed none [(none, [1, 2, 3]), (none, [11, 12, 21, 22, 31, 32])] 3, .packed none [(none, [4]), (none, [41, 42])] 1]

theorem C67_packed_page_nonvacuous :
    trip false false (.packed [1, 2]) c67_structs [(3, 4), (0, 2)] [2, 1] =
      some [[.list [.bytes [4], .bytes [41, 42]], .list [.bytes [1], .bytes [11, 12]]], [.list [.bytes [2], .bytes [21, 22]]]] := by
  rw [trip_of (C67_packed_page_partial toyCodec false false [1, 2] c67_structs (by simp) (by
      intro a ha
      simp only [c67_structs, List.mem_cons, List.not_mem_nil, or_false] at ha
      rcases ha with rfl | rfl
      all_goals
        refine ⟨(fun f hf => by cases hf), rfl, ?_, ?_⟩
        · intro i hi
          match i, hi with
          | 0, _ => rfl
          | 1, _ => rfl
          | i + 2, hi => simp only [List.length_cons, List.length_nil] at hi; omega
        · intro f hf
          simp only [List.mem_cons, List.not_mem_nil, or_false] at hf
          rcases hf with rfl | rfl <;> (intro g hg; cases hg)) (by
      intro a ha
      simp only [c67_structs, List.mem_cons, List.not_mem_nil, or_false] at ha
      rcases ha with rfl | rfl
      all_goals
        refine ⟨rfl, fun f hf => ?_⟩
        simp only [Arr.fields, List.mem_cons, List.not_mem_nil, or_false] at hf
        rcases hf with rfl | rfl <;> rfl) (by decide))
    (by intro r hr
        simp only [List.mem_cons, List.not_mem_nil, or_false] at hr
        rcases hr with rfl | rfl <;> exact ⟨by decide, by decide⟩) (by decide) trivial]
  rfl

/-- What can be written can be read. -/
def C67_written_readable_statement : Prop :=
  ∀ (c : Codec) (lowCard compress : Bool) (t : Ty) (arrays : List Arr) (buffers : List (List Nat)) (e : Enc), c.Ok →
    (∀ a ∈ arrays, a.HasTy t) → writePage c lowCard compress t arrays = some (buffers, e) →
    ∀ file bufs, Placed file bufs buffers → ∀ n, n = (valsOf t arrays).length → 0 < n → (readPage c file bufs e t [(0, n)] [n]).isSome = true

/-- A list of fixed size of strings. -/
def c67_fsl : List Arr := [.fsl none (.bin none [0, 1, 2] [8, 9]) 1]

/-- A column of fixed size lists of strings is written without complaint, and every read ends in `todo!()`
(decoder.rs:906-917). -/
theorem C67_written_readable_violated : ¬ C67_written_readable_statement := by
  intro h
  have hty : ∀ a ∈ c67_fsl, a.HasTy (.fsl (.bin false) 2) := by
    intro a ha
    simp only [c67_fsl, List.mem_singleton] at ha
    subst ha
    refine ⟨?_, by decide, rfl, ?_, by simp, ⟨by decide, by decide, trivial⟩, by decide⟩ <;> (intro f hf; cases hf)
  cases hw : writePage toyCodec false false (.fsl (.bin false) 2) c67_fsl with
  | none =>
    have : (writePage toyCodec false false (.fsl (.bin false) 2) c67_fsl).isSome = true := by decide +kernel
    rw [hw] at this
    cases this
  | some x =>
    have := h toyCodec false false _ c67_fsl x.1 x.2 toyCodec_ok hty hw _ _ (layout_placed0 x.1) 1 rfl (by decide)
    have e : readable (.fsl (.bin false) 2) = false := rfl
    simp [readPage, e] at this

/-- What holds: a whole page of a type that is flat, a string, or a dictionary of at most as many items as fit in the keys, or
a packed struct without nulls, is read whenever it can be written. -/
theorem C67_written_readable_partial (c : Codec) (lowCard compress : Bool) (t : Ty) (arrays : List Arr) (hc : c.Ok)
    (h : ∀ a ∈ arrays, a.HasTy t) (hsz : strBytes arrays < 2 ^ 63) (hszd : strBytes (arrays.map Arr.values) < 2 ^ 63)
    (ht : t.flat = true ∨ (∃ wide, t = .bin wide ∧ (lowCard = false ∨ wide = true)) ∨
      (∃ w signed vt, t = .dict w signed vt ∧ 0 < w ∧ (vt.flat = true ∨ vt = .bin false) ∧
        (arrays.map (fun a => a.values.len)).sum ≤ maxIndexVal w signed) ∨
      (∃ ws, t = .packed ws ∧ ws ≠ [] ∧ ∀ a ∈ arrays, a.nulls = none ∧ ∀ f ∈ a.fields, f.1 = none)) :
    0 < (valsOf t arrays).length → ∃ buffers e, writePage c lowCard compress t arrays = some (buffers, e) ∧
      ∀ file bufs, Placed file bufs buffers →
        readPage c file bufs e t [(0, (valsOf t arrays).length)] [(valsOf t arrays).length] = some [valsOf t arrays] := by
  intro hpos
  have hall : RoundTrip c lowCard compress t arrays (fun ranges batches => (∀ r ∈ ranges.tail, r.1 ≠ 0) ∧ FitsAll ranges 0 batches) := by
    rcases ht with ht | ⟨wide, rfl, hl⟩ | ⟨w, signed, vt, rfl, hw, hvt, hfit⟩ | ⟨ws, rfl, hws, hn⟩
    · obtain ⟨x, y, h1, h2⟩ := C64_flat_page_partial c lowCard compress t arrays hc ht h
      exact ⟨x, y, h1, fun f b p r bs a1 a2 a3 => h2 f b p r bs a1 a2 a3.2⟩
    · obtain ⟨x, y, h1, h2⟩ := C65_string_page_partial c lowCard compress wide arrays hc hl h hpos hsz
      exact ⟨x, y, h1, fun f b p r bs a1 a2 a3 => h2 f b p r bs a1 a2 a3.1⟩
    · obtain ⟨x, y, h1, h2⟩ := C66_dictionary_page_partial c lowCard compress w signed vt arrays hc hw hvt h (Or.inl hfit) hszd
      exact ⟨x, y, h1, fun f b p r bs a1 a2 _ => h2 f b p r bs a1 a2 trivial⟩
    · obtain ⟨x, y, h1, h2⟩ := C67_packed_page_partial c lowCard compress ws arrays hws h hn hpos
      exact ⟨x, y, h1, fun f b p r bs a1 a2 _ => h2 f b p r bs a1 a2 trivial⟩
  obtain ⟨x, y, h1, h2⟩ := hall
  refine ⟨x, y, h1, fun file bufs hp => ?_⟩
  have hrows : rows [(0, (valsOf t arrays).length)] = (valsOf t arrays).length := by simp [rows]
  rw [h2 file bufs hp _ _ (fun r hr => by simp only [List.mem_singleton] at hr; subst hr; exact ⟨hpos, Nat.le_refl _⟩)
    (by rw [hrows]; simp) ⟨by simp, fitsAll_one _ _ 0 (by simp)⟩]
  simp [cuts, wanted, slice]

end Verif.Phys
